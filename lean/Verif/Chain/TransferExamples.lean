import Verif.Chain.TransferProps
import Verif.Chain.Examples
set_option linter.unusedVariables false
set_option linter.unusedSimpArgs false
/-!
# C27: a concrete transfer
-/
namespace Verif.Chain
open Verif.Bytes Verif.Kvbc

/-- the source: three blocks, pruning and a restart in between, then a fourth block -/
def exSrc : List Ev :=
  [.add exU1, .add (exU2 21), .add (exU2 22), .prune, .restart, .add (exU2 23)]

theorem exSrc_noDelete : NoDelete exSrc := by
  intro e he h
  subst h
  simp [exSrc] at he

theorem exSrc_good : GoodRun exHashes (Chain.new exDb) exSrc := by
  have a2 : ∀ (c : Chain) (x : UInt8) u, Ev.add (exU2 x) = Ev.add u → UGood exHashes.m u ∧ UFresh c.db u := by
    intro c x u e
    cases e
    exact ⟨exU2_good x, exU2_fresh _ x⟩
  refine ⟨?_, fun c _ => ⟨a2 c 21, fun c _ => ⟨a2 c 22, fun c _ => ⟨(by intro u h; cases h), fun c _ =>
    ⟨(by intro u h; cases h), fun c _ => ⟨a2 c 23, fun _ _ => trivial⟩⟩⟩⟩⟩⟩
  intro u e
  cases e
  exact ⟨exU1_good, exU1_fresh⟩

/-- the raw blocks of the source -/
def exRaws : List Raw := hist exHashes (Chain.new exDb) [] exSrc

/-- raw blocks received by the destination, in the given order -/
def receiveAll (c : Chain) : List Nat → Option Chain
  | [] => some c
  | b :: bs => (exRaws[b - 1]?).bind (fun r => (c.addRaw b r).bind (fun c' => receiveAll c' bs))

/-- the destination starts empty and receives the blocks in the order 3, 1, 4, 2 -/
theorem exTransfer : exRaws.length = 4 ∧ ∃ c : Chain, receiveAll (Chain.new exDb) [3, 1, 4, 2] = some c ∧
    c.last = 0 ∧ ∃ c' : Chain, link exHashes 4 c = some c' ∧ c'.last = 4 ∧ c'.genesis = 2 ∧
      ∃ s : Chain, (Chain.new exDb).run exHashes exSrc = some s ∧ s.last = 4 ∧ s.genesis = 2 ∧
      (∀ i ∈ [1, 2, 3, 4], c'.blockDigest exHashes i = s.blockDigest exHashes i) := by
  have key : exRaws.length = 4 ∧ (receiveAll (Chain.new exDb) [3, 1, 4, 2]).any (fun c => (decide (c.last = 0)) &&
      (link exHashes 4 c).any (fun c' => decide (c'.last = 4 ∧ c'.genesis = 2) &&
        ((Chain.new exDb).run exHashes exSrc).any (fun s => decide (s.last = 4) && decide (s.genesis = 2) &&
          [1, 2, 3, 4].all (fun i => c'.blockDigest exHashes i == s.blockDigest exHashes i)))) = true := by decide +kernel
  obtain ⟨k0, key⟩ := key
  obtain ⟨c, h1, h2⟩ := any_some _ key
  rw [Bool.and_eq_true] at h2
  obtain ⟨c', h3, h4⟩ := any_some _ h2.2
  rw [Bool.and_eq_true] at h4
  obtain ⟨s, h5, h6⟩ := any_some _ h4.2
  have e1 := of_decide_eq_true h2.1
  have e2 := of_decide_eq_true h4.1
  rw [Bool.and_eq_true, Bool.and_eq_true] at h6
  exact ⟨k0, c, h1, e1, c', h3, e2.1, e2.2, s, h5, of_decide_eq_true h6.1.1, of_decide_eq_true h6.1.2,
    fun i hi => eq_of_beq (List.all_eq_true.1 h6.2 i hi)⟩

theorem receiveAll_steps : ∀ (bs : List Nat) (c c' : Chain), receiveAll c bs = some c' → c.last = 0 → (∀ b ∈ bs, 1 ≤ b) →
    TSteps exHashes (fun b r => exRaws[b - 1]? = some r) (Chain.new exDb) c →
    TSteps exHashes (fun b r => exRaws[b - 1]? = some r) (Chain.new exDb) c' ∧ c'.last = 0 := by
  intro bs
  induction bs with
  | nil => intro c c' h hl _ ht; cases h; exact ⟨ht, hl⟩
  | cons b bs ih =>
    intro c c' h hl hb ht
    rw [receiveAll, Option.bind_eq_some_iff] at h
    obtain ⟨r, h1, h⟩ := h
    rw [Option.bind_eq_some_iff] at h
    obtain ⟨c1, h2, h3⟩ := h
    have hl1 : c1.last = 0 := by
      rw [Chain.addRaw] at h2
      split at h2
      · cases h2
      · cases h2; exact hl
    exact ih c1 c' h3 hl1 (fun b hb' => hb b (List.mem_cons_of_mem _ hb')) (.step ht (.receive h1 h2))

/-- the hypotheses of `transfer_complete` hold of this transfer: the destination ends where the source was after block 4 -/
theorem exTransfer_right : ∃ c c' : Chain, receiveAll (Chain.new exDb) [3, 1, 4, 2] = some c ∧
    link exHashes 4 { c with cache := none } = some c' ∧ RightAfter exHashes exDb exSrc 4 c' := by
  have key : (receiveAll (Chain.new exDb) [3, 1, 4, 2]).any (fun c => [1, 2, 3, 4].all (fun i => (c.st i).isSome)) = true := by
    decide +kernel
  obtain ⟨c, h1, h2⟩ := any_some _ key
  have h2 : ∀ i ∈ [1, 2, 3, 4], (c.st i).isSome = true := List.all_eq_true.1 h2
  obtain ⟨ht, hl⟩ := receiveAll_steps _ _ c h1 rfl (by decide) .refl
  obtain ⟨_, _, _, _, _, _, _, _, s, hs, _⟩ := exTransfer
  obtain ⟨c', k1, _, k2⟩ := transfer_complete exDb_empty exSrc_good exSrc_noDelete hs
    ⟨[], exSrc, Chain.new exDb, rfl, rfl, rfl, rfl, rfl, rfl⟩ (fun i r h => (by cases h)) (fun b r _ h => (by cases h))
    ht (n := 4) (by omega) (fun i hi hi' hn => by
      have := h2 i (by simp only [List.mem_cons, List.not_mem_nil, or_false]; omega)
      rw [hn] at this; cases this)
  have k1 := k1
  have e4 : 4 - c.last = 4 := by rw [hl]
  rw [e4] at k1
  exact ⟨c, c', h1, k1, k2⟩

end Verif.Chain
