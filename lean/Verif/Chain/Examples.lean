import Verif.Chain.Theorems
set_option linter.unusedVariables false
set_option linter.unusedSimpArgs false
/-!
# C26: concrete runs, and where the claims stop holding
-/
namespace Verif.Chain
open Verif.Bytes Verif.Kvbc

def pad (s : Bytes) : Bytes := (s ++ List.replicate 32 0).take 32

/-- a toy digest: 31 zero bytes and a checksum -/
def sum32 (s : Bytes) : Bytes := List.replicate 31 0 ++ [s.foldl (fun a b => a * 3 + b) 7]

def exHashes : Hashes where
  m := { h := pad, tree := fun m => pad ((m 1).getD [] ++ (m 2).getD []) }
  d := sum32

theorem pad_length (s : Bytes) : (pad s).length = 32 := by
  rw [pad, List.length_take, List.length_append, List.length_replicate]; omega

theorem exHashes_len : exHashes.Len32 :=
  ⟨pad_length, fun _ => pad_length _, fun _ => by simp [exHashes, sum32]⟩

/-- categories "i", "m", "v" and the internal one -/
def exDb : Db := fun id =>
  if id = [105] then some (.immutable (fun _ => none))
  else if id = [109] then some (.merkle MState.empty)
  else if id = [118] then some (.versioned VState.empty)
  else if id = internalCat then some (.versioned VState.empty)
  else none

theorem exDb_empty : EmptyDb exDb := by
  intro id s h
  simp only [exDb] at h
  split at h
  · cases h; exact Or.inr (Or.inr rfl)
  · split at h
    · cases h; exact Or.inl rfl
    · split at h
      · cases h; exact Or.inr (Or.inl rfl)
      · split at h
        · cases h; exact Or.inr (Or.inl rfl)
        · cases h

/-- puts in all categories -/
def exU1 : Updates :=
  [([105], .immutable [([1], ([10], [[7]]))] true),
   ([109], .merkle { kv := [([1], [11]), ([2], [12])], deletes := [[3]] }),
   ([118], .versioned { kv := [([1], ⟨[13], false⟩)], deletes := [[2]] } true)]

/-- puts and deletes in the block-Merkle and versioned categories -/
def exU2 (x : UInt8) : Updates :=
  [([109], .merkle { kv := [([1], [x])], deletes := [[2]] }),
   ([118], .versioned { kv := [([2], ⟨[x], true⟩)], deletes := [[1]] } false)]

def exEvs : List Ev :=
  [.add exU1, .add (exU2 21), .prune, .restart, .add (exU2 22), .deleteLast, .failAdd ⟨[], [], [], [], []⟩, .add (exU2 23)]

theorem any_some {α : Type} {o : Option α} (P : α → Bool) (h : o.any P = true) : ∃ c, o = some c ∧ P c = true := by
  cases o with
  | none => cases h
  | some c => exact ⟨c, rfl, h⟩

theorem exRun : ∃ c, (Chain.new exDb).run exHashes exEvs = some c ∧ c.genesis = 2 ∧ c.last = 3 ∧
    (c.getRaw exHashes 2).map (fun r => r.updates.map (·.1)) = some [internalCat, [109], [118]] ∧
    c.blockDigest exHashes 2 = (c.getRaw exHashes 3).map (·.parent) := by
  obtain ⟨c, h1, h2⟩ := any_some (o := (Chain.new exDb).run exHashes exEvs) (fun c => decide (c.genesis = 2 ∧ c.last = 3 ∧
    (c.getRaw exHashes 2).map (fun r => r.updates.map (·.1)) = some [internalCat, [109], [118]] ∧
    c.blockDigest exHashes 2 = (c.getRaw exHashes 3).map (·.parent))) (by decide +kernel)
  exact ⟨c, h1, of_decide_eq_true h2⟩

theorem exU1_good : UGood exHashes.m exU1 := by
  refine ⟨by unfold Sorted exU1; decide, ?_, ?_⟩
  · intro x hx
    simp only [exU1, List.mem_cons, List.not_mem_nil, or_false] at hx
    rcases hx with rfl | rfl | rfl
    · show Sorted _; unfold Sorted; decide
    · refine ⟨by unfold Sorted; decide, by unfold Asc; decide, by decide, ?_⟩
      intro k k' h h' e
      simp at h h'
      rcases h with (h | h) | h <;> rcases h' with (h' | h') | h' <;> subst h <;> subst h' <;>
        first | rfl | (revert e; decide)
    · exact ⟨by unfold Sorted; decide, by unfold Asc; decide, by decide⟩
  · intro i r h
    simp [exU1, internalCat] at h

theorem exU2_good (x : UInt8) : UGood exHashes.m (exU2 x) := by
  refine ⟨?_, ?_, ?_⟩
  · rw [Sorted, exU2, List.pairwise_pair]
    show keyLt [109] [118] = true
    decide
  · intro y hy
    simp only [exU2, List.mem_cons, List.not_mem_nil, or_false] at hy
    rcases hy with rfl | rfl
    · refine ⟨List.pairwise_singleton _ _, List.pairwise_singleton _ _, by simp, ?_⟩
      intro k k' h h' e
      simp at h h'
      rcases h with h | h <;> rcases h' with h' | h' <;> subst h <;> subst h' <;>
        first | rfl | (revert e; decide)
    · exact ⟨List.pairwise_singleton _ _, List.pairwise_singleton _ _, by simp⟩
  · intro i r h
    simp [exU2, internalCat] at h

theorem exU2_fresh (db : Db) (x : UInt8) : UFresh db (exU2 x) := by
  intro y hy s hs
  simp only [exU2, List.mem_cons, List.not_mem_nil, or_false] at hy
  rcases hy with rfl | rfl <;> cases s <;> trivial

theorem exU1_fresh : UFresh exDb exU1 := by
  intro y hy s hs
  simp only [exU1, List.mem_cons, List.not_mem_nil, or_false] at hy
  rcases hy with rfl | rfl | rfl
  · cases hs
    intro x hx; rfl
  · cases s <;> trivial
  · cases s <;> trivial

/-- the run above meets the hypotheses of the theorems -/
theorem exEvs_good : GoodRun exHashes (Chain.new exDb) exEvs := by
  have a2 : ∀ (c : Chain) (x : UInt8) u, Ev.add (exU2 x) = Ev.add u → UGood exHashes.m u ∧ UFresh c.db u := by
    intro c x u e
    cases e
    exact ⟨exU2_good x, exU2_fresh _ x⟩
  refine ⟨?_, fun c _ => ⟨a2 c 21, fun c _ => ⟨(by intro u h; cases h), fun c _ => ⟨(by intro u h; cases h), fun c _ =>
    ⟨a2 c 22, fun c _ => ⟨(by intro u h; cases h), fun c _ => ⟨(by intro u h; cases h), fun c _ => ⟨a2 c 23, fun _ _ => trivial⟩⟩⟩⟩⟩⟩⟩⟩
  intro u e
  cases e
  exact ⟨exU1_good, exU1_fresh⟩

/-- a block that puts and deletes the same key of a versioned category -/
def exBad : Updates := [([118], .versioned { kv := [([1], ⟨[13], false⟩)], deletes := [[1]] } false)]

/-- **Finding.** A block that both puts and deletes a key of a versioned category does not read back as it was added (the put
is lost).  The next block names the digest of the block as it was added, if the replica has not restarted in between, and
the digest of the block as it reads back, if it has: replicas with the same history store different blocks, and a replica
that fetches the blocks finds a parent digest that does not match. -/
theorem put_and_delete_breaks_the_chain :
    ∃ c c' : Chain, (Chain.new exDb).run exHashes [.add exBad, .add (exU2 1)] = some c ∧
      (Chain.new exDb).run exHashes [.add exBad, .restart, .add (exU2 1)] = some c' ∧
      c.blockDigest exHashes 1 = c'.blockDigest exHashes 1 ∧
      c.blockDigest exHashes 2 ≠ c'.blockDigest exHashes 2 ∧
      c.blockDigest exHashes 1 ≠ (c.getRaw exHashes 2).map (·.parent) ∧
      c'.blockDigest exHashes 1 = (c'.getRaw exHashes 2).map (·.parent) := by
  have key : ((Chain.new exDb).run exHashes [.add exBad, .add (exU2 1)]).any (fun c =>
      ((Chain.new exDb).run exHashes [.add exBad, .restart, .add (exU2 1)]).any (fun c' => decide (
        c.blockDigest exHashes 1 = c'.blockDigest exHashes 1 ∧
        c.blockDigest exHashes 2 ≠ c'.blockDigest exHashes 2 ∧
        c.blockDigest exHashes 1 ≠ (c.getRaw exHashes 2).map (·.parent) ∧
        c'.blockDigest exHashes 1 = (c'.getRaw exHashes 2).map (·.parent)))) = true := by decide +kernel
  obtain ⟨c, h1, h2⟩ := any_some _ key
  obtain ⟨c', h3, h4⟩ := any_some _ h2
  exact ⟨c, c', h1, h3, of_decide_eq_true h4⟩

/-- the same in a block-Merkle category -/
def exBadM : Updates := [([109], .merkle { kv := [([1], [13])], deletes := [[1]] })]

theorem put_and_delete_merkle_aborts :
    ∃ c : Chain, (Chain.new exDb).run exHashes [.add exBadM] = some c ∧ (c.getRaw exHashes 1).isNone = true ∧
      (c.step exHashes (.add (exU2 1))).isSome = true ∧
      ((c.step exHashes .restart).bind (fun c => c.step exHashes (.add (exU2 1)))).isNone = true := by
  obtain ⟨c, h1, h2⟩ := any_some (o := (Chain.new exDb).run exHashes [.add exBadM]) (fun c => decide (
    (c.getRaw exHashes 1).isNone = true ∧ (c.step exHashes (.add (exU2 1))).isSome = true ∧
    ((c.step exHashes .restart).bind (fun c => c.step exHashes (.add (exU2 1)))).isNone = true)) (by decide +kernel)
  exact ⟨c, h1, of_decide_eq_true h2⟩

/-- **Finding.** Putting an immutable key again makes the earlier block unreadable: `getRawBlock` fails an assertion. -/
theorem immutable_rewrite_loses_raw_block :
    ∃ c : Chain, (Chain.new exDb).run exHashes [.add exU1, .add [([105], .immutable [([1], ([20], []))] false)]] = some c ∧
      c.genesis = 1 ∧ (c.getRaw exHashes 1).isNone = true := by
  obtain ⟨c, h1, h2⟩ := any_some (o := (Chain.new exDb).run exHashes
    [.add exU1, .add [([105], .immutable [([1], ([20], []))] false)]]) (fun c => decide (
    c.genesis = 1 ∧ (c.getRaw exHashes 1).isNone = true)) (by decide +kernel)
  exact ⟨c, h1, of_decide_eq_true h2⟩

end Verif.Chain
