import Verif.PreExec.Sigs
set_option linter.unusedVariables false
/-!
# C19: concrete runs

Four replicas, f = 1; replica 0 is the primary; client 7, request 9.  The hash function is the identity (injective).
-/
namespace Verif.PreExec.Examples
open Verif.Bytes Verif.PreExec

def E : Env :=
  { hash := fun b => b
    sign := fun b => 200 :: b }

def data : Bytes := [1, 2, 3, 4, 5, 0, 0, 0, 0, 0, 0, 8]
/-- the same with block id 0 -/
def data0 : Bytes := [1, 2, 3, 4, 0, 0, 0, 0, 0, 0, 0, 0]
def pbuf : Bytes := data ++ List.replicate 20 77
def hOf (d : Bytes) (res : Nat) : Bytes := resultHash E d res 7 9
def rep (r : Nat) (h : Bytes) (res : Nat) : Ev := .reply ⟨r, .good, h, res, [r.toUInt8]⟩
def s0 : St := St.new 4 2 0 7 9

def goodB (evs : List Ev) : Bool := evs.all (fun e => match e with
  | .primary buf len res => len ≤ buf.length && 20 ≤ buf.length && res != UNKNOWN && 8 < len
  | _ => true)

theorem goodB_ok {evs : List Ev} (h : goodB evs = true) : GoodPrimary evs := by
  intro buf len res hm
  have := List.all_eq_true.1 h _ hm
  simp only [Bool.and_eq_true, decide_eq_true_eq, bne_iff_ne, ne_eq] at this
  exact ⟨this.1.1.1, this.1.1.2, this.1.2, this.2⟩

/-- run all events, also past the decision -/
def last (s : St) : List Ev → Option (St × Outcome)
  | [] => none
  | [e] => some (s.step E e)
  | e :: es => match s.step E e with
    | (s', .cont) => last s' es
    | _ => none

/-- nobody reports the all-zero hash in these runs -/
theorem no_zeros {evs : List Ev} (h : evs.all (fun e => match e with
    | .reply m => m.hash != zeros
    | .primary buf len res => hOf (buf.take len) res != zeros
    | _ => true) = true) : ¬ SaidBy E 0 7 9 evs 2 zeros := by
  rintro ⟨l, -, h2, h3⟩
  cases l with
  | nil => simp at h2
  | cons r _ =>
    rcases h3 r List.mem_cons_self with ⟨m, m1, _, _, m4⟩ | ⟨_, buf, len, res, m1, m2⟩
    · have := List.all_eq_true.1 h _ m1
      simp [m4] at this
    · have := List.all_eq_true.1 h _ m1
      simp [hOf, ← m2] at this

/-! ## Agreement -/

def good : List Ev := [.launch, rep 1 (hOf data 0) 0, .primary pbuf 12 0]

example : (last s0 good).map (fun p => (p.2, p.1.delivered, p.1.agreed, (p.1.sigs.getD []).map (·.sender))) =
    some (.complete, some data, 0, [0, 1]) := by decide +kernel

/-- the hypotheses of `complete_sound_partial` hold of this run -/
example : GoodPrimary good ∧ ((s0.run E good.dropLast).map (fun s => (s.step E (.primary pbuf 12 0)).2) = some .complete) ∧
    ¬ SaidBy E 0 7 9 good 2 zeros :=
  ⟨goodB_ok (by decide +kernel), by decide +kernel, no_zeros (by decide +kernel)⟩

/-- the primary's block id was rejected by the others: its result is changed to theirs -/
def blockId : List Ev := [rep 1 (hOf data0 0) 0, .launch, rep 2 (hOf data0 0) 0, .primary pbuf 12 0]

example : (last s0 blockId).map (fun p => (p.2, p.1.delivered, p.1.agreed, (p.1.sigs.getD []).map (·.sender))) =
    some (.complete, some data0, 0, [0, 1, 2]) := by decide +kernel

/-- all four differ: cancelled at the last reply, by a run in which each replica reports one hash -/
def allDiffer : List Ev := [.launch, .primary pbuf 12 0, rep 1 [1] 0, rep 2 [2] 0, rep 3 [3] 0]

example : (last s0 allDiffer).map (·.2) = some .cancel ∧ (s0.run E allDiffer.dropLast).isSome = true := by decide +kernel

example : OneHash E 0 7 9 allDiffer := by
  have key : ∀ r h, Said E 0 7 9 allDiffer r h → h = (match r with
      | 1 => [1]
      | 2 => [2]
      | 3 => [3]
      | _ => hOf data 0) := by
    intro r h hs
    rcases hs with ⟨m, m1, m2, rfl, rfl⟩ | ⟨rfl, buf, len, res, m1, rfl⟩
    · simp only [allDiffer, rep, List.mem_cons, List.not_mem_nil, or_false, reduceCtorEq, false_or, Ev.reply.injEq] at m1
      rcases m1 with rfl | rfl | rfl <;> rfl
    · simp only [allDiffer, rep, List.mem_cons, List.not_mem_nil, or_false, reduceCtorEq, false_or, Ev.primary.injEq] at m1
      obtain ⟨rfl, rfl, rfl⟩ := m1
      rfl
  intro r h h' h1 h2
  rw [key r h h1, key r h' h2]

/-- f+1 replicas agree with each other, but not with the primary: cancelled -/
def disagree : List Ev := [.launch, rep 1 [1] 0, rep 2 [1] 0, .primary pbuf 12 0]

example : (last s0 disagree).map (·.2) = some .cancel := by decide +kernel

/-! ## Findings -/

/-- **Finding.** The primary's execution succeeded and f+1 replicas report the same error: pre-execution completes, with a result
pointer that was overwritten by the error code, and with the primary's own hash, for which there is a single signature. -/
theorem error_consensus_wild_pointer : ∃ evs, GoodPrimary evs ∧
    (last s0 evs).map (fun p => (p.2, p.1.ptr, p.1.delivered, p.1.len, (p.1.sigs.getD []).length)) =
      some (.complete, .wild, none, 14, 1) :=
  ⟨[.launch, .primary pbuf 12 0, rep 1 (hOf [] 5) 5, rep 2 (hOf [] 5) 5], goodB_ok (by decide +kernel), by decide +kernel⟩

/-- **Finding.** One faulty replica (1) that reports three hashes makes the primary cancel before replicas 2 and 3 have answered,
although their answers would agree with the primary. -/
theorem duplicate_hashes_cancel : ∃ evs, GoodPrimary evs ∧ (∀ r h, Said E 0 7 9 evs r h → r = 0 ∨ r = 1) ∧
    (last s0 evs).map (·.2) = some .cancel := by
  refine ⟨[.launch, .primary pbuf 12 0, rep 1 [1] 0, rep 1 [2] 0, rep 1 [3] 0], goodB_ok (by decide +kernel), ?_, by decide +kernel⟩
  intro r h hs
  rcases hs with ⟨m, m1, m2, rfl, rfl⟩ | ⟨rfl, _⟩
  · simp only [rep, List.mem_cons, List.not_mem_nil, or_false, reduceCtorEq, false_or, Ev.reply.injEq] at m1
    rcases m1 with rfl | rfl | rfl <;> exact Or.inr rfl
  · exact Or.inl rfl

/-- **Finding.** With two hashes from one faulty replica the count jumps over the number of replicas: after all replicas have
answered with different hashes the primary waits on. -/
theorem duplicate_hashes_never_cancel : ∃ evs, GoodPrimary evs ∧ (∀ r, r < 4 → ∃ h, Said E 0 7 9 evs r h) ∧
    (last s0 evs).map (fun p => (p.2, p.1.received)) = some (.cont, 5) := by
  refine ⟨[.launch, rep 1 [1] 0, rep 1 [4] 0, rep 2 [2] 0, rep 3 [3] 0, .primary pbuf 12 0], goodB_ok (by decide +kernel), ?_,
    by decide +kernel⟩
  intro r hr
  have : r = 0 ∨ r = 1 ∨ r = 2 ∨ r = 3 := by omega
  rcases this with rfl | rfl | rfl | rfl
  · exact ⟨_, Or.inr ⟨rfl, pbuf, 12, 0, by simp, rfl⟩⟩
  · exact ⟨[1], Or.inl ⟨⟨1, .good, [1], 0, [1]⟩, by simp [rep], by simp, rfl, rfl⟩⟩
  · exact ⟨[2], Or.inl ⟨⟨2, .good, [2], 0, [2]⟩, by simp [rep], by simp, rfl, rfl⟩⟩
  · exact ⟨[3], Or.inl ⟨⟨3, .good, [3], 0, [3]⟩, by simp [rep], by simp, rfl, rfl⟩⟩

/-- **Finding.** The agreed result code is taken from the record of the replica with the lowest id and is not checked against the
hash.  Primary 3, faulty replica 0: it reports the right hash with result code 5, and the request completes as an error although
every honest replica succeeded. -/
theorem result_code_flipped : (last (St.new 4 2 3 7 9) [.launch, rep 0 (hOf data 0) 5, .primary pbuf 12 0]).map
    (fun p => (p.2, p.1.pres, p.1.agreed)) = some (.complete, 0, 5) := by decide +kernel

/-- **Finding.** When the primary's execution fails, the fourteen bytes passed on are not result, client and request number but
the request number and six bytes of whatever was in the buffer behind it (the pointer is not set back). -/
theorem error_record_shifted : (last s0 [.launch, rep 1 (hOf [] 5) 5, .primary pbuf 12 5]).map
    (fun p => (p.2, p.1.delivered)) = some (.complete, some (leEncode 8 9 ++ List.replicate 6 77)) := by decide +kernel

/-- **Finding.** An application that reports UNKNOWN makes the primary write through a null pointer. -/
theorem unknown_result_aborts : (last s0 [.launch, .primary pbuf 12 UNKNOWN]).map (·.2) = some .abort := by decide +kernel

/-! ## Signatures -/

def verify (id : Nat) (msg sig : Bytes) : Bool := sig == (if id = 3 then 200 else id.toUInt8) :: msg

def goodSigs : List Sig := [⟨0 :: hOf data 0, 0, 0⟩, ⟨2 :: hOf data 0, 2, 0⟩]

example : validateSigs E verify 1 data 7 9 (serSigs goodSigs 2) = .ok none := by decide +kernel
/-- another result, another client, one signature less: rejected -/
example : validateSigs E verify 1 data0 7 9 (serSigs goodSigs 2) = .ok (some ()) := by decide +kernel
example : validateSigs E verify 1 data 6 9 (serSigs goodSigs 2) = .ok (some ()) := by decide +kernel
example : validateSigs E verify 1 data 7 9 (serSigs goodSigs 1) = .ok (some ()) := by decide +kernel
/-- and no signature at all: accepted -/
example : acceptsResult E verify 1 data0 7 9 [] = true := by decide +kernel

/-- **Finding.** The signature of a FAILED reply is not checked.  A faulty replica's worthless signature goes into the message
of an honest primary, and the other replicas reject that message. -/
theorem bad_failed_signature_blames_primary :
    ((last (St.new 4 2 3 7 9) [.launch, .reply ⟨1, .failed, hOf [] 5, 5, []⟩, .primary pbuf 12 5]).map (fun p =>
      (p.2, (p.1.sigs.map (fun l => validateSigs E verify 1 (p.1.delivered.getD []) 7 9 (serSigs l 2)))))) =
    some (.complete, some (.ok (some ()))) := by decide +kernel

/-- with a valid signature the same run is accepted -/
example :
    ((last (St.new 4 2 3 7 9) [.launch, .reply ⟨1, .failed, hOf [] 5, 5, 1 :: hOf [] 5⟩, .primary pbuf 12 5]).map (fun p =>
      (p.2, (p.1.sigs.map (fun l => validateSigs E verify 1 (p.1.delivered.getD []) 7 9 (serSigs l 2)))))) =
    some (.complete, some (.ok none)) := by decide +kernel

end Verif.PreExec.Examples
