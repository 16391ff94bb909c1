import Verif.Consensus.Crash
import Verif.Consensus.C01Examples
/-!
C01 with crashes: a run that meets the hypotheses of the theorems of `Crash`, and a run of the code's behaviour
in which one crash and one faulty replica break agreement (finding, see DESIGN.md).
-/
namespace Concord.Protocol
open Concord.VC Concord.VC.Spec

/-- do the actions keep the views of the replicas that start again? -/
def noRegressB (keep : Bool) (σ : State) : RAction → Bool
  | .restart i => decide ((reloaded keep σ.installs i (σ.rep i)).view = (σ.rep i).view)
  | _ => true

theorem noRegressB_sound {keep : Bool} {σ : State} {a : RAction} (h : noRegressB keep σ a = true) :
    NoRegress keep σ a := by
  cases a with
  | restart i => simpa [noRegressB, NoRegress] using h
  | act _ => trivial
  | refast _ _ _ => trivial

def runSafe (P : Params) (keep : Bool) : State → List RAction → Option State
  | σ, [] => some σ
  | σ, a :: as =>
    if noRegressB keep σ a then
      match stepR? P keep σ a with | some σ' => runSafe P keep σ' as | none => none
    else none

theorem ReachableSafe.run {P : Params} {keep : Bool} : ∀ {as : List RAction} {σ σ' : State}, ReachableSafe P keep σ →
    runSafe P keep σ as = some σ' → ReachableSafe P keep σ'
  | [], σ, σ', h, e => by simp only [runSafe, Option.some.injEq] at e; exact e ▸ h
  | a :: as, σ, σ', h, e => by
    simp only [runSafe] at e
    split at e
    · next hn =>
      split at e
      · next τ hs => exact ReachableSafe.run (.step a h (noRegressB_sound hn) hs) e
      · cases e
    · cases e

/-- `goodRun2` with crashes: replica 1 crashes with a prepared batch before it signs the commit, replica 2 on the
way to view 1, replica 0 right after it entered view 1. -/
def goodCrash : List RAction :=
  [ .act (.propose 0 1 5 true true), .act (.accept 1 1 5 true true), .act (.accept 2 1 5 true true),
    .act (.sendPrepare 0 1), .act (.sendPrepare 1 1), .act (.sendPrepare 2 1),
    .act (.prepareFull 0 1 7), .act (.prepareFull 1 1 7), .act (.prepareFull 2 1 7), .restart 1,
    .act (.sendCommit 0 1), .act (.sendCommit 1 1), .act (.sendCommit 2 1), .act (.commit 0 1), .act (.execute 0),
    .act (.leaveView 0 1), .act (.leaveView 1 1), .act (.leaveView 2 1), .restart 2,
    .act (.pend 0 goodArr), .act (.pend 1 goodArr), .act (.pend 2 goodArr), .act (.enter 0), .act (.enter 1),
    .act (.enter 2), .restart 0,
    .act (.sendPrepare 0 1), .act (.sendPrepare 1 1), .act (.sendPrepare 2 1),
    .act (.prepareFull 0 1 7), .act (.prepareFull 1 1 7), .act (.prepareFull 2 1 7),
    .act (.sendCommit 0 1), .act (.sendCommit 1 1), .act (.sendCommit 2 1), .act (.commit 1 1), .act (.execute 1) ]

theorem good_crash_meets_hypotheses : ∃ σ, ReachableSafe (p4 false) false σ ∧
    (∀ I ∈ σ.installs, GoodInstall (p4 false) I) ∧
    σ.commits = [⟨1, 1, 1, 5⟩, ⟨0, 0, 1, 5⟩] ∧ σ.executed = [⟨0, 0, 1, 5⟩, ⟨1, 1, 1, 5⟩] := by
  have h : (runSafe (p4 false) false State.init goodCrash).map (fun σ =>
      decide (σ.commits = [⟨1, 1, 1, 5⟩, ⟨0, 0, 1, 5⟩]) && (decide (σ.executed = [⟨0, 0, 1, 5⟩, ⟨1, 1, 1, 5⟩]) &&
      decide (σ.installs.map (fun I => (I.arr, I.lb)) = [(goodArr, 0), (goodArr, 0), (goodArr, 0)]))) = some true := by
    decide +kernel
  rw [Option.map_eq_some_iff] at h
  obtain ⟨σ, h1, h2⟩ := h
  simp only [Bool.and_eq_true, decide_eq_true_eq] at h2
  refine ⟨σ, ReachableSafe.run .init h1, ?_, h2.1, h2.2.1⟩
  intro I hI
  have hmem : (I.arr, I.lb) ∈ σ.installs.map (fun I => (I.arr, I.lb)) := List.mem_map.2 ⟨I, hI, rfl⟩
  rw [h2.2.2] at hmem
  simp only [List.mem_cons, List.not_mem_nil, or_false, or_self, Prod.mk.injEq] at hmem
  obtain ⟨ha, hl⟩ := hmem
  constructor
  · rw [ha, hl]; decide
  · intro rs _ s v _ _ hc
    rw [ha] at hc
    obtain ⟨e, he, hd, _⟩ := hc
    obtain ⟨m, hm, hem, _⟩ := mem_reported.1 he
    have hall : ∀ m ∈ msgs goodArr, ∀ e ∈ m.elems, e.digest ≠ 0 := by decide
    exact absurd hd (hall m hm e hem)
  · exact Or.inl (by decide)

def arr1 : List (Option VCMsg) := [some (vcw 0 1 []), some (vcw 1 1 []), none, some (vcw 3 1 [])]
def arr3 : List (Option VCMsg) := [some (vcw 0 3 []), none, some (vcw 2 3 []), some (vcw 3 3 [])]

/-- **Finding (the view is not stored).**  Replica 3 is faulty.  Replica 0 gives up on views 0, 1 and 2 and sends its
view-change message for view 3, then crashes and comes back in view 1.  There it helps to commit batch 5, which
replica 1 executes.  The view-change message it sent for view 3 before the crash knows nothing about it; together
with that of the slow replica 2 and of the faulty 3 it starts view 3 without batch 5, and batch 9 is committed and
executed in its place. -/
def badRestart : List RAction :=
  [ .act (.leaveView 0 1), .act (.leaveView 0 2), .act (.leaveView 0 3), .restart 0,
    .act (.leaveView 1 1), .act (.byzVC (vcw 3 1 [])),
    .act (.pend 0 arr1), .act (.pend 1 arr1), .act (.enter 0), .act (.enter 1),
    .act (.propose 1 1 5 true true), .act (.accept 0 1 5 true true),
    .act (.sendPrepare 0 1), .act (.sendPrepare 1 1), .act (.byzShare ⟨.prepare, 1, 1, 5, 3⟩),
    .act (.prepareFull 0 1 7), .act (.prepareFull 1 1 7),
    .act (.sendCommit 0 1), .act (.sendCommit 1 1), .act (.byzShare ⟨.commit, 1, 1, 5, 3⟩),
    .act (.commit 1 1), .act (.execute 1),
    .act (.leaveView 1 3), .act (.leaveView 2 3), .act (.byzVC (vcw 3 3 [])),
    .act (.pend 1 arr3), .act (.pend 2 arr3), .act (.enter 1), .act (.enter 2),
    .act (.byzPP ⟨3, 3, 1, 9⟩), .act (.accept 1 1 9 true true), .act (.accept 2 1 9 true true),
    .act (.sendPrepare 1 1), .act (.sendPrepare 2 1), .act (.byzShare ⟨.prepare, 3, 1, 9, 3⟩),
    .act (.prepareFull 1 1 7), .act (.prepareFull 2 1 7),
    .act (.sendCommit 1 1), .act (.sendCommit 2 1), .act (.byzShare ⟨.commit, 3, 1, 9, 3⟩),
    .act (.commit 2 1), .act (.execute 2) ]

/-- With the code's recovery, one crash of an honest replica breaks agreement, although at most `F` replicas are
faulty, the time service is off and every entry into a view satisfies `GoodInstall`: two honest replicas execute
different batches at the same sequence number. -/
theorem agreement_fails_with_restart :
    ∃ (P : Params) (σ : State) (e e' : Ev), FewFaulty P.cfg P.honest ∧ P.timeService = false ∧ P.cfg.F ≤ 1 ∧
      ReachableR P false σ ∧ (∀ I ∈ σ.installs, GoodInstall P I) ∧
      e ∈ σ.executed ∧ e' ∈ σ.executed ∧ P.ok e.rep = true ∧ P.ok e'.rep = true ∧
      e.seq = e'.seq ∧ e.digest ≠ e'.digest := by
  have h : (runR (p4 false) false State.init badRestart).map (fun σ =>
      decide (σ.executed = [⟨1, 1, 1, 5⟩, ⟨2, 3, 1, 9⟩]) &&
      decide (σ.installs.map (fun I => (I.arr, I.lb)) = [(arr3, 0), (arr3, 0), (arr1, 0), (arr1, 0)])) = some true := by
    decide +kernel
  rw [Option.map_eq_some_iff] at h
  obtain ⟨σ, h1, h2⟩ := h
  simp only [Bool.and_eq_true, decide_eq_true_eq] at h2
  refine ⟨p4 false, σ, ⟨1, 1, 1, 5⟩, ⟨2, 3, 1, 9⟩, p4_few false, rfl, (by decide), ReachableR.run .init h1, ?_,
    by rw [h2.1]; simp, by rw [h2.1]; simp, by decide, by decide, rfl, by decide⟩
  intro I hI
  have hmem : (I.arr, I.lb) ∈ σ.installs.map (fun I => (I.arr, I.lb)) := List.mem_map.2 ⟨I, hI, rfl⟩
  rw [h2.2] at hmem
  simp only [List.mem_cons, List.not_mem_nil, or_false, Prod.mk.injEq] at hmem
  have hcase : (I.arr = arr3 ∨ I.arr = arr1) ∧ I.lb = 0 := by
    rcases hmem with h | h | h | h
    · exact ⟨Or.inl h.1, h.2⟩
    · exact ⟨Or.inl h.1, h.2⟩
    · exact ⟨Or.inr h.1, h.2⟩
    · exact ⟨Or.inr h.1, h.2⟩
  have hall : ∀ m ∈ msgs I.arr, m.lastStable = 0 ∧ m.elems = [] := by
    rcases hcase.1 with h | h <;> rw [h] <;> decide
  constructor
  · intro m hm _; rw [(hall m hm).1, hcase.2]; exact Nat.le_refl _
  · intro rs _ s v _ _ hc
    obtain ⟨e, he, _⟩ := hc
    obtain ⟨m, hm, hem, _⟩ := mem_reported.1 he
    rw [(hall m hm).2] at hem; cases hem
  · exact Or.inl (by decide)

/-- The same run is impossible when the view is stored: replica 0 is back in view 3 and cannot enter view 1. -/
theorem stored_view_stops_the_run : (runR (p4 false) true State.init badRestart).isNone = true := by decide +kernel

end Concord.Protocol
