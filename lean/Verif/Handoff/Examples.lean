/-
Cases that meet the hypotheses of the theorems on the handoff (C57).
-/
import Verif.Handoff.Theorems

set_option linter.unusedSimpArgs false
set_option linter.unusedVariables false

namespace Verif.Handoff
open Verif.Handoff.Spec

def a1 : Elem := ⟨1, false⟩
def a2 : Elem := ⟨2, false⟩
def s3 : Elem := ⟨3, true⟩
def s4 : Elem := ⟨4, true⟩

/-- two asynchronous functions, and a synchronous one that overtakes the second -/
def mixed : List Op := [.push a1, .turn, .push a2, .push s3, .turn]

def mixedState : State := ⟨[s3], [a2], false, .look, [a1], []⟩

theorem mixed_run : run State.init mixed = some mixedState := rfl

/-- `in_order`, `returns_after` and `sync_returns` (7 turns, the handoff being stopped meanwhile) -/
example : ∃ s, run mixedState [.turn, .push s4, .turn, .stop, .turn, .turn, .turn, .turn, .turn, .turn] = some s ∧
    s.ran = [a1, s3, s4, a2] ∧ s.flags = [4, 3] ∧ s.phase = .look := ⟨_, rfl, rfl, rfl, rfl⟩

example {s1} (h1 : run mixedState [.turn, .push s4, .turn, .stop, .turn, .turn, .turn, .turn, .turn, .turn] = some s1) :
    3 ∈ s1.flags :=
  sync_returns mixed_run h1 (by simp [mixedState]) (by decide) s3 (by decide)

/-- `sync_first`: after the synchronous function the asynchronous one is taken -/
example : ∃ s, run mixedState [.turn, .turn, .turn] = some s ∧ s.phase = .look ∧ (turn s).phase = .running a2 :=
  ⟨_, rfl, rfl, rfl⟩

/-- `no_push_missed`: the consumer sleeps, after it ran all -/
example : ∃ s, run State.init [.push a1, .turn, .turn, .turn, .turn] = some s ∧ s.phase = .asleep ∧ s.ran = [a1] :=
  ⟨_, rfl, rfl, rfl⟩

/-- the mutex: no function is pushed between the look and the wait -/
example : run State.init [.turn, .push a1] = none := rfl

/-- `stop_ends`: the two functions in the queue are run, and the consumer ends -/
example : ∃ s, run (stop mixedState) (List.replicate 10 .turn) = some s ∧ s.phase = .ended ∧ s.ran = [a1, s3, a2] :=
  ⟨_, rfl, rfl, rfl⟩

example {s1} (h1 : run (stop mixedState) (List.replicate 10 .turn) = some s1) : s1.phase = .ended :=
  (stop_ends mixed_run (by simp [mixedState]) rfl (by simp [List.replicate]) h1 (by decide)).1

/-- `stop_ends` when the consumer waits -/
example : ∃ s, run State.init [.turn, .turn, .stop, .turn] = some s ∧ s.phase = .ended := ⟨_, rfl, rfl⟩

/-- `stop_lost` (BUG127): the consumer looks, `stop` comes, the consumer waits -/
example : ∃ s, run State.init [.turn] = some s ∧ s.phase = .decided ∧ s.stopped = false ∧
    ∃ s1, run (stop s) [.turn, .turn, .turn] = some s1 ∧ s1.phase = .asleep ∧ s1.stopped = true :=
  ⟨_, rfl, rfl, rfl, _, rfl, rfl, rfl⟩

/-- `push_after_end_hangs` (BUG128): the function of a synchronous call stays in the queue -/
example : ∃ s, run State.init [.stop, .turn] = some s ∧ s.phase = .ended ∧
    ∃ s1, run s [.push s3, .turn, .turn] = some s1 ∧ s1.q1 = [s3] ∧ s1.ran = [] ∧ s1.flags = [] :=
  ⟨_, rfl, rfl, _, rfl, rfl, rfl, rfl⟩

end Verif.Handoff
