/-
Interleavings (C52): the hypotheses of the theorems are met.
-/
import Verif.Inbox.Theorems

set_option linter.unusedSimpArgs false
set_option linter.unusedVariables false

namespace Verif.Inbox.Examples
open Verif.Inbox Spec

/-- Two external messages and an internal one arrive while the dispatcher waits; more arrive while it works. -/
def ops : List (Op Nat Nat) :=
  [.disp, .ext 1, .int 10, .disp, .ext 2, .int 11, .disp, .disp, .disp, .disp, .disp]

example : (run State.init ops).1 =
    [.accepted 1, .pushed 10, .got (.internal 10), .accepted 2, .pushed 11,
     .got (.external 1), .got (.internal 11), .got (.external 2), .got .nothing] := by decide

/-- `idle_only_when_empty` is met at the end. -/
example : (dispatch (run State.init ops).2).1 = none := by decide

/-- A queue with 19999 messages takes one more, and then no other (`taken_when_room`,
`refused_only_when_full`). -/
example (l : List Nat) (h : l.length = 19999) :
    (step (⟨l, [], [], [], .running⟩ : State Nat Nat) (.ext 7)).1 = [.accepted 7] := by
  have : ¬ l.length ≥ maxPending := by rw [h]; decide
  simp [step, pushExternal, this]

example (l : List Nat) (h : l.length = 20000) :
    (step (⟨l, [], [], [], .running⟩ : State Nat Nat) (.ext 7)).1 = [.dropped 7] := by
  have : l.length ≥ maxPending := by rw [h]; decide
  simp [step, pushExternal, this]

theorem run_ext (n : Nat) : ∀ (s : State Nat Nat), s.pe.length + n ≤ 20000 →
    run s (List.replicate n (.ext 0)) = (List.replicate n (.accepted 0), ⟨s.pe ++ List.replicate n 0, s.pi, s.le, s.li, s.phase⟩) := by
  induction n with
  | zero => intro s _; simp [run]
  | succ n ih =>
    intro s hs
    have hm : ¬ s.pe.length ≥ maxPending := by
      have : maxPending = 20000 := rfl
      omega
    rw [List.replicate_succ]
    simp only [run, step, pushExternal, hm, if_false]
    rw [ih _ (by simp; omega)]
    simp [List.replicate_succ]

/-- The full queue is reached. -/
example : run (State.init : State Nat Nat) (List.replicate 20000 (.ext 0))
    = (List.replicate 20000 (.accepted 0), ⟨List.replicate 20000 0, [], [], [], .running⟩) := by
  rw [run_ext 20000 _ (by simp [State.init])]
  rfl

/-- `no_starvation` is met: external message 5 waits, and internal messages keep coming. -/
def before : List (Op Nat Nat) := [.int 1, .ext 4, .disp, .ext 5]
def first : List (Op Nat Nat) := [.int 2, .disp, .int 3, .disp]
def second : List (Op Nat Nat) := [.int 6, .disp, .int 7, .disp]

example : (run State.init before).2 = ⟨[5], [], [4], [], .running⟩ ∧
    (run (run State.init before).2 first).2 = ⟨[], [], [5], [3], .running⟩ ∧
    turns first = 2 ∧ turns second = 2 ∧
    (run (run (run State.init before).2 first).2 second).1 =
      [.pushed 6, .got (.internal 3), .pushed 7, .got (.external 5)] := by
  refine ⟨rfl, rfl, rfl, rfl, ?_⟩
  decide

end Verif.Inbox.Examples
