/-
Sequence numbers of client requests: concrete clocks (C53).
-/
import Verif.SeqGen.Theorems

namespace Verif.SeqGen

/-! ### Concrete clocks -/

/-- 2026, a clock that stands still, goes on, and is set back by a minute. -/
def clock : List Int := [1795000000000, 1795000000000, 1795000000001, 1794999940001, 1795000000002]

example : numbers clock State.init =
    [some 7528775680000000000, some 7528775680000000001, some 7528775680004194304, some 7528775680004194305,
     some 7528775680008388608] := by decide +kernel

example : (∀ c ∈ clock, 0 ≤ c ∧ c + clock.length < 2 ^ 42) ∧ clock.length < 2 ^ 42 := by
  refine ⟨?_, ?_⟩
  · intro c hc
    simp [clock] at hc
    rcases hc with rfl | rfl | rfl | rfl | rfl <;> simp [clock]
  · simp [clock]

/-- `restart_increasing`: a restart half a second later. -/
example : ∀ c ∈ clock, ∀ c' ∈ [(1795000000502 : Int)], c.toNat * 2 ^ 22 + clock.length < c'.toNat * 2 ^ 22 := by
  intro c hc c' hc'
  simp [clock] at hc hc'
  subst hc'
  rcases hc with rfl | rfl | rfl | rfl | rfl <;> simp [clock]

/-- The counter carries into the milliseconds. -/
example : (unique 5 ⟨5, limit⟩).1 = some (6 * 4194304) := by decide +kernel

/-- From 2^42 milliseconds on the numbers begin again at 0. -/
example : numbers [4398046511103, 4398046511104] State.init = [some 18446744073705357312, some 0] := by decide +kernel

end Verif.SeqGen
