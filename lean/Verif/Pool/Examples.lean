/-
Cases that meet the hypotheses of the theorems on the pool (C58).
-/
import Verif.Pool.Theorems

set_option linter.unusedSimpArgs false
set_option linter.unusedVariables false

namespace Verif.Pool
open Verif.Pool.Spec

/-- a pool of three; 0 is given back twice (the second time it is refused), 1 is kept as its callback throws -/
def calls : List Op := [.alloc, .alloc, .free 0 true, .free 0 true, .free 1 false, .alloc]

theorem calls_run : run (Pool.init 3) calls =
    ([.got 0, .got 1, .gave 0, .threw .unknown, .threw .callback, .got 2], ⟨3, [0], [1, 2]⟩) := by decide +kernel

example : held [.got 0, .got 1, .gave 0, .threw .unknown, .threw .callback, .got 2] = [1, 2] := by decide

example : (∃ e, (step ⟨3, [0], [1, 2]⟩ .alloc).1 = .got e) := (alloc_gives calls_run).1.mpr (by decide)

example : (step ⟨3, [0], [1, 2]⟩ (.free 2 true)).1 = .gave 2 := (free_takes calls_run 2 true).1.mpr (by decide)

/-- `longest_idle_first`: 0 is given out again, after 2 -/
example : (step ⟨3, [0], [1, 2]⟩ .alloc).1 = .got 0 ∧
    idle 3 [.got 0, .got 1, .gave 0, .threw .unknown, .threw .callback] = [2, 0] := by decide +kernel

/-- an exhausted pool, and a full one -/
example : (run (Pool.init 2) [.alloc, .alloc, .alloc]).1 = [.got 0, .got 1, .threw .noFree] ∧
    (run (Pool.init 2) [.alloc, .free 0 true, .free 0 true]).1 = [.got 0, .gave 0, .threw .allFree] := by
  decide +kernel

/-- a source with five contexts: a batch of four, two are sent, three more are wanted -/
example : srun (Src.init 5) [.get 4, .finish, .finish, .get 3] = ⟨⟨5, [], [2, 3, 4, 0, 1]⟩, [2, 3, 4, 0, 1]⟩ ∧
    (getBlocks 3 (srun (Src.init 5) [.get 4])).1 = 1 := by decide +kernel

/-- `clear_wedged` (BUG129): the job of the second context throws -/
example : ∃ x, clear (fun _ => true) (clear (fun e => e != 1) (srun (Src.init 3) [.get 3])).2 =
    (.error x, (clear (fun e => e != 1) (srun (Src.init 3) [.get 3])).2) :=
  (clear_wedged (n := 3) (ops := [.get 3]) (a := 0) (b := 1) (r := [2]) rfl (by decide +kernel) rfl rfl).2.2 _

/-- after such a failure a new job gets a context that is still in the list: two jobs, one buffer -/
example : (getBlocks 1 (clear (fun e => e != 1) (srun (Src.init 3) [.get 3])).2).2.ctxs = [0, 1, 2, 0] := by
  decide +kernel

end Verif.Pool
