/-
Histories of timers (C51): the hypotheses of the theorems are met, and the error is real.
-/
import Verif.Timers.Theorems

set_option linter.unusedSimpArgs false
set_option linter.unusedVariables false

namespace Verif.Timers.Examples
open Verif.Timers Spec

def quiet : Nat → List Act := fun _ => []

/-- A replica: timer 1 every 100 ms, timer 2 once after 30 ms, timer 3 every 40 ms. -/
def start : List Op :=
  [.act (.add 100 false 0), .act (.add 30 true 0), .act (.add 40 false 0)]

/-- The callback of timer 3 makes timer 1 slower. -/
def slower : Nat → List Act := fun h => if h = 3 then [.reset 1 500 41] else []

def history : List Op :=
  start ++ [.evaluate 29 quiet, .evaluate 41 slower, .evaluate 80 quiet, .evaluate 120 quiet,
    .act (.cancel 3), .evaluate 600 quiet]

def logOf (ops : List Op) : List Ev :=
  match run ops State.init with
  | .ok s => s.log
  | .error _ => []

example : logOf history =
    [.finished 1 600, .began 1 600, .cancelled 3,
     .finished 3 120, .began 3 120,
     .finished 3 41, .reset 1 500 41, .began 3 41, .finished 2 41, .began 2 41,
     .added 3 40 false 0, .added 2 30 true 0, .added 1 100 false 0] := by decide

/-- Timer 2 ran once (`one_shot_once`), timer 3 never after it was cancelled (`cancelled_never_runs`). -/
example : runsOf 2 (logOf history) = 1 ∧ runsOf 3 (logOf history) = 2 ∧ runsOf 1 (logOf history) = 1 := by decide

/-- `due_runs`: timer 1, made slower, waits until 541. -/
example : armed (logOf (start ++ [.evaluate 29 quiet, .evaluate 41 slower])) 1 = some ⟨541, 500, false⟩ := by decide

/-- A reset in the callback of an earlier timer of the same evaluation keeps a due timer from running: the
exception in `due_runs` is needed. -/
def late : Nat → List Act := fun h => if h = 1 then [.reset 3 1000 200] else []

example : runsOf 3 (logOf (start ++ [.evaluate 200 late])) = 0 := by decide

/-- `recurring_spacing` speaks of the time of the evaluation, not of the time the timer was due: the periods
drift. -/
example : armed (logOf (start ++ [.evaluate 139 quiet])) 3 = some ⟨179, 40, false⟩ := by decide

def stopOf (ops : List Op) : Option Stop :=
  match run ops State.init with
  | .ok _ => none
  | .error e => some e

/-- BUG119: timer 1 is the timer of state transfer, without a thread of its own; while the application
finishes, its callback `onTimer` asks for a one-shot timer. -/
def finishing : Nat → List Act := fun h => if h = 1 then [.add 10 true 100] else []

example : stopOf [.act (.add 100 false 0), .evaluate 100 finishing] = some .moved := by decide
example : stopOf [.act (.add 100 false 0), .act (.add 5000 false 0), .evaluate 100 finishing] = some .moved := by
  decide

/-- With three timers the vector has room for a fourth: nothing happens, and the next time there is none. -/
example : stopOf (start ++ [.evaluate 100 finishing]) = none := by decide

/-- `add_in_callback_stops` is met. -/
example : ∃ s, run [.act (.add 100 false 0), .act (.add 5000 false 0)] State.init = .ok s ∧
    s.ts.length = s.cap ∧ evaluate 100 finishing s = .error .moved := ⟨_, rfl, rfl, rfl⟩

/-- BUG119 in a read-only replica, where state transfer has no thread of its own (kvbc/src/Replica.cpp:529):
three timers - state transfer (ReplicaForStateTransfer.cpp:65), metrics (ReplicaBase.cpp:46), checkpoints
(ReadOnlyReplica.cpp:84) - and room for a fourth.  The timer of state transfer asks for a one-shot timer
(BCStateTran.cpp:1037): it gets the fourth place.  When that one runs, the application is not ready yet and
it asks for the next - while it is still in the vector, which is full. -/
def readOnly : List Op :=
  [.act (.add 5000 false 0), .act (.add 100 false 0), .act (.add 30000 false 0),
   .evaluate 5000 (fun h => if h = 1 then [.add 100 true 5000] else []),
   .evaluate 5050 quiet]

example : stopOf readOnly = none := by decide
example : stopOf (readOnly ++ [.evaluate 5100 (fun h => if h = 4 then [.add 100 true 5100] else [])])
    = some .moved := by decide

/-- A timer whose callback cancels itself. -/
example : stopOf [.act (.add 100 false 0), .evaluate 100 (fun h => [.cancel h])] = some .erased := by decide

/-- Callbacks that only reset (`quiet_evaluates`): `onSlowPathTimer`, `onInfoRequestTimer`. -/
example : Quiet (slower 3) := by
  intro a ha
  simp [slower] at ha
  exact ⟨1, 500, 41, ha⟩

end Verif.Timers.Examples
