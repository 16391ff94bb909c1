/-
Model of `concord::util::Handoff`, libs/util/Handoff.hpp:124-278, with its `PriorityQueue` (58-114): one
thread that runs the functions that other threads hand to it, synchronous ones first.

A step is a piece of code that no other thread can interfere with: under the mutex `tasks_lock_`, or the
store to the atomic `stopped_`.  The condition variable is modelled as it is: a notification is lost if the
consumer is not (yet) in `wait`, and `wait` may return without one (`wake`).

Simplifications: a function is a number; it does nothing that is visible here (a function that itself calls
`push` for a synchronous call is run on the spot, Handoff.hpp:185-191, and is part of the function that calls
it); an exception of a function ends the process (159-162); a notification is sent in the same step as the
store before it.
-/

set_option linter.unusedSimpArgs false
set_option linter.unusedVariables false

namespace Verif.Handoff

/-- Handoff.hpp:252-266: `HandoffElement`: the function, and `blocked_call`. -/
structure Elem where
  id : Nat
  sync : Bool
deriving DecidableEq, Repr

/-- Where the consumer is (Handoff.hpp:142-156, 235-249). -/
inductive Phase where
  /-- it is about to lock the mutex and to look at the queue -/
  | look
  /-- it saw an empty queue and `stopped_` false; it holds the mutex and is about to wait (239) -/
  | decided
  /-- in `tasks_cond_.wait`, without the mutex -/
  | asleep
  /-- it took the element, and runs it (148) -/
  | running (e : Elem)
  /-- the function of a synchronous call was run; it is about to set the flag of the caller (151-155) -/
  | signalling (e : Elem)
  /-- it left the loop (246-247, 157-158): `join` returns -/
  | ended
deriving DecidableEq, Repr

/-- Handoff.hpp:268-277: `pq_[1]`, `pq_[0]`, `stopped_`; `ran` are the functions that were run, oldest first,
and `flags` the synchronous calls whose `completion_flag` is set (their `push` returns). -/
structure State where
  q1 : List Elem
  q0 : List Elem
  stopped : Bool
  phase : Phase
  ran : List Elem
  flags : List Nat
deriving Repr

def State.init : State := ⟨[], [], false, .look, [], []⟩

/-- `notify_one` on `tasks_cond_`. -/
def notify (s : State) : State :=
  { s with
    phase := if s.phase = .asleep then .look else s.phase }

/-- Handoff.hpp:180-206, `push` by another thread: it needs the mutex, which the consumer holds when it has
decided to wait (then the step is not possible).  Lines 68-74 for the priority. -/
def push (e : Elem) (s : State) : Option State :=
  if s.phase = .decided then none
  else
    some (notify
      { s with
        q1 := if e.sync then s.q1 ++ [e] else s.q1
        q0 := if e.sync then s.q0 else s.q0 ++ [e] })

/-- Handoff.hpp:170-174, `stop`: it does not lock the mutex. -/
def stop (s : State) : State :=
  if s.stopped then s
  else
    notify
      { s with
        stopped := true }

/-- Handoff.hpp:95-105 with 79-90: the element of the highest priority, and what is left. -/
def front (s : State) : Option (Elem × List Elem × List Elem) :=
  match s.q1 with
  | e :: r => some (e, r, s.q0)
  | [] =>
    match s.q0 with
    | e :: r => some (e, [], r)
    | [] => none

/-- The consumer goes on: Handoff.hpp:235-249 (`pop`) and 142-156 (the loop). -/
def turn (s : State) : State :=
  match s.phase with
  | .look =>
    match front s with
    | some (e, r1, r0) =>
      { s with
        q1 := r1
        q0 := r0
        phase := .running e }
    | none =>
      { s with
        phase := if s.stopped then .ended else .decided }
  | .decided =>
    { s with
      phase := .asleep }
  | .asleep => s
  | .running e =>
    { s with
      ran := s.ran ++ [e]
      phase := if e.sync then .signalling e else .look }
  | .signalling e =>
    { s with
      flags := e.id :: s.flags
      phase := .look }
  | .ended => s

/-- A step of some thread; `wake` is a spurious end of `wait`. -/
inductive Op where
  | push (e : Elem)
  | stop
  | turn
  | wake
deriving DecidableEq, Repr

def step (s : State) : Op → Option State
  | .push e => push e s
  | .stop => some (stop s)
  | .turn => some (turn s)
  | .wake => some (notify s)

/-- An interleaving of the threads; `none` is one that the mutex does not allow. -/
def run (s : State) : List Op → Option State
  | [] => some s
  | o :: r =>
    match step s o with
    | none => none
    | some s' => run s' r

end Verif.Handoff
