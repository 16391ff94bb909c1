/-
Model of the timers of a replica: `concordUtil::Timers`, libs/util/Timers.hpp:26-165.

The class keeps a vector of timers under a recursive mutex; `evaluate` walks over it and runs the
callbacks of the timers that are due.  A callback runs inside the walk, on the same thread, so it may call
the class again (the mutex is recursive): what it does to the vector is part of the model.

Simplifications: times and durations are unbounded integers (the code has 64-bit milliseconds and
nanoseconds); handles are unbounded numbers (64 bits in the code); a callback is the list of the calls it
makes on the same `Timers`; growth of the vector is that of libstdc++ (twice the size).
-/
import Verif.Util.ListLemmas

set_option linter.unusedSimpArgs false
set_option linter.unusedVariables false

namespace Verif.Timers

/-- What the outside sees of a `Timers` object, in order.  Not in the code: it is what an observer of the
calls and of the callbacks would write down. -/
inductive Ev where
  /-- `add` returned handle `h` for a timer of duration `d`, called at time `t` -/
  | added (h : Nat) (d : Int) (oneShot : Bool) (t : Int)
  /-- `reset(h, d, t)` was called -/
  | reset (h : Nat) (d t : Int)
  /-- `cancel(h)` was called -/
  | cancelled (h : Nat)
  /-- the callback of `h` was entered, in `evaluate(t)` -/
  | began (h : Nat) (t : Int)
  /-- the callback of `h` returned -/
  | finished (h : Nat) (t : Int)
deriving DecidableEq, Repr

/-- libs/util/Timers.hpp:45-88, class `Timer`, fields at 81-85 (the callback is kept apart). -/
structure Timer where
  id : Nat
  dur : Int
  exp : Int
  oneShot : Bool
deriving DecidableEq, Repr

/-- libs/util/Timers.hpp:162-164: `timers_` with its capacity, and `id_counter_`.  `log` is the observer. -/
structure State where
  ts : List Timer
  cap : Nat
  ctr : Nat
  log : List Ev
deriving Repr

/-- libs/util/Timers.hpp:91, the constructor. -/
def State.init : State := ⟨[], 0, 0, []⟩

/-- libs/util/Timers.hpp:62, `expired`. -/
def Timer.expired (x : Timer) (now : Int) : Bool := decide (x.exp ≤ now)

/-- libs/util/Timers.hpp:76-79, `reset(now, d)`. -/
def Timer.resetTo (d now : Int) (x : Timer) : Timer :=
  { x with
    dur := d
    exp := now + d }

/-- libs/util/Timers.hpp:74, `reset(now)`. -/
def Timer.again (now : Int) (x : Timer) : Timer :=
  { x with
    exp := now + x.dur }

/-- libs/util/Timers.hpp:157-160: `find`, the first timer of that id. -/
def find (ts : List Timer) (h : Nat) : Option Timer := ts.find? (fun x => x.id == h)

/-- The first timer of id `h` changed in place: `find` and then `it->...`. -/
def setFirst (h : Nat) (f : Timer → Timer) : List Timer → List Timer
  | [] => []
  | x :: r => if x.id == h then f x :: r else x :: setFirst h f r

/-- `timers_.erase(find(h))`. -/
def eraseFirst (h : Nat) : List Timer → List Timer
  | [] => []
  | x :: r => if x.id == h then r else x :: eraseFirst h r

/-- libs/util/Timers.hpp:101-111, `add`. -/
def add (d : Int) (oneShot : Bool) (now : Int) (s : State) : State :=
  { ts := s.ts ++ [⟨s.ctr + 1, d, now + d, oneShot⟩]
    cap := if s.ts.length < s.cap then s.cap else max 1 (2 * s.cap)
    ctr := s.ctr + 1
    log := .added (s.ctr + 1) d oneShot now :: s.log }

/-- libs/util/Timers.hpp:115-121, `reset`. -/
def reset (h : Nat) (d now : Int) (s : State) : State :=
  { s with
    ts := setFirst h (Timer.resetTo d now) s.ts
    log := .reset h d now :: s.log }

/-- libs/util/Timers.hpp:123-129, `cancel`; the call of the user. -/
def cancel (h : Nat) (s : State) : State :=
  { s with
    ts := eraseFirst h s.ts
    log := .cancelled h :: s.log }

/-- A call on the `Timers` object. -/
inductive Act where
  | add (d : Int) (oneShot : Bool) (t : Int)
  | reset (h : Nat) (d t : Int)
  | cancel (h : Nat)
deriving DecidableEq, Repr

/-- Why the model stops: the range-based `for` of `evaluate` (libs/util/Timers.hpp:140) goes on with
iterators that no longer point into the vector. -/
inductive Stop where
  /-- `emplace_back` (106) had to move the vector to another place -/
  | moved
  /-- `erase` (127) of an element of the vector -/
  | erased
  /-- (not in the code: an index outside the vector; see `evaluate_no_outside`) -/
  | outside
deriving DecidableEq, Repr

/-- A call made by a callback, inside the loop of `evaluate` (libs/util/Timers.hpp:140-149). -/
def actInside (a : Act) (s : State) : Except Stop State :=
  match a with
  | .add d o t => if s.ts.length < s.cap then .ok (add d o t s) else .error .moved
  | .reset h d t => .ok (reset h d t s)
  | .cancel h => if (find s.ts h).isSome then .error .erased else .ok (cancel h s)

/-- libs/util/Timers.hpp:66-72, `run_callback`: the calls of the callback, in order. -/
def actsInside : List Act → State → Except Stop State
  | [], s => .ok s
  | a :: r, s =>
    match actInside a s with
    | .error e => .error e
    | .ok s' => actsInside r s'

/-- The element at index `i` changed in place (`timer` is a reference into the vector). -/
def setAt (i : Nat) (f : Timer → Timer) (ts : List Timer) : List Timer :=
  match ts[i]? with
  | some x => ts.set i (f x)
  | none => ts

/-- libs/util/Timers.hpp:140-149: the loop, `k` elements before the end it was given, at index `i`.
`toCancel` is `to_cancel`. -/
def loop (cb : Nat → List Act) (now : Int) : Nat → Nat → List Nat → State → Except Stop (List Nat × State)
  | 0, _, tc, s => .ok (tc, s)
  | k + 1, i, tc, s =>
    match s.ts[i]? with
    | none => .error .outside
    | some x =>
      if x.expired now then
        match actsInside (cb x.id) { s with log := .began x.id now :: s.log } with
        | .error e => .error e
        | .ok s1 =>
          if x.oneShot then
            loop cb now k (i + 1) (tc ++ [x.id]) { s1 with log := .finished x.id now :: s1.log }
          else
            loop cb now k (i + 1) tc
              { s1 with
                ts := setAt i (Timer.again now) s1.ts
                log := .finished x.id now :: s1.log }
      else loop cb now k (i + 1) tc s

/-- libs/util/Timers.hpp:151-153: the one-shot timers that ran are removed. -/
def dropAll : List Nat → List Timer → List Timer
  | [], ts => ts
  | h :: r, ts => dropAll r (eraseFirst h ts)

/-- libs/util/Timers.hpp:134-154, `evaluate(now)`; `cb h` is what the callback of timer `h` calls if it
runs (it runs at most once in one evaluation: `evaluate_once`). -/
def evaluate (now : Int) (cb : Nat → List Act) (s : State) : Except Stop State :=
  match loop cb now s.ts.length 0 [] s with
  | .error e => .error e
  | .ok (tc, s') =>
    .ok { s' with
          ts := dropAll tc s'.ts }

/-- A call from outside. -/
inductive Op where
  | act (a : Act)
  | evaluate (now : Int) (cb : Nat → List Act)

/-- One call from outside of `evaluate`; the mutex makes the calls of several threads one sequence. -/
def step (s : State) : Op → Except Stop State
  | .act (.add d o t) => .ok (add d o t s)
  | .act (.reset h d t) => .ok (reset h d t s)
  | .act (.cancel h) => .ok (cancel h s)
  | .evaluate now cb => evaluate now cb s

/-- A whole history. -/
def run : List Op → State → Except Stop State
  | [], s => .ok s
  | op :: r, s =>
    match step s op with
    | .error e => .error e
    | .ok s' => run r s'

end Verif.Timers
