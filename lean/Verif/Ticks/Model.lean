/-
Model of the generator of ticks of the cron tables: `TicksGenerator`, ccron/src/ticks_generator.cpp and
ccron/include/ccron/ticks_generator.hpp.

A thread of the generator evaluates timers, and the callback of a timer pushes an internal message.  The
thread that processes messages gets the internal message and sends a request to itself through the external
queue, unless the last request of that component still is on its way.

Two machines, that meet in the internal queue: the timers (`Gen`, on top of the model of
`concordUtil::Timers` of Verif.Timers), and the throttle (`State`, on top of the model of
`IncomingMsgsStorageImp` of Verif.Inbox).

Simplifications: components are numbers; everything that the external queue holds besides ticks is `other`;
what becomes of a request after it left the external queue (`ClientsManager`, consensus, execution) is the
environment: it says at every internal tick which sequence numbers are pending, and it may say anything.
An evaluation of the timers is one step of `Gen`; the throttle allows internal ticks at any time.
-/
import Verif.Timers.Theorems
import Verif.Inbox.Theorems

set_option linter.unusedSimpArgs false
set_option linter.unusedVariables false

namespace Verif.Ticks

/-! ### The throttle -/

/-- A message of the external queue: the client request of a tick, ticks_generator.cpp:127-134 (component
and sequence number), or anything else. -/
inductive Msg where
  | tick (c seq : Nat)
  | other (x : Nat)
deriving DecidableEq, Repr

/-- ticks_generator.hpp:73-80: `pending_ticks_in_ext_queue_` (a set) and `pending_tick_requests_` (a map),
and the queues of the replica. -/
structure State where
  inbox : Inbox.State Msg Nat
  inQueue : List Nat
  last : Nat → Option Nat

def State.init : State := ⟨Inbox.State.init, [], fun _ => none⟩

/-- What an observer sees. -/
inductive Ev where
  /-- a request for a tick of `c` was given to the external queue, which took it or not -/
  | asked (c seq : Nat) (taken : Bool)
  /-- a request for a tick left the external queue and is given to the replica -/
  | gave (c seq : Nat)
deriving DecidableEq, Repr

/-- ticks_generator.cpp:126-137, `sendClientRequestMsgTick`, with InternalBFTClient.cpp:26-38,
`sendRequest`: the sequence number is the reading of the clock, and the result of `pushExternalMsg` (line
35) is not looked at. -/
def sendTick (c clock : Nat) (s : State) : List Ev × State :=
  let (b, ib) := Inbox.pushExternal (.tick c clock) s.inbox
  ([.asked c clock b],
    { inbox := ib
      last := fun k => if k = c then some clock else s.last k
      inQueue := if s.inQueue.contains c then s.inQueue else c :: s.inQueue })

/-- ticks_generator.cpp:85-112, `onInternalTick`; `pend` is `isPending(getClientId(), ·)`. -/
def onInternalTick (c clock : Nat) (pend : Nat → Bool) (s : State) : List Ev × State :=
  if s.inQueue.contains c then ([], s)
  else
    match s.last c with
    | none => sendTick c clock s
    | some q => if pend q then ([], s) else sendTick c clock s

/-- ticks_generator.cpp:114-117, `onTickPoppedFromExtQueue`. -/
def onPopped (c : Nat) (s : State) : State :=
  { s with
    inQueue := s.inQueue.filter (fun k => k != c) }

/-- What happens: an internal tick is pushed, another message is pushed into the external queue, or the
thread that processes messages goes on; `clock` is what the clock shows and `pend` what is pending if it
gets an internal tick. -/
inductive Op where
  | tick (c : Nat)
  | other (x : Nat)
  | turn (clock : Nat) (pend : Nat → Bool)

/-- ReplicaImp.cpp:1620-1622 (an internal tick); IncomingMsgsStorageImp.cpp:153-156 (the callback of an
external message). -/
def step (s : State) : Op → List Ev × State
  | .tick c =>
    ([],
      { s with
        inbox := Inbox.pushInternal c s.inbox })
  | .other x =>
    ([],
      { s with
        inbox := (Inbox.pushExternal (.other x) s.inbox).2 })
  | .turn clock pend =>
    match Inbox.dispatch s.inbox with
    | (some (.internal c), ib) =>
      onInternalTick c clock pend
        { s with
          inbox := ib }
    | (some (.external (.tick c q)), ib) =>
      ([.gave c q],
        onPopped c
          { s with
            inbox := ib })
    | (_, ib) =>
      ([],
        { s with
          inbox := ib })

def run (s : State) : List Op → List Ev × State
  | [] => ([], s)
  | o :: r => ((step s o).1 ++ (run (step s o).2 r).1, (run (step s o).2 r).2)

/-! ### The timers -/

/-- ticks_generator.hpp:86-91: `timers_` and `timer_handles_` (a map from components to handles).
`captured` is the `component_id` that the callback of a handle has captured (ticks_generator.cpp:61). -/
structure Gen where
  timers : Timers.State
  handles : List (Nat × Nat)
  captured : Nat → Option Nat

def Gen.init : Gen := ⟨Timers.State.init, [], fun _ => none⟩

/-- `timer_handles_.find(component_id)`. -/
def handleOf (g : Gen) (c : Nat) : Option Nat := (g.handles.find? (fun x => x.1 == c)).map (·.2)

/-- ticks_generator.cpp:71-78, `stop`. -/
def stop (c : Nat) (g : Gen) : Gen :=
  match handleOf g c with
  | some h =>
    { g with
      timers := Timers.cancel h g.timers
      handles := g.handles.filter (fun x => x.1 != c) }
  | none => g

/-- ticks_generator.cpp:54-69, `start`, called at time `now` (the third argument of `Timers::add` and
`Timers::reset` is `steady_clock::now()` by default, libs/util/Timers.hpp:101, 115). -/
def start (c : Nat) (period now : Int) (g : Gen) : Gen :=
  if period > 0 then
    match handleOf g c with
    | some h =>
      { g with
        timers := Timers.reset h period now g.timers }
    | none =>
      { timers := Timers.add period false now g.timers
        handles := (c, g.timers.ctr + 1) :: g.handles
        captured := fun k => if k = g.timers.ctr + 1 then some c else g.captured k }
  else stop c g

/-- ticks_generator.cpp:80-83, `isGenerating`. -/
def isGenerating (c : Nat) (g : Gen) : Bool := (handleOf g c).isSome

/-- The callbacks that were run, in order, of the events that were added to the log of the timers. -/
def callbacksOf (new : List Timers.Ev) : List Nat :=
  new.reverse.filterMap (fun e => match e with | .began h _ => some h | _ => none)

/-- ticks_generator.cpp:121 with 61-63: `timers_.evaluate()` at time `now`; the callbacks push internal
ticks: the components, in order.  The callbacks call no timer. -/
def evaluate (now : Int) (g : Gen) : Except Timers.Stop (List Nat × Gen) :=
  match Timers.evaluate now (fun _ => []) g.timers with
  | .error e => .error e
  | .ok t =>
    .ok ((callbacksOf (t.log.take (t.log.length - g.timers.log.length))).filterMap g.captured,
      { g with
        timers := t })

/-- A call of `start` or `stop`, or a round of the thread. -/
inductive Call where
  | start (c : Nat) (period now : Int)
  | stop (c : Nat)
  | evaluate (now : Int)

/-- One call: the internal ticks it pushes. -/
def gstep (g : Gen) : Call → Except Timers.Stop (List Nat × Gen)
  | .start c p t => .ok ([], start c p t g)
  | .stop c => .ok ([], stop c g)
  | .evaluate now => evaluate now g

/-- A history of calls: the internal ticks of each. -/
def grun (g : Gen) : List Call → Except Timers.Stop (List (List Nat) × Gen)
  | [] => .ok ([], g)
  | o :: r =>
    match gstep g o with
    | .error e => .error e
    | .ok (out, g1) =>
      match grun g1 r with
      | .error e => .error e
      | .ok (outs, g2) => .ok (out :: outs, g2)

end Verif.Ticks
