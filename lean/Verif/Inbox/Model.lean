/-
Model of the queues between the communication threads and the thread that processes messages:
`IncomingMsgsStorageImp`, bftengine/src/bftengine/IncomingMsgsStorageImp.{hpp,cpp}.

Any number of threads push messages into two queues under a mutex; the dispatching thread takes whole
queues out by swapping pointers and works them off without the mutex.

Simplifications: a message is a value of any type (the callback that goes with an external message is part
of the message); what the handlers do is not modelled, except that they may push messages (they do so as
any other thread); the counters for diagnostics are left out; an exception ends the process.
-/

set_option linter.unusedSimpArgs false
set_option linter.unusedVariables false

namespace Verif.Inbox

variable {E I : Type}

/-- What `getMsgForProcessing` returns to the loop of `dispatchMessages`: an internal message, an external
one (whose callback `onMsgPopped` is called first), or nothing (`IncomingMsg::INVALID`).  The loop evaluates
the timers after each of them (IncomingMsgsStorageImp.cpp:170-175). -/
inductive Got (E I : Type) where
  | internal (i : I)
  | external (e : E)
  | nothing
deriving DecidableEq, Repr

/-- Where the dispatching thread is: about to call `getMsgForProcessing`, or inside `condVar_.wait_for`
(IncomingMsgsStorageImp.cpp:122), where it does not hold the mutex. -/
inductive Phase where
  | running
  | waiting
deriving DecidableEq, Repr

/-- IncomingMsgsStorageImp.hpp:79-89: the two pairs of queues. -/
structure State (E I : Type) where
  /-- `ptrProtectedQueueForExternalMessages_` -/
  pe : List E
  /-- `ptrProtectedQueueForInternalMessages_` -/
  pi : List I
  /-- `ptrThreadLocalQueueForExternalMessages_` -/
  le : List E
  /-- `ptrThreadLocalQueueForInternalMessages_` -/
  li : List I
  phase : Phase
deriving Repr

/-- IncomingMsgsStorageImp.cpp:27-41. -/
def State.init : State E I := ⟨[], [], [], [], .running⟩

/-- IncomingMsgsStorageImp.hpp:67. -/
def maxPending : Nat := 20000

/-- IncomingMsgsStorageImp.cpp:72-91, `pushExternalMsg`: the result says if the message was taken. -/
def pushExternal (e : E) (s : State E I) : Bool × State E I :=
  if s.pe.length ≥ maxPending then (false, s)
  else
    (true,
      { s with
        pe := s.pe ++ [e] })

/-- IncomingMsgsStorageImp.cpp:104-108, `pushInternalMsg`. -/
def pushInternal (i : I) (s : State E I) : State E I :=
  { s with
    pi := s.pi ++ [i] }

/-- IncomingMsgsStorageImp.cpp:147-163, `popThreadLocal`. -/
def popLocal (s : State E I) : Got E I × State E I :=
  match s.li with
  | i :: r =>
    (.internal i,
      { s with
        li := r })
  | [] =>
    match s.le with
    | e :: r =>
      (.external e,
        { s with
          le := r })
    | [] => (.nothing, s)

/-- IncomingMsgsStorageImp.cpp:132-141: swap of the pointers. -/
def swapQueues (s : State E I) : State E I := ⟨s.le, s.li, s.pe, s.pi, s.phase⟩

/-- IncomingMsgsStorageImp.cpp:125-144, the part of `getMsgForProcessing` after the wait. -/
def afterWait (s : State E I) : Got E I × State E I :=
  if s.pe.isEmpty && s.pi.isEmpty then (.nothing, s) else popLocal (swapQueues s)

/-- What the dispatching thread does next, up to the next place where other threads can interfere: the
answer is `none` if it begins to wait. IncomingMsgsStorageImp.cpp:111-145, `getMsgForProcessing`. -/
def dispatch (s : State E I) : Option (Got E I) × State E I :=
  match s.phase with
  | .running =>
    match popLocal s with
    | (.nothing, _) =>
      if s.pe.isEmpty && s.pi.isEmpty then
        (none,
          { s with
            phase := .waiting })
      else
        let (g, s') := afterWait s
        (some g, s')
    | (g, s') => (some g, s')
  | .waiting =>
    let (g, s') := afterWait { s with phase := .running }
    (some g, s')

/-- One step of the program: a push by some thread, or the dispatching thread. -/
inductive Op (E I : Type) where
  | ext (e : E)
  | int (i : I)
  | disp

/-- What is seen of it. -/
inductive Ev (E I : Type) where
  | accepted (e : E)
  | dropped (e : E)
  | pushed (i : I)
  | got (g : Got E I)
deriving DecidableEq, Repr

def step (s : State E I) : Op E I → List (Ev E I) × State E I
  | .ext e => let (b, s') := pushExternal e s; ([if b then .accepted e else .dropped e], s')
  | .int i => ([.pushed i], pushInternal i s)
  | .disp => let (g, s') := dispatch s; ((g.map Ev.got).toList, s')

/-- An execution: any interleaving of the threads. -/
def run (s : State E I) : List (Op E I) → List (Ev E I) × State E I
  | [] => ([], s)
  | o :: r =>
    let (ev, s1) := step s o
    let (evs, s2) := run s1 r
    (ev ++ evs, s2)

end Verif.Inbox
