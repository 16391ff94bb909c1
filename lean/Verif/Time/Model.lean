import Verif.Util.Bytes
/-!
# The time service

bftengine/src/bftengine/TimeServiceManager.hpp, TimeServiceResPageClient.{hpp,cpp} and their callers in ReplicaImp.cpp.
A cluster of replicas executes the batches chosen by consensus; `log s` is the time the primary put in the batch of
number `s` (`none`: an empty batch, for which the time service is not called, ReplicaImp.cpp:5419).  Replicas crash at any
point and restart, and fetch the reserved pages of a checkpoint from other replicas.

Simplifications: state transfer to a checkpoint (pages and last executed number) is one step and delivers the pages of a
correct replica (C35); the descriptor of the last execution keeps only number and ticks; one batch per number (C01).
-/
namespace Verif.Time
open Verif.Bytes

/-- `ConsensusTime::min()`, TimeServiceResPageClient.hpp:38 -/
def minTime : Int := -2 ^ 63

/-- a 64-bit sum; signed overflow (undefined in C++) is modelled as wrap around -/
def add64 (a b : Int) : Int := toInt64 (ofInt64 (a + b))

inductive Phase where
  /-- no execution in progress -/
  | idle
  /-- the descriptor of the next execution is durable -/
  | selected
  /-- the time has been given to the application (or the batch is empty) -/
  | running
  /-- the process is not running -/
  | down
  /-- a `ConcordAssert` failed -/
  | aborted
deriving DecidableEq, Repr

/-- what one replica holds -/
structure Rep where
  /-- metadata: `lastExecutedSeqNum` -/
  lastExec : Nat
  /-- metadata: number and ticks of `DescriptorOfLastExecution` -/
  desc : Option (Nat × Int)
  /-- the reserved page -/
  page : Option Bytes
  /-- `last_timestamp_`, TimeServiceResPageClient.hpp:38 -/
  mem : Int
  phase : Phase
deriving DecidableEq, Repr

/-- `TimeServiceResPageClient::setLastTimestamp` and `setTimestampFromTicks`, TimeServiceResPageClient.cpp:30-41 -/
def setLast (r : Rep) (t : Int) : Rep := { r with page := some (leEncode 8 (ofInt64 t)), mem := t }

/-- `TimeServiceResPageClient::load`, TimeServiceResPageClient.cpp:43-51 -/
def load (r : Rep) : Rep :=
  match r.page with
  | some b => { r with mem := toInt64 (leDecode b) }
  | none => r

/-- `TimeServiceManager::compareAndUpdate`, TimeServiceManager.hpp:62-80: new state and returned time -/
def compareAndUpdate (eps : Int) (r : Rep) (new : Int) : Rep × Int :=
  if new > r.mem then (setLast r new, new) else (setLast r (add64 r.mem eps), add64 r.mem eps)

/-- `TimeServiceManager::recoverTime`, TimeServiceManager.hpp:50-58 -/
def recoverTime (r : Rep) (t : Int) : Rep :=
  if t ≤ r.mem then setLast r t else { r with phase := .aborted }

/-- `isPrimarysTimeWithinBounds`, TimeServiceManager.hpp:86-118 (the soft limit only logs) -/
def withinBounds (hard now t : Int) : Bool := !(decide (now - hard > t) || decide (t > now + hard))

/-- the time checks of `onMessage<PrePrepareMsg>`, ReplicaImp.cpp:1095-1105: `none` - ignored; otherwise may the replica
vote for it (SeqNumInfo::isTimeCorrect) -/
def checkTime (hard now : Int) (seq maxTransferred : Nat) (t : Int) : Option Bool :=
  if t ≤ 0 then none
  else if seq > maxTransferred then some (withinBounds hard now t) else some true

/-- the cluster -/
structure Cluster where
  rep : Nat → Rep
  /-- pages saved in checkpoints: number and page -/
  snaps : List (Nat × Option Bytes)
  /-- history variable: replica, number of the batch, time handed to the application -/
  given : List (Nat × Nat × Int)

inductive Ev where
  /-- replica `i` starts the next batch: phase 1, descriptor durable; ReplicaImp.cpp:4927-4934, 5467-5474 -/
  | start (i : Nat)
  /-- phase 2: the time is computed and given to the application; ReplicaImp.cpp:4951-4961, 5613-5620 -/
  | tick (i : Nat)
  /-- phase 3 -/
  | finish (i : Nat)
  /-- the process of replica `i` dies -/
  | crash (i : Nat)
  /-- it starts again: `time_service_manager_.emplace` and `recoverRequests`, ReplicaImp.cpp:4619-4650 -/
  | boot (i : Nat)
  /-- replica `i` takes a checkpoint of its pages -/
  | checkpoint (i : Nat)
  /-- replica `i` fetches checkpoint number `k` of the list; `onTransferringCompleteImp`, ReplicaImp.cpp:3325-3337 -/
  | transfer (i k : Nat)
deriving Repr

def upd (cl : Cluster) (i : Nat) (r : Rep) : Cluster := { cl with rep := fun j => if j = i then r else cl.rep j }

/-- the restarted process -/
def bootRep (r : Rep) : Rep :=
  let r1 := load { r with mem := minTime, phase := .idle }
  match r.desc with
  | some (s, ticks) =>
    if s > r.lastExec then recoverTime { r1 with phase := .selected } ticks else r1
  | none => r1

/-- one step; `none`: cannot happen -/
def step (eps : Int) (log : Nat → Option Int) (cl : Cluster) : Ev → Option Cluster
  | .start i =>
    let r := cl.rep i
    if r.phase = .idle then
      match log (r.lastExec + 1) with
      | none => some (upd cl i { r with phase := .running })
      | some _ => some (upd cl i { r with desc := some (r.lastExec + 1, r.mem), phase := .selected })
    else none
  | .tick i =>
    let r := cl.rep i
    if r.phase = .selected then
      match log (r.lastExec + 1) with
      | none => none
      | some t =>
        -- ConcordAssert(ppMsg->getTime() > 0), ReplicaImp.cpp:4955
        if t ≤ 0 then some (upd cl i { r with phase := .aborted })
        else
          let (r', t') := compareAndUpdate eps r t
          some { upd cl i { r' with phase := .running } with given := cl.given ++ [(i, r.lastExec + 1, t')] }
    else none
  | .finish i =>
    let r := cl.rep i
    if r.phase = .running then some (upd cl i { r with lastExec := r.lastExec + 1, phase := .idle }) else none
  | .crash i =>
    let r := cl.rep i
    if r.phase = .down then none else some (upd cl i { r with phase := .down, mem := minTime })
  | .boot i =>
    let r := cl.rep i
    if r.phase = .down then some (upd cl i (bootRep r)) else none
  | .checkpoint i =>
    let r := cl.rep i
    if r.phase = .idle then some { cl with snaps := cl.snaps ++ [(r.lastExec, r.page)] } else none
  | .transfer i k =>
    let r := cl.rep i
    match cl.snaps[k]? with
    | none => none
    | some (s, p) =>
      if r.phase = .idle ∧ s > r.lastExec then some (upd cl i (load { r with lastExec := s, page := p })) else none

inductive Run (eps : Int) (log : Nat → Option Int) (c0 : Cluster) : List Ev → Cluster → Prop where
  | nil : Run eps log c0 [] c0
  | snoc {es : List Ev} {c c' : Cluster} {e : Ev} (h : Run eps log c0 es c) (hs : step eps log c e = some c') :
      Run eps log c0 (es ++ [e]) c'

def newRep : Rep := ⟨0, none, none, minTime, .idle⟩

def newCluster : Cluster := ⟨fun _ => newRep, [], []⟩

end Verif.Time
