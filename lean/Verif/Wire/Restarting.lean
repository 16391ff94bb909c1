import Verif.Wire.Evidence
/-!
# Restart after a stop: who restarts when

The table of readiness messages, the proofs that are sent and the restarts.
-/
set_option linter.unusedVariables false
set_option linter.unusedSimpArgs false
set_option maxRecDepth 4000
namespace Verif.Wire.Restarting
open Verif.Bytes Verif.Wire

/-- an entry of `restart_ready_msgs_[reason]`: the message, and its bytes as they came, ReplicaImp.hpp:235 -/
structure Entry where
  gen : Nat
  raw : Bytes
deriving DecidableEq, Repr

/-- what concerns restarts of `ReplicaImp`, `ControlStateManager` (ControlStateManager.hpp:73-83) and `ControlHandler` (ControlHandler.hpp:55-57) -/
structure St where
  /-- `restart_ready_msgs_`, by reason; by replica in order -/
  table : Nat → List Entry
  /-- `wedgePoint`; 0: none -/
  stop : Nat
  /-- `onNMinusFOutOfNCheckpoint_` -/
  stable : Bool
  /-- `onNoutOfNCheckpoint_` -/
  superStable : Bool
  /-- `restartBftEnabled_` -/
  bft : Bool
  /-- `hasRestartProofAtSeqNum_`; 0: none -/
  proofAt : Nat → Nat
  /-- an assertion has failed -/
  dead : Bool

/-- after a start -/
def init : St := ⟨fun _ => [], 0, false, false, false, fun _ => 0, false⟩

/-- what others see -/
inductive Out
  /-- a readiness message to all others -/
  | ready (body : Bytes)
  /-- a proof to all others -/
  | proof (body : Bytes)
  /-- the registered callbacks of this reason: they stop and restart the process -/
  | restart (reason : Nat)
  | abort
deriving DecidableEq, Repr

/-- assignment to an element of a `std::map` -/
def put (x : Entry) : List Entry → List Entry
  | [] => [x]
  | y :: l => if x.gen < y.gen then x :: y :: l else if x.gen = y.gen then x :: l else y :: put x l

def has (g : Nat) (l : List Entry) : Bool := l.any (fun x => x.gen == g)

def upd {α : Type} (t : Nat → α) (r : Nat) (v : α) : Nat → α := fun k => if k = r then v else t k

/-- `targetNumOfMsgs`, ReplicaImp.cpp:3543-3544, 3933-3934 -/
def target (e : Env) (s : St) : Nat := if s.bft then e.n - e.f else e.n

/-- `ControlStateManager::onRestartProof`, ControlStateManager.cpp:57-78 -/
def onRestartProof (s : St) (seq reason : Nat) : St × List Out :=
  if (s.bft = true ∧ s.stable = true) ∨ s.superStable = true then
    if s.stop ≠ 0 ∧ seq ≠ 0 then ({ s with
      proofAt := upd s.proofAt reason seq }, [.restart reason])
    else (s, [])
  else (s, [])

/-- the body of the proof, ReplicaImp.cpp:3957-3966 -/
def proofBytes (e : Env) (s : St) (reason : Nat) : Bytes :=
  Proof.encode ⟨e.me, s.stop, e.epoch, reason, [], (s.table reason).map Entry.raw⟩

/-- do the elements fit: the assertion in `addElement`, ReplicasRestartReadyProofMsg.cpp:57-64; the sums grow, so the last one decides -/
def roomy (e : Env) (l : List Entry) : Bool := decide (31 + (l.map Entry.raw).flatten.length + e.sigLen e.me ≤ e.maxSize)

/-- `sendReplicasRestartReadyProof`, ReplicaImp.cpp:3954-3974 -/
def sendProof (e : Env) (s : St) (reason : Nat) : St × List Out :=
  if s.stop ≠ 0 then
    if e.n - e.f ≤ (s.table reason).length ∧ roomy e (s.table reason) = true then
      ((onRestartProof s s.stop reason).1, .proof (proofBytes e s reason) :: (onRestartProof s s.stop reason).2)
    else ({ s with
      dead := true }, [.abort])
  else (s, [])

/-- the comparison and the call, ReplicaImp.cpp:3545-3548, 3935-3938 -/
def whenComplete (e : Env) (s : St) (reason : Nat) : St × List Out :=
  if (s.table reason).length = target e s then sendProof e s reason else (s, [])

/-- the dispatcher: `validate` of the message, then `onMessage<ReplicaRestartReadyMsg>`, ReplicaImp.cpp:3914-3941 -/
def onReady (e : Env) (s : St) (m : Msg) : St × List Out :=
  match Ready.receive e m with
  | .error _ => (s, [])
  | .ok a =>
    if has a.gen (s.table a.reason) then (s, [])
    else whenComplete e { s with
      table := upd s.table a.reason (put ⟨a.gen, m.body⟩ (s.table a.reason)) } a.reason

/-- the dispatcher: `validate`, then `onMessage<ReplicasRestartReadyProofMsg>`, ReplicaImp.cpp:3943-3952 -/
def onProof (e : Env) (s : St) (m : Msg) : St × List Out :=
  match Proof.validate e m, rd m 8 8, rd m 24 1 with
  | .ok _, .ok seq, .ok reason => onRestartProof s seq reason
  | _, _, _ => (s, [])

/-- a call of `sendRestartReadyToAllReplica`, from a callback: reason, extra data; and the signature of the message made -/
structure Own where
  reason : Nat
  extra : Bytes
  sig : Bytes
deriving DecidableEq, Repr

/-- the message, ReplicaImp.cpp:3534-3538, ReplicaRestartReadyMsg.cpp:44-60 -/
def Own.msg (e : Env) (s : St) (o : Own) : Ready := ⟨e.me, s.stop, e.epoch, o.sig.length, o.reason, [], o.extra, o.sig⟩

/-- `sendRepilcaRestartReady`, ReplicaImp.cpp:3531-3550 -/
def sendReady (e : Env) (s : St) (o : Own) : St × List Out :=
  if s.stop ≠ 0 then
    let s' := { s with
      table := upd s.table o.reason (put ⟨e.me, (o.msg e s).encode⟩ (s.table o.reason)) }
    ((whenComplete e s' o.reason).1, .ready (o.msg e s).encode :: (whenComplete e s' o.reason).2)
  else (s, [])

/-- the callbacks, one after the other -/
def sendAll (e : Env) : St → List Own → St × List Out
  | s, [] => (s, [])
  | s, o :: l =>
    if s.dead then (s, [])
    else ((sendAll e (sendReady e s o).1 l).1, (sendReady e s o).2 ++ (sendAll e (sendReady e s o).1 l).2)

/-- `checkForReplicaReconfigurationAction`, ControlStateManager.cpp:79-90; the reasons are 0 and 1 -/
def checkRestart (s : St) : List Out :=
  if s.stop ≠ 0 then
    (if s.proofAt 0 = s.stop then [.restart 0] else []) ++ (if s.proofAt 1 = s.stop then [.restart 1] else [])
  else []

/-- `ControlHandler::onStableCheckpoint`, ControlHandler.hpp:31-38 -/
def onStable (e : Env) (s : St) (cbs : List Own) : St × List Out :=
  let p := sendAll e { s with
    stable := true } cbs
  if p.1.dead then p else (p.1, p.2 ++ checkRestart p.1)

/-- `ControlHandler::onSuperStableCheckpoint`, ControlHandler.hpp:24-30 -/
def onSuperStable (e : Env) (s : St) (cbs : List Own) : St × List Out :=
  sendAll e { s with
    superStable := true } cbs

/-- what happens at a replica -/
inductive Ev
  /-- a message with this code arrives -/
  | ready (m : Msg)
  | proof (m : Msg)
  /-- a checkpoint becomes stable (ReplicaImp.cpp:3518-3527) or super stable (ReplicaImp.cpp:3385-3398); with the callbacks that send readiness -/
  | stable (q : Nat) (cbs : List Own)
  | superStable (q : Nat) (cbs : List Own)
  /-- readiness is sent at another time: after a database checkpoint, Reconfiguration.cpp:120-124 -/
  | own (o : Own)
  /-- a command stops the replicas: the stop point, and the flag if it asks for a restart, Reconfiguration.cpp:101-107, 209-210, 224-228 -/
  | stop (q : Nat) (flag : Option Bool)
  /-- unwedge without restart: reconfiguration_kvbc_handler.cpp:1025-1027, ControlHandler.hpp:48-54; the table stays -/
  | unwedge

def step (e : Env) (s : St) : Ev → St × List Out
  | .ready m => if s.dead then (s, []) else onReady e s m
  | .proof m => if s.dead then (s, []) else onProof e s m
  | .stable q cbs => if s.dead then (s, []) else if s.stop ≠ 0 ∧ s.stop = q then onStable e s cbs else (s, [])
  | .superStable q cbs => if s.dead then (s, []) else if s.stop ≠ 0 ∧ s.stop = q then onSuperStable e s cbs else (s, [])
  | .own o => if s.dead then (s, []) else sendReady e s o
  | .stop q b => if s.dead then (s, []) else ({ s with
      stop := q, bft := b.getD s.bft }, [])
  | .unwedge => if s.dead then (s, []) else ({ s with
      stop := 0, stable := false, superStable := false }, [])

def run (e : Env) : St → List Ev → St × List Out
  | s, [] => (s, [])
  | s, v :: l => ((run e (step e s v).1 l).1, (step e s v).2 ++ (run e (step e s v).1 l).2)

/-! ## Specification -/

/-- the occasions on which the replica itself says that it is ready -/
def Ev.calls : Ev → List Own
  | .stable _ cbs => cbs
  | .superStable _ cbs => cbs
  | .own o => [o]
  | _ => []

/-- the replica has heard that `g` is ready for a restart of this reason, in these bytes: a message that is validly signed in `g`'s name,
or it is the replica itself that is ready -/
def HeardAs (e : Env) (evs : List Ev) (reason g : Nat) (raw : Bytes) : Prop :=
  (∃ m a, Ev.ready m ∈ evs ∧ Ready.receive e m = .ok a ∧ a.gen = g ∧ a.reason = reason ∧ m.body = raw) ∨
    (g = e.me ∧ ∃ v ∈ evs, ∃ o ∈ v.calls, o.reason = reason ∧ ∃ s, raw = (o.msg e s).encode)

def Heard (e : Env) (evs : List Ev) (reason g : Nat) : Prop := ∃ raw, HeardAs e evs reason g raw

/-- `n - f` replicas, all different -/
def HeardQuorum (e : Env) (evs : List Ev) (reason : Nat) : Prop :=
  ∃ G : List Nat, G.Nodup ∧ e.n - e.f ≤ G.length ∧ ∀ g ∈ G, Heard e evs reason g

/-- no proof of another replica has been received -/
def NoProofs (evs : List Ev) : Prop := ∀ m, Ev.proof m ∉ evs

end Verif.Wire.Restarting
