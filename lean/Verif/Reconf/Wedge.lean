set_option linter.unusedVariables false
/-!
# Stopping the system at a checkpoint, and starting it again

Model of `ControlStateManager` (bftengine/src/bftengine/ControlStateManager.cpp), `ControlHandler`
(bftengine/include/bftengine/ControlHandler.hpp), of the places in `ReplicaImp.cpp` that look at the stop
point, of `Replica::handleWedgeEvent`/`handleNewEpochEvent` (kvbc/src/Replica.cpp:225-290), of
`StReconfigurationHandler` (kvbc/src/st_reconfiguration_sm.cpp) and of `UnwedgeCommand`
(kvbc/src/reconfiguration_kvbc_handler.cpp:997-1035).

Simplifications.  The ordered requests are a function `log` from sequence numbers to the stopping commands
of the batch (agreement: C01, C11); requests that do not stop the system are left out.  A committed request
is one whose PrePrepare the replica has accepted.  Callbacks are recorded when they fire, their effects
(messages, removal of metadata, restart of the process) are not modelled; so sequence numbers are not
reused in a new epoch.  Pruning (C43) also makes `isSeqNumToStopAt` true; left out.
-/
namespace Verif.Wedge

/-- the commands that stop the system: `WedgeCommand`, `AddRemoveWithWedgeCommand`, `RestartCommand`,
`InstallCommand` (with their flags `bft_support` and `restart`) -/
inductive Cmd where
  | wedge
  | scale (bft restart : Bool)
  | restart (bft restart : Bool)
  | install (bft : Bool)
deriving DecidableEq, Repr

/-- callbacks of the control handler -/
inductive Cb where
  | snapshot | removeMetadata | newEpoch | restartReady | lockComm | rejoin
deriving DecidableEq, Repr

/-- What the chain holds: the latest epoch, and the latest wedge, scaling and install records with the sequence
number and epoch of their blocks (`bft_seq_num_key`, `reconfiguration_epoch_key` at the block). -/
structure Chain where
  epoch : Nat := 0
  wedge : Option (Nat × Nat) := none
  scale : Option (Nat × Nat × Bool × Bool) := none
  install : Option (Nat × Bool) := none
deriving DecidableEq, Repr

/-- A replica: last executed and last stable number, `wedgePoint` (0 is `none`), `wedged`, the chain, the own
epoch (`EpochManager::epochNumber_`), the accepted PrePrepares, the registered callbacks (`true`: for the
super-stable checkpoint), those that have fired, the two flags of the control handler, the states of the
checkpoints it has created. -/
structure Rep where
  last : Nat := 0
  stable : Nat := 0
  stop : Option Nat := none
  wedged : Bool := false
  chain : Chain := {}
  self : Nat := 0
  accepted : List Nat := []
  cbs : List (Bool × Cb) := []
  fired : List Cb := []
  onStable : Bool := false
  onSuper : Bool := false
  snaps : List (Nat × Chain) := []
deriving DecidableEq, Repr

/-- `setStopAtNextCheckpoint` (ControlStateManager.cpp:33-41) -/
def stopFor (seq : Nat) : Option Nat := if seq = 0 then none else some ((seq + 300) - (seq + 300) % 150)

/-- `persistReconfigurationBlock` for a wedge key (reconfiguration_kvbc_handler.cpp:57-111) -/
def Chain.putWedge (c : Chain) (seq epoch : Nat) : Chain := { c with epoch := epoch, wedge := some (seq, epoch) }

/-- callbacks of `handleWedgeCommands` (Reconfiguration.cpp:103-162) without the database checkpoint -/
def wedgeCbs (bft restart lock : Bool) : List (Bool × Cb) :=
  [(!bft, .removeMetadata), (!bft, .newEpoch)] ++ (if restart then [(!bft, .restartReady)] else []) ++
  (if lock then [(!bft, .lockComm)] else [])

/-- Execution of a stopping command: the PRE handler records it (reconfiguration_kvbc_handler.cpp:616-655,
670-745), the regular handler sets the stop point and registers callbacks (Reconfiguration.cpp:30-40, 75-100,
201-245). -/
def command (seq : Nat) (r : Rep) : Cmd → Rep
  | .wedge => { r with chain := r.chain.putWedge seq r.self, stop := stopFor seq, cbs := r.cbs ++ [(false, .snapshot)] }
  | .scale b rs => { r with
      chain := { r.chain.putWedge seq r.self with scale := some (seq, r.self, b, rs) }
      stop := stopFor seq
      cbs := r.cbs ++ wedgeCbs b rs true ++ [(!b, .snapshot)] }
  | .restart b rs => { r with chain := r.chain.putWedge seq r.self, stop := stopFor seq, cbs := r.cbs ++ wedgeCbs b rs false }
  | .install b => { r with
      chain := { r.chain with epoch := r.self, install := some (seq, b) }
      stop := stopFor seq
      cbs := r.cbs ++ [(!b, .restartReady), (!b, .newEpoch)] }

/-- `isSeqNumToStopAt` (ReplicaImp.cpp:949-957) -/
def stopAt (r : Rep) (p : Nat) : Bool :=
  r.wedged || (match r.stop with
    | none => false
    | some w => decide (w < p))

/-- Acceptance of a PrePrepare: `onMessage<PrePrepareMsg>` (ReplicaImp.cpp:1055-1061), the same test before sending
one (578), and the window (`relevantMsgForActiveView`, 960-975). -/
def accepts (r : Rep) (p : Nat) : Bool := !stopAt r p && decide (r.stable < p) && decide (p ≤ r.stable + 300)

/-- One round of `executeNextCommittedRequests` (ReplicaImp.cpp:5778-5812) is possible: the window, the flag, a
committed request. -/
def canExec (r : Rep) : Bool := decide (r.last < r.stable + 300) && !r.wedged && r.accepted.contains (r.last + 1)

/-- Execution of the next request (ReplicaImp.cpp:5797-5812; with `executeRequestsInPrePrepareMsg`, which creates
the checkpoint). -/
def exec (log : Nat → List Cmd) (r : Rep) : Rep :=
  let s := r.last + 1
  let r1 := (log s).foldl (command s) { r with last := s }
  { r1 with
    wedged := r1.wedged || decide (r1.stop = some s)
    snaps := if s % 150 = 0 then r1.snaps ++ [(s, r1.chain)] else r1.snaps }

/-- `ControlHandler::onStableCheckpoint`, `onSuperStableCheckpoint` (ControlHandler.hpp:24-37) -/
def fire (r : Rep) (super : Bool) : Rep :=
  { r with
    onStable := r.onStable || !super
    onSuper := r.onSuper || super
    fired := r.fired ++ (r.cbs.filter (fun x => x.1 == super)).map (·.2) }

/-- `onSeqNumIsStable` (ReplicaImp.cpp:3402-3552), for a checkpoint that has been executed -/
def stableAt (r : Rep) (c : Nat) : Rep :=
  let r1 := { r with stable := c }
  if r.stop = some c then { fire r1 false with wedged := true } else r1

/-- `onSeqNumIsSuperStable` (ReplicaImp.cpp:3385-3400) -/
def superStableAt (r : Rep) (c : Nat) : Rep :=
  if r.stop = some c then { fire r true with wedged := true } else r

/-- `handleWedgeEvent` (Replica.cpp:225-256) -/
def wedgeEvent (r : Rep) : Rep :=
  match r.chain.wedge with
  | none => r
  | some (s, e) =>
    if s = 0 then r
    else if e = r.chain.epoch then
      let r1 := { r with stop := stopFor s }
      if stopFor s = some r.last then { fire { r1 with wedged := true } false with wedged := true } else r1
    else r

/-- What a restart loses, then `handleNewEpochEvent` (Replica.cpp:257-290; `newEpoch` is the flag in the metadata)
and `handleWedgeEvent`. -/
def restart (newEpoch : Bool) (r : Rep) : Rep :=
  let e := if newEpoch then r.chain.epoch + 1 else r.chain.epoch
  wedgeEvent { r with stop := none, wedged := false, cbs := [], onStable := false, onSuper := false, self := e, chain := { r.chain with epoch := e } }

/-! ### lifting -/

/-- an entry of `UnwedgeCommand::unwedges` -/
structure Vote where
  id : Nat
  epoch : Nat
  sig : Nat
deriving DecidableEq, Repr

structure Unwedge where
  votes : List Vote
  bft : Bool
  restart : Bool
deriving DecidableEq, Repr

/-- n, f, c and the verification of a signature of `id` under the text `id‖epoch` -/
structure Cfg where
  n : Nat
  f : Nat
  c : Nat
  valid : Nat → Nat → Nat → Bool

/-- the loop over the votes (reconfiguration_kvbc_handler.cpp:1011-1019) -/
def countVotes (cfg : Cfg) (self : Nat) : List Vote → Nat
  | [] => 0
  | v :: vs => (if self ≤ v.epoch ∧ cfg.valid v.id v.epoch v.sig = true then 1 else 0) + countVotes cfg self vs

/-- the required number (1008-1009) -/
def quorum (cfg : Cfg) (bft : Bool) : Nat := if bft then 2 * cfg.f + cfg.c + 1 else cfg.n

/-- `handle(UnwedgeCommand)` (reconfiguration_kvbc_handler.cpp:997-1035) with `persistNewEpochBlock` (113-123) and
`resetState` (ControlHandler.hpp:54-60); with `restart` the process restarts with the new-epoch flag. -/
def unwedge (cfg : Cfg) (u : Unwedge) (r : Rep) : Rep :=
  if r.wedged = false then r
  else if countVotes cfg r.self u.votes < quorum cfg u.bft then r
  else if u.restart then restart true r
  else { r with
    chain := { r.chain with epoch := r.self + 1 }
    self := r.self + 1
    stop := none
    wedged := false
    cbs := []
    onStable := false
    onSuper := false }

/-- `handle(UnwedgeStatusRequest)` (1037-1064): whether the replica signs its epoch -/
def signsUnwedge (r : Rep) (bft : Bool) : Bool :=
  match r.stop with
  | none => true
  | some _ => if bft then r.onStable else r.onSuper

/-! ### state transfer -/

/-- `StReconfigurationHandler::handle(InstallCommand)` (st_reconfiguration_sm.cpp:140-160) -/
def stInstall (r : Rep) : Rep :=
  match r.chain.install with
  | none => r
  | some (s, b) => { r with stop := stopFor s, cbs := r.cbs ++ [(!b, .restartReady)] }

/-- `setStopAtNextCheckpoint(cp - 300)` for a checkpoint `cp` (signed arithmetic): `cp` itself, except that 0 means none -/
def stopHere (cp : Nat) : Option Nat := if cp = 300 then none else some (cp - cp % 150)

/-- `handle(AddRemoveWithWedgeCommand)` (162-225); `cp` is the sequence number of the new state, `ge` the epoch in
the reserved pages -/
def stScale (cp ge : Nat) (r : Rep) : Rep :=
  match r.chain.scale with
  | none => r
  | some (s, e, b, rs) =>
    if e < r.self then r
    else if r.self = e ∧ r.self = ge ∧ cp < (s + 300) - (s + 300) % 150 then r
    else if r.self < ge then { r with stop := stopHere cp, cbs := r.cbs ++ [(false, .rejoin)] }
    else if r.self = e ∧ cp = (s + 300) - (s + 300) % 150 then
      { r with cbs := r.cbs ++ [(!b, .removeMetadata)] ++ (if rs then [(!b, .newEpoch)] else []) ++ (if rs then [(!b, .restartReady)] else []) }
    else r

/-- `handle(WedgeCommand)` (97-124) -/
def stWedge (ge : Nat) (r : Rep) : Rep :=
  match r.chain.wedge with
  | none => r
  | some (s, e) =>
    if r.self = e ∧ r.self = ge then { r with stop := stopFor s }
    else if e < ge ∧ r.stop.isSome = true then
      { r with stop := none, wedged := false, cbs := [], onStable := false, onSuper := false, self := ge }
    else { r with self := ge }

/-- `stCallBack` (54-75) -/
def stCallBack (cp ge : Nat) (r : Rep) : Rep := stInstall (stWedge ge (stScale cp ge (stInstall r)))

/-- Completion of a state transfer to checkpoint `c` with the chain of that checkpoint (the epoch in the reserved
pages is the epoch of that chain): `stCallBack` runs first (priority HIGH, st_reconfiguraion_sm.hpp:35-36), then
`onTransferringCompleteImp` (ReplicaImp.cpp:3299-3383; its call of `onSeqNumIsStable` for `c - 300` matters only if
that is the stop point, left out). -/
def transfer (c : Nat) (ch : Chain) (r : Rep) : Rep :=
  let r1 := stCallBack c ch.epoch { r with chain := ch }
  { r1 with
    last := c
    stable := if r1.stable + 300 < c then c - 300 else r1.stable
    snaps := r1.snaps ++ [(c, ch)] }

/-! ### the system -/

/-- the replicas -/
abbrev World := Nat → Rep

def World.set (w : World) (i : Nat) (r : Rep) : World := fun j => if j = i then r else w j

/-- what can happen -/
inductive Ev where
  | accept (i p : Nat)
  | exec (i : Nat)
  | stable (i c : Nat)
  | superStable (i c : Nat)
  | restart (i : Nat)
  | unwedge (i : Nat) (u : Unwedge)
  | transfer (i j c : Nat) (ch : Chain)
deriving DecidableEq, Repr

/-- Steps.  A checkpoint becomes stable only after it has been executed (C42); state transfer brings the state of
a checkpoint that some correct replica has created (C35), ahead of what was executed. -/
inductive Step (cfg : Cfg) (log : Nat → List Cmd) : World → Ev → World → Prop
  | accept (w : World) (i p : Nat) (h : accepts (w i) p = true) :
      Step cfg log w (.accept i p) (w.set i { w i with accepted := (w i).accepted ++ [p] })
  | exec (w : World) (i : Nat) (h : canExec (w i) = true) : Step cfg log w (.exec i) (w.set i (exec log (w i)))
  | stable (w : World) (i c : Nat) (h1 : c % 150 = 0) (h2 : (w i).stable < c) (h3 : c ≤ (w i).last) :
      Step cfg log w (.stable i c) (w.set i (stableAt (w i) c))
  | superStable (w : World) (i c : Nat) (h1 : c % 150 = 0) (h2 : c ≤ (w i).last) :
      Step cfg log w (.superStable i c) (w.set i (superStableAt (w i) c))
  | restart (w : World) (i : Nat) : Step cfg log w (.restart i) (w.set i (restart false (w i)))
  | unwedge (w : World) (i : Nat) (u : Unwedge) : Step cfg log w (.unwedge i u) (w.set i (unwedge cfg u (w i)))
  | transfer (w : World) (i j c : Nat) (ch : Chain) (h1 : (c, ch) ∈ (w j).snaps) (h2 : (w i).last < c) :
      Step cfg log w (.transfer i j c ch) (w.set i (transfer c ch (w i)))

/-- runs from the start in which every event satisfies `ok`, with the list of what happened -/
inductive Reach (cfg : Cfg) (log : Nat → List Cmd) (ok : World → Ev → Prop) : List Ev → World → Prop
  | init : Reach cfg log ok [] (fun _ => {})
  | step {l : List Ev} {w w' : World} {e : Ev} : Reach cfg log ok l w → ok w e → Step cfg log w e w' → Reach cfg log ok (l ++ [e]) w'

end Verif.Wedge
