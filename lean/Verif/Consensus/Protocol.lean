import Verif.Consensus.SafetyProps2
/-!
Model of the replica protocol: ordering of batches inside a view (`ReplicaImp`, `SeqNumInfo`), leaving a view
and entering a new one (`ViewsManager`), with up to `F` Byzantine replicas and an adversarial network.

The model is an executable transition function `step? : Params → State → Action → Option State`.  A message
that was ever sent stays in the history, and any replica may use any message of the history at any time and
any number of times: this covers loss, reordering, duplication and delay.  Threshold signatures are modelled
by the set of signature shares ever produced (`shares`): a combined signature for `(view, seq, digest)` exists
iff enough distinct replicas produced a share for it.

Simplifications (all of them only *add* behaviours to the model, except the last two):
* a replica may leave its view at any time (the code needs complaints or a timeout; ReplicaImp.cpp:3060);
* messages are not lost in buffers; every replica knows every message of the history;
* a non-primary enters a view with any quorum of view-change messages, also if the primary of the view is
  honest and announced another one in its NewViewMsg (ViewsManager.cpp:826-865);
* crash/restart is not an action (persistent state is modelled in `Concord.Exec`);
* reconfiguration (wedge, epochs, key exchange) is not modelled.
-/
namespace Concord.Protocol
open Concord.VC

/-- What a signature share is for: PreparePartialMsg, CommitPartialMsg, PartialCommitProofMsg with
`FAST_WITH_THRESHOLD` and with `OPTIMISTIC_FAST` (bftengine/src/bftengine/messages/SignedShareMsgs.hpp,
messages/PartialCommitProofMsg.hpp).  The four kinds sign different data or use different keys
(ReplicaImp.cpp:1317-1400). -/
inductive Kind where
  | prepare | commit | fastThr | fastOpt
deriving DecidableEq, Repr

/-- A signature share of replica `signer` for `(view, seq, digest)`. -/
structure Share where
  kind : Kind
  view : Nat
  seq : Nat
  digest : Nat
  signer : Nat
deriving DecidableEq, Repr

/-- `SeqNumInfo` (SeqNumInfo.hpp): the accepted PrePrepare (its digest), the combined prepare signature,
`slowPathHasStarted`, `isTimeCorrect_`, and whether the slot is committed (`isCommitted__gg`). -/
structure Slot where
  digest : Nat
  cert : Option Nat
  slow : Bool
  timeOk : Bool
  committed : Bool
deriving DecidableEq, Repr

/-- State of an honest replica (fields of ReplicaImp.hpp and ViewsManager.hpp). -/
structure Replica where
  /-- `curView` -/
  view : Nat
  /-- `currentViewIsActive()` -/
  active : Bool
  /-- `lastStableSeqNum` -/
  lastStable : Nat
  /-- `lastExecutedSeqNum` -/
  lastExec : Nat
  /-- `strictLowerBoundOfSeqNums` -/
  strictLB : Nat
  /-- `primaryLastUsedSeqNum` -/
  lastUsed : Nat
  /-- `lowerBoundStableForPendingView` -/
  lbPending : Nat
  /-- `mainLog` -/
  slot : Nat → Option Slot
  /-- my latest ViewChangeMsg (`getMyLatestViewChangeMsg`) -/
  myVC : Option VCMsg
  /-- `viewChangeMsgsOfPendingView`, when a pending view is being entered -/
  pending : Option (List (Option VCMsg))

/-- Ghost record of an entry into a view: replica, view, view-change messages, lower bound, `lastStableSeqNum`. -/
structure Install where
  rep : Nat
  view : Nat
  arr : List (Option VCMsg)
  lb : Nat
  stable : Nat

/-- `(replica, view, seq, digest)` -/
structure Ev where
  rep : Nat
  view : Nat
  seq : Nat
  digest : Nat
deriving DecidableEq, Repr

/-- Global state: replicas, network history, and the ghost histories used in the statements. -/
structure State where
  rep : Nat → Replica
  /-- PrePrepare messages sent by the primary of a view: `rep` is the primary -/
  pps : List Ev
  shares : List Share
  vcs : List VCMsg
  /-- checkpoint messages `(replica, seq)` -/
  ckpts : List (Nat × Nat)
  /-- every digest a replica ever bound to a sequence number in a view -/
  assigned : List Ev
  installs : List Install
  /-- every commit of an honest replica -/
  commits : List Ev
  /-- every batch handed to the application, in order -/
  executed : List Ev

/-- The system: configuration, which replicas are honest, and `timeServiceEnabled`. -/
structure Params where
  cfg : Cfg
  honest : Nat → Bool
  timeService : Bool

/-- Initial replica: view 0 is active, nothing happened. -/
def Replica.init : Replica :=
  { view := 0, active := true, lastStable := 0, lastExec := 0, strictLB := 0, lastUsed := 0, lbPending := 0,
    slot := fun _ => none, myVC := none, pending := none }

def State.init : State :=
  { rep := fun _ => Replica.init, pps := [], shares := [], vcs := [], ckpts := [], assigned := [],
    installs := [], commits := [], executed := [] }

/-- `ReplicasInfo::primaryOfView`, bftengine/src/bftengine/ReplicasInfo.hpp. -/
def Params.primary (P : Params) (v : Nat) : Nat := v % P.cfg.N

/-- Quorum of slow path shares, `2F+C+1` (CryptoManager: slow path threshold). -/
def Params.slowQ (P : Params) : Nat := 2 * P.cfg.F + P.cfg.C + 1

/-- Quorum of the threshold fast path, `3F+C+1`. -/
def Params.fastQ (P : Params) : Nat := 3 * P.cfg.F + P.cfg.C + 1

/-- Number of distinct replicas that produced a share. -/
def State.numShares (P : Params) (σ : State) (k : Kind) (v s d : Nat) : Nat :=
  ((List.range P.cfg.N).filter (fun i => σ.shares.contains ⟨k, v, s, d, i⟩)).length

/-- A combined prepare signature can exist (unforgeability of threshold signatures). -/
def State.prepareBacked (P : Params) (σ : State) (v s d : Nat) : Bool :=
  decide (P.slowQ ≤ σ.numShares P .prepare v s d)

/-- A FullCommitProofMsg can exist: threshold `3F+C+1` (only if `C > 0`, ReplicaImp.cpp:1333-1338), or all `N`. -/
def State.fastBacked (P : Params) (σ : State) (v s d : Nat) : Bool :=
  (decide (0 < P.cfg.C) && decide (P.fastQ ≤ σ.numShares P .fastThr v s d)) ||
  decide (P.cfg.N ≤ σ.numShares P .fastOpt v s d)

/-- A batch can be committed: a CommitFullMsg (slow path, `2F+C+1` commit shares) or a FullCommitProofMsg. -/
def State.commitBacked (P : Params) (σ : State) (v s d : Nat) : Bool :=
  decide (P.slowQ ≤ σ.numShares P .commit v s d) || σ.fastBacked P v s d

/-- `mainLog->insideActiveWindow(s)`, SequenceWithActiveWindow.hpp: `(lastStable, lastStable+300]`. -/
def Replica.inWindow (r : Replica) (s : Nat) : Bool :=
  decide (r.lastStable < s) && decide (s ≤ r.lastStable + kWorkWindowSize)

/-- `relevantMsgForActiveView` for a message of the replica's current view, ReplicaImp.cpp:959-968. -/
def Replica.relevant (r : Replica) (s : Nat) : Bool :=
  r.active && decide (r.strictLB < s) && r.inWindow s

/-- validation of a ViewChangeMsg's elements, messages/ViewChangeMsg.cpp:190-235 (`checkElements`). -/
def checkVC (m : VCMsg) : Bool :=
  decide (m.elems.Pairwise (fun a b => a.seq < b.seq)) &&
  m.elems.all (fun e => decide (m.lastStable < e.seq) && decide (e.seq ≤ m.lastStable + kWorkWindowSize) &&
    decide (e.originView < m.newView) &&
    (match e.cert with | some c => decide (c.view ≤ e.originView) | none => true))

/-- The element reported for one slot when a view is left, ViewsManager.cpp:505-570: a certificate of this view;
else a certificate of my previous view-change message for the same digest; else the PrePrepare alone unless it
is the null operation.  `it` is the iterator over the previous message; the result includes its new
position. -/
def exitSlot (nullD u s : Nat) (it : List Elem) (sl : Slot) : Option Elem × List Elem :=
  match sl.cert with
  | some sig => (some ⟨s, sl.digest, u, some ⟨u, sig⟩⟩, it)
  | none =>
    let it' := goToAtLeast s it
    let prev : Option Cert := match it'.head? with
      | some e => if e.seq = s ∧ e.digest = sl.digest then e.cert else none
      | none => none
    match prev with
    | some c => (some ⟨s, sl.digest, u, some c⟩, it')
    | none => if sl.digest ≠ nullD then (some ⟨s, sl.digest, u, none⟩, it') else (none, it')

/-- `exitFromCurrentView`, ViewsManager.cpp:466-590, with the loop of `MoveToHigherView` that collects the slots
(ReplicaImp.cpp:2996-3022: only those with a PrePrepare and correct time): `k` sequence numbers from `s` on. -/
def exitElems (nullD u : Nat) (slot : Nat → Option Slot) : (k s : Nat) → (it : List Elem) → List Elem
  | 0, _, _ => []
  | k + 1, s, it =>
    match slot s with
    | some sl =>
      if sl.timeOk then
        match exitSlot nullD u s it sl with
        | (some e, it') => e :: exitElems nullD u slot k (s + 1) it'
        | (none, it') => exitElems nullD u slot k (s + 1) it'
      else exitElems nullD u slot k (s + 1) it
    | none => exitElems nullD u slot k (s + 1) it

/-- elements of my previous view-change message; none in view 0 (`iterPrevVC`, ViewsManager.cpp:493) -/
def prevElems : Option VCMsg → List Elem
  | some m => m.elems
  | none => []

/-- `MoveToHigherView` + `prepareViewChangeMsgAndSetHigherView`, ReplicaImp.cpp:2981-3060,
ViewsManager.cpp:1086-1114: an active view is left with a fresh view-change message; a view that is not active
is left by re-sending my latest view-change message for the higher view. -/
def mkVC (P : Params) (i : Nat) (r : Replica) (next : Nat) : Option VCMsg :=
  if r.active then
    some { sender := i, newView := next, lastStable := r.lastStable,
           elems := exitElems P.cfg.nullDigest r.view r.slot kWorkWindowSize (r.lastStable + 1)
             (prevElems r.myVC) }
  else r.myVC.map (fun m => { m with newView := next })

/-- The PrePrepares with which a view starts, ViewsManager.cpp:700-745 and `onNewView` ReplicaImp.cpp:3128-3190:
for every restricted sequence number above `lastStable`, the restricting digest or the null operation. -/
def initialSlot (nullD : Nat) (rs : Restrictions) (lastStable s : Nat) : Option Slot :=
  if lastStable < s then
    (rs.at? s).map (fun x => { digest := x.getD nullD, cert := none, slow := true, timeOk := true,
                               committed := false })
  else none

/-- ghost: the assignments made by entering a view -/
def initialEvs (nullD : Nat) (rs : Restrictions) (i v lastStable : Nat) : List Ev :=
  (List.range kWorkWindowSize).filterMap (fun k =>
    (initialSlot nullD rs lastStable (lastStable + 1 + k)).map
      (fun sl => (⟨i, v, lastStable + 1 + k, sl.digest⟩ : Ev)))

/-- The actions.  `Byz…` are those of faulty replicas; the first argument of the others is an honest replica. -/
inductive Action where
  | propose (i s d : Nat) (slow timeOk : Bool)
  | accept (i s d : Nat) (slow timeOk : Bool)
  | startSlow (i s : Nat)
  | sendPrepare (i s : Nat)
  | sendFast (i s : Nat) (optimistic : Bool)
  | prepareFull (i s sig : Nat)
  | sendCommit (i s : Nat)
  | commit (i s : Nat)
  | execute (i : Nat)
  | checkpoint (i : Nat)
  | stable (i s : Nat)
  | stableFast (i : Nat)
  | stateTransfer (i s : Nat)
  | leaveView (i next : Nat)
  | pend (i : Nat) (arr : List (Option VCMsg))
  | enter (i : Nat)
  | byzShare (sh : Share)
  | byzPP (e : Ev)
  | byzVC (m : VCMsg)
  | byzCkpt (i s : Nat)

/-- replace the state of replica `i` -/
def State.setRep (σ : State) (i : Nat) (r : Replica) : State :=
  { σ with rep := fun j => if j = i then r else σ.rep j }

/-- replace one slot -/
def Replica.setSlot (r : Replica) (s : Nat) (sl : Slot) : Replica :=
  { r with slot := fun t => if t = s then some sl else r.slot t }

/-- `onSeqNumIsStable`: advance the stable point; slots outside of the window are freed, ReplicaImp.cpp:3400-3470. -/
def Replica.advanceStable (r : Replica) (s : Nat) : Replica :=
  { r with lastStable := s, strictLB := max r.strictLB s, lastUsed := max r.lastUsed s,
           slot := fun t => if s < t then r.slot t else none }

/-- an honest replica -/
def Params.ok (P : Params) (i : Nat) : Bool := P.honest i && decide (i < P.cfg.N)

/-- One step; `none` if the guard fails. -/
def step? (P : Params) (σ : State) : Action → Option State
  -- the primary sends a PrePrepare, ReplicaImp.cpp:876-948 (`startConsensusProcess`)
  | .propose i s d slow timeOk =>
    let r := σ.rep i
    if P.ok i && decide (P.primary r.view = i) && r.relevant s && (r.slot s).isNone &&
       decide (s = r.lastUsed + 1) && decide (d ≠ P.cfg.nullDigest) && (P.timeService || timeOk) then
      some { σ.setRep i ({ r with lastUsed := s }.setSlot s ⟨d, none, slow, timeOk, false⟩) with
             pps := ⟨i, r.view, s, d⟩ :: σ.pps, assigned := ⟨i, r.view, s, d⟩ :: σ.assigned }
    else none
  -- `onMessage<PrePrepareMsg>`, ReplicaImp.cpp:1055-1135 (a null PrePrepare is rejected by its validation)
  | .accept i s d slow timeOk =>
    let r := σ.rep i
    if P.ok i && r.relevant s && (r.slot s).isNone && decide (d ≠ P.cfg.nullDigest) &&
       (P.timeService || timeOk) && σ.pps.contains ⟨P.primary r.view, r.view, s, d⟩ then
      some { σ.setRep i (r.setSlot s ⟨d, none, slow, timeOk, false⟩) with
             assigned := ⟨i, r.view, s, d⟩ :: σ.assigned }
    else none
  -- `onMessage<StartSlowCommitMsg>`, `tryToStartSlowPaths`, ReplicaImp.cpp:1150-1316
  | .startSlow i s =>
    let r := σ.rep i
    match r.slot s with
    | some sl => if P.ok i && r.relevant s then some (σ.setRep i (r.setSlot s { sl with slow := true })) else none
    | none => none
  -- `sendPreparePartial`, ReplicaImp.cpp:1366-1392
  | .sendPrepare i s =>
    let r := σ.rep i
    match r.slot s with
    | some sl =>
      if P.ok i && r.active && r.inWindow s && sl.slow && (sl.timeOk || decide (P.primary r.view = i)) then
        some { σ with shares := ⟨.prepare, r.view, s, sl.digest, i⟩ :: σ.shares }
      else none
    | none => none
  -- `sendPartialProof`, ReplicaImp.cpp:1317-1364
  | .sendFast i s optimistic =>
    let r := σ.rep i
    match r.slot s with
    | some sl =>
      if P.ok i && r.active && r.inWindow s && !sl.slow && sl.timeOk && decide (s ≤ r.lastExec + 75) then
        some { σ with shares := ⟨if optimistic then .fastOpt else .fastThr, r.view, s, sl.digest, i⟩ :: σ.shares }
      else none
    | none => none
  -- `onMessage<PrepareFullMsg>` / combination of shares, SeqNumInfo.cpp:174-187
  | .prepareFull i s sig =>
    let r := σ.rep i
    match r.slot s with
    | some sl =>
      if P.ok i && r.active && r.inWindow s && sl.cert.isNone && P.cfg.valid r.view s sl.digest sig &&
         σ.prepareBacked P r.view s sl.digest then
        some (σ.setRep i (r.setSlot s { sl with cert := some sig }))
      else none
    | none => none
  -- `sendCommitPartial`, ReplicaImp.cpp:1394-1430: no check of `isTimeCorrect`
  | .sendCommit i s =>
    let r := σ.rep i
    match r.slot s with
    | some sl =>
      if P.ok i && r.active && r.inWindow s && sl.cert.isSome then
        some { σ with shares := ⟨.commit, r.view, s, sl.digest, i⟩ :: σ.shares }
      else none
    | none => none
  -- CommitFullMsg / FullCommitProofMsg complete, SeqNumInfo.cpp:230-260
  | .commit i s =>
    let r := σ.rep i
    match r.slot s with
    | some sl =>
      if P.ok i && r.active && r.inWindow s && σ.commitBacked P r.view s sl.digest then
        some { σ.setRep i (r.setSlot s { sl with committed := true }) with
               commits := ⟨i, r.view, s, sl.digest⟩ :: σ.commits }
      else none
    | none => none
  -- `executeNextCommittedRequests`, ReplicaImp.cpp:5775-5830
  | .execute i =>
    let r := σ.rep i
    match r.slot (r.lastExec + 1) with
    | some sl =>
      if P.ok i && r.active && r.inWindow (r.lastExec + 1) && sl.committed then
        some { σ.setRep i { r with lastExec := r.lastExec + 1 } with
               executed := σ.executed ++ [⟨i, r.view, r.lastExec + 1, sl.digest⟩] }
      else none
    | none => none
  -- `tryToMarkSeqNumAsStable` / `sendCheckpointIfNeeded`: checkpoint message every 150 executed batches
  | .checkpoint i =>
    let r := σ.rep i
    if P.ok i && decide (0 < r.lastExec) && decide (r.lastExec % checkpointWindowSize = 0) then
      some { σ with ckpts := (i, r.lastExec) :: σ.ckpts }
    else none
  -- `onMessage<CheckpointMsg>` with a complete certificate, ReplicaImp.cpp:2293-2310
  | .stable i s =>
    let r := σ.rep i
    if P.ok i && r.inWindow s && σ.ckpts.contains (i, s) &&
       decide (P.slowQ ≤ ((List.range P.cfg.N).filter (fun j => σ.ckpts.contains (j, s))).length) then
      some (σ.setRep i (r.advanceStable s))
    else none
  -- `tryToMarkCheckpointStableForFastPath`, ReplicaImp.cpp:3270-3297: the last executed batch is at least 75
  -- above the checkpoint and has a fast path commit proof
  | .stableFast i =>
    let r := σ.rep i
    let cp := r.lastExec / checkpointWindowSize * checkpointWindowSize
    match r.slot r.lastExec with
    | some sl =>
      if P.ok i && r.active && decide (r.lastStable < cp) && decide (cp + 75 ≤ r.lastExec) &&
         σ.ckpts.contains (i, cp) && σ.fastBacked P r.view r.lastExec sl.digest then
        some (σ.setRep i (r.advanceStable cp))
      else none
    | none => none
  -- `onTransferringCompleteImp`, ReplicaImp.cpp:3299-3375: state transfer to a checkpoint vouched for by `F+1`
  | .stateTransfer i s =>
    let r := σ.rep i
    if P.ok i && decide (r.lastExec < s) &&
       decide (P.cfg.F + 1 ≤ ((List.range P.cfg.N).filter (fun j => σ.ckpts.contains (j, s))).length) then
      let r' := { r with lastExec := s, lastUsed := max r.lastUsed s }
      some (σ.setRep i (if r.lastStable + kWorkWindowSize < s then r'.advanceStable (s - kWorkWindowSize) else r'))
    else none
  -- `MoveToHigherView`
  | .leaveView i next =>
    let r := σ.rep i
    match mkVC P i r next with
    | some m =>
      if P.ok i && decide (r.view < next) then
        some { σ.setRep i { r with view := next, active := false, slot := fun _ => none, myVC := some m,
                                   pending := none } with
               vcs := m :: σ.vcs }
      else none
    | none => none
  -- `tryToEnterView`: a new pending view, ViewsManager.cpp:620-645, 754-865
  | .pend i arr =>
    let r := σ.rep i
    match calcLBStableForView P.cfg arr with
    | some t1 =>
      if P.ok i && !r.active && r.pending.isNone &&
         decide (r.lbPending ≤ r.lastStable) && decide (r.lastStable ≤ r.lastExec) &&
         (Spec.msgs arr).all (fun m => checkVC m && decide (m.sender < P.cfg.N) && decide (m.newView = r.view) &&
           σ.vcs.contains m) &&
         decide (((Spec.msgs arr).map (·.sender)).Nodup) && decide ((Spec.msgs arr).length = P.cfg.vcQuorum) then
        some (σ.setRep i { r with pending := some arr, lbPending := max t1 (max r.lastStable r.lbPending) })
      else none
    | none => none
  -- `tryToEnterView` + `onNewView`: enter the pending view, ViewsManager.cpp:600-615, 648-752
  | .enter i =>
    let r := σ.rep i
    match r.pending with
    | some arr =>
      match computeRestrictions P.cfg arr r.lbPending with
      | some rs =>
        if P.ok i && !r.active && decide (r.lastStable ≤ r.lastExec) && decide (r.lbPending ≤ r.lastStable) then
          some { σ.setRep i { r with active := true, slot := initialSlot P.cfg.nullDigest rs r.lastStable,
                                     strictLB := r.lastStable, lastUsed := max r.lastStable rs.max,
                                     pending := none } with
                 assigned := initialEvs P.cfg.nullDigest rs i r.view r.lastStable ++ σ.assigned,
                 installs := ⟨i, r.view, arr, r.lbPending, r.lastStable⟩ :: σ.installs }
        else none
      | none => none
    | none => none
  -- faulty replicas: any share of their own, any PrePrepare while primary, any view-change message whose
  -- *valid* certificates exist, any checkpoint message
  | .byzShare sh =>
    if !P.honest sh.signer && decide (sh.signer < P.cfg.N) then some { σ with shares := sh :: σ.shares } else none
  | .byzPP e =>
    if !P.honest e.rep && decide (P.primary e.view = e.rep) then some { σ with pps := e :: σ.pps } else none
  | .byzVC m =>
    if !P.honest m.sender && m.elems.all (fun e => match e.cert with
        | some c => !P.cfg.valid c.view e.seq e.digest c.sig || σ.prepareBacked P c.view e.seq e.digest
        | none => true) then
      some { σ with vcs := m :: σ.vcs }
    else none
  | .byzCkpt i s =>
    if !P.honest i then some { σ with ckpts := (i, s) :: σ.ckpts } else none

/-- run a list of actions -/
def run (P : Params) : State → List Action → Option State
  | σ, [] => some σ
  | σ, a :: as => match step? P σ a with | some σ' => run P σ' as | none => none

/-- Reachable states. -/
inductive Reachable (P : Params) : State → Prop
  | init : Reachable P State.init
  | step {σ σ' : State} (a : Action) : Reachable P σ → step? P σ a = some σ' → Reachable P σ'

theorem Reachable.run {P : Params} : ∀ {as : List Action} {σ σ' : State}, Reachable P σ →
    run P σ as = some σ' → Reachable P σ'
  | [], σ, σ', h, e => by simp only [Protocol.run, Option.some.injEq] at e; exact e ▸ h
  | a :: as, σ, σ', h, e => by
    simp only [Protocol.run] at e
    split at e
    · next τ hs => exact Reachable.run (.step a h hs) e
    · cases e

end Concord.Protocol
