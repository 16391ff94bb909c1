import Verif.Clients.Props
/-!
# The primary's queue, its batches and the sequence numbers it gives out

bftengine/src/bftengine/ReplicaImp.cpp 396-530 (arrival of a request at the primary), 562-970 (prerequisites,
removal of duplicates, building and sending a batch), 1523-1540 (a batch finished by a worker thread),
3112-3215 (entering a view), 3330-3430 (end of a state transfer, stable checkpoints), 5286-5291, 5392, 5879;
RequestsBatchingLogic.cpp 49-164; messages/PrePrepareMsg.cpp 131-205.  The pending requests and the saved replies are
the clients manager of `Verif.Clients` (property C14).

Not modelled: validation of the request itself and read-only requests (C13, C39), the time service (C17), the commit
path chosen by the controller, metrics, the arithmetic on doubles of the adaptive policy (`adapt` is an arbitrary new
limit) and the wrap of 32-bit sizes.  `none` as the result of a step is an aborted process (`ConcordAssert`).
-/
set_option linter.unusedVariables false
namespace Concord.Batch
open Verif

/-- `BatchingPolicy`, bftengine/include/bftengine/ReplicaConfig.hpp; RequestsBatchingLogic.cpp:119-162 -/
inductive Policy where
  | selfAdjusted | byNum | bySize | adaptive
deriving DecidableEq, Repr

/-- configuration -/
structure Cfg where
  clients : Clients.Cfg
  me : Nat
  n : Nat
  policy : Policy
  /-- `prePrepareFinalizeAsyncEnabled` -/
  async : Bool
  /-- `concurrencyLevel` -/
  conc : Nat
  /-- `maxExternalMessageSize`, PrePrepareMsg.hpp:155-158 -/
  maxMsg : Nat
  /-- `batchingFactorCoefficient_` -/
  coeff : Nat
  /-- `maxInitialBatchSize_` -/
  maxInit : Nat
  /-- `maxNumOfRequestsInBatch` of the configuration -/
  maxNum : Nat
  /-- `maxBatchSizeInBytes_` -/
  maxBytes : Nat

/-- a request message as it stands in the queue: client, request sequence number, size of the message and of its span
context (ClientRequestMsg.hpp) -/
structure Req where
  client : Nat
  seq : Nat
  size : Nat
  span : Nat
deriving DecidableEq, Repr

/-- what identifies a request -/
abbrev Req.key (r : Req) : Nat × Nat := (r.client, r.seq)

/-- a PrePrepare message: view, sequence number, requests, and the bytes before the requests (header, span context and
correlation id), PrePrepareMsg.cpp:145-181 -/
structure PP where
  view : Nat
  seq : Nat
  reqs : List Req
  overhead : Nat
deriving DecidableEq, Repr

/-- total size of requests -/
def total (l : List Req) : Nat := (l.map (·.size)).sum

/-- the state of the replica as far as batching is concerned.  `accepted`, `made` and `sent` are history variables: the
requests pushed to the queue, the batches built and the PrePrepare messages sent, oldest first -/
structure St where
  cm : Clients.St
  /-- `requestsQueueOfPrimary`, oldest first -/
  queue : List Req
  /-- `primaryCombinedReqSize` -/
  combined : Nat
  view : Nat
  viewActive : Bool
  collecting : Bool
  pruning : Bool
  wedged : Bool
  /-- `getCheckpointToStopAt` -/
  stopAt : Option Nat
  /-- `primaryLastUsedSeqNum` -/
  lastUsed : Nat
  /-- `lastExecutedSeqNum` -/
  lastExec : Nat
  /-- `activeExecutions_` -/
  active : Nat
  /-- `lastStableSeqNum` -/
  lastStable : Nat
  /-- `numOfTransientPreprepareMsgs_` -/
  transient : Nat
  /-- batches handed to the worker threads -/
  flight : List PP
  /-- `batchingFactor_` -/
  factor : Nat
  /-- `maxNumberOfPendingRequestsInRecentHistory_` -/
  maxPend : Nat
  /-- `maxNumOfRequestsInBatch_` (changed by the adaptive policy) -/
  maxNum : Nat
  accepted : List Req
  made : List PP
  sent : List PP

/-- `kWorkWindowSize`, SysConsts.hpp:46 -/
def window : Nat := 300
/-- `MaxConcurrentFastPaths`, SysConsts.hpp:56 -/
def maxConcurrent : Nat := 75
/-- `maxPrimaryQueueSize`, SysConsts.hpp:69 -/
def maxQueue : Nat := 1500
/-- `sizeof(PrePrepareMsg::Header)`, PrePrepareMsg.hpp:34-54 -/
def ppHeader : Nat := 86
/-- `numeric_limits<uint16_t>::max()`, ReplicaImp.cpp:758 -/
def maxTransient : Nat := 65535

/-- a fresh replica in view 0 -/
def init (cfg : Cfg) : St :=
  { cm := Clients.init, queue := [], combined := 0, view := 0, viewActive := true, collecting := false, pruning := false,
    wedged := false, stopAt := none, lastUsed := 0, lastExec := 0, active := 0, lastStable := 0, transient := 0,
    flight := [], factor := 1, maxPend := 0, maxNum := cfg.maxNum, accepted := [], made := [], sent := [] }

/-- `isCurrentPrimary` -/
def primary (cfg : Cfg) (s : St) : Bool := decide (s.view % cfg.n = cfg.me)

/-- `isSeqNumToStopAt`, ReplicaImp.cpp:952-960 -/
def stopped (s : St) (q : Nat) : Bool :=
  s.pruning || s.wedged || (match s.stopAt with | some p => decide (p < q) | none => false)

/-- `canBecomePending`, ClientsManager.cpp:505-528 -/
def admissible (cfg : Cfg) (cm : Clients.St) (r : Req) : Bool := Clients.canBecomePending cfg.clients cm r.client r.seq

/-- `addPendingRequest`, ClientsManager.cpp:530-536 (the time and the correlation id of the entry are not tracked here);
its caller has just asked `canBecomePending` -/
def addPending (cfg : Cfg) (cm : Clients.St) (r : Req) : Clients.St :=
  Clients.addGuarded cfg.clients cm r.client r.seq 0 []

/-- `checkSendPrePrepareMsgPrerequisites`, ReplicaImp.cpp:562-609 -/
def check (cfg : Cfg) (s : St) : Option Bool :=
  if primary cfg s = false then some false
  else if s.collecting = true then some false
  else if s.viewActive = false then some false
  else if stopped s (s.lastUsed + s.transient + 1) = true then some false
  else if s.lastUsed + s.transient + 1 > s.lastStable + window then some false
  else if s.lastUsed + s.transient + 1 > s.lastExec + cfg.conc + s.active then some false
  else if s.lastUsed < s.lastExec + s.active then none
  else if s.lastUsed + 1 > s.lastExec + maxConcurrent + s.active then none
  else some (!s.queue.isEmpty)

/-- the loop of `removeDuplicatedRequestsFromRequestsQueue`: what stays in the queue and the combined size -/
def dropDup (cfg : Cfg) (cm : Clients.St) : List Req → Nat → List Req × Nat
  | [], c => ([], c)
  | r :: q, c => if admissible cfg cm r = true then (r :: q, c) else dropDup cfg cm q (c - r.size)

/-- `removeDuplicatedRequestsFromRequestsQueue`, ReplicaImp.cpp:611-622 -/
def removeDuplicated (cfg : Cfg) (s : St) : St :=
  { s with
    queue := (dropDup cfg s.cm s.queue s.combined).1
    combined := (dropDup cfg s.cm s.queue s.combined).2 }

/-- the batch under construction: the clients manager, the requests added, the bytes they use, the combined size -/
structure Acc where
  cm : Clients.St
  reqs : List Req
  used : Nat
  combined : Nat

/-- `addRequestToPrePrepareMessage`, ReplicaImp.cpp:710-729, with `PrePrepareMsg::addRequest`, PrePrepareMsg.cpp:192-205;
`cap` is the room for requests in the message.  The request leaves the queue in every case. -/
def addOne (cfg : Cfg) (cap : Nat) (a : Acc) (r : Req) : Acc :=
  if r.size ≤ cap - a.used ∧ admissible cfg a.cm r = true then
    { cm := addPending cfg a.cm r, reqs := a.reqs ++ [r], used := a.used + r.size, combined := a.combined - r.size }
  else { a with combined := a.combined - r.size }

/-- the loops of the three build functions, ReplicaImp.cpp:826-828, 844-846, 861-864: until the queue is empty or the
batch is full -/
def addLoop (cfg : Cfg) (cap : Nat) (full : Acc → Bool) : List Req → Acc → Acc × List Req
  | [], a => (a, [])
  | r :: q, a => if full a = true then (a, r :: q) else addLoop cfg cap full q (addOne cfg cap a r)

/-- when is the batch full -/
inductive Limit where
  /-- `buildPrePrepareMessage`, ReplicaImp.cpp:817-835: never -/
  | all
  /-- `buildPrePrepareMessageByRequestsNum`, ReplicaImp.cpp:839-849 -/
  | num (k : Nat)
  /-- `buildPrePrepareMessageByBatchSize`, ReplicaImp.cpp:853-868 -/
  | bytes (k : Nat)

/-- see `Limit` -/
def Limit.full : Limit → Acc → Bool
  | .all, _ => false
  | .num k, a => decide (k ≤ a.reqs.length)
  | .bytes k, a => decide (k ≤ a.used)

/-- bytes before the requests: header, span context and correlation id `"0" + to_string(s)`, PrePrepareMsg.cpp:139-159 -/
def overheadOf (seq span : Nat) : Nat := ppHeader + span + (1 + (Nat.toDigits 10 seq).length)

/-- room for requests in a new message, PrePrepareMsg.cpp:145-161 and 183-189: as much as the whole queue needs, but
not more than a message can carry -/
def capacity (cfg : Cfg) (combined overhead : Nat) : Nat :=
  if combined + overhead < cfg.maxMsg then combined else cfg.maxMsg - overhead

/-- the build functions, ReplicaImp.cpp:690-708 (`createPrePrepareMessage`), 817-868, with the end of
`finishAddingRequestsToPrePrepareMsg`, 736-815.  The batch returned is the one to send at once. -/
def build (cfg : Cfg) (lim : Limit) (s : St) : St × Option PP :=
  match s.queue with
  | [] => (s, none)
  | r :: q =>
    let ov := overheadOf (s.lastUsed + 1) r.span
    let res := addLoop cfg (capacity cfg s.combined ov) lim.full (r :: q) ⟨s.cm, [], 0, s.combined⟩
    let s1 : St := { s with
      cm := res.1.cm, queue := res.2, combined := res.1.combined }
    if res.1.reqs.isEmpty = true then (s1, none)
    else
      let pp : PP := ⟨s.view, s.lastUsed + 1, res.1.reqs, ov⟩
      if cfg.async = true then
        if s.transient + 1 < maxTransient then
          ({ s1 with
            transient := s.transient + 1, flight := s.flight ++ [pp], made := s.made ++ [pp] }, none)
        else (s1, none)
      else ({ s1 with
        made := s.made ++ [pp] }, some pp)

/-- `startConsensusProcess`, ReplicaImp.cpp:870-950; `early` is `isCreatedEarlier`.  `mainLog->get` aborts outside
the window (SequenceWithActiveWindow.hpp) -/
def start (cfg : Cfg) (s : St) (pp : PP) (early : Bool) : Option St :=
  if primary cfg s = false then some s
  else if s.lastStable < s.lastUsed + 1 ∧ s.lastUsed + 1 ≤ s.lastStable + window then
    some { s with
      lastUsed := s.lastUsed + 1
      sent := s.sent ++ [if early = true then { pp with seq := s.lastUsed + 1 } else pp] }
  else none

/-- `batchRequestsSelfAdjustedPolicy`, RequestsBatchingLogic.cpp:62-90: the smallest batch wanted -/
def minBatch (cfg : Cfg) (s : St) : Nat :=
  if 2 ≤ s.lastUsed + 1 - s.lastExec then
    (if (s.lastUsed + 1 - s.lastExec) * s.factor > cfg.maxInit then cfg.maxInit
     else (s.lastUsed + 1 - s.lastExec) * s.factor)
  else 1

/-- `batchRequestsSelfAdjustedPolicy`, RequestsBatchingLogic.cpp:62-90: history and factor -/
def adjust (cfg : Cfg) (s : St) : St :=
  let m := if s.queue.length > s.maxPend then s.queue.length else s.maxPend
  if s.queue.length < minBatch cfg s then { s with
    maxPend := m }
  else if (s.lastUsed + 1) % window = 0 then
    { s with
      factor := if m / cfg.coeff < 1 then 1 else m / cfg.coeff
      maxPend := 0 }
  else { s with
    maxPend := m }

/-- `buildPrePrepareMsgBatchByRequestsNum` and `...ByOverallSize` after the test of the queue: prerequisites, removal of
duplicates, build; ReplicaImp.cpp:632-635, 649-652 -/
def checkedBuild (cfg : Cfg) (lim : Limit) (s : St) : Option (St × Option PP) :=
  match check cfg s with
  | none => none
  | some false => some (s, none)
  | some true => some (build cfg lim (removeDuplicated cfg s))

/-- `batchRequests`, RequestsBatchingLogic.cpp:115-164 -/
def batchRequests (cfg : Cfg) (s : St) : Option (St × Option PP) :=
  if s.queue.isEmpty = true then some (s, none)
  else match cfg.policy with
    | .selfAdjusted =>
      if s.queue.length < minBatch cfg s then some (adjust cfg s, none) else some (build cfg .all (adjust cfg s))
    | .bySize => if s.combined < cfg.maxBytes then some (s, none) else checkedBuild cfg (.bytes cfg.maxBytes) s
    | .byNum =>
      if s.maxNum = 0 then none
      else if s.queue.length < s.maxNum then some (s, none) else checkedBuild cfg (.num s.maxNum) s
    | .adaptive =>
      if s.maxNum = 0 then none
      else if s.queue.length < s.maxNum then some (s, none) else checkedBuild cfg (.num s.maxNum) s

/-- send what was built -/
def sendBuilt (cfg : Cfg) : St × Option PP → Option St
  | (s, none) => some s
  | (s, some pp) => start cfg s pp false

/-- `tryToSendPrePrepareMsg`, ReplicaImp.cpp:655-688 -/
def tryToSend (cfg : Cfg) (logic : Bool) (s : St) : Option St :=
  match check cfg s with
  | none => none
  | some false => some s
  | some true =>
    if logic = true then
      match batchRequests cfg (removeDuplicated cfg s) with
      | none => none
      | some r => sendBuilt cfg r
    else sendBuilt cfg (build cfg .all (removeDuplicated cfg s))

/-- what happens to the replica -/
inductive Act where
  /-- a request arrives, ReplicaImp.cpp:396-530 -/
  | request (r : Req)
  /-- the flush timer, RequestsBatchingLogic.cpp:49-59 (only if the policy is not self adjusted, line 41) -/
  | flush
  /-- end of an execution, ReplicaImp.cpp:5392 and 5879 -/
  | retry
  /-- a batch without asking the policy, ReplicaImp.cpp:3509, 5370, 5840, 5871 -/
  | force
  /-- a worker thread has finished the batch at position `k`, ReplicaImp.cpp:1523-1540 -/
  | finished (k : Nat)
  /-- another call on the clients manager (execution, replies, recovery) -/
  | clients (o : Clients.Op)
  /-- progress of the execution: new `lastExecutedSeqNum` and `activeExecutions_` -/
  | executed (e a : Nat)
  /-- `onSeqNumIsStable`, ReplicaImp.cpp:3395-3430 -/
  | stable (q : Nat)
  /-- `startCollectingState`, ReplicaImp.cpp:5286-5291 -/
  | collect
  /-- `onTransferringCompleteImp`, ReplicaImp.cpp:3300-3365: the new checkpoint -/
  | transferred (q : Nat)
  /-- the view is left for view `v` -/
  | leave (v : Nat)
  /-- `onNewView`, ReplicaImp.cpp:3040-3230: the view becomes active, the last sequence number used is `q` -/
  | enter (q : Nat)
  /-- the control state manager -/
  | control (pruning wedged : Bool) (stopAt : Option Nat)
  /-- a new limit of the adaptive policy, RequestsBatchingLogic.cpp:92-113 -/
  | adapt (k : Nat)

/-- the part of `onMessage<ClientRequestMsg>` that concerns the primary, ReplicaImp.cpp:456-493 -/
def onRequest (cfg : Cfg) (s : St) (r : Req) : Option St :=
  if (primary cfg s && stopped s (s.lastUsed + 1)) || stopped s (s.lastExec + s.active + 1) then some s
  else if s.viewActive = false then some s
  else if Clients.hasReply cfg.clients s.cm r.client r.seq = true then some s
  else if primary cfg s = false then some s
  else if maxQueue ≤ s.queue.length then some s
  else if admissible cfg s.cm r = true then
    tryToSend cfg true { s with
      combined := s.combined + r.size, queue := s.queue ++ [r], accepted := s.accepted ++ [r] }
  else some s

/-- removal of the batch at position `k` from those in flight -/
def onFinished (cfg : Cfg) (s : St) (k : Nat) : Option St :=
  match s.flight[k]? with
  | none => some s
  | some pp =>
    let s1 : St := { s with
      flight := s.flight.eraseIdx k, transient := s.transient - 1 }
    if s.collecting || s.pruning then some s1 else start cfg s1 pp true

/-- all pending requests removed, ClientsManager.cpp:581-584 -/
def clearPending (cm : Clients.St) : Clients.St :=
  { cm with
    info := fun j => { cm.info j with
      reqs := [] } }

/-- the loop that empties the queue, ReplicaImp.cpp:3210-3213: the combined size at the end -/
def emptied : List Req → Nat → Nat
  | [], c => c
  | r :: q, c => emptied q (c - r.size)

/-- one step -/
def step (cfg : Cfg) (s : St) : Act → Option St
  | .request r => onRequest cfg s r
  | .flush => if cfg.policy ≠ .selfAdjusted ∧ primary cfg s = true then tryToSend cfg false s else some s
  | .retry => if primary cfg s = true ∧ s.queue ≠ [] then tryToSend cfg true s else some s
  | .force => tryToSend cfg false s
  | .finished k => onFinished cfg s k
  | .clients o => (Clients.step cfg.clients s.cm o).map (fun cm => { s with
      cm := cm })
  | .executed e a => some { s with
      lastExec := e, active := a }
  | .stable q => some { s with
      lastStable := q, lastUsed := if q > s.lastUsed then q else s.lastUsed }
  | .collect => some { s with
      collecting := true, cm := clearPending s.cm }
  | .transferred q => some { s with
      collecting := false, lastExec := q, active := 0, lastUsed := if q > s.lastUsed then q else s.lastUsed }
  | .leave v => some { s with
      view := v, viewActive := false }
  | .enter q => some { s with
      viewActive := true, lastUsed := q, cm := clearPending s.cm, queue := [], combined := emptied s.queue s.combined }
  | .control p w st => some { s with
      pruning := p, wedged := w, stopAt := st }
  | .adapt k => some { s with
      maxNum := k }

/-- a run -/
def run (cfg : Cfg) : St → List Act → Option St
  | s, [] => some s
  | s, a :: as => match step cfg s a with
    | none => none
    | some t => run cfg t as

end Concord.Batch
