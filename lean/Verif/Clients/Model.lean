import Verif.Util.Bytes
/-!
# Clients manager: pending requests, retained replies, reserved pages

bftengine/src/bftengine/ClientsManager.cpp and .hpp, with the reserved pages it writes
(bftengine/include/bftengine/ReservedPagesClient.hpp, bcstatetransfer/BCStateTran.cpp:688-759,
bcstatetransfer/InMemoryDataStore.cpp:153-186).

Not modelled: mutexes (the calls are the atomic steps), logging and metrics, the replica specific information
(`rsiManager_`, `rsiLength = 0`), 32-bit overflow of page ids, refusal of page writes while state is being fetched.
`none` as the result of an operation is an aborted process (`ConcordAssert`).
-/
namespace Verif.Clients
open Verif.Bytes

/-- configuration read by the constructor, ClientsManager.cpp:193-238 -/
structure Cfg where
  /-- `sizeOfReservedPage()` -/
  pageSize : Nat
  /-- `maxReplySize_` -/
  maxReply : Nat
  /-- `maxNumOfReqsPerClient_` -/
  maxReqs : Nat
  /-- `clientIds_`, a `std::set`: ascending, without repetition -/
  ids : List Nat
  /-- `internalClients_` -/
  internal : List Nat

/-- `RequestInfo`, ClientsManager.hpp:225-232 -/
structure ReqInfo where
  time : Nat
  cid : Bytes
  committed : Bool
deriving DecidableEq, Repr

/-- per client data `ClientInfo`, ClientsManager.hpp:283-287: `requestsMap_` (a map, as a list of pairs with distinct
keys) and `repliesBiMap_` (pairs request sequence number, index in batch) -/
structure Info where
  reqs : List (Nat × ReqInfo)
  reps : List (Nat × Nat)
deriving DecidableEq, Repr

/-- the manager together with the reserved pages of this component (page id relative to `my_offset()`) -/
structure St where
  info : Nat → Info
  pages : Nat → Option Bytes

/-- constructor: no requests, no replies, ClientsManager.cpp:226-233 -/
def init : St := { info := fun _ => ⟨[], []⟩, pages := fun _ => none }

/-- change the data of one client -/
def St.setInfo (s : St) (id : Nat) (i : Info) : St := { s with info := fun j => if j = id then i else s.info j }

/-- is the key in `requestsMap_` -/
def Info.hasReq (i : Info) (seq : Nat) : Bool := i.reqs.any (fun p => p.1 == seq)

/-- is the sequence number in the left map of `repliesBiMap_` (`find`, `findSafe`), ClientsManager.cpp:169-176 -/
def Info.hasRep (i : Info) (seq : Nat) : Bool := i.reps.any (fun p => p.1 == seq)

/-- `RequestsInfo::emplaceSafe`, ClientsManager.cpp:31-39 -/
def Info.emplace (i : Info) (seq time : Nat) (cid : Bytes) : Info :=
  if i.hasReq seq then i else { i with reqs := (seq, ⟨time, cid, false⟩) :: i.reqs }

/-- largest key of `requestsMap_`, 0 when empty, ClientsManager.cpp:47-52 -/
def maxKey (l : List (Nat × ReqInfo)) : Nat := l.foldl (fun m p => if p.1 > m then p.1 else m) 0

/-- the constant `maxNumOfRequestsInBatch`, SysConsts.hpp:68 -/
def maxInBatch : Nat := 4096

/-- `removeRequestsOutOfBatchBoundsSafe`, ClientsManager.cpp:46-61 -/
def Info.removeOutOfBounds (i : Info) (seq : Nat) : Info :=
  if i.hasReq seq then i
  else if i.reqs.length = maxInBatch ∧ maxKey i.reqs > seq then
    { i with reqs := i.reqs.filter (fun p => p.1 != maxKey i.reqs) }
  else i

/-- `removeOldPendingReqsSafe`, ClientsManager.cpp:63-73 -/
def Info.removeOld (i : Info) (seq : Nat) : Info := { i with reqs := i.reqs.filter (fun p => !decide (p.1 ≤ seq)) }

/-- `removePendingForExecutionRequestSafe`, ClientsManager.cpp:75-82 -/
def Info.removeReq (i : Info) (seq : Nat) : Info := { i with reqs := i.reqs.filter (fun p => p.1 != seq) }

/-- `RequestsInfo::markRequestAsCommitted`, ClientsManager.cpp:99-107 -/
def Info.mark (i : Info) (seq : Nat) : Info :=
  { i with reqs := i.reqs.map (fun p => if p.1 = seq then (p.1, { p.2 with committed := true }) else p) }

/-- `deleteReplyIfNeededSafe`, ClientsManager.cpp:137-163: the sequence number found at the index is erased from the
left map, but only when it is not zero.  The new sequence number is used for logging only. -/
def deleteRep (idx : Nat) (reps : List (Nat × Nat)) : List (Nat × Nat) :=
  match reps.find? (fun p => p.2 == idx) with
  | none => reps
  | some p => if p.1 ≠ 0 then reps.filter (fun q => q.1 != p.1) else reps

/-- `insertOrAssignSafe`, ClientsManager.cpp:165-168: `boost::bimap::insert` does nothing when either key is present -/
def insertRep (seq idx : Nat) (reps : List (Nat × Nat)) : List (Nat × Nat) :=
  if reps.any (fun p => p.1 == seq || p.2 == idx) then reps else (seq, idx) :: reps

/-- `RepliesInfo::getIndex`, ClientsManager.cpp:178-181 -/
def getIndex (seq : Nat) (reps : List (Nat × Nat)) : Nat :=
  match reps.find? (fun p => p.1 == seq) with
  | some p => p.2
  | none => 0

/-! ## reserved pages -/

/-- `reservedPagesPerRequest`, ClientsManager.cpp:240-246 -/
def perReq (c : Cfg) : Nat := c.maxReply / c.pageSize + (if c.maxReply % c.pageSize ≠ 0 then 1 else 0)

/-- `reservedPagesPerClient`, ClientsManager.cpp:248-255 -/
def perClient (c : Cfg) : Nat := perReq c * c.maxReqs + 1

/-- `getKeyPageId`, ClientsManager.hpp:214-216, with `clientIdsToReservedPages_` of ClientsManager.cpp:222-225 -/
def keyPage (c : Cfg) (id : Nat) : Nat := c.ids.idxOf id * perClient c

/-- `getReplyFirstPageId`, ClientsManager.hpp:212 -/
def replyPage (c : Cfg) (id : Nat) : Nat := keyPage c id + 1

/-- `requestOffset`, a `uint16_t`, ClientsManager.cpp:346, 418 -/
def reqOffset (c : Cfg) (idx : Nat) : Nat := (idx * perReq c) % 65536

/-- `saveReservedPage` down to `setPendingResPage`, InMemoryDataStore.cpp:153-171: shorter pages are filled with zeros -/
def savePage (c : Cfg) (pg : Nat → Option Bytes) (n : Nat) (b : Bytes) : Nat → Option Bytes :=
  fun j => if j = n then some (b ++ List.replicate (c.pageSize - b.length) 0) else pg j

/-- number of pages and size of the last one, ClientsManager.cpp:355-371 and 433-439 -/
def numPages (c : Cfg) (len : Nat) : Nat := len / c.pageSize + (if len % c.pageSize ≠ 0 then 1 else 0)

/-- see `numPages` -/
def lastSize (c : Cfg) (len : Nat) : Nat := if len % c.pageSize ≠ 0 then len % c.pageSize else c.pageSize

/-- size of page `i` of a message of `len` bytes, ClientsManager.cpp:377, 446 -/
def pageLen (c : Cfg) (len i : Nat) : Nat := if i < numPages c len - 1 then c.pageSize else lastSize c len

/-- the loop writing the pages, ClientsManager.cpp:374-380: pages `i`, `i+1`, … (`k` of them) -/
def savePages (c : Cfg) (first : Nat) (msg : Bytes) : (i k : Nat) → (Nat → Option Bytes) → (Nat → Option Bytes)
  | _, 0, pg => pg
  | i, k + 1, pg =>
    savePages c first msg (i + 1) k
      (savePage c pg (first + i) ((msg.drop (i * c.pageSize)).take (pageLen c msg.length i)))

/-- the loop reading the pages, ClientsManager.cpp:444-448; a missing page would leave uninitialized memory: `none` -/
def loadPages (c : Cfg) (first len : Nat) (pg : Nat → Option Bytes) : (i k : Nat) → Option Bytes
  | _, 0 => some []
  | i, k + 1 =>
    match pg (first + i) with
    | none => none
    | some p =>
      match loadPages c first len pg (i + 1) k with
      | none => none
      | some r => some (p.take (pageLen c len i) ++ r)

/-- a reply as sent to the client -/
structure Reply where
  primary : Nat
  seq : Nat
  result : Nat
  data : Bytes
deriving DecidableEq, Repr

/-- `sizeof(ClientReplyMsgHeader)`, ClientMsgs.hpp:53-66 (packed) -/
def hdrLen : Nat := 28

/-- `MsgCode::ClientReply` -/
def replyCode : Nat := 800

/-- the message bytes written to the pages (primary id 0), ClientReplyMsg.cpp:27-32, 47-53 -/
def encode (seq result : Nat) (data : Bytes) : Bytes :=
  leEncode 2 replyCode ++ leEncode 4 0 ++ leEncode 2 0 ++ leEncode 8 seq ++ leEncode 4 result ++
    leEncode 4 data.length ++ leEncode 4 0 ++ data

/-- header fields of a byte image -/
def fieldAt (b : Bytes) (off len : Nat) : Nat := leDecode ((b.drop off).take len)
def msgTypeOf (b : Bytes) : Nat := fieldAt b 0 2
def primaryOf (b : Bytes) : Nat := fieldAt b 6 2
def seqOf (b : Bytes) : Nat := fieldAt b 8 8
def resultOf (b : Bytes) : Nat := fieldAt b 16 4
def replyLenOf (b : Bytes) : Nat := fieldAt b 20 4

/-- `allocateNewReplyMsgAndWriteToStorage`, ClientsManager.cpp:325-391 -/
def newReply (c : Cfg) (s : St) (id seq primary idx result : Nat) (data : Bytes) : Option (St × Option Reply) :=
  if ¬ idx < c.maxReqs then none
  else if ¬ id ∈ c.ids then some (s, none)
  else
    let i := s.info id
    let i' : Info := { i with reps := insertRep seq idx (deleteRep idx i.reps) }
    let msg := encode seq result data
    if msg.length / c.pageSize > perClient c then none
    else
      let pg := savePages c (replyPage c id + reqOffset c idx) msg 0 (numPages c msg.length) s.pages
      some ({ (s.setInfo id i') with pages := pg }, some ⟨primary, seq, result, data⟩)

/-- `allocateReplyFromSavedOne`, ClientsManager.cpp:399-473.  `none`: abort or read of a missing page;
`some none`: null pointer -/
def savedReply (c : Cfg) (s : St) (id seq primary : Nat) : Option (Option Reply) :=
  if ¬ id ∈ c.ids then some none
  else
    let idx := getIndex seq (s.info id).reps
    let first := replyPage c id + reqOffset c idx
    match s.pages first with
    | none => none
    | some h =>
      if msgTypeOf h ≠ replyCode then none
      else if primaryOf h ≠ 0 then none
      else if replyLenOf h = 0 then none
      else if replyLenOf h + hdrLen > c.maxReply then none
      else
        let len := hdrLen + replyLenOf h
        match loadPages c first len s.pages 0 (numPages c len) with
        | none => none
        | some m =>
          if seqOf m ≠ seq then (if c.maxReqs = 1 then none else some none)
          else some (some ⟨primary, seqOf m, resultOf m, m.drop hdrLen⟩)

/-- one iteration of the loop over indices of `loadInfoFromReservedPages`, ClientsManager.cpp:277-294 -/
def loadOne (c : Cfg) (pg : Nat → Option Bytes) (id : Nat) (i : Info) (idx : Nat) : Option Info :=
  match pg (replyPage c id + idx * perReq c) with
  | none => some i
  | some h =>
    if ¬ (msgTypeOf h = 0 ∨ msgTypeOf h = replyCode) then none
    else if primaryOf h ≠ 0 then none
    else if replyLenOf h + hdrLen > c.maxReply then none
    else
      let i1 : Info := { i with reps := insertRep (seqOf h) idx (deleteRep idx i.reps) }
      some (i1.removeOld (seqOf h))

/-- the loop over indices -/
def loadLoop (c : Cfg) (pg : Nat → Option Bytes) (id : Nat) : (idx k : Nat) → Info → Option Info
  | _, 0, i => some i
  | idx, k + 1, i =>
    match loadOne c pg id i idx with
    | none => none
    | some i' => loadLoop c pg id (idx + 1) k i'

/-- the loop over clients of `loadInfoFromReservedPages`, ClientsManager.cpp:262-297 (public keys are not modelled) -/
def loadClients (c : Cfg) (pg : Nat → Option Bytes) : List Nat → (Nat → Info) → Option (Nat → Info)
  | [], f => some f
  | id :: t, f =>
    if id ∈ c.internal then loadClients c pg t f
    else match loadLoop c pg id 0 c.maxReqs (f id) with
      | none => none
      | some i => loadClients c pg t (fun j => if j = id then i else f j)

/-- `loadInfoFromReservedPages` -/
def loadInfo (c : Cfg) (s : St) : Option St :=
  match loadClients c s.pages c.ids s.info with
  | none => none
  | some f => some { s with info := f }

/-! ## queries -/

/-- `hasReply`, ClientsManager.cpp:300-311 -/
def hasReply (c : Cfg) (s : St) (id seq : Nat) : Bool := decide (id ∈ c.ids) && (s.info id).hasRep seq

/-- `isClientRequestInProcess`, ClientsManager.cpp:489-500 -/
def inProcess (c : Cfg) (s : St) (id seq : Nat) : Bool := decide (id ∈ c.ids) && (s.info id).hasReq seq

/-- `isPending`, ClientsManager.cpp:502-509 and 93-97 -/
def isPending (c : Cfg) (s : St) (id seq : Nat) : Bool :=
  decide (id ∈ c.ids) && (match (s.info id).reqs.find? (fun p => p.1 == seq) with
    | some p => !p.2.committed
    | none => false)

/-- `canBecomePending`, ClientsManager.cpp:514-538 -/
def canBecomePending (c : Cfg) (s : St) (id seq : Nat) : Bool :=
  if ¬ id ∈ c.ids then false
  else if (s.info id).reqs.length = c.maxReqs then false
  else if (s.info id).hasReq seq then false
  else if (s.info id).hasRep seq then false
  else true

/-- `earliestTime > time`; `none` is `MaxTime` -/
def laterThan (a : Option Nat) (t : Nat) : Bool := match a with | none => true | some u => decide (u > t)

/-- `RequestsInfo::infoOfEarliestPendingRequest`, ClientsManager.cpp:109-118, for one client; `none` is `MaxTime`,
`MinTime` is 0 -/
def earliestReq (acc : Option Nat) (l : List (Nat × ReqInfo)) : Option Nat :=
  l.foldl (fun a p => if p.2.time ≠ 0 ∧ laterThan a p.2.time = true ∧ p.2.committed = false
    then some p.2.time else a) acc

/-- `infoOfEarliestPendingRequest`, ClientsManager.cpp:593-604, over all clients (the time only) -/
def earliest (c : Cfg) (s : St) : Option Nat := c.ids.foldl (fun a id => earliestReq a (s.info id).reqs) none

/-! ## operations as one step relation -/

/-- calls made on the manager -/
inductive Op where
  /-- `addPendingRequest`; every caller asks `canBecomePending` first (ReplicaImp.cpp:499-500, 714-716, 1119-1122) -/
  | add (id seq time : Nat) (cid : Bytes)
  | mark (id seq : Nat)
  | outOfBounds (id seq : Nat)
  | remove (id seq : Nat)
  | clear
  | deleteReply (id idx : Nat)
  | reply (id seq primary idx result : Nat) (data : Bytes)
  /-- `setClientPublicKey`: the serialized key goes to the key page, ClientsManager.cpp:475-487 -/
  | setKey (id : Nat) (key : Bytes)
  /-- `loadInfoFromReservedPages` at start (ReplicaImp.cpp:4623) or after a state transfer, which replaced the pages -/
  | load (pages : Nat → Option Bytes)

/-- `addPendingRequest` as called: guarded by `canBecomePending` -/
def addGuarded (c : Cfg) (s : St) (id seq time : Nat) (cid : Bytes) : St :=
  if canBecomePending c s id seq then s.setInfo id ((s.info id).emplace seq time cid) else s

/-- one call; operations of `clientsInfo_[id]` on an unknown id insert an entry with null pointers and are
undefined (ClientsManager.hpp:149-170), the model requires a valid id and does nothing otherwise -/
def step (c : Cfg) (s : St) : Op → Option St
  | .add id seq time cid => some (addGuarded c s id seq time cid)
  | .mark id seq => if id ∈ c.ids then some (s.setInfo id ((s.info id).mark seq)) else some s
  | .outOfBounds id seq => if id ∈ c.ids then some (s.setInfo id ((s.info id).removeOutOfBounds seq)) else some s
  | .remove id seq => if id ∈ c.ids then some (s.setInfo id ((s.info id).removeReq seq)) else some s
  | .clear => some { s with info := fun j => { s.info j with reqs := [] } }
  | .deleteReply id idx =>
    if id ∈ c.ids then some (s.setInfo id { s.info id with reps := deleteRep idx (s.info id).reps }) else some s
  | .reply id seq primary idx result data => (newReply c s id seq primary idx result data).map (·.1)
  | .setKey id key =>
    if id ∈ c.ids then (if key.length ≤ c.pageSize then some { s with pages := savePage c s.pages (keyPage c id) key } else none)
    else some s
  | .load pg => loadInfo c { s with pages := pg }

/-- a sequence of calls -/
def run (c : Cfg) : St → List Op → Option St
  | s, [] => some s
  | s, o :: os => match step c s o with
    | none => none
    | some s' => run c s' os

end Verif.Clients
