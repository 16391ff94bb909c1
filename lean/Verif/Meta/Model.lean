import Verif.Util.Bytes
/-!
# Model of the replica's metadata storage (C34)

`PersistentStorageImp` (bftengine/src/bftengine/PersistentStorageImp.cpp) over `DBMetadataStorage`
(bftengine/src/bftengine/DbMetadataStorage.cpp) over a key-value store.

Simplifications, valid for the whole file:
* the store is a total function from object ids to values; one `put`, `multiPut` or `multiDel` of the store is one atomic
  step (RocksDB `WriteBatch`), and what survives a power failure is a prefix of these steps that contains every
  step up to the last one written with `sync`;
* sequence and view numbers are natural numbers (the code uses `int64_t` and asserts that they are not negative);
* a failed `ConcordAssert` and an exception that leaves the storage class end the process (`none`);
* the buffers of `pre_allocated_mem_buffers_` are reused and not cleared, so what is behind a value that was read is
  an arbitrary byte string `junk`;
* the fields of consensus messages that the setters check are read by uninterpreted functions of the message.
-/
namespace Verif.Meta
open Verif.Bytes

/-- a message object: `sender_` and the `msgSize_` bytes of `msgBody_`, MessageBase.hpp:122-129 -/
structure Msg where
  sender : Nat
  body : Bytes
deriving DecidableEq

/-- what the storage is configured with -/
structure Cfg where
  /-- `ReplicaConfig::maxExternalMessageSize` -/
  maxExt : Nat
  /-- `maxMessageSize<PrepareFullMsg>()`, `maxMessageSize<CommitFullMsg>()`, SignedShareMsgs.hpp:126-128, 176-178 -/
  maxFull : Nat
  /-- `maxMessageSize<FullCommitProofMsg>()` -/
  maxFcp : Nat
  numReplicas : Nat
  f : Nat
  c : Nat
  /-- `numPrinciples_` -/
  numPrinc : Nat
  /-- `maxClientBatchSize_` -/
  batch : Nat
  /-- `DB_CHECKPOINT_METADATA_MAX_SIZE` -/
  maxDbCk : Nat
  /-- `viewNumber()`, `seqNumber()`, `newView()` of a message -/
  vw : Msg → Nat
  sq : Msg → Nat
  nv : Msg → Nat
  /-- `newViewMsg->elementsCount()` -/
  cnt : Msg → Nat
  /-- `newViewMsg->includesViewChangeFromReplica(vc->idOfGeneratedReplica(), digest of vc)` -/
  incl : Msg → Msg → Bool

/-- `viewChangeMsgsNum`, PersistentStorageDescriptors.hpp:146 -/
def Cfg.vcNum (g : Cfg) : Nat := 2 * g.f + 2 * g.c + 1

/-! ## Messages in local buffers, MessageBase.cpp:199-295 -/

/-- `magicNumOfRawFormat`, MessageBase.hpp:131 -/
def magic : Nat := 0x5555897B

/-- `serializeMsg` and `writeObjAndMsgToLocalBuffer`, MessageBase.cpp:199-218, 262-278; the header is packed
(MessageBase.hpp:151-158) -/
def serMsg : Option Msg → Bytes
  | none => [0]
  | some m => 1 :: (leEncode 4 magic ++ leEncode 4 m.body.length ++ leEncode 2 m.sender ++ m.body)

/-- `createObjAndMsgFromLocalBuffer`, MessageBase.cpp:229-252: the message and the rest of the buffer; `none` when it
returns `nullptr` (the caller asserts, line 290) or reads outside the buffer -/
def deObj (g : Cfg) (bufLen : Nat) (r : Bytes) : Option (Msg × Bytes) :=
  if bufLen ≤ 10 then none
  else match slice r 0 4, slice r 4 4, slice r 8 2 with
    | some mg, some sz, some sn =>
      if leDecode mg = magic ∧ leDecode sz ≠ 0 ∧ leDecode sz ≤ g.maxExt ∧ leDecode sz + 10 ≤ bufLen then
        match slice r 10 (leDecode sz) with
        | some b => some (⟨leDecode sn, b⟩, r.drop (10 + leDecode sz))
        | none => none
      else none
    | _, _, _ => none

/-- `deserializeMsg`, MessageBase.cpp:280-295: the message and the rest of the buffer -/
def deMsg (g : Cfg) (bufLen : Nat) : Bytes → Option (Option Msg × Bytes)
  | [] => none
  | fl :: r => if fl = 0 then some (none, r) else (deObj g bufLen r).map (fun x => (some x.1, x.2))

/-- an integer of `k` bytes at the start of the buffer -/
def deNat (k : Nat) (r : Bytes) : Option (Nat × Bytes) := (slice r 0 k).map (fun b => (leDecode b, r.drop k))

/-- a `bool` at the start of the buffer -/
def deBool : Bytes → Option (Bool × Bytes)
  | [] => none
  | b :: r => some (b != 0, r)

def serBool (b : Bool) : Bytes := if b then [1] else [0]

/-- `maxMessageSizeInLocalBuffer`, MessageBase.hpp:186-189, of a message type of at most `n` bytes -/
def inBuf (n : Nat) : Nat := n + 10

/-! ## Descriptors, PersistentStorageDescriptors.hpp/.cpp -/

/-- an element of `DescriptorOfLastExitFromView::elements` -/
structure PrevView where
  prePrepare : Option Msg
  prepareFull : Option Msg
  hasAll : Bool
deriving DecidableEq

/-- `DescriptorOfLastExitFromView`, PersistentStorageDescriptors.hpp:36-112 -/
structure ExitDesc where
  isDefault : Bool
  view : Nat
  lastStable : Nat
  lastExecuted : Nat
  lower : Nat
  myVc : Option Msg
  elements : List PrevView
  complaints : List (Option Msg)
deriving DecidableEq

def ExitDesc.empty : ExitDesc := ⟨true, 0, 0, 0, 0, none, [], []⟩

/-- `DescriptorOfLastNewView`, PersistentStorageDescriptors.hpp:119-193 -/
structure NewDesc where
  isDefault : Bool
  view : Nat
  maxSeq : Nat
  lower : Nat
  newView : Option Msg
  myVc : Option Msg
  vcs : List (Option Msg)
deriving DecidableEq

/-- the default constructor, PersistentStorageDescriptors.cpp:210-213 -/
def NewDesc.empty (g : Cfg) : NewDesc := ⟨true, 0, 0, 0, none, none, List.replicate g.vcNum none⟩

/-- `Bitmap`, Bitmap.hpp -/
structure Bits where
  n : Nat
  data : Bytes
deriving DecidableEq

/-- `DescriptorOfLastExecution`, PersistentStorageDescriptors.hpp:197-219 -/
structure ExecDesc where
  seq : Nat
  bits : Bits
  ticks : Nat
deriving DecidableEq

def ExecDesc.empty : ExecDesc := ⟨0, ⟨0, []⟩, 0⟩

/-- `DescriptorOfLastExitFromView::simpleParamsSize`, PersistentStorageDescriptors.hpp:67-74 -/
def Cfg.exitSimple (g : Cfg) : Nat := 1 + 8 + 8 + 8 + 8 + 1 + inBuf (g.maxExt + 1024) + 4 + 4
/-- `maxComplaintSize`, line 76 -/
def Cfg.maxComplaint (g : Cfg) : Nat := inBuf (g.maxExt + 1024)
/-- `maxElementSize`, lines 78-81 and ViewsManager.cpp:41-44 -/
def Cfg.maxElem (g : Cfg) : Nat := 2 + (inBuf g.maxExt + inBuf g.maxFull + 1)
/-- `DescriptorOfLastNewView::simpleParamsSize`, lines 150-155 -/
def Cfg.newSimple (g : Cfg) : Nat := 1 + 8 + 8 + 2 + 8 + inBuf (g.maxExt + 1024) + inBuf (g.maxExt + 1024)
/-- `DescriptorOfLastNewView::maxElementSize`, lines 157-160 -/
def Cfg.maxVc (g : Cfg) : Nat := 1 + inBuf (g.maxExt + 1024)
/-- `DescriptorOfLastExecution::maxSize`, lines 208-211: 4096 requests in a batch at most -/
def maxExec : Nat := 8 + (4 + (4096 + 7) / 8) + 8
/-- `DescriptorOfLastStableCheckpoint::maxSize`, lines 232-234 -/
def Cfg.maxStable (g : Cfg) : Nat := 2 + inBuf (g.maxExt + 1024) * g.numReplicas

/-- `serializeSimpleParams`, PersistentStorageDescriptors.cpp:50-83 -/
def serExitSimple (d : ExitDesc) : Bytes :=
  serBool d.isDefault ++ leEncode 8 d.view ++ leEncode 8 d.lastStable ++ leEncode 8 d.lastExecuted ++ leEncode 8 d.lower ++
    serMsg d.myVc ++ leEncode 4 d.elements.length ++ leEncode 4 d.complaints.length

/-- `serializeElement`, lines 85-99 -/
def serElem (e : PrevView) : Bytes := serMsg e.prePrepare ++ serMsg e.prepareFull ++ serBool e.hasAll

/-- `serializeSimpleParams`, lines 251-278 -/
def serNewSimple (d : NewDesc) : Bytes :=
  serBool d.isDefault ++ leEncode 8 d.view ++ leEncode 8 d.maxSeq ++ leEncode 8 d.lower ++ serMsg d.newView ++ serMsg d.myVc

/-- `serializeElement`, lines 280-287 -/
def serVc (d : NewDesc) (i : Nat) : Bytes := serMsg (d.vcs.getD i none)

/-- `DescriptorOfLastExecution::serialize`, lines 350-367, and `Bitmap::writeToBuffer`, Bitmap.hpp:153-161 -/
def serExec (d : ExecDesc) : Bytes := leEncode 8 d.seq ++ leEncode 4 d.bits.n ++ d.bits.data ++ leEncode 8 d.ticks

/-- `DescriptorOfLastStableCheckpoint::serialize`, lines 401-415 -/
def serStable (l : List (Option Msg)) : Bytes := leEncode 2 l.length ++ (l.map serMsg).flatten

/-! ## Object ids, PersistentStorageImp.hpp:52-108 and PersistentStorageWindows.hpp:29-38, 113-118 -/

def idVersion : Nat := 2
def idLastExec : Nat := 3
def idPrimary : Nat := 4
def idLower : Nat := 5
def idLastView : Nat := 6
def idLastStable : Nat := 7
def idErase : Nat := 9
def idUser : Nat := 10
def idEpoch : Nat := 11
def idDbCk : Nat := 12
/-- `kWorkWindowSize` -/
def W : Nat := 300
/-- `checkpointWindowSize` -/
def CW : Nat := 150
/-- `checkWinSize` -/
def ckItems : Nat := 3
/-- `BEGINNING_OF_SEQ_NUM_WINDOW = CONST_METADATA_PARAMETERS_NUM + reservedSimpleParamsNum` -/
def idSeq : Nat := 13 + 499
/-- `BEGINNING_OF_CHECK_WINDOW` -/
def idCk : Nat := idSeq + (W * 6 + 1)
/-- `WIN_PARAMETERS_NUM` -/
def idWinEnd : Nat := idCk + (ckItems * 2 + 1)
/-- `LAST_EXIT_FROM_VIEW_DESC` -/
def idExit : Nat := idWinEnd + 3000
/-- `LAST_COMPLAINTS_DESC` -/
def idComplaints : Nat := idExit + (W + 1)
/-- `LAST_EXEC_DESC` -/
def idExec : Nat := idComplaints + 300 + 1
def idStable : Nat := idExec + 1
def idNew : Nat := idStable + 1
/-- `REPLICA_SPECIFIC_INFO_BASE + viewChangeMsgsNum` -/
def Cfg.idRsi (g : Cfg) : Nat := idNew + 1 + g.vcNum

/-! ## `DBMetadataStorage` -/

abbrev Db := Nat → Option Bytes

def Db.put (d : Db) (id : Nat) (v : Bytes) : Db := fun i => if i = id then some v else d i

/-- the store after the batch was written -/
def Db.over (d b : Db) : Db := fun i => match b i with
  | some v => some v
  | none => d i

/-- `numOfObjects`, a `uint16_t`: PersistentStorageImp.cpp:95-149 fills ids 2 .. 9999 and the replica specific
information, and line 147 subtracts 2 from their number -/
def Cfg.objs (g : Cfg) : Nat := (max 10000 (g.idRsi + g.numPrinc * g.batch) - 2 - 2) % 65536

/-- the largest size of an object, PersistentStorageImp.cpp:102-146; 0 for the ids nothing is stored under -/
def Cfg.size (g : Cfg) (id : Nat) : Nat :=
  if id = 1 then 4
  else if id = idVersion then 80
  else if id = idLastExec ∨ id = idPrimary ∨ id = idLower ∨ id = idLastView ∨ id = idLastStable then 8
  else if id = idSeq ∨ id = idCk then 8
  else if id = idErase ∨ id = idEpoch then 1
  else if id = idUser then 256
  else if id = idDbCk then g.maxDbCk
  else if idSeq < id ∧ id < idCk then (inBuf g.maxExt + 1) + (inBuf g.maxFcp + 1) + (inBuf g.maxFull + 1) + (inBuf g.maxFull + 1) + 2
  else if idCk < id ∧ id < idWinEnd then inBuf (g.maxExt + 1024) + 1 + 1
  else if id = idExit then g.exitSimple
  else if idExit < id ∧ id < idComplaints then g.maxElem
  else if idComplaints ≤ id ∧ id < idComplaints + 300 then g.maxComplaint
  else if id = idExec then maxExec
  else if id = idStable then g.maxStable
  else if id = idNew then g.newSimple
  else if idNew < id ∧ id < g.idRsi then g.maxVc
  else if g.idRsi ≤ id ∧ id < g.idRsi + g.numPrinc * g.batch then 24 + 1024 * 1024
  else 0

/-- `objectIdToSizeMap_`, DbMetadataStorage.cpp:49-57 and the constructor, DbMetadataStorage.hpp:38-40 -/
def Cfg.limit (g : Cfg) (id : Nat) : Option Nat := if id = 1 ∨ (2 ≤ id ∧ id < g.objs) then some (g.size id) else none

/-- `verifyOperation` of a write, DbMetadataStorage.cpp:25-41 -/
def Cfg.writable (g : Cfg) (id : Nat) (v : Bytes) : Bool := match g.limit id with
  | some n => decide (0 < v.length) && decide (v.length ≤ n)
  | none => false

/-- `read`, DbMetadataStorage.cpp:69-84 and rocksdb_client.cpp:389-402: the buffer of `n` bytes and the number of bytes read -/
def Cfg.read (g : Cfg) (d : Db) (junk : Bytes) (id n : Nat) : Option (Bytes × Nat) :=
  if n = 0 ∨ (g.limit id).isNone then none
  else match d id with
    | none => some (List.replicate n 0, 0)
    | some v => if v.length ≤ n then some (v ++ junk, v.length) else none

/-! ## `PersistentStorageImp` -/

/-- the process (`db` and `old` survive it) -/
structure St where
  /-- contents of the store -/
  db : Db
  /-- earlier contents a power failure may bring back, newest first -/
  old : List Db
  /-- `DBMetadataStorage::batch_` -/
  bat : Option Db
  /-- `numOfNestedTransactions_`, a `uint8_t` -/
  nest : Nat
  /-- `seqNumWindowBeginning_` -/
  seqB : Nat
  /-- `checkWindowBeginning_` -/
  ckB : Nat
  /-- `lastExecutedSeqNum_` -/
  lastExec : Nat
  /-- `lastViewTransferredSeqNum_` -/
  lastView : Nat
  hasExit : Bool
  hasNew : Bool
  hasExec : Bool
  /-- `descriptorOfLastExecution_.executedSeqNum` -/
  execSeq : Nat

/-- `beginWriteTran`, PersistentStorageImp.cpp:151-156, and `beginAtomicWriteOnlyBatch`, DbMetadataStorage.cpp:116-124 -/
def St.begin (s : St) : St :=
  { s with
    bat := if s.nest = 0 then (match s.bat with | some b => some b | none => some (fun _ => none)) else s.bat
    nest := (s.nest + 1) % 256 }

/-- a step of the store -/
def St.durable (s : St) (d : Db) (sync : Bool) : St := { s with db := d, old := if sync then [] else s.db :: s.old }

/-- `endWriteTran`, PersistentStorageImp.cpp:158-164, and `commitAtomicWriteOnlyBatch`, DbMetadataStorage.cpp:142-158 -/
def St.fin (s : St) (sync : Bool) : Option St :=
  if s.nest = 0 then none
  else if s.nest = 1 then match s.bat with
    | none => none
    | some b => some { s.durable (s.db.over b) sync with bat := none, nest := 0 }
  else some { s with nest := s.nest - 1 }

/-- `writeInBatch`, DbMetadataStorage.cpp:126-140 -/
def St.wr (g : Cfg) (s : St) (id : Nat) (v : Bytes) : Option St :=
  if g.writable id v then match s.bat with
    | none => none
    | some b => some { s with bat := some (b.put id v) }
  else none

def St.wrAll (g : Cfg) (s : St) (ws : List (Nat × Bytes)) : Option St := ws.foldlM (fun s w => s.wr g w.1 w.2) s

/-- `atomicWrite`, DbMetadataStorage.cpp:86-94 -/
def St.atomicWrite (g : Cfg) (s : St) (id : Nat) (v : Bytes) : Option St :=
  if g.writable id v then some (s.durable (s.db.put id v) false) else none

/-! ### windows, SerializableActiveWindow.cpp -/

/-- the loop of lines 117-121 -/
def cleanLoop (N stop : Nat) : (fuel i : Nat) → List Nat
  | 0, _ => []
  | k + 1, i => if i = stop then [] else i :: cleanLoop N stop k ((i + 1) % N)

/-- `advanceActiveWindow`, lines 94-126: the cleaned items; resolution `R`, `N` items -/
def advance (R N old new : Nat) : Option (List Nat) :=
  if new % R = 0 ∧ old ≤ new then
    if new = old then some []
    else if new - old ≥ N * R then some (List.range N)
    else
      let inactiveBegin := (old / R) % N
      let activeBegin := (new / R) % N
      let inactiveEnd := if activeBegin > 0 then activeBegin - 1 else N - 1
      let resetSize := if inactiveBegin ≤ inactiveEnd then inactiveEnd - inactiveBegin + 1 else inactiveEnd + 1 + N - inactiveBegin
      let l := cleanLoop N activeBegin N inactiveBegin
      if 0 < resetSize ∧ resetSize < N ∧ l.length = resetSize then some l else none
  else none

/-- `convertIndex`, lines 66-73 -/
def convert (R N first s : Nat) : Option Nat := if s % R = 0 ∧ first ≤ s ∧ s < first + N * R then some ((s / R) % N) else none

/-- id of parameter `p` of a sequence number, `convertSeqNumWindowIndex`, PersistentStorageImp.cpp:794-800, and the assertion
of lines 487, 806, 817 -/
def St.seqId (s : St) (n p : Nat) : Option Nat := match convert 1 W s.seqB n with
  | none => none
  | some i => if idSeq + p + i * 6 < idCk then some (idSeq + p + i * 6) else none

/-- id of parameter `p` of a checkpoint, `convertCheckWindowIndex`, lines 847-850 -/
def St.ckId (s : St) (n p : Nat) : Option Nat := match convert CW ckItems s.ckB n with
  | none => none
  | some i => if idCk + p + i * 2 < idWinEnd then some (idCk + p + i * 2) else none

/-- the writes of `setSeqNumDataElement` with an empty element, lines 377-419 (the code asserts that the ids are below
`BEGINNING_OF_CHECK_WINDOW`: `i < W`) -/
def clearSeq (i : Nat) : List (Nat × Bytes) :=
  [(idSeq + 1 + i * 6, serMsg none), (idSeq + 2 + i * 6, serMsg none), (idSeq + 3 + i * 6, serMsg none), (idSeq + 4 + i * 6, serMsg none),
   (idSeq + 5 + i * 6, [0]), (idSeq + 6 + i * 6, [0])]

/-- the writes of `setCheckDataElement` with an empty element, lines 427-443.  The completed mark is serialised into
`seq_num_element_buf` but written from `check_data_element_buf`, so the byte written is the filled flag of the (empty)
checkpoint message. -/
def clearCk (i : Nat) : List (Nat × Bytes) := [(idCk + 1 + i * 2, serMsg none), (idCk + 2 + i * 2, (serMsg none).take 1)]

/-! ### setters -/

/-- the updates made inside a transaction -/
inductive Upd where
  | lastExec (n : Nat)
  | primary (n : Nat)
  | lower (n : Nat)
  | lastView (n : Nat)
  | exit (d : ExitDesc)
  | newView (d : NewDesc)
  | exec (d : ExecDesc)
  | stable (l : List (Option Msg))
  | lastStable (n : Nat)
  | prePrepare (n : Nat) (m : Option Msg)
  | fullCommitProof (n : Nat) (m : Option Msg)
  | prepareFull (n : Nat) (m : Option Msg)
  | commitFull (n : Nat) (m : Option Msg)
  | forceCompleted (n : Nat) (b : Bool)
  | slowStarted (n : Nat) (b : Bool)
  | ckMsg (n : Nat) (m : Option Msg)
  | completed (n : Nat) (b : Bool)
  | clearWindow
  | user (v : Bytes)
  | rsi (i : Nat) (v : Bytes)

/-- `nonExecSetIsAllowed`, lines 1018-1021 -/
def St.nonExec (s : St) : Bool := decide (s.nest ≠ 0) && (!s.hasExec || decide (s.execSeq ≤ s.lastExec + 1))

/-- the reads of `getSeqNum`, lines 999-1006 -/
def Cfg.readNat (g : Cfg) (d : Db) (id : Nat) : Option Nat := match g.read d [] id 8 with
  | none => none
  | some (b, n) => if n = 8 then some (leDecode b) else none

/-- `deserializeElement`, PersistentStorageDescriptors.cpp:152-182 -/
def deElem (g : Cfg) (n : Nat) (buf : Bytes) : Option PrevView :=
  (deMsg g n buf).bind fun a => (deMsg g n a.2).bind fun b => (deBool b.2).map fun c => ⟨a.1, b.1, c.1⟩

/-- `getAndAllocateDescriptorOfLastExitFromView`, PersistentStorageImp.cpp:636-684, and `deserializeSimpleParams`,
PersistentStorageDescriptors.cpp:110-150 -/
def Cfg.getExit (g : Cfg) (d : Db) (junk : Nat → Bytes) : Option ExitDesc :=
  (g.read d (junk idExit) idExit g.exitSimple).bind fun x =>
    if x.2 ≠ g.exitSimple then none
    else (deBool x.1).bind fun a => (deNat 8 a.2).bind fun b => (deNat 8 b.2).bind fun c => (deNat 8 c.2).bind fun e =>
      (deNat 8 e.2).bind fun h => (deMsg g g.exitSimple h.2).bind fun i => (deNat 4 i.2).bind fun j => (deNat 4 j.2).bind fun k =>
        ((List.range j.1).mapM (fun p =>
          if idExit + 1 + p < idComplaints then
            (g.read d (junk (idExit + 1 + p)) (idExit + 1 + p) g.maxElem).bind fun y => deElem g y.2 y.1
          else none)).bind fun els =>
        ((List.range k.1).mapM (fun p =>
          if idComplaints + p < idExec then
            (g.read d (junk (idComplaints + p)) (idComplaints + p) g.maxComplaint).bind fun y => (deMsg g y.2 y.1).map (·.1)
          else none)).map fun cs => ⟨a.1, b.1, c.1, e.1, h.1, i.1, els, cs⟩

/-- `getAndAllocateDescriptorOfLastNewView`, PersistentStorageImp.cpp:686-712, and `deserializeSimpleParams`,
PersistentStorageDescriptors.cpp:289-329 -/
def Cfg.getNew (g : Cfg) (d : Db) (junk : Nat → Bytes) : Option NewDesc :=
  (g.read d (junk idNew) idNew g.newSimple).bind fun x =>
    (deBool x.1).bind fun a => (deNat 8 a.2).bind fun b => (deNat 8 b.2).bind fun c => (deNat 8 c.2).bind fun e =>
      (deMsg g g.newSimple e.2).bind fun h => (deMsg g g.newSimple h.2).bind fun i =>
        ((List.range g.vcNum).mapM (fun p =>
          (g.read d (junk (idNew + 1 + p)) (idNew + 1 + p) g.maxVc).bind fun y => (deMsg g y.2 y.1).map (·.1))).map fun vs =>
          ⟨a.1, b.1, c.1, e.1, h.1, i.1, vs⟩

/-- the constructor of `Bitmap` from a buffer, Bitmap.hpp:36-50 -/
def deBits (n : Nat) (buf : Bytes) : Option (Bits × Bytes) :=
  if n < 4 then some (⟨0, []⟩, buf)
  else (deNat 4 buf).bind fun k =>
    if n < 4 + (k.1 + 7) / 8 then some (⟨0, []⟩, buf)
    else (slice k.2 0 ((k.1 + 7) / 8)).map fun b => (⟨k.1, b⟩, k.2.drop ((k.1 + 7) / 8))

/-- `getDescriptorOfLastExecution`, PersistentStorageImp.cpp:714-728, and `deserialize`, PersistentStorageDescriptors.cpp:369-388 -/
def Cfg.getExec (g : Cfg) (d : Db) (junk : Nat → Bytes) : Option ExecDesc :=
  (g.read d (junk idExec) idExec maxExec).bind fun x =>
    (deNat 8 x.1).bind fun a => (deBits (maxExec - 16) a.2).bind fun b => (deNat 8 b.2).map fun c => ⟨a.1, b.1, c.1⟩

/-- the loop of `deserialize`, PersistentStorageDescriptors.cpp:422-430 -/
def deMsgs (g : Cfg) (n : Nat) : (k : Nat) → Bytes → Option (List (Option Msg))
  | 0, _ => some []
  | k + 1, buf => (deMsg g n buf).bind fun a => (deMsgs g n k a.2).map (a.1 :: ·)

/-- `getDescriptorOfLastStableCheckpoint`, PersistentStorageImp.cpp:730-745 -/
def Cfg.getStable (g : Cfg) (d : Db) (junk : Nat → Bytes) : Option (List (Option Msg)) :=
  (g.read d (junk idStable) idStable g.maxStable).bind fun x => (deNat 2 x.1).bind fun a => deMsgs g g.maxStable a.1 a.2

/-- `hasDescriptorOfLastExitFromView`, lines 747-754 (the getter asserts that no transaction is open, line 637) -/
def St.hasExitDesc (g : Cfg) (s : St) : Option (Bool × St) :=
  if s.hasExit then some (true, s)
  else if s.nest ≠ 0 then none
  else (g.getExit s.db (fun _ => [])).map fun d => (!d.isDefault, { s with hasExit := !d.isDefault })

/-- `hasDescriptorOfLastNewView`, lines 756-763 -/
def St.hasNewDesc (g : Cfg) (s : St) : Option (Bool × St) :=
  if s.hasNew then some (true, s)
  else (g.getNew s.db (fun _ => [])).map fun d => (!d.isDefault, { s with hasNew := !d.isDefault })

/-- the assertions of `verifyPrevViewInfo`, lines 961-967 -/
def prevOk (g : Cfg) (v : Nat) (e : PrevView) : Bool := match e.prePrepare with
  | none => false
  | some pp => decide (g.vw pp = v) && (match e.prepareFull with
    | none => true
    | some pf => decide (g.vw pf = v) && decide (g.sq pf = g.sq pp))

/-- the assertions of `verifySetDescriptorOfLastNewView` and `verifyLastNewViewMsgs` on the descriptor, lines 969-990 -/
def newOk (g : Cfg) (d : NewDesc) : Bool := match d.newView with
  | none => false
  | some nv => decide (1 ≤ d.view) && decide (g.nv nv = d.view) && decide (d.vcs.length = g.vcNum) &&
    d.vcs.all (fun o => match o with
      | none => false
      | some vc => decide (g.nv vc = d.view) && (decide (g.cnt nv = 0) || g.incl nv vc))

/-- pad with zeros to `n` bytes: the buffer is cleared before it is filled and written whole, PersistentStorageImp.cpp:234-242 -/
def pad (n : Nat) (b : Bytes) : Bytes := b ++ List.replicate (n - b.length) 0

/-- the writes of `saveDescriptorOfLastExitFromView`, lines 232-273; the assertions on the ids hold by the guard of `St.set` -/
def exitWrites (g : Cfg) (d : ExitDesc) : List (Nat × Bytes) :=
  (idExit, pad g.exitSimple (serExitSimple d)) ::
    ((List.range d.elements.length).map (fun i => (idExit + 1 + i, serElem (d.elements.getD i ⟨none, none, false⟩))) ++
     (List.range d.complaints.length).map (fun i => (idComplaints + i, serMsg (d.complaints.getD i none))))

/-- the writes of `saveDescriptorOfLastNewView`, lines 294-312 -/
def newWrites (g : Cfg) (d : NewDesc) : List (Nat × Bytes) :=
  (idNew, serNewSimple d) :: (List.range g.vcNum).map (fun i => (idNew + 1 + i, serVc d i))

/-- the writes of `saveDefaultsInSeqNumWindow` and of `clearSeqNumWindow`, lines 371-375, 459 -/
def seqDefaults (b : Nat) : List (Nat × Bytes) := (idSeq, leEncode 8 b) :: (List.range W).flatMap clearSeq

/-- the writes of `saveDefaultsInCheckWindow`, lines 421-425 -/
def ckDefaults (b : Nat) : List (Nat × Bytes) := (idCk, leEncode 8 b) :: (List.range ckItems).flatMap clearCk

/-- the public setters that write into the open transaction, lines 184-230, 275-369, 459-563 -/
def St.set (g : Cfg) (s : St) : Upd → Option St
  | .lastExec n =>
    if s.nest ≠ 0 ∧ s.lastExec ≤ n then (s.wr g idLastExec (leEncode 8 n)).map (fun s => { s with lastExec := n }) else none
  | .primary n => if s.nonExec then s.wr g idPrimary (leEncode 8 n) else none
  | .lower n => if s.nonExec then s.wr g idLower (leEncode 8 n) else none
  | .lastView n =>
    if s.nonExec = true ∧ s.lastView ≤ n then (s.wr g idLastView (leEncode 8 n)).map (fun s => { s with lastView := n }) else none
  | .exit d =>
    if s.nest = 0 then none
    else match s.hasNewDesc g with
      | none => none
      | some (h, s) =>
        if (h = true ∨ d.view = 0) ∧ d.elements.length ≤ W ∧ d.elements.all (prevOk g d.view) = true ∧ d.complaints.length ≤ 301 then
          (s.wrAll g (exitWrites g d)).map (fun s => { s with hasExit := true })
        else none
  | .newView d =>
    if s.nest = 0 then none
    else match s.hasExitDesc g with
      | none => none
      | some (h, s) =>
        if h = true ∧ newOk g d = true then (s.wrAll g (newWrites g d)).map (fun s => { s with hasNew := true }) else none
  | .exec d =>
    if s.nest ≠ 0 ∧ (s.hasExec = false ∨ s.execSeq < d.seq) ∧ s.lastExec + 1 = d.seq ∧ 1 ≤ d.bits.n ∧ d.bits.n ≤ 4096 then
      (s.wr g idExec (serExec d)).map (fun s => { s with hasExec := true, execSeq := d.seq })
    else none
  | .stable l => s.wr g idStable (serStable l)
  | .lastStable n => match s.wr g idLastStable (leEncode 8 n) with
    | none => none
    | some s => match advance CW ckItems s.ckB n, advance 1 W s.seqB (n + 1) with
      | some cs, some ss =>
        ({ s with ckB := n, seqB := n + 1 } : St).wrAll g
          ((idCk, leEncode 8 n) :: (idSeq, leEncode 8 (n + 1)) :: (cs.flatMap clearCk ++ ss.flatMap clearSeq))
      | _, _ => none
  | .prePrepare n m => (s.seqId n 1).bind fun id => s.wr g id (serMsg m)
  | .fullCommitProof n m => (s.seqId n 2).bind fun id => s.wr g id (serMsg m)
  | .prepareFull n m => (s.seqId n 3).bind fun id => s.wr g id (serMsg m)
  | .commitFull n m => (s.seqId n 4).bind fun id => s.wr g id (serMsg m)
  | .forceCompleted n b => (s.seqId n 5).bind fun id => s.wr g id (serBool b)
  | .slowStarted n b => (s.seqId n 6).bind fun id => s.wr g id (serBool b)
  | .ckMsg n m => (s.ckId n 1).bind fun id => s.wr g id (serMsg m)
  | .completed n b => if b then (s.ckId n 2).bind fun id => s.wr g id (serBool b) else none
  | .clearWindow => s.wrAll g (seqDefaults s.seqB)
  | .user v => if s.nest ≠ 0 ∧ v.length ≤ 256 then s.wr g idUser v else none
  | .rsi i v => s.wr g (g.idRsi + i) v

/-- the setters that do not use the transaction, lines 537-542, 1022-1025, 1036-1039, 1050-1053 -/
inductive Atom where
  | user (v : Bytes)
  | erase
  | epoch (b : Bool)
  | dbCk (v : Bytes)

def St.atomic (g : Cfg) (s : St) : Atom → Option St
  | .user v => if v.length ≤ 256 then s.atomicWrite g idUser v else none
  | .erase => s.atomicWrite g idErase [1]
  | .epoch b => s.atomicWrite g idEpoch (serBool b)
  | .dbCk v => s.atomicWrite g idDbCk v

/-! ### getters -/

inductive Get where
  | lastExec | primary | lower | lastView | lastStable
  | exit | newView | exec | stable
  | prePrepare (n : Nat) | fullCommitProof (n : Nat) | prepareFull (n : Nat) | commitFull (n : Nat)
  | forceCompleted (n : Nat) | slowStarted (n : Nat)
  | ckMsg (n : Nat) | completed (n : Nat)
  | user | rsi (i : Nat) | erase | epoch | dbCk

inductive Out where
  | ok | dies
  | nat (n : Nat) | bool (b : Bool) | msg (m : Option Msg) | bytes (v : Option Bytes)
  | exit (d : ExitDesc) | newView (d : NewDesc) | exec (d : ExecDesc) | stable (l : List (Option Msg))
deriving DecidableEq

/-- `readMsgFromDisk`, lines 813-825, and `readCheckpointMsgFromDisk`, lines 864-876 -/
def Cfg.readMsg (g : Cfg) (d : Db) (junk : Bytes) (id n : Nat) : Option (Option Msg) :=
  (g.read d junk id n).bind fun x => (deMsg g n x.1).bind fun y => if x.1.length - y.2.length = x.2 then some y.1 else none

/-- `readOneByteFromDisk`, lines 802-809 -/
def Cfg.readByte (g : Cfg) (d : Db) (id : Nat) : Option Bool := (g.read d [] id 1).bind fun x => some (x.1.headD 0 != 0)

/-- values of any length up to `n`: `getUserData`, lines 908-918, `getReplicaSpecificInfo`, lines 565-575,
`getDbCheckpointMetadata`, lines 1054-1064 -/
def Cfg.readBytes (g : Cfg) (d : Db) (id n : Nat) : Option (Option Bytes) :=
  (g.read d [] id n).bind fun x => some (if x.2 = 0 then none else some (x.1.take x.2))

/-- the getters that assert that no transaction is open -/
def Get.asserts : Get → Bool
  | .newView | .exec | .user | .rsi _ | .erase | .epoch | .dbCk => false
  | _ => true

/-- the getters, lines 565-946, 1026-1064; the members they set are in the second component -/
def St.get (g : Cfg) (s : St) (junk : Nat → Bytes) (q : Get) : Option (Out × St) :=
  if q.asserts = true ∧ s.nest ≠ 0 then none
  else match q with
    | .lastExec => (g.readNat s.db idLastExec).map fun n => (.nat n, { s with lastExec := n })
    | .primary => (g.readNat s.db idPrimary).map fun n => (.nat n, s)
    | .lower => (g.readNat s.db idLower).map fun n => (.nat n, s)
    | .lastView => (g.readNat s.db idLastView).map fun n => (.nat n, { s with lastView := n })
    | .lastStable => (g.readNat s.db idLastStable).map fun n => (.nat n, s)
    | .exit => (g.getExit s.db junk).map fun d => (.exit d, s)
    | .newView => (g.getNew s.db junk).map fun d => (.newView d, s)
    | .exec => (g.getExec s.db junk).map fun d =>
        (.exec d, if d = ExecDesc.empty then s else { s with hasExec := true, execSeq := d.seq })
    | .stable => (g.getStable s.db junk).map fun l => (.stable l, s)
    | .prePrepare n => (s.seqId n 1).bind fun id => (g.readMsg s.db (junk id) id (inBuf g.maxExt + 1)).map fun m => (.msg m, s)
    | .fullCommitProof n => (s.seqId n 2).bind fun id => (g.readMsg s.db (junk id) id (inBuf g.maxFcp + 1)).map fun m => (.msg m, s)
    | .prepareFull n => (s.seqId n 3).bind fun id => (g.readMsg s.db (junk id) id (inBuf g.maxFull + 1)).map fun m => (.msg m, s)
    | .commitFull n => (s.seqId n 4).bind fun id => (g.readMsg s.db (junk id) id (inBuf g.maxFull + 1)).map fun m => (.msg m, s)
    | .forceCompleted n => (s.seqId n 5).bind fun id => (g.readByte s.db id).map fun b => (.bool b, s)
    | .slowStarted n => (s.seqId n 6).bind fun id => (g.readByte s.db id).map fun b => (.bool b, s)
    | .ckMsg n => (s.ckId n 1).bind fun id =>
        (g.readMsg s.db (junk id) id (inBuf (g.maxExt + 1024) + 1 + 1)).map fun m => (.msg m, s)
    | .completed n => (s.ckId n 2).bind fun id => (g.readByte s.db id).map fun b => (.bool b, s)
    | .user => (g.readBytes s.db idUser 256).map fun v => (.bytes v, s)
    | .rsi i => (g.readBytes s.db (g.idRsi + i) (24 + 1024 * 1024)).map fun v => (.bytes v, s)
    | .erase => (g.readByte s.db idErase).map fun b => (.bool b, s)
    | .epoch => (g.readByte s.db idEpoch).map fun b => (.bool b, s)
    | .dbCk => (g.readBytes s.db idDbCk g.maxDbCk).map fun v => (.bytes v, s)

/-! ### start of the process -/

/-- `setVersion`, lines 170-182: "1.1" -/
def versionBytes : Bytes := leEncode 4 3 ++ [0x31, 0x2e, 0x31]

/-- the writes of `setDefaultsInMetadataStorage`, lines 74-92 -/
def defaults (g : Cfg) : List (Nat × Bytes) :=
  [(idVersion, versionBytes), (idLastExec, leEncode 8 0), (idPrimary, leEncode 8 0), (idLower, leEncode 8 0),
   (idLastView, leEncode 8 0), (idLastStable, leEncode 8 0)] ++
  (seqDefaults 1 ++ (ckDefaults 0 ++ (exitWrites g ExitDesc.empty ++ (newWrites g (NewDesc.empty g) ++
    [(idExec, serExec ExecDesc.empty), (idStable, serStable [])]))))

/-- `initMaxSizeOfObjects`, DbMetadataStorage.cpp:49-67 -/
def Cfg.mark (g : Cfg) (d : Db) : Db := if (d 1).isNone then d.put 1 (leEncode 4 g.objs) else d

/-- `cleanDB`, DbMetadataStorage.cpp:174-195, and `multiDel`, lines 160-172: the vector holds id 1 and the `objs - 1`
registered ids, and the ids below its length are deleted -/
def Cfg.clean (g : Cfg) (d : Db) : Db := fun i => if i < g.objs then none else d i

/-- a new `PersistentStorageImp` over a store -/
def fresh (d : Db) (old : List Db) : St := ⟨d, old, none, 0, 0, 0, 0, 0, false, false, false, 0⟩

/-- `init`, PersistentStorageImp.cpp:57-72; `io` is a `runtime_error` of a read in the `try` block: the defaults are
written -/
def St.init (g : Cfg) (s : St) (io : Bool) : Option St :=
  if io = true ∨ (s.db idVersion).isNone then
    (s.begin.wrAll g (defaults g)).bind fun s => ({ s with seqB := 1, ckB := 0 } : St).fin false
  else if s.db idVersion = some versionBytes then
    match g.readNat s.db idSeq, g.readNat s.db idCk, g.getExec s.db (fun _ => []) with
    | some sb, some cb, some e =>
      some (if e = ExecDesc.empty then { s with seqB := sb, ckB := cb } else { s with seqB := sb, ckB := cb, hasExec := true, execSeq := e.seq })
    | _, _, _ => none
  else none

/-- `ReplicaFactory::createReplica`, ReplicaFactory.cpp:139-187, up to `stage` steps of the store -/
def Cfg.bootDb (g : Cfg) (d : Db) : (stage : Nat) → Db
  | 0 => d
  | 1 => g.mark d
  | 2 => if (g.mark d idErase).any (fun v => v.headD 0 != 0) then g.clean (g.mark d) else g.mark d
  | _ => g.mark (if (g.mark d idErase).any (fun v => v.headD 0 != 0) then g.clean (g.mark d) else g.mark d)

/-- the calls of `ReplicaLoader::loadReplica` that set members, ReplicaLoader.cpp:84-230 -/
def St.load (g : Cfg) (s : St) : Option St :=
  match s.hasExitDesc g with
  | none => none
  | some (_, s) => match s.hasNewDesc g with
    | none => none
    | some (_, s) => match g.readNat s.db idLastExec, g.readNat s.db idLastView with
      | some e, some v => some { s with lastExec := e, lastView := v }
      | _, _ => none

/-- the start of the process: the store is prepared, the storage initialised and, when the store is not new, the members loaded -/
def Cfg.boot (g : Cfg) (d : Db) (old : List Db) (io : Bool) : Option St :=
  let s := fresh (g.bootDb d 3) (g.bootDb d 2 :: g.bootDb d 1 :: d :: old)
  let isNew := (d 1).isNone || (g.mark d idErase).any (fun v => v.headD 0 != 0)
  match s.init g io with
  | none => none
  | some s => if isNew then some s else s.load g

/-- everything that can happen -/
inductive Op where
  | begin
  | fin (sync : Bool)
  | set (u : Upd)
  | atomic (a : Atom)
  | get (q : Get) (junk : Nat → Bytes)
  /-- the process dies and is started; the first start dies after `stage` steps of the store (the intermediate contents
  stay candidates for a power failure) -/
  | crash (stage : Nat)
  /-- the machine loses power: the store goes back to one of the contents that may be on disk -/
  | power (k stage : Nat)
  /-- the process dies and is started, and a read of the store fails with an exception -/
  | crashIo

/-- one step; `none`: the replica does not start any more -/
def St.step (g : Cfg) (s : St) : Op → Option (St × Out)
  | .begin => some (s.begin, .ok)
  | .fin y => match s.fin y with
    | some s' => some (s', .ok)
    | none => (g.boot s.db s.old false).map (·, .dies)
  | .set u => match s.set g u with
    | some s' => some (s', .ok)
    | none => (g.boot s.db s.old false).map (·, .dies)
  | .atomic a => match s.atomic g a with
    | some s' => some (s', .ok)
    | none => (g.boot s.db s.old false).map (·, .dies)
  | .get q junk => match s.get g junk q with
    | some (o, s') => some (s', o)
    | none => (g.boot s.db s.old false).map (·, .dies)
  | .crash st => (g.boot (g.bootDb s.db st) (g.bootDb s.db 2 :: g.bootDb s.db 1 :: s.db :: s.old) false).map (·, .ok)
  | .power k st =>
    let d := ((s.db :: s.old)[k]?).getD s.db
    (g.boot (g.bootDb d st) [g.bootDb d 2, g.bootDb d 1, d] false).map (·, .ok)
  | .crashIo => (g.boot s.db s.old true).map (·, .ok)

def St.run (g : Cfg) (s : St) : List Op → Option (St × List Out)
  | [] => some (s, [])
  | o :: os => match s.step g o with
    | none => none
    | some (s', r) => match St.run g s' os with
      | none => none
      | some (s'', rs) => some (s'', r :: rs)

/-- the first start, on an empty store -/
def Cfg.start (g : Cfg) : Option St := g.boot (fun _ => none) [] false

end Verif.Meta
