import Verif.Util.Bytes
/-!
# Client requests and batches of client requests, from the wire to the request handlers

bftengine/include/bftengine/ClientMsgs.hpp, bftengine/src/bftengine/messages/ClientRequestMsg.{hpp,cpp}, MessageBase.{hpp,cpp},
bftengine/src/bftengine/MsgReceiver.cpp, bftengine/src/preprocessor/messages/ClientBatchRequestMsg.cpp, ClientPreProcessRequestMsg.cpp,
the entry points in ReplicaImp.cpp and PreProcessor.cpp, and client/bftclient/src/bft_client.cpp.

A message is the byte string received.  A read outside of it is `oob`, a failed `ConcordAssert` is `abort`, a message that is refused (an
exception out of `validate`, or an early return of a handler) is `reject`, and a use of a null pointer is `null`.

Simplifications: identifiers and sizes are natural numbers (the sums of lengths are `size_t` in the code and cannot wrap: at most five
32-bit terms); logging and metrics are left out; the signature scheme and the tables of principals are parameters.
-/
namespace Verif.Req
open Verif.Bytes

/-- how handling a message can end without a result -/
inductive Err where
  | oob
  | abort
  | reject
  | null
deriving DecidableEq, Repr

abbrev R (α : Type) := Except Err α

/-- a bounds-checked read -/
def rd {α : Type} : Option α → R α
  | some a => .ok a
  | none => .error .oob

/-! ## Layout -/

/-- sizeof(MessageBase::Header), MessageBase.hpp:41 -/
def baseHdrSize : Nat := 6

/-- sizeof(ClientRequestMsgHeader), ClientRequestMsg.hpp:29 -/
def hdrSize : Nat := 52

/-- `ClientRequestMsgHeader`, ClientMsgs.hpp:33-46; packed -/
structure Hdr where
  msgType : Nat
  span : Nat
  client : Nat
  flags : Nat
  result : Nat
  reqSeq : Nat
  reqLen : Nat
  timeout : Nat
  cidLen : Nat
  sigLen : Nat
  extra : Nat
  index : Nat
deriving DecidableEq, Repr

/-- the in-memory image of the header, ClientMsgs.hpp:33-46 -/
def encHdr (h : Hdr) : Bytes :=
  leEncode 2 h.msgType ++ leEncode 4 h.span ++ leEncode 2 h.client ++ leEncode 8 h.flags ++ leEncode 4 h.result ++ leEncode 8 h.reqSeq ++
    leEncode 4 h.reqLen ++ leEncode 8 h.timeout ++ leEncode 4 h.cidLen ++ leEncode 2 h.sigLen ++ leEncode 4 h.extra ++ leEncode 2 h.index

/-- the fields of a header image -/
def decHdr (b : Bytes) : Hdr where
  msgType := leDecode (b.take 2)
  span := leDecode ((b.drop 2).take 4)
  client := leDecode ((b.drop 6).take 2)
  flags := leDecode ((b.drop 8).take 8)
  result := leDecode ((b.drop 16).take 4)
  reqSeq := leDecode ((b.drop 20).take 8)
  reqLen := leDecode ((b.drop 28).take 4)
  timeout := leDecode ((b.drop 32).take 8)
  cidLen := leDecode ((b.drop 40).take 4)
  sigLen := leDecode ((b.drop 44).take 2)
  extra := leDecode ((b.drop 46).take 4)
  index := leDecode ((b.drop 50).take 2)

/-- `msgBody()` of a `ClientRequestMsg`, ClientRequestMsg.hpp:85 -/
def readHdr (m : Bytes) : Option Hdr := (slice m 0 hdrSize).map decHdr

/-! ## Building requests -/

/-- the content of a request; `extra` is the size of the buffer at the end -/
structure Req where
  msgType : Nat
  client : Nat
  flags : Nat
  result : Nat
  reqSeq : Nat
  timeout : Nat
  index : Nat
  span : Bytes
  data : Bytes
  cid : Bytes
  sig : Bytes
  extra : Nat
deriving DecidableEq, Repr

/-- `setParams`, ClientRequestMsg.cpp:231-252 -/
def Req.hdr (r : Req) : Hdr where
  msgType := r.msgType
  span := r.span.length
  client := r.client
  flags := r.flags
  result := r.result
  reqSeq := r.reqSeq
  reqLen := r.data.length
  timeout := r.timeout
  cidLen := r.cid.length
  sigLen := r.sig.length
  extra := r.extra
  index := r.index

/-- the constructor, ClientRequestMsg.cpp:38-86, and the same layout in the client, bft_client.cpp:121-140.  The size of the message is a
32-bit number and the length of the signature a 16-bit field; the theorems ask that they fit (`Req.Fits`). -/
def Req.encode (r : Req) : Bytes := encHdr r.hdr ++ r.span ++ r.data ++ r.cid ++ r.sig ++ List.replicate r.extra 0

/-- flag bits, Replica.hpp:47-59, SimpleClient.hpp:44-52 -/
def READ_ONLY : Nat := 0x1
def PRE_PROCESS : Nat := 0x2
def HAS_PRE_PROCESSED : Nat := 0x4
def KEY_EXCHANGE : Nat := 0x8
def RECONFIG : Nat := 0x20
def INTERNAL : Nat := 0x40
def CLIENTS_PUB_KEYS : Nat := 0x100

/-- `(flags & b) != 0` for a single bit `b` -/
def bit (flags b : Nat) : Bool := flags / b % 2 == 1

/-- What `createClientMsg` of the client is given (`RequestConfig`), bft_client.cpp:80 -/
structure ClientCfg where
  preExecute : Bool
  readOnly : Bool
  keyExchange : Bool
  reconfiguration : Bool
  seq : Nat
  timeout : Nat
  cid : Bytes
  span : Bytes

/-- `flags`, bft_client.cpp:81-94 (`primary_only` is left out) -/
def ClientCfg.flags (c : ClientCfg) : Nat :=
  (if c.readOnly then READ_ONLY else 0) + (if !c.readOnly && c.preExecute then PRE_PROCESS else 0) + (if c.keyExchange then KEY_EXCHANGE else 0) +
    (if c.reconfiguration then RECONFIG else 0)

/-- the signature field, bft_client.cpp:134-143 -/
def signature (sign : Option (Bytes → Bytes)) (data : Bytes) : Bytes :=
  match sign with
  | some s => s data
  | none => []

/-- `Client::createClientMsg`, bft_client.cpp:80-160; `sign` is the transaction signer, if there is one -/
def createClientMsg (c : ClientCfg) (client : Nat) (sign : Option (Bytes → Bytes)) (data : Bytes) : Req where
  msgType := if !c.readOnly && c.preExecute then 500 else 700
  client := client
  flags := c.flags
  result := 1
  reqSeq := c.seq
  timeout := c.timeout
  index := 0
  span := c.span
  data := data
  cid := c.cid
  sig := signature sign data
  extra := 0

/-! ## Receiving -/

/-- `MsgCode::LastMsgCodeVal`, MsgCode.hpp:57-59 -/
def lastMsgCode : Nat := 901

/-- `MsgReceiver::onNewMessage`, MsgReceiver.cpp:26-46, with `updateDiagnosticsCountersOnBufAlloc`, MessageBase.cpp:75-89: the type of the
message indexes a bitmap of `LastMsgCodeVal` bits, and `Bitmap::get` asserts its argument (Bitmap.hpp:129-130) -/
def onNewMessage (maxSize : Nat) (m : Bytes) : R Unit :=
  if m.length > maxSize then .error .reject
  else if m.length < baseHdrSize then .error .reject
  else
    match slice m 0 2 with
    | none => .error .oob
    | some t => if leDecode t < lastMsgCode then .ok () else .error .abort

/-- the tables and keys of the replica -/
structure Env where
  myId : Nat
  /-- `isIdOfReplica` -/
  isReplica : Nat → Bool
  /-- `isIdOfPeerRoReplica` -/
  isPeerRo : Nat → Bool
  /-- `isIdOfExternalClient` -/
  isExternal : Nat → Bool
  /-- `isValidPrincipalId` -/
  isPrincipal : Nat → Bool
  /-- `isClientTransactionSigningEnabled` -/
  signing : Bool
  /-- `getSigLength` -/
  sigLength : Nat → Nat
  /-- `verifySig(client, data, signature)` -/
  verify : Nat → Bytes → Bytes → Bool

/-- `expectedSigLen`, ClientRequestMsg.cpp:136, 157-181; `none` when the client has no key -/
def expectedSigLen (e : Env) (h : Hdr) : Option Nat :=
  if e.isExternal h.client then
    if bit h.flags RECONFIG then some h.sigLen
    else if e.signing then
      if h.reqLen = 0 then some 0
      else if e.sigLength h.client = 0 then none
      else some (e.sigLength h.client)
    else some 0
  else some 0

/-- `doSigVerify`, ClientRequestMsg.cpp:140, 157-181 -/
def doSigVerify (e : Env) (h : Hdr) : Bool :=
  e.isExternal h.client && !bit h.flags RECONFIG && e.signing && h.reqLen != 0 && !bit h.flags HAS_PRE_PROCESSED

/-- the early return for messages that carry the id of a replica, ClientRequestMsg.cpp:142-146 -/
def early (e : Env) (h : Hdr) : Bool := (bit h.flags RECONFIG || bit h.flags INTERNAL) && (e.isReplica h.client || e.isPeerRo h.client)

/-- `requestBuf`, ClientRequestMsg.hpp:68, with `requestLength` -/
def dataOf (m : Bytes) (h : Hdr) : Option Bytes := slice m (hdrSize + h.span) h.reqLen

/-- `getCid`, ClientRequestMsg.cpp:254-257 -/
def cidOf (m : Bytes) (h : Hdr) : Option Bytes := slice m (hdrSize + h.reqLen + h.span) h.cidLen

/-- `requestSignature`, ClientRequestMsg.cpp:259-265 -/
def sigOf (m : Bytes) (h : Hdr) : Option Bytes :=
  if h.sigLen > 0 then slice m (hdrSize + h.span + h.reqLen + h.cidLen) h.sigLen else some []

/-- `spanContext`, MessageBase.hpp:80-82 -/
def spanOf (m : Bytes) (h : Hdr) : Option Bytes := slice m hdrSize h.span

/-- the checks after the early return, ClientRequestMsg.cpp:147-229 -/
def validateRest (e : Env) (sender : Nat) (m : Bytes) (h : Hdr) : R Unit :=
  if !e.isPrincipal h.client then .error .reject
  else if !e.isPrincipal sender then .error .reject
  else
    match expectedSigLen e h with
    | none => .error .reject
    | some sl =>
      if sl ≠ h.sigLen then .error .reject
      else if m.length ≠ hdrSize + h.reqLen + h.cidLen + h.span + sl + h.extra then .error .reject
      else if doSigVerify e h then
        match dataOf m h, sigOf m h with
        | some d, some s => if e.verify h.client d s then .ok () else .error .reject
        | _, _ => .error .oob
      else .ok ()

/-- `ClientRequestMsg::validateImp`, ClientRequestMsg.cpp:112-229.  `spanContextSize()` is in the first six bytes. -/
def validate (e : Env) (sender : Nat) (m : Bytes) : R Unit :=
  match slice m 2 4 with
  | none => .error .oob
  | some sp =>
    if m.length < hdrSize + leDecode sp then .error .reject
    else
      match readHdr m with
      | none => .error .oob
      | some h =>
        if !bit h.flags RECONFIG && !bit h.flags INTERNAL && sender == e.myId then .error .abort
        else if m.length < hdrSize + h.cidLen + h.span + h.sigLen then .error .reject
        else if early e h then .ok ()
        else validateRest e sender m h

/-- `shouldValidateAsync`, ClientRequestMsg.cpp:100-110: reads the flags before any check of the size (ReplicaImp.cpp:218) -/
def shouldValidateAsync (m : Bytes) : R Bool :=
  match slice m 8 8 with
  | none => .error .oob
  | some f => .ok (!(bit (leDecode f) RECONFIG || bit (leDecode f) KEY_EXCHANGE || bit (leDecode f) INTERNAL))

/-- what the handlers see of a request -/
structure View where
  client : Nat
  flags : Nat
  reqSeq : Nat
  timeout : Nat
  index : Nat
  span : Bytes
  data : Bytes
  cid : Bytes
  sig : Bytes
deriving DecidableEq, Repr

/-- the accessors, ClientRequestMsg.hpp:52-78 -/
def view (m : Bytes) : Option View :=
  match readHdr m with
  | none => none
  | some h =>
    match spanOf m h, dataOf m h, cidOf m h, sigOf m h with
    | some sp, some d, some c, some s => some ⟨h.client, h.flags, h.reqSeq, h.timeout, h.index, sp, d, c, s⟩
    | _, _, _, _ => none

/-- the state of the replica that decides whether a request is let in -/
structure Gate where
  /-- `prePrepareFinalizeAsyncEnabled` -/
  async : Bool
  /-- `KeyExchangeManager::exchanged()` -/
  exchanged : Bool
  /-- `clientKeysPublished()` -/
  keysPublished : Bool
  /-- `isIdOfClientProxy` -/
  isProxy : Nat → Bool
  /-- `isValidClient` -/
  validClient : Nat → Bool
  isPrimary : Bool

/-- the checks of `onMessage<ClientRequestMsg>` before a request is executed (read only) or queued, ReplicaImp.cpp:398-447 -/
def admit (e : Env) (g : Gate) (sender : Nat) (m : Bytes) : R View :=
  match readHdr m with
  | none => .error .oob
  | some h =>
    match cidOf m h, spanOf m h with
    | some _, some _ =>
      if (!g.exchanged || (!g.keysPublished && g.isProxy sender)) && !bit h.flags KEY_EXCHANGE && !bit h.flags CLIENTS_PUB_KEYS then .error .reject
      else if !g.validClient h.client && !((e.isReplica h.client || e.isPeerRo h.client) && (bit h.flags RECONFIG || bit h.flags INTERNAL)) then
        .error .reject
      else if !(bit h.flags RECONFIG || bit h.flags INTERNAL) && e.isReplica sender && !g.isPrimary then .error .reject
      else rd (view m)
    | _, _ => .error .oob

/-- a request received from `sender`: `onNewMessage`, `messageHandler<ClientRequestMsg>` (ReplicaImp.cpp:177-228) and `onMessage`; the view
is what is executed or queued.  Validation in a thread pool is the same validation. -/
def receive (e : Env) (g : Gate) (maxSize sender : Nat) (m : Bytes) : R View := do
  onNewMessage maxSize m
  (if g.async then (do let _ ← shouldValidateAsync m; pure ()) else .ok ())
  validate e sender m
  admit e g sender m

/-! ## Batches -/

/-- sizeof(ClientBatchRequestMsgHeader), ClientMsgs.hpp:25-31 -/
def batchHdrSize : Nat := 16

/-- MessageBase.hpp:147 -/
def maxBatchSize : Nat := 1024

/-- `ClientBatchRequestMsgHeader`, ClientMsgs.hpp:25-31 -/
structure BHdr where
  msgType : Nat
  cidSize : Nat
  client : Nat
  num : Nat
  dataSize : Nat
deriving DecidableEq, Repr

def encBHdr (h : BHdr) : Bytes :=
  leEncode 2 h.msgType ++ leEncode 4 h.cidSize ++ leEncode 2 h.client ++ leEncode 4 h.num ++ leEncode 4 h.dataSize

def decBHdr (b : Bytes) : BHdr where
  msgType := leDecode (b.take 2)
  cidSize := leDecode ((b.drop 2).take 4)
  client := leDecode ((b.drop 6).take 2)
  num := leDecode ((b.drop 8).take 4)
  dataSize := leDecode ((b.drop 12).take 4)

def readBHdr (m : Bytes) : Option BHdr := (slice m 0 batchHdrSize).map decBHdr

/-- `Client::createClientBatchMsg`, bft_client.cpp:163-189, and the constructor, ClientBatchRequestMsg.cpp:20-42 -/
def createBatch (client : Nat) (cid : Bytes) (msgs : List Bytes) : Bytes :=
  encBHdr ⟨750, cid.length, client, msgs.length, msgs.flatten.length⟩ ++ cid ++ msgs.flatten

/-- the header of the element at `pos`: the code reads its first 46 bytes, ClientBatchRequestMsg.cpp:80-95 and 109-131 -/
def readElem (m : Bytes) (pos : Nat) : Option Hdr := (slice m pos 46).map decHdr

/-- the position after the element, ClientBatchRequestMsg.cpp:94-95 and 129-130 (the extra data is not counted) -/
def nextPos (pos : Nat) (h : Hdr) : Nat := pos + (hdrSize + h.span + h.reqLen + h.cidLen + h.sigLen)

/-- the loop of `checkElements`, ClientBatchRequestMsg.cpp:79-96 -/
def checkLoop (e : Env) (m : Bytes) : (n pos : Nat) → R Unit
  | 0, _ => .ok ()
  | n + 1, pos =>
    match readElem m pos with
    | none => .error .oob
    | some h =>
      if (if e.signing then e.sigLength h.client else 0) ≠ h.sigLen ∨ m.length < h.reqLen ∨ m.length < h.cidLen then .error .reject
      else checkLoop e m n (nextPos pos h)

/-- `ClientBatchRequestMsg::validate` and `checkElements`, ClientBatchRequestMsg.cpp:49-98.  `type() != ClientBatchRequest` cannot hold in
the code, the type selects the handler. -/
def validateBatch (e : Env) (sender : Nat) (m : Bytes) : R Unit :=
  if m.length < batchHdrSize then .error .reject
  else
    match readBHdr m with
    | none => .error .oob
    | some h =>
      if m.length < batchHdrSize + h.dataSize then .error .reject
      else if h.msgType ≠ 750 then .error .reject
      else if sender = e.myId then .error .reject
      else if h.num = 0 ∨ h.num > maxBatchSize then .error .reject
      else checkLoop e m h.num (batchHdrSize + h.cidSize)

/-- one element of `getClientPreProcessRequestMsgs`, ClientBatchRequestMsg.cpp:109-128: the `ClientPreProcessRequestMsg` that is built
(ClientPreProcessRequestMsg.cpp:20-41) from a copy of the parts.  A missing signature pointer with a positive length fails the assertion of
ClientRequestMsg.cpp:57. -/
def element (e : Env) (m : Bytes) (pos : Nat) (h : Hdr) : R Req :=
  match slice m (pos + hdrSize) h.span, slice m (pos + hdrSize + h.span) h.reqLen, slice m (pos + hdrSize + h.span + h.reqLen) h.cidLen with
  | some sp, some d, some c =>
    if h.sigLen = 0 then .ok ⟨500, h.client, PRE_PROCESS, 1, h.reqSeq, h.timeout, 0, sp, d, c, [], 0⟩
    else if !e.signing then .error .abort
    else
      match slice m (pos + hdrSize + h.span + h.reqLen + h.cidLen) h.sigLen with
      | some s => .ok ⟨500, h.client, PRE_PROCESS, 1, h.reqSeq, h.timeout, 0, sp, d, c, s, 0⟩
      | none => .error .oob
  | _, _, _ => .error .oob

/-- the loop of `getClientPreProcessRequestMsgs`, ClientBatchRequestMsg.cpp:108-131 -/
def elementsLoop (e : Env) (m : Bytes) : (n pos : Nat) → R (List Req)
  | 0, _ => .ok []
  | n + 1, pos =>
    match readElem m pos with
    | none => .error .oob
    | some h =>
      match element e m pos h with
      | .error x => .error x
      | .ok r =>
        match elementsLoop e m n (nextPos pos h) with
        | .error x => .error x
        | .ok rs => .ok (r :: rs)

/-- `getCid` of the batch and `getClientPreProcessRequestMsgs`, ClientBatchRequestMsg.cpp:44-47, 100-134 -/
def elements (e : Env) (m : Bytes) : R (List Req) :=
  match readBHdr m with
  | none => .error .oob
  | some h =>
    match slice m batchHdrSize h.cidSize with
    | none => .error .oob
    | some _ => elementsLoop e m h.num (batchHdrSize + h.cidSize)

/-- the state of the pre-processor that decides whether requests are let in -/
structure PGate where
  batching : Bool
  maxBatch : Nat
  collecting : Bool
  validClient : Nat → Bool
  isPrimary : Bool
  viewActive : Bool
  /-- the keys of `ongoingReqBatches_`, PreProcessor.cpp:466-472: the external clients -/
  hasEntry : Nat → Bool

/-- `checkClientMsgCorrectness`, PreProcessor.cpp:601-637 -/
def clientMsgOk (e : Env) (g : PGate) (readOnly : Bool) (client sender : Nat) : Bool :=
  !g.collecting && !readOnly && !(!g.validClient client || (e.isReplica sender && !g.isPrimary)) && g.viewActive

/-- the loop of `checkClientBatchMsgCorrectness`, PreProcessor.cpp:657-673: all elements are looked at; the sender of an element is its
client id -/
def batchOk (e : Env) (g : PGate) (sender : Nat) : List Req → R Bool
  | [] => .ok true
  | r :: rs =>
    if !clientMsgOk e g false r.client sender then
      match batchOk e g sender rs with
      | .error x => .error x
      | .ok _ => .ok false
    else
      match validate e r.client r.encode with
      | .error .reject =>
        (match batchOk e g sender rs with
        | .error x => .error x
        | .ok _ => .ok false)
      | .error x => .error x
      | .ok _ => batchOk e g sender rs

/-- every request goes to the entry of its client, PreProcessor.cpp:797 -/
def handOver (g : PGate) : List Req → R (List Req)
  | [] => .ok []
  | r :: rs => if g.hasEntry r.client then (match handOver g rs with | .ok xs => .ok (r :: xs) | .error x => .error x) else .error .null

/-- `onMessage<ClientBatchRequestMsg>` up to the registration of the requests, PreProcessor.cpp:856-892, with the validation of the message
before it (1306-1313) and `checkClientBatchMsgCorrectness` (639-674): the requests that are handed over, in order.  `busy`: a batch of the
client of the header is registered. -/
def onBatch (e : Env) (g : PGate) (busy : Nat → Bool) (sender : Nat) (m : Bytes) : R (List Req) :=
  match validateBatch e sender m with
  | .error x => .error x
  | .ok _ =>
    match readBHdr m with
    | none => .error .oob
    | some h =>
      match slice m batchHdrSize h.cidSize with
      | none => .error .oob
      | some _ =>
        if !g.batching then .error .reject
        else if h.num > g.maxBatch then .error .reject
        else
          match elements e m with
          | .error x => .error x
          | .ok rs =>
            match batchOk e g sender rs with
            | .error x => .error x
            | .ok false => .error .reject
            | .ok true =>
              if !g.hasEntry h.client then .error .null
              else if busy h.client then .error .reject
              else handOver g rs

/-- `onMessage<ClientPreProcessRequestMsg>`, PreProcessor.cpp:712-731, after `validate` (1315-1321), up to the entry of the client (797) -/
def onPreProcess (e : Env) (g : PGate) (sender : Nat) (m : Bytes) : R View :=
  match validate e sender m with
  | .error x => .error x
  | .ok _ =>
    match view m with
    | none => .error .oob
    | some v =>
      if !clientMsgOk e g (bit v.flags READ_ONLY) v.client sender then .error .reject
      else if g.hasEntry v.client then .ok v else .error .null

end Verif.Req
