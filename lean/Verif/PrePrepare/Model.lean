import Verif.Util.Bytes
/-!
# PrePrepare messages: framing of requests, digest, validation

bftengine/src/bftengine/messages/PrePrepareMsg.{hpp,cpp}, ClientRequestMsg.{hpp,cpp},
bftengine/include/bftengine/ClientMsgs.hpp.  A message is the byte string received; every access outside of it is `oob`, a failed
`ConcordAssert` is `abort`, a thrown exception is `reject`.

Simplifications: the thread pool of `calculateDigestOfRequests` is sequential; logging is left out; the hash function, the signature
verification and the tables of principals are parameters.
-/
namespace Verif.PP
open Verif.Bytes

/-- an unsigned integer field of `k` bytes -/
def u (buf : Bytes) (off k : Nat) : Option Nat := (slice buf off k).map leDecode

/-- outcome of a validation -/
inductive Out where
  | oob
  | abort
  | reject
  | accept
deriving DecidableEq, Repr

/-- `ClientRequestMsgHeader`, ClientMsgs.hpp:33-46; packed, 52 bytes (ClientRequestMsg.hpp:29) -/
structure ReqHdr where
  span : Nat
  client : Nat
  flags : Nat
  result : Nat
  reqSeq : Nat
  reqLen : Nat
  cidLen : Nat
  sigLen : Nat
  extra : Nat
  index : Nat
deriving DecidableEq, Repr

def reqHdrSize : Nat := 52

/-- the header at offset `i`.  The code reads the fields it needs one by one; the last of the fields read by
`getRequestSizeTemp` ends at byte 50 of 52. -/
def readReq (buf : Bytes) (i : Nat) : Option ReqHdr :=
  match slice buf i reqHdrSize with
  | none => none
  | some h => some {
      span := leDecode ((h.drop 2).take 4)
      client := leDecode ((h.drop 6).take 2)
      flags := leDecode ((h.drop 8).take 8)
      result := leDecode ((h.drop 16).take 4)
      reqSeq := leDecode ((h.drop 20).take 8)
      reqLen := leDecode ((h.drop 28).take 4)
      cidLen := leDecode ((h.drop 40).take 4)
      sigLen := leDecode ((h.drop 44).take 2)
      extra := leDecode ((h.drop 46).take 4)
      index := leDecode ((h.drop 50).take 2) }

/-- the sum of the lengths, as `size_t` -/
def ReqHdr.sum (h : ReqHdr) : Nat := reqHdrSize + h.span + h.reqLen + h.cidLen + h.sigLen + h.extra

/-- `compRequestMsgSize` / `getRequestSizeTemp`, ClientRequestMsg.cpp:26-35: `size_t` sum cut to 32 bits -/
def reqSize (h : ReqHdr) : Nat := h.sum % 2 ^ 32

/-- sizeof(PrePrepareMsg::Header), PrePrepareMsg.hpp:52 -/
def hdrSize : Nat := 6 + 8 + 8 + 8 + 2 + 8 + 32 + 2 + 4 + 8

/-- `PrePrepareMsg::Header`, PrePrepareMsg.hpp:33-50 -/
structure Hdr where
  span : Nat
  view : Nat
  seq : Nat
  epoch : Nat
  flags : Nat
  cidLen : Nat
  time : Int
  digest : Bytes
  num : Nat
  endLoc : Nat
deriving DecidableEq, Repr

def readHdr (buf : Bytes) : Option Hdr :=
  match slice buf 0 hdrSize with
  | none => none
  | some h => some {
      span := leDecode ((h.drop 2).take 4)
      view := leDecode ((h.drop 6).take 8)
      seq := leDecode ((h.drop 14).take 8)
      epoch := leDecode ((h.drop 22).take 8)
      flags := leDecode ((h.drop 30).take 2)
      cidLen := leDecode ((h.drop 32).take 8)
      time := toInt64 (leDecode ((h.drop 40).take 8))
      digest := (h.drop 48).take 32
      num := leDecode ((h.drop 80).take 2)
      endLoc := leDecode ((h.drop 82).take 4) }

/-- `payloadShift`, PrePrepareMsg.cpp:299-301: cut to 32 bits -/
def payloadShift (h : Hdr) : Nat := (hdrSize + h.cidLen + h.span) % 2 ^ 32

/-- the loop of `checkRequests`, PrePrepareMsg.cpp:262-284; `none`: a read outside of the message -/
def checkLoop (buf : Bytes) (endLoc : Nat) : (remain i : Nat) → Option Bool
  | 0, _ => some false
  | r + 1, i =>
    match readReq buf i with
    | none => none
    | some h =>
      let i' := (i + reqSize h) % 2 ^ 32
      if r > 0 then (if i' ≥ endLoc then some false else checkLoop buf endLoc r i')
      else some (decide (i' = endLoc))

/-- `checkRequests`, PrePrepareMsg.cpp:253-289 -/
def checkRequests (buf : Bytes) (h : Hdr) : Option Bool :=
  if h.num = 0 then some (decide (h.endLoc = payloadShift h))
  else if payloadShift h ≥ h.endLoc then some false
  else checkLoop buf h.endLoc h.num (payloadShift h)

/-- what a `RequestsIterator` does when it is run to the end -/
inductive Walk where
  /-- reached the end; positions of the requests -/
  | done (ps : List Nat)
  | oob
  | abort
  /-- not finished after the given number of steps -/
  | more
deriving DecidableEq, Repr

/-- `RequestsIterator`, PrePrepareMsg.cpp:307-346: at most `fuel` calls of `getAndGoToNext` -/
def walk (buf : Bytes) (endLoc : Nat) : (fuel i : Nat) → Walk
  | 0, _ => .more
  | k + 1, i =>
    if i > endLoc then .abort
    else if i = endLoc then .done []
    else
      match readReq buf i with
      | none => .oob
      | some h =>
        let i' := (i + reqSize h) % 2 ^ 32
        if i' > endLoc then .abort
        else
          match walk buf endLoc k i' with
          | .done ps => .done (i :: ps)
          | x => x

/-- decimal digits, `std::to_string` -/
def decNat (n : Nat) : Bytes := if n < 10 then [UInt8.ofNat (48 + n)] else decNat (n / 10) ++ [UInt8.ofNat (48 + n % 10)]
termination_by n

/-- `std::to_string(int64_t)` -/
def decInt (t : Int) : Bytes := if t < 0 then 45 :: decNat t.natAbs else decNat t.natAbs

/-- the part of the digest input for the request at `i`, PrePrepareMsg.cpp:53-71: its signature if it has one, else the hash of all its
bytes; `requestSignature` is ClientRequestMsg.cpp:258-264 -/
def sigOrDigest (H : Bytes → Bytes) (buf : Bytes) (i : Nat) : Option Bytes :=
  match readReq buf i with
  | none => none
  | some h =>
    if h.sigLen > 0 then slice buf (i + reqHdrSize + h.span + h.reqLen + h.cidLen) h.sigLen
    else (slice buf i (reqSize h)).map H

/-- the concatenation, PrePrepareMsg.cpp:78-81 -/
def sigOrDigests (H : Bytes → Bytes) (buf : Bytes) : List Nat → Option Bytes
  | [] => some []
  | i :: is =>
    match sigOrDigest H buf i with
    | none => none
    | some x =>
      match sigOrDigests H buf is with
      | none => none
      | some y => some (x ++ y)

/-- the string that is hashed, PrePrepareMsg.cpp:78-85 -/
def digestInput (H : Bytes → Bytes) (buf : Bytes) (h : Hdr) (ps : List Nat) : Option Bytes :=
  (sigOrDigests H buf ps).map (· ++ decInt h.time)

/-- the surroundings of a validation -/
structure Env where
  H : Bytes → Bytes
  myId : Nat
  epoch : Nat
  cVal : Nat
  isReplica : Nat → Bool
  isRoReplica : Nat → Bool
  isExternalClient : Nat → Bool
  isValidPrincipal : Nat → Bool
  /-- `isClientTransactionSigningEnabled` -/
  signing : Bool
  /-- `getSigLength` -/
  sigLength : Nat → Nat
  /-- `verifySig(client, data, signature)` -/
  verify : Nat → Bytes → Bytes → Bool

/-- flag bits, bftengine/include/bftengine/Replica.hpp:47-59 -/
def bit (flags b : Nat) : Bool := flags / b % 2 == 1
def HAS_PRE_PROCESSED : Nat := 0x4
def RECONFIG : Nat := 0x20
def INTERNAL : Nat := 0x40

/-- `ClientRequestMsg::validateImp`, ClientRequestMsg.cpp:112-225, for a request inside a PrePrepare: the sender is the client id in the
header (ClientRequestMsg.cpp:90-91) and the size is `compRequestMsgSize` -/
def validateReq (e : Env) (buf : Bytes) (i : Nat) : Out :=
  match readReq buf i with
  | none => .oob
  | some h =>
    let msgSize := reqSize h
    if msgSize < reqHdrSize + h.span then .reject
    else if !bit h.flags RECONFIG && !bit h.flags INTERNAL && h.client == e.myId then .abort
    else
      let minMsgSize := reqHdrSize + h.cidLen + h.span + h.sigLen
      if msgSize < minMsgSize then .reject
      else if (bit h.flags RECONFIG || bit h.flags INTERNAL) && (e.isReplica h.client || e.isRoReplica h.client) then .accept
      else if !e.isValidPrincipal h.client then .reject
      else
        let signed := e.isExternalClient h.client && !bit h.flags RECONFIG && e.signing && h.reqLen != 0
        let expected : Nat :=
          if e.isExternalClient h.client then
            if bit h.flags RECONFIG then h.sigLen
            else if signed then e.sigLength h.client else 0
          else 0
        if signed && e.sigLength h.client == 0 then .reject
        else if expected ≠ h.sigLen then .reject
        else if msgSize ≠ reqHdrSize + h.reqLen + h.cidLen + h.span + expected + h.extra then .reject
        else if signed && !bit h.flags HAS_PRE_PROCESSED then
          match slice buf (i + reqHdrSize + h.span) h.reqLen, slice buf (i + reqHdrSize + h.span + h.reqLen + h.cidLen) h.sigLen with
          | some data, some sig => if e.verify h.client data sig then .accept else .reject
          | _, _ => .oob
        else .accept

def validateReqs (e : Env) (buf : Bytes) : List Nat → Out
  | [] => .accept
  | i :: is => match validateReq e buf i with | .accept => validateReqs e buf is | x => x

/-- the checks before the digest, PrePrepareMsg.cpp:87-115 (`flags`: bit 0 null, bit 1 ready, bits 2-3 first path) -/
def headerOk (e : Env) (sender : Nat) (buf : Bytes) (h : Hdr) : Bool :=
  !(decide (buf.length < hdrSize + h.span) || !e.isReplica sender || h.epoch != e.epoch) &&
  !(h.seq == 0 || !bit h.flags 1 || !bit h.flags 2 || decide (h.flags / 4 % 4 ≥ 3) || (h.flags / 4 % 4 == 1 && e.cVal == 0) ||
    h.flags / 16 != 0 || decide (h.endLoc > buf.length) || h.num == 0 || decide (h.num ≥ h.endLoc))

/-- `PrePrepareMsg::validate`, PrePrepareMsg.cpp:87-135 -/
def validate (e : Env) (sender : Nat) (buf : Bytes) : Out :=
  match readHdr buf with
  | none => .oob
  | some h =>
    if sender = e.myId then .abort
    else if !headerOk e sender buf h then .reject
    else
      match checkRequests buf h with
      | none => .oob
      | some false => .reject
      | some true =>
        match walk buf h.endLoc (h.num + 1) (payloadShift h) with
        | .oob => .oob
        | .abort => .abort
        | .more => .oob
        | .done ps =>
          match digestInput e.H buf h ps with
          | none => .oob
          | some s =>
            if e.H s ≠ h.digest then .reject
            else if e.signing then validateReqs e buf ps else .accept

/-- A request of a message as execution sees it: header fields, all bytes, request data, signature. -/
structure ReqView where
  hdr : ReqHdr
  bytes : Bytes
  data : Bytes
  sig : Bytes
deriving DecidableEq

/-- `ClientRequestMsg(ClientRequestMsgHeader*)`, `requestBuf`, `requestSignature`, ClientRequestMsg.cpp:90, ClientRequestMsg.hpp:66 -/
def viewReq (buf : Bytes) (i : Nat) : Option ReqView :=
  match readReq buf i with
  | none => none
  | some h =>
    match slice buf i (reqSize h), slice buf (i + reqHdrSize + h.span) h.reqLen,
      slice buf (i + reqHdrSize + h.span + h.reqLen + h.cidLen) h.sigLen with
    | some b, some d, some s => some ⟨h, b, d, s⟩
    | _, _, _ => none

def viewReqs (buf : Bytes) : List Nat → Option (List ReqView)
  | [] => some []
  | i :: is =>
    match viewReq buf i, viewReqs buf is with
    | some x, some xs => some (x :: xs)
    | _, _ => none

/-- The requests of a message, in the order of the iterator. -/
def requestsOf (buf : Bytes) : Option (List ReqView) :=
  match readHdr buf with
  | none => none
  | some h =>
    match walk buf h.endLoc (h.num + 1) (payloadShift h) with
    | .done ps => viewReqs buf ps
    | _ => none

/-! ## What an honest primary builds -/

/-- the header bytes -/
def encHdr (msgType span view seq epoch flags cidLen : Nat) (time : Int) (digest : Bytes) (num endLoc : Nat) : Bytes :=
  leEncode 2 msgType ++ leEncode 4 span ++ leEncode 8 view ++ leEncode 8 seq ++ leEncode 8 epoch ++ leEncode 2 flags ++ leEncode 8 cidLen ++
    leEncode 8 (ofInt64 time) ++ digest ++ leEncode 2 num ++ leEncode 4 endLoc

/-- constructor, `addRequest` for each request, `finishAddingRequests` (PrePrepareMsg.cpp:137-232): header, span context, batch cid,
requests; the digest is that of the requests and the time -/
def build (H : Bytes → Bytes) (view seq epoch path : Nat) (time : Int) (span cid : Bytes) (reqs : List Bytes) : Bytes :=
  let body := span ++ cid ++ reqs.flatten
  let parts := reqs.flatMap (fun r => (sigOrDigest H r 0).getD [])
  encHdr 100 span.length view seq epoch (path * 4 + 3) cid.length time (H (parts ++ decInt time)) reqs.length
    (hdrSize + body.length) ++ body

/-- a request as a client or replica builds it: header and parts fill the string, sizes fit in 32 bits -/
def WellFormed (r : Bytes) : Prop := ∃ h, readReq r 0 = some h ∧ h.sum = r.length ∧ r.length < 2 ^ 32

end Verif.PP
