import Verif.Util.Bytes
/-!
# Byte-level model of `ViewChangeMsg`

messages/ViewChangeMsg.cpp, messages/ViewChangeMsg.hpp.  The message is its raw byte buffer; `size()` is the length
of the buffer (MessageBase.hpp:85).  All 32-bit arithmetic of the code is kept (`% 2^32`).
-/
namespace Verif.VCBytes
open Verif.Bytes

/-- SysConsts.hpp:46 `kWorkWindowSize` -/
def window : Int := 300
/-- ViewChangeMsg.hpp:146 `sizeof(Header)` -/
def hdrSize : Nat := 44
/-- ViewChangeMsg.hpp:44 `sizeof(Element)` -/
def elemSize : Nat := 49
/-- ViewChangeMsg.hpp:45 `sizeof(PreparedCertificate)` -/
def certSize : Nat := 10
/-- ReplicaAsksToLeaveViewMsg.hpp:70 `sizeOfHeader<ReplicaAsksToLeaveViewMsg>()` -/
def complaintHdr : Nat := 27

/-- `uint32_t` subtraction -/
def sub32 (a b : Nat) : Nat := (a + (2 ^ 32 - b % 2 ^ 32)) % 2 ^ 32

/-- ViewChangeMsg.hpp:130-145 `Header`, preceded by MessageBase.hpp:35-38 `MessageBase::Header`; `SeqNum` and `ViewNum`
are `int64_t` (PrimitiveTypes.hpp:29-30). -/
structure Hdr where
  msgType : Nat
  spanSize : Nat
  genId : Nat
  newView : Int
  lastStable : Int
  epoch : Nat
  numComplaints : Nat
  sizeComplaints : Nat
  numElements : Nat
  locAfterLast : Nat
deriving DecidableEq, Repr

/-- the packed struct `Header` as bytes, ViewChangeMsg.hpp:130-146 -/
def encodeHdr (h : Hdr) : Bytes :=
  leEncode 2 h.msgType ++ leEncode 4 h.spanSize ++ leEncode 2 h.genId ++ leEncode 8 (ofInt64 h.newView) ++
  leEncode 8 (ofInt64 h.lastStable) ++ leEncode 8 h.epoch ++ leEncode 2 h.numComplaints ++
  leEncode 4 h.sizeComplaints ++ leEncode 2 h.numElements ++ leEncode 4 h.locAfterLast

/-- reading the fields of the packed struct `Header` (`b()`, ViewChangeMsg.hpp:148) -/
def parseHdr (buf : Bytes) : Option Hdr :=
  match slice buf 0 hdrSize with
  | none => none
  | some hb => some {
      msgType := leDecode (hb.take 2)
      spanSize := leDecode ((hb.drop 2).take 4)
      genId := leDecode ((hb.drop 6).take 2)
      newView := toInt64 (leDecode ((hb.drop 8).take 8))
      lastStable := toInt64 (leDecode ((hb.drop 16).take 8))
      epoch := leDecode ((hb.drop 24).take 8)
      numComplaints := leDecode ((hb.drop 32).take 2)
      sizeComplaints := leDecode ((hb.drop 34).take 4)
      numElements := leDecode ((hb.drop 38).take 2)
      locAfterLast := leDecode ((hb.drop 40).take 4) }

/-- ViewChangeMsg.hpp:30-41 `Element` followed by its optional `PreparedCertificate` and signature.
`certView` and `sig` are meaningful when `flag ≠ 0`. -/
structure Elem where
  seq : Int
  digest : Bytes
  originView : Int
  flag : UInt8
  certView : Int
  sig : Bytes
deriving DecidableEq, Repr

/-- the part common to all elements, ViewChangeMsg.hpp:30-35 -/
def encodeElemHead (e : Elem) : Bytes :=
  leEncode 8 (ofInt64 e.seq) ++ e.digest ++ leEncode 8 (ofInt64 e.originView) ++ [e.flag]

/-- the certificate part, ViewChangeMsg.hpp:37-41 -/
def encodeCert (e : Elem) : Bytes :=
  leEncode 8 (ofInt64 e.certView) ++ leEncode 2 e.sig.length ++ e.sig

/-- an element as `addElement` lays it out, ViewChangeMsg.cpp:91-106 -/
def encodeElem (e : Elem) : Bytes :=
  encodeElemHead e ++ (if e.flag = 0 then [] else encodeCert e)

/-- cast of 49 bytes to `Element*` -/
def readHead (eb : Bytes) : Int × Bytes × Int × UInt8 :=
  (toInt64 (leDecode (eb.take 8)), (eb.drop 8).take 32, toInt64 (leDecode ((eb.drop 40).take 8)),
   (eb.drop 48).headD 0)

/-- what a check returns; `oob` = a byte outside the buffer was read -/
inductive Chk where
  | oob
  | ret (b : Bool)
deriving DecidableEq, Repr

/-- how the element loop of `checkElements` ends -/
inductive Loop where
  | oob
  | reject
  | short
  | done (rem cur : Nat)
deriving DecidableEq, Repr

/-- `lastStable() + kWorkWindowSize` in `int64_t`: signed overflow is undefined behaviour, modelled as the usual wrap -/
def upper (lastStable : Int) : Int :=
  if lastStable + window < 2 ^ 63 then lastStable + window else lastStable + window - 2 ^ 64

/-- the loop of `checkElements`, ViewChangeMsg.cpp:207-240; `k` is `numberOfElements() - numOfActualElements`.
The 49 bytes of an `Element` are read at once (the code reads its fields one by one). -/
def elemLoop (buf : Bytes) (lastStable newView : Int) : (k : Nat) → (last : Int) → (rem cur : Nat) → Loop
  | 0, _, rem, cur => .done rem cur
  | k + 1, last, rem, cur =>
    if rem < elemSize then .short
    else match slice buf cur elemSize with
      | none => .oob
      | some eb =>
        let (seq, _, ov, flag) := readHead eb
        if seq ≤ last then .reject
        else if seq > upper lastStable then .reject
        else if ov ≥ newView then .reject
        else if flag = 0 then elemLoop buf lastStable newView k seq (rem - elemSize) (cur + elemSize)
        else if rem - elemSize < certSize then .reject
        else match slice buf (cur + elemSize) certSize with
          | none => .oob
          | some cb =>
            let cv := toInt64 (leDecode (cb.take 8))
            let sl := leDecode (cb.drop 8)
            if cv > ov then .reject
            else if sl = 0 then .reject
            else if rem - elemSize < certSize + sl then .reject
            else elemLoop buf lastStable newView k seq (rem - elemSize - (certSize + sl))
                  (cur + elemSize + (certSize + sl))

/-- `ViewChangeMsg::checkElements`, ViewChangeMsg.cpp:201-252 -/
def checkElements (buf : Bytes) (h : Hdr) (sigSize : Nat) : Chk :=
  let rem0 := sub32 buf.length (sigSize + hdrSize + h.spanSize)
  match elemLoop buf h.lastStable h.newView h.numElements h.lastStable rem0 (hdrSize + h.spanSize) with
  | .oob => .oob
  | .reject => .ret false
  | .short => .ret false
  | .done rem _ =>
    if h.numElements > 0 then .ret (decide (h.locAfterLast = sub32 buf.length (sigSize + rem)))
    else .ret (decide (h.locAfterLast = 0))

/-- `ViewChangeMsg::getBodySize`, ViewChangeMsg.cpp:58-62 -/
def bodySize (h : Hdr) : Nat :=
  if h.locAfterLast = 0 then (hdrSize + h.spanSize) % 2 ^ 32 else h.locAfterLast

/-- the loop of `checkComplaints`, ViewChangeMsg.cpp:260-274; `k` is `numberOfComplaints() - numOfActualComplaints` -/
def complLoop (buf : Bytes) : (k : Nat) → (rem cur : Nat) → Loop
  | 0, rem, cur => .done rem cur
  | k + 1, rem, cur =>
    if rem > complaintHdr then
      match slice buf cur 4 with
      | none => .oob
      | some b =>
        let cs := leDecode b
        if cs ≤ complaintHdr then .reject
        else complLoop buf k (sub32 (sub32 rem 4) cs) (cur + 4 + cs)
    else .short

/-- `ViewChangeMsg::checkComplaints`, ViewChangeMsg.cpp:254-281 -/
def checkComplaints (buf : Bytes) (h : Hdr) (sigSize : Nat) : Chk :=
  match complLoop buf h.numComplaints (sub32 buf.length (sigSize + bodySize h)) (bodySize h + sigSize) with
  | .oob => .oob
  | .reject => .ret false
  | .short => .ret false
  | .done rem _ => .ret (decide (rem = 0))

/-- what the validator consults: ReplicasInfo, EpochManager and SigManager -/
structure Cfg where
  isReplica : Nat → Bool
  myId : Nat
  epoch : Nat
  sigLen : Nat → Nat
  verify : Nat → Bytes → Bytes → Bool

/-- outcome of `validate`: exception, read outside the buffer, or normal return -/
inductive Out where
  | throws
  | oob
  | accept
deriving DecidableEq, Repr

/-- `ViewChangeMsg::validate`, ViewChangeMsg.cpp:182-199 -/
def validate (c : Cfg) (buf : Bytes) : Out :=
  match parseHdr buf with
  | none => .throws
  | some h =>
    if buf.length < hdrSize + h.spanSize ∨ c.isReplica h.genId = false ∨ h.genId = c.myId ∨ h.epoch ≠ c.epoch then .throws
    else
      let d := bodySize h
      let sl := c.sigLen h.genId
      if buf.length < (d + sl) % 2 ^ 32 then .throws
      else match slice buf 0 d, slice buf d sl with
        | some data, some sg =>
          if c.verify h.genId data sg = false then .throws
          else match checkElements buf h sl with
            | .oob => .oob
            | .ret false => .throws
            | .ret true =>
              match checkComplaints buf h sl with
              | .oob => .oob
              | .ret false => .throws
              | .ret true => .accept
        | _, _ => .oob

/-! ## Elements iterator -/

/-- `ElementsIterator` fields, ViewChangeMsg.hpp:108-112 -/
structure Iter where
  endLoc : Nat
  cur : Nat
  next : Nat
deriving DecidableEq, Repr

/-- result of an iterator step: a failed `ConcordAssert`, a read outside the buffer, no more elements, or the element -/
inductive It where
  | assertFail
  | oob
  | atEnd
  | elem (e : Elem) (it : Iter)
deriving DecidableEq, Repr

/-- constructor, ViewChangeMsg.cpp:283-294; `none` = the assertion `endLoc > currLoc` failed -/
def iterInit (h : Hdr) : Option Iter :=
  if h.numElements = 0 then some ⟨0, 0, 1⟩
  else if h.locAfterLast > hdrSize + h.spanSize then some ⟨h.locAfterLast, hdrSize + h.spanSize, 1⟩ else none

/-- `getAndGoToNext` (with `end`), ViewChangeMsg.cpp:296-303, 332-360.  The returned element is the decoded content of
the pointed-to bytes, including the certificate that the callers read behind the pointer. -/
def iterNext (buf : Bytes) (h : Hdr) (it : Iter) : It :=
  if it.cur ≥ it.endLoc then (if it.next - 1 = h.numElements then .atEnd else .assertFail)
  else
    let rem := it.endLoc - it.cur
    if rem < elemSize then .assertFail
    else match slice buf it.cur elemSize with
      | none => .oob
      | some eb =>
        let (seq, dg, ov, flag) := readHead eb
        if flag = 0 then .elem ⟨seq, dg, ov, flag, 0, []⟩ ⟨it.endLoc, it.cur + elemSize, it.next + 1⟩
        else if rem < elemSize + certSize then .assertFail
        else match slice buf (it.cur + elemSize) certSize with
          | none => .oob
          | some cb =>
            let cv := toInt64 (leDecode (cb.take 8))
            let sl := leDecode (cb.drop 8)
            if rem < elemSize + certSize + sl then .assertFail
            else match slice buf (it.cur + elemSize + certSize) sl with
              | none => .oob
              | some sg => .elem ⟨seq, dg, ov, flag, cv, sg⟩ ⟨it.endLoc, it.cur + elemSize + (certSize + sl), it.next + 1⟩

/-- `goToAtLeast`, ViewChangeMsg.cpp:362-372, with fuel bounding the number of elements: result is the first element with
`seq ≥ lb` (and the iterator standing on it) -/
def goToAtLeast (buf : Bytes) (h : Hdr) (lb : Int) : (fuel : Nat) → Iter → It
  | 0, it => match iterNext buf h it with
    | .elem e _ => if e.seq < lb then .assertFail else .elem e it
    | r => r
  | fuel + 1, it => match iterNext buf h it with
    | .elem e it' => if e.seq < lb then goToAtLeast buf h lb fuel it' else .elem e it
    | r => r

/-! ## Sender side -/

/-- message under construction: header, span context and the bytes appended so far -/
structure Builder where
  hdr : Hdr
  span : Bytes
  elems : Bytes
  compl : Bytes

/-- constructor, ViewChangeMsg.cpp:29-46 -/
def newMsg (src : Nat) (newView lastStable : Int) (epoch msgType : Nat) (span : Bytes) : Builder :=
  { hdr := { msgType := msgType, spanSize := span.length, genId := src, newView := newView, lastStable := lastStable,
             epoch := epoch, numComplaints := 0, sizeComplaints := 0, numElements := 0, locAfterLast := 0 },
    span := span, elems := [], compl := [] }

/-- `addElement`, ViewChangeMsg.cpp:64-111; `none` = a `ConcordAssert` failed.  `cap` is `internalStorageSize()`,
`mySig` is `getMySigLength()`. -/
def addElement (cap mySig : Nat) (m : Builder) (e : Elem) : Option Builder :=
  let h := m.hdr
  if ¬ (h.numElements : Int) < window then none
  else if ¬ (h.numElements > 0 ∨ h.locAfterLast = 0) then none
  else if ¬ e.seq > h.lastStable then none
  else if ¬ e.seq ≤ upper h.lastStable then none
  else if h.numComplaints ≠ 0 ∨ h.sizeComplaints ≠ 0 then none
  else
    let loc := if h.locAfterLast = 0 then hdrSize + h.spanSize else h.locAfterLast
    let req := loc + elemSize + (if e.flag = 0 then 0 else certSize + e.sig.length)
    if req + mySig > cap then none
    else some { m with
      hdr := { h with locAfterLast := req, numElements := h.numElements + 1 }
      elems := m.elems ++ encodeElem e }

/-- `addComplaint`, ViewChangeMsg.cpp:113-137 -/
def addComplaint (cap mySig : Nat) (m : Builder) (c : Bytes) : Option Builder :=
  let h := m.hdr
  if ¬ (h.numComplaints > 0 ∨ h.sizeComplaints = 0) then none
  else if bodySize h + mySig + h.sizeComplaints + 4 + c.length > cap then none
  else some { m with
    hdr := { h with sizeComplaints := h.sizeComplaints + (4 + c.length), numComplaints := h.numComplaints + 1 }
    compl := m.compl ++ (leEncode 4 c.length ++ c) }

/-- the signed part: header, span context and elements, ViewChangeMsg.cpp:163-173 -/
def Builder.body (m : Builder) : Bytes := encodeHdr m.hdr ++ m.span ++ m.elems

/-- `finalizeMessage`, ViewChangeMsg.cpp:151-180 -/
def finalize (sign : Bytes → Bytes) (m : Builder) : Bytes := m.body ++ sign m.body ++ m.compl

/-- the range `getMsgDigest` hashes, ViewChangeMsg.cpp:52-56; `none` when it leaves the buffer -/
def digestRange (buf : Bytes) (h : Hdr) : Option Bytes := slice buf 0 ((bodySize h + h.sizeComplaints) % 2 ^ 32)

end Verif.VCBytes
