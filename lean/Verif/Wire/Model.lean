import Verif.Util.Bytes
/-!
# The messages between replicas, from the wire to the handlers

bftengine/src/bftengine/messages/: `SimpleAckMsg`, `StartSlowCommitMsg`, `ReqMissingDataMsg`, `SignedShareMsgs`,
`PartialCommitProofMsg`, `FullCommitProofMsg`, `NewViewMsg`, `CheckpointMsg`, `AskForCheckpointMsg`, `ReplicaAsksToLeaveViewMsg`,
`ReplicaRestartReadyMsg`, `ReplicasRestartReadyProofMsg`, `ReplicaStatusMsg` (constructors, accessors, `validate`), `MessageBase.{hpp,cpp}`,
`MsgReceiver.cpp`.

A message is the byte string received with the sender that the communication layer reports.  A read outside of the byte
string is `oob`, a failed `ConcordAssert` is `abort`, an exception out of `validate` is `reject`.

Simplifications: numbers of fields are the unsigned values of their bytes, compared as signed where the code does so;
sizes are natural numbers except where the code stores them in 16 bits; keys and signatures are parameters of the
environment; logging and metrics are left out.  View changes, PrePrepare messages and requests are the subject of
`Verif.VCBytes`, `Verif.PrePrepare` and `Verif.Req`.
-/
set_option linter.unusedVariables false
namespace Verif.Wire
open Verif.Bytes

/-- how handling a message can end without a result -/
inductive Err where
  | oob
  | abort
  | reject
deriving DecidableEq, Repr

abbrev R (α : Type) := Except Err α

/-- a received message, `MessageBase` -/
structure Msg where
  sender : Nat
  body : Bytes
deriving DecidableEq, Repr

/-- `size()`, MessageBase.hpp -/
def Msg.size (m : Msg) : Nat := m.body.length

/-- what a replica knows: `ReplicasInfo`, `EpochManager`, `SigManager`, configuration -/
structure Env where
  n : Nat
  f : Nat
  c : Nat
  me : Nat
  epoch : Nat
  /-- `getmaxExternalMessageSize` -/
  maxSize : Nat
  /-- `MaxNumberOfReplicas`, SysConsts.hpp:34-40 -/
  maxReplicas : Nat
  /-- is there a key for the principal, SigManager.cpp:241 -/
  known : Nat → Bool
  /-- `getSigLength`, SigManager.cpp:222-234 -/
  sigLen : Nat → Nat
  /-- the signature scheme: signer, data, signature -/
  verify : Nat → Bytes → Bytes → Bool
  /-- `isCollectorForPartialProofs`, ReplicasInfo.hpp -/
  collector : Nat → Nat → Bool

/-- `primaryOfView`, ReplicasInfo.hpp: the remainder of a signed number, converted to 16 bits -/
def Env.primary (e : Env) (v : Nat) : Nat := ((Int.tmod (toInt64 v) (e.n : Int)) % 65536).toNat

/-- read of an unsigned number of `k` bytes -/
def rd (m : Msg) (off k : Nat) : R Nat :=
  match slice m.body off k with
  | some b => .ok (leDecode b)
  | none => .error .oob

/-- read of `k` bytes -/
def rdB (m : Msg) (off k : Nat) : R Bytes :=
  match slice m.body off k with
  | some b => .ok b
  | none => .error .oob

/-- one of the conditions of a `validate`; the conditions are evaluated in order and the first that fails throws -/
def require (p : Prop) [Decidable p] : R Unit := if p then .ok () else .error .reject

/-- `ConcordAssert` -/
def assert (p : Prop) [Decidable p] : R Unit := if p then .ok () else .error .abort

/-- `sizeof(MessageBase::Header)`, MessageBase.hpp:41 -/
def baseHdr : Nat := 6

/-- `type()`, MessageBase.hpp -/
def Msg.type (m : Msg) : R Nat := rd m 0 2
/-- `spanContextSize()`, MessageBase.hpp -/
def Msg.span (m : Msg) : R Nat := rd m 2 4

/-- `verifySig`, SigManager.cpp:236-275, on parts of the message: no key, no read -/
def verifyAt (e : Env) (m : Msg) (signer off len sigOff sigLen : Nat) : R Bool :=
  if e.known signer = true then do
    let d ← rdB m off len
    let s ← rdB m sigOff sigLen
    .ok (e.verify signer d s)
  else .ok false

/-- `MsgReceiver::onNewMessage`, MsgReceiver.cpp:22-42: what reaches the handlers -/
def onNewMessage (e : Env) (m : Msg) : Bool := !(decide (m.size > e.maxSize) || decide (m.size < baseHdr))

/-! ## Message codes, MsgCode.hpp:24-44 -/

def codePreparePartial : Nat := 101
def codePrepareFull : Nat := 102
def codeCommitPartial : Nat := 103
def codeCommitFull : Nat := 104
def codeStartSlowCommit : Nat := 105
def codePartialCommitProof : Nat := 106
def codeFullCommitProof : Nat := 107
def codeSimpleAck : Nat := 110
def codeNewView : Nat := 112
def codeCheckpoint : Nat := 113
def codeAskForCheckpoint : Nat := 114
def codeReplicaStatus : Nat := 115
def codeReqMissingData : Nat := 116
def codeStateTransfer : Nat := 117
def codeLeaveView : Nat := 118
def codeRestartReady : Nat := 119
def codeRestartProof : Nat := 120

/-! ## Building messages -/

/-- the in-memory image of packed fields: width and value -/
def encF : List (Nat × Nat) → Bytes
  | [] => []
  | p :: l => leEncode p.1 p.2 ++ encF l

/-- a message: base header, the other fields of its header, span context, the rest; MessageBase.cpp:150-165 and the
constructors of the messages -/
def frame (code : Nat) (fields : List (Nat × Nat)) (span tail : Bytes) : Bytes :=
  encF ((2, code) :: (4, span.length) :: fields) ++ span ++ tail

/-! ## Acknowledgements, slow path, missing data -/

structure Ack where
  /-- size of a span context: 0 from the constructor, ignored by the receiver -/
  spanLen : Nat
  seq : Nat
  view : Nat
  epoch : Nat
  data : Nat
deriving DecidableEq, Repr

/-- the header, SimpleAckMsg.hpp:39-45 -/
def Ack.header (a : Ack) : List (Nat × Nat) := [(2, codeSimpleAck), (4, a.spanLen), (8, a.seq), (8, a.view), (8, a.epoch), (8, a.data)]

/-- the constructor, SimpleAckMsg.cpp:20-26 -/
def Ack.encode (a : Ack) : Bytes := encF a.header

/-- `SimpleAckMsg::validate`, SimpleAckMsg.cpp:28-33 -/
def Ack.validate (e : Env) (m : Msg) : R Unit := do
  require (38 ≤ m.size)
  let ep ← rd m 22 8
  require (ep = e.epoch)
  require (m.sender ≠ e.me)
  require (m.sender < e.n)

/-- `validate` and the accessors, SimpleAckMsg.hpp:27-31 -/
def Ack.receive (e : Env) (m : Msg) : R Ack := do
  Ack.validate e m
  let sp ← m.span
  let s ← rd m 6 8
  let v ← rd m 14 8
  let ep ← rd m 22 8
  let d ← rd m 30 8
  .ok ⟨sp, s, v, ep, d⟩

structure Slow where
  view : Nat
  seq : Nat
  epoch : Nat
  span : Bytes
deriving DecidableEq, Repr

/-- the fields of the header, StartSlowCommitMsg.hpp:42-49 -/
def Slow.fields (a : Slow) : List (Nat × Nat) := [(8, a.view), (8, a.seq), (8, a.epoch)]

/-- the constructor, StartSlowCommitMsg.cpp:20-29 -/
def Slow.encode (a : Slow) : Bytes := frame codeStartSlowCommit a.fields a.span []

/-- `StartSlowCommitMsg::validate`, StartSlowCommitMsg.cpp:31-35 -/
def Slow.validate (e : Env) (m : Msg) : R Unit := do
  let sp ← m.span
  require (30 + sp ≤ m.size)
  let ep ← rd m 22 8
  require (ep = e.epoch)
  let v ← rd m 6 8
  require (e.primary v = m.sender)

/-- `validate` and the accessors, StartSlowCommitMsg.hpp:30-34, MessageBase.hpp:87-90 -/
def Slow.receive (e : Env) (m : Msg) : R Slow := do
  Slow.validate e m
  let v ← rd m 6 8
  let s ← rd m 14 8
  let ep ← rd m 22 8
  let sp ← m.span
  let spb ← rdB m 30 sp
  .ok ⟨v, s, ep, spb⟩

structure Missing where
  view : Nat
  seq : Nat
  epoch : Nat
  flags : Nat
  span : Bytes
deriving DecidableEq, Repr

/-- the fields of the header, ReqMissingDataMsg.hpp:88-96 -/
def Missing.fields (a : Missing) : List (Nat × Nat) := [(8, a.view), (8, a.seq), (8, a.epoch), (2, a.flags)]

/-- the constructor and the setters of flags, ReqMissingDataMsg.cpp:20-32, ReqMissingDataMsg.hpp:55-64 -/
def Missing.encode (a : Missing) : Bytes := frame codeReqMissingData a.fields a.span []

/-- `ReqMissingDataMsg::validate`, ReqMissingDataMsg.cpp:34-41 -/
def Missing.validate (e : Env) (m : Msg) : R Unit := do
  let sp ← m.span
  require (32 + sp ≤ m.size)
  require (m.sender ≠ e.me)
  require (m.sender < e.n)
  let ep ← rd m 22 8
  require (ep = e.epoch)

/-- `validate` and the accessors, ReqMissingDataMsg.hpp:33-46 -/
def Missing.receive (e : Env) (m : Msg) : R Missing := do
  Missing.validate e m
  let v ← rd m 6 8
  let s ← rd m 14 8
  let ep ← rd m 22 8
  let fl ← rd m 30 2
  let sp ← m.span
  let spb ← rdB m 32 sp
  .ok ⟨v, s, ep, fl, spb⟩

/-! ## Threshold signatures -/

structure Share where
  view : Nat
  seq : Nat
  epoch : Nat
  span : Bytes
  sig : Bytes
deriving DecidableEq, Repr

/-- the fields of the header, SignedShareMsgs.hpp:46-55, FullCommitProofMsg.hpp:46-54 -/
def Share.fields (a : Share) : List (Nat × Nat) := [(8, a.view), (8, a.seq), (8, a.epoch), (2, a.sig.length)]

/-- `SignedShareBase::create`, SignedShareMsgs.cpp:33-85, of one of the four kinds -/
def Share.encode (code : Nat) (a : Share) : Bytes := frame code a.fields a.span a.sig

/-- `SignedShareBase::_validate`, SignedShareMsgs.cpp:87-94 -/
def Share.validateBase (e : Env) (code : Nat) (m : Msg) : R Unit := do
  let t ← m.type
  assert (t = code)
  let sp ← m.span
  require (32 + sp ≤ m.size)
  let sl ← rd m 30 2
  require (32 + sl + sp ≤ m.size)
  require (m.sender ≠ e.me)
  let ep ← rd m 22 8
  require (ep = e.epoch)
  require (m.sender < e.n)

/-- `PreparePartialMsg::validate` and `CommitPartialMsg::validate`, SignedShareMsgs.cpp:110-115, 148-153 -/
def Share.validatePartial (e : Env) (code : Nat) (m : Msg) : R Unit := do
  Share.validateBase e code m
  let v ← rd m 6 8
  require (e.me = e.primary v)

/-- the accessors, SignedShareMsgs.hpp:34-40 -/
def Share.access (m : Msg) : R Share := do
  let v ← rd m 6 8
  let s ← rd m 14 8
  let ep ← rd m 22 8
  let sl ← rd m 30 2
  let sp ← m.span
  let spb ← rdB m 32 sp
  let sig ← rdB m (32 + sp) sl
  .ok ⟨v, s, ep, spb, sig⟩

/-- a partial signature, code `codePreparePartial` or `codeCommitPartial` -/
def Share.receivePartial (e : Env) (code : Nat) (m : Msg) : R Share := do
  Share.validatePartial e code m
  Share.access m

/-- a combined signature, `PrepareFullMsg::validate`, `CommitFullMsg::validate`, SignedShareMsgs.cpp:129-131, 167-169 -/
def Share.receiveFull (e : Env) (code : Nat) (m : Msg) : R Share := do
  Share.validateBase e code m
  Share.access m

structure PartialProof where
  view : Nat
  seq : Nat
  epoch : Nat
  path : Nat
  span : Bytes
  sig : Bytes
deriving DecidableEq, Repr

/-- the fields of the header, PartialCommitProofMsg.hpp:55-65; `CommitPath` has one byte, PrimitiveTypes.hpp:42 -/
def PartialProof.fields (a : PartialProof) : List (Nat × Nat) :=
  [(8, a.view), (8, a.seq), (8, a.epoch), (1, a.path), (2, a.sig.length)]

/-- the constructor, PartialCommitProofMsg.cpp:21-45 -/
def PartialProof.encode (a : PartialProof) : Bytes := frame codePartialCommitProof a.fields a.span a.sig

/-- `PartialCommitProofMsg::validate`, PartialCommitProofMsg.cpp:47-57; path 0 is OPTIMISTIC_FAST, 1 is FAST_WITH_THRESHOLD -/
def PartialProof.validate (e : Env) (m : Msg) : R Unit := do
  let sp ← m.span
  require (33 + sp ≤ m.size)
  let ep ← rd m 22 8
  require (ep = e.epoch)
  require (m.sender ≠ e.me)
  require (m.sender < e.n)
  let cp ← rd m 30 1
  require (cp = 0 ∨ (cp = 1 ∧ 0 < e.c))
  let sl ← rd m 31 2
  require (33 + sl + sp ≤ m.size)
  let v ← rd m 6 8
  let s ← rd m 14 8
  require (e.collector v s = true)

/-- `validate` and the accessors, PartialCommitProofMsg.hpp:37-45 -/
def PartialProof.receive (e : Env) (m : Msg) : R PartialProof := do
  PartialProof.validate e m
  let v ← rd m 6 8
  let s ← rd m 14 8
  let ep ← rd m 22 8
  let cp ← rd m 30 1
  let sl ← rd m 31 2
  let sp ← m.span
  let spb ← rdB m 33 sp
  let sig ← rdB m (33 + sp) sl
  .ok ⟨v, s, ep, cp, spb, sig⟩

/-- the constructor, FullCommitProofMsg.cpp:20-36 -/
def FullProof.encode (a : Share) : Bytes := frame codeFullCommitProof a.fields a.span a.sig

/-- `FullCommitProofMsg::validate`, FullCommitProofMsg.cpp:38-45 -/
def FullProof.validate (e : Env) (m : Msg) : R Unit := do
  require (32 ≤ m.size)
  require (m.sender ≠ e.me)
  require (m.sender < e.n)
  let ep ← rd m 22 8
  require (ep = e.epoch)
  let sl ← rd m 30 2
  let sp ← m.span
  require (32 + sl + sp ≤ m.size)

/-- `validate` and the accessors, FullCommitProofMsg.hpp:33-41 -/
def FullProof.receive (e : Env) (m : Msg) : R Share := do
  FullProof.validate e m
  Share.access m

/-! ## Checkpoints -/

structure Ckpt where
  seq : Nat
  epoch : Nat
  state : Nat
  stateDigest : Nat
  pagesDigest : Nat
  rvbDigest : Nat
  gen : Nat
  flags : Nat
  span : Bytes
  sig : Bytes
deriving DecidableEq, Repr

/-- the fields of the header after the base header, CheckpointMsg.hpp:89-100; a digest is the number of its 32 bytes -/
def Ckpt.fields (a : Ckpt) : List (Nat × Nat) :=
  [(8, a.seq), (8, a.epoch), (8, a.state), (32, a.stateDigest), (32, a.pagesDigest), (32, a.rvbDigest), (2, a.gen), (1, a.flags)]

/-- the constructor and `sign`, CheckpointMsg.cpp:20-47 -/
def Ckpt.encode (a : Ckpt) : Bytes := frame codeCheckpoint a.fields a.span a.sig

/-- the signed bytes: the header with the size of the span context, CheckpointMsg.cpp:44-47 -/
def Ckpt.signed (a : Ckpt) : Bytes := encF ((2, codeCheckpoint) :: (4, a.span.length) :: a.fields)

/-- `CheckpointMsg::validate`, CheckpointMsg.cpp:49-74; `checkpointWindowSize` is 150 -/
def Ckpt.validate (e : Env) (m : Msg) : R Unit := do
  let t ← m.type
  assert (t = codeCheckpoint)
  assert (m.sender ≠ e.me)
  let sp ← m.span
  require (129 + sp ≤ m.size)
  require (m.sender < e.n)
  let g ← rd m 126 2
  require (g < e.n)
  let s ← rd m 6 8
  require (Int.tmod (toInt64 s) 150 = 0)
  let d1 ← rd m 30 32
  let d2 ← rd m 62 32
  let d3 ← rd m 94 32
  require (¬ (d1 = 0 ∧ d2 = 0 ∧ d3 = 0))
  require (129 + sp + e.sigLen g ≤ m.size)
  let ok ← verifyAt e m g 0 129 (129 + sp) (e.sigLen g)
  require (ok = true)

/-- `validate` and the accessors, CheckpointMsg.hpp:40-58 -/
def Ckpt.receive (e : Env) (m : Msg) : R Ckpt := do
  Ckpt.validate e m
  let s ← rd m 6 8
  let ep ← rd m 14 8
  let st ← rd m 22 8
  let d1 ← rd m 30 32
  let d2 ← rd m 62 32
  let d3 ← rd m 94 32
  let g ← rd m 126 2
  let fl ← rd m 128 1
  let sp ← m.span
  let spb ← rdB m 129 sp
  let sig ← rdB m (129 + sp) (e.sigLen g)
  .ok ⟨s, ep, st, d1, d2, d3, g, fl, spb, sig⟩

/-- `AskForCheckpointMsg::validate`, AskForCheckpointMsg.hpp:31-38 -/
def Ask.receive (e : Env) (m : Msg) : R Unit := do
  let t ← m.type
  assert (t = codeAskForCheckpoint)
  assert (m.sender ≠ e.me)
  let sp ← m.span
  require (m.size ≤ 6 + sp)

/-- the constructor, AskForCheckpointMsg.hpp:24-28 -/
def Ask.encode (span : Bytes) : Bytes := frame codeAskForCheckpoint [] span []

/-! ## Complaints -/

structure Leave where
  gen : Nat
  view : Nat
  epoch : Nat
  reason : Nat
  /-- size of the signature: that of the signature from the constructor, ignored by the receiver, who knows the scheme -/
  sigLen : Nat
  span : Bytes
  sig : Bytes
deriving DecidableEq, Repr

/-- the fields, ReplicaAsksToLeaveViewMsg.hpp:59-66 -/
def Leave.fields (a : Leave) : List (Nat × Nat) := [(2, a.gen), (8, a.view), (8, a.epoch), (1, a.reason), (2, a.sigLen)]

/-- `create`, ReplicaAsksToLeaveViewMsg.cpp:25-52 -/
def Leave.encode (a : Leave) : Bytes := frame codeLeaveView a.fields a.span a.sig

/-- the signed bytes, ReplicaAsksToLeaveViewMsg.cpp:49 -/
def Leave.signed (a : Leave) : Bytes := encF ((2, codeLeaveView) :: (4, a.span.length) :: a.fields)

/-- `ReplicaAsksToLeaveViewMsg::validate`, ReplicaAsksToLeaveViewMsg.cpp:54-68 -/
def Leave.validate (e : Env) (m : Msg) : R Unit := do
  let sp ← m.span
  require (27 + sp ≤ m.size)
  let ep ← rd m 16 8
  require (ep = e.epoch)
  let g ← rd m 6 2
  require (g < e.n)
  require (27 + sp + e.sigLen g ≤ m.size)
  let ok ← verifyAt e m g 0 27 (27 + sp) (e.sigLen g)
  require (ok = true)

/-- `validate` and the accessors, ReplicaAsksToLeaveViewMsg.hpp:37-45; the signature that was verified -/
def Leave.receive (e : Env) (m : Msg) : R Leave := do
  Leave.validate e m
  let g ← rd m 6 2
  let v ← rd m 8 8
  let ep ← rd m 16 8
  let r ← rd m 24 1
  let sl ← rd m 25 2
  let sp ← m.span
  let spb ← rdB m 27 sp
  let sig ← rdB m (27 + sp) (e.sigLen g)
  .ok ⟨g, v, ep, r, sl, spb, sig⟩

/-! ## New view -/

structure NewView where
  view : Nat
  epoch : Nat
  span : Bytes
  /-- replica and digest of its view-change message -/
  elems : List (Nat × Nat)
deriving DecidableEq, Repr

/-- the array of elements, NewViewMsg.hpp:57-60 -/
def encElems : List (Nat × Nat) → Bytes
  | [] => []
  | p :: l => leEncode 2 p.1 ++ leEncode 32 p.2 ++ encElems l

/-- the fields of the header, NewViewMsg.hpp:48-64 -/
def NewView.fields (a : NewView) : List (Nat × Nat) := [(8, a.view), (8, a.epoch), (2, a.elems.length)]

/-- the constructor, `addElement` and `finalizeMessage`, NewViewMsg.cpp:19-67 -/
def NewView.encode (a : NewView) : Bytes := frame codeNewView a.fields a.span (encElems a.elems)

/-- `expectedElements`, NewViewMsg.cpp:70: 16 bits -/
def expected (e : Env) : Nat := (2 * e.f + 2 * e.c + 1) % 65536

/-- identifiers increase, NewViewMsg.cpp:80 -/
def sortedOk : Option Nat → Nat → Bool
  | none, _ => true
  | some p, id => decide (p < id)

/-- the loop of `validate`, NewViewMsg.cpp:79-83: `prev` is the identifier of the element before, `off` where the next one is -/
def NewView.checkElems (m : Msg) : Nat → Option Nat → Nat → R Unit
  | 0, _, _ => .ok ()
  | k + 1, prev, off => do
    let id ← rd m off 2
    require (sortedOk prev id = true)
    let d ← rd m (off + 2) 32
    require (d ≠ 0)
    NewView.checkElems m k (some id) (off + 34)

/-- `NewViewMsg::validate`, NewViewMsg.cpp:69-85; the size of the content is computed in 16 bits -/
def NewView.validate (e : Env) (m : Msg) : R Unit := do
  let sp ← m.span
  require ((24 + expected e * 34 + sp) % 65536 ≤ m.size)
  require (m.sender < e.n)
  require (e.me ≠ m.sender)
  let v ← rd m 6 8
  require (e.primary v = m.sender)
  let ep ← rd m 14 8
  require (ep = e.epoch)
  let cnt ← rd m 22 2
  require (cnt = expected e)
  NewView.checkElems m (expected e) none (24 + sp)

/-- the elements as `includesViewChangeFromReplica` reads them, NewViewMsg.cpp:89-106 -/
def NewView.readElems (m : Msg) : Nat → Nat → R (List (Nat × Nat))
  | 0, _ => .ok []
  | k + 1, off => do
    let id ← rd m off 2
    let d ← rd m (off + 2) 32
    let l ← NewView.readElems m k (off + 34)
    .ok ((id, d) :: l)

/-- `validate` and the accessors, NewViewMsg.hpp:34-44 -/
def NewView.receive (e : Env) (m : Msg) : R NewView := do
  NewView.validate e m
  let v ← rd m 6 8
  let ep ← rd m 14 8
  let cnt ← rd m 22 2
  let sp ← m.span
  let spb ← rdB m 24 sp
  let l ← NewView.readElems m cnt (24 + sp)
  .ok ⟨v, ep, spb, l⟩

/-! ## Ready to restart -/

structure Ready where
  gen : Nat
  seq : Nat
  epoch : Nat
  /-- size of the signature: that of the signature from the constructor, ignored by the receiver, who knows the scheme -/
  sigLen : Nat
  /-- 0 Scale, 1 Install, ReplicaRestartReadyMsg.hpp:27 -/
  reason : Nat
  span : Bytes
  extra : Bytes
  sig : Bytes
deriving DecidableEq, Repr

/-- the fields, ReplicaRestartReadyMsg.hpp:70-77 -/
def Ready.fields (a : Ready) : List (Nat × Nat) :=
  [(2, a.gen), (8, a.seq), (8, a.epoch), (2, a.sigLen), (1, a.reason), (2, a.extra.length)]

/-- `create`, ReplicaRestartReadyMsg.cpp:22-60 -/
def Ready.encode (a : Ready) : Bytes := frame codeRestartReady a.fields a.span (a.extra ++ a.sig)

/-- the signed bytes: everything before the signature, ReplicaRestartReadyMsg.cpp:53-55 -/
def Ready.signed (a : Ready) : Bytes := frame codeRestartReady a.fields a.span a.extra

/-- `ReplicaRestartReadyMsg::validate`, ReplicaRestartReadyMsg.cpp:66-82; the lengths are read before the size is tested -/
def Ready.validate (e : Env) (m : Msg) : R Unit := do
  let g ← rd m 6 2
  let sp ← m.span
  let ex ← rd m 27 2
  require (29 + sp + ex ≤ m.size)
  require (g < e.n)
  let ep ← rd m 16 8
  require (ep = e.epoch)
  let r ← rd m 26 1
  require (r = 0 ∨ r = 1)
  require (29 + sp + ex + e.sigLen g ≤ m.size)
  let ok ← verifyAt e m g 0 (29 + sp + ex) (29 + sp + ex) (e.sigLen g)
  require (ok = true)

/-- `validate` and the accessors, ReplicaRestartReadyMsg.hpp:37-49, ReplicaRestartReadyMsg.cpp:61-64 -/
def Ready.receive (e : Env) (m : Msg) : R Ready := do
  Ready.validate e m
  let g ← rd m 6 2
  let s ← rd m 8 8
  let ep ← rd m 16 8
  let sl ← rd m 24 2
  let r ← rd m 26 1
  let ex ← rd m 27 2
  let sp ← m.span
  let spb ← rdB m 29 sp
  let exb ← rdB m (29 + sp) ex
  let sig ← rdB m (29 + sp + ex) (e.sigLen g)
  .ok ⟨g, s, ep, sl, r, spb, exb, sig⟩

/-- a proof that replicas are ready: the `Ready` messages, in order -/
structure Proof where
  gen : Nat
  seq : Nat
  epoch : Nat
  reason : Nat
  span : Bytes
  elems : List Bytes
deriving DecidableEq, Repr

/-- `locationAfterLast`, ReplicasRestartReadyProofMsg.cpp:57-70 -/
def Proof.after (a : Proof) : Nat := if a.elems = [] then 0 else 31 + a.span.length + a.elems.flatten.length

/-- the constructor, `addElement` and `finalizeMessage`, ReplicasRestartReadyProofMsg.cpp:21-76 -/
def Proof.encode (a : Proof) : Bytes :=
  frame codeRestartProof [(2, a.gen), (8, a.seq), (8, a.epoch), (1, a.reason), (2, a.elems.length), (4, a.after)] a.span a.elems.flatten

/-- an element as `checkElements` reads it -/
structure Elem where
  gen : Nat
  seq : Nat
  reason : Nat
  len : Nat
deriving DecidableEq, Repr

/-- the loop of `checkElements`, ReplicasRestartReadyProofMsg.cpp:100-121: `left` elements still announced, at `loc`, with `rem`
bytes remaining.  The elements read and the bytes remaining at the end, or `none` for `return false` -/
def Proof.loop (e : Env) (m : Msg) (seq sigSize : Nat) : Nat → Nat → Nat → R (Option (List Elem × Nat))
  | 0, loc, rem => .ok (some ([], rem))
  | k + 1, loc, rem =>
    if 29 + sigSize ≤ rem then do
      let s ← rd m (loc + 8) 8
      if s ≠ seq then .ok none
      else do
        let r ← rd m (loc + 26) 1
        if r ≠ 0 ∧ r ≠ 1 then .ok none
        else do
          let g ← rd m (loc + 6) 2
          let ex ← rd m (loc + 27) 2
          let sl ← rd m (loc + 24) 2
          let ok ← (if e.me ≠ g then verifyAt e m g loc (29 + ex) (loc + (29 + ex)) sl else .ok true)
          if ok = false then .ok none
          else if rem < 29 + ex + sl then .ok none
          else do
            let t ← Proof.loop e m seq sigSize k (loc + (29 + ex + sl)) (rem - (29 + ex + sl))
            match t with
            | none => .ok none
            | some (l, rem') => .ok (some (⟨g, s, r, 29 + ex + sl⟩ :: l, rem'))
    else .ok (some ([], rem))

/-- `checkElements`, ReplicasRestartReadyProofMsg.cpp:93-130; the elements found when it returns true -/
def Proof.checkElements (e : Env) (m : Msg) (sp sigSize : Nat) : R (Option (List Elem)) := do
  let seq ← rd m 8 8
  let cnt ← rd m 25 2
  let after ← rd m 27 4
  let t ← Proof.loop e m seq sigSize cnt (31 + sp) (m.size - 31 - sp)
  match t with
  | none => .ok none
  | some (l, rem) =>
    if l.length ≠ cnt then .ok none
    else if 0 < l.length then (if after ≠ m.size - rem then .ok none else .ok (some l))
    else if after ≠ 0 then .ok none else .ok (some l)

/-- `ReplicasRestartReadyProofMsg::validate`, ReplicasRestartReadyProofMsg.cpp:78-92; the elements of an accepted message -/
def Proof.validate (e : Env) (m : Msg) : R (List Elem) := do
  let sp ← m.span
  require (31 + sp ≤ m.size)
  let g ← rd m 6 2
  require (g < e.n)
  let ep ← rd m 16 8
  require (ep = e.epoch)
  let r ← rd m 24 1
  require (r = 0 ∨ r = 1)
  let after ← rd m 27 4
  require ((if after = 0 then 31 + sp else after) ≤ m.size)
  let cnt ← rd m 25 2
  require (e.n - e.f ≤ cnt)
  let t ← Proof.checkElements e m sp (e.sigLen g)
  match t with
  | none => .error .reject
  | some l => .ok l

/-! ## Status reports -/

/-- `kWorkWindowSize`, SysConsts.hpp:46 -/
def window : Nat := 300
/-- `kWorkWindowBitMaskSize`, ReplicaStatusMsg.cpp:30 -/
def windowMask : Nat := (300 + 7) / 8
/-- `maxNumberOfReplicasBitMaskSize`, ReplicaStatusMsg.cpp:31 -/
def Env.mask (e : Env) : Nat := (e.maxReplicas + 7) / 8

/-- `calcSizeOfReplicaStatusMsg`, ReplicaStatusMsg.cpp:39-53 -/
def calcSize (e : Env) (active pps vcs missing : Bool) : Nat :=
  if pps && active then 39 + windowMask + e.mask
  else if active then 39 + e.mask
  else if vcs then 39 + 2 * e.mask
  else if missing then 39 + windowMask + e.mask
  else 39 + e.mask

/-- the scalar part of a status report -/
structure Status where
  view : Nat
  stable : Nat
  executed : Nat
  epoch : Nat
  flags : Nat
deriving DecidableEq, Repr

/-- flags, ReplicaStatusMsg.cpp:134-142 -/
def Status.active (a : Status) : Bool := a.flags.testBit 0
def Status.hasNewView (a : Status) : Bool := a.flags.testBit 1
def Status.hasPPs (a : Status) : Bool := a.flags.testBit 2
def Status.hasVCs (a : Status) : Bool := a.flags.testBit 3
def Status.hasMissing (a : Status) : Bool := a.flags.testBit 4

/-- the combinations of flags that `validate` accepts and the constructor demands, ReplicaStatusMsg.cpp:73-79, 115-119 -/
def Status.flagsOk (a : Status) : Bool :=
  (!a.active || a.hasNewView) && (!a.active || !a.hasVCs) && (!a.active || !a.hasMissing) && (a.active || !a.hasPPs) &&
    decide ((if a.hasPPs then 1 else 0) + (if a.hasVCs then 1 else 0) + (if a.hasMissing then 1 else 0) ≤ 1)

/-- size of the lists of a report -/
def Status.listSize (e : Env) (a : Status) : Nat := calcSize e a.active a.hasPPs a.hasVCs a.hasMissing - 39

/-- the fields of the header, ReplicaStatusMsg.hpp:74-90 -/
def Status.fields (a : Status) : List (Nat × Nat) := [(8, a.view), (8, a.stable), (8, a.executed), (8, a.epoch), (1, a.flags)]

/-- the constructor, ReplicaStatusMsg.cpp:55-106: the lists are empty; `bits` are the bytes of the lists -/
def Status.encode (a : Status) (span bits : Bytes) : Bytes := frame codeReplicaStatus a.fields span bits

/-- `ReplicaStatusMsg::validate`, ReplicaStatusMsg.cpp:108-127; numbers are signed -/
def Status.validate (e : Env) (m : Msg) : R Unit := do
  let sp ← m.span
  require (39 + sp ≤ m.size)
  require (m.sender ≠ e.me)
  require (m.sender < e.n)
  let ls ← rd m 14 8
  require (Int.tmod (toInt64 ls) 150 = 0)
  let le ← rd m 22 8
  require (toInt64 ls ≤ toInt64 le)
  let fl ← rd m 38 1
  require (Status.flagsOk ⟨0, ls, le, 0, fl⟩ = true)
  require (m.size = calcSize e (fl.testBit 0) (fl.testBit 2) (fl.testBit 3) (fl.testBit 4) + sp)

/-- `validate` and the scalar accessors, ReplicaStatusMsg.cpp:129-142 -/
def Status.receive (e : Env) (m : Msg) : R Status := do
  Status.validate e m
  let v ← rd m 6 8
  let ls ← rd m 14 8
  let le ← rd m 22 8
  let ep ← rd m 30 8
  let fl ← rd m 38 1
  .ok ⟨v, ls, le, ep, fl⟩

/-- a bit of a list that begins `shift` bytes after the span context -/
def rdBit (m : Msg) (shift index : Nat) : R Bool := do
  let sp ← m.span
  let b ← rd m (39 + sp + shift + index / 8) 1
  .ok (b.testBit (index % 8))

/-- `isPrePrepareInActiveWindow`, ReplicaStatusMsg.cpp:144-154; the number is signed -/
def isPrePrepareInWindow (e : Env) (m : Msg) (q : Int) : R Bool := do
  let fl ← rd m 38 1
  assert (fl.testBit 2 = true)
  let ls ← rd m 14 8
  assert (toInt64 ls < q)
  assert (q ≤ toInt64 ls + 300)
  rdBit m e.mask (q - toInt64 ls - 1).toNat

/-- `isMissingViewChangeMsgForViewChange`, ReplicaStatusMsg.cpp:156-165 -/
def isMissingViewChange (e : Env) (m : Msg) (r : Nat) : R Bool := do
  let fl ← rd m 38 1
  assert (fl.testBit 3 = true)
  assert (r < e.maxReplicas)
  rdBit m e.mask r

/-- `isMissingPrePrepareMsgForViewChange`, ReplicaStatusMsg.cpp:167-177 -/
def isMissingPrePrepare (e : Env) (m : Msg) (q : Int) : R Bool := do
  let fl ← rd m 38 1
  assert (fl.testBit 4 = true)
  let ls ← rd m 14 8
  assert (toInt64 ls < q)
  assert (q ≤ toInt64 ls + 300)
  rdBit m e.mask (q - toInt64 ls - 1).toNat

/-- `hasComplaintFromReplica`, ReplicaStatusMsg.cpp:211-219 -/
def hasComplaint (e : Env) (m : Msg) (r : Nat) : R Bool := do
  assert (r < e.maxReplicas)
  rdBit m 0 r

/-- setting a bit of the lists: byte `index / 8` after `shift`, ReplicaStatusMsg.cpp:179-229 -/
def setBit (bits : Bytes) (shift index : Nat) : Bytes :=
  bits.modify (shift + index / 8) (fun b => UInt8.ofNat (b.toNat ||| 2 ^ (index % 8)))

end Verif.Wire
