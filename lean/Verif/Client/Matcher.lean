import Verif.Util.Bytes
/-!
# BFT client: reply matching and quorum configuration

client/bftclient/src/matcher.cpp, matcher.h, msg_receiver.h, quorums.cpp, quorums.h, bft_client.cpp (`wait`).
-/
namespace Verif.Client
open Verif.Bytes

/-- `MofN`, quorums.h:39-42 -/
structure MofN where
  waitFor : Nat
  dests : List Nat
deriving DecidableEq, Repr

/-- `UnmatchedReply` with `ReplyMetadata` and `ReplicaSpecificInfo`, msg_receiver.h:28-49, base_types.h:48-51 -/
structure Reply where
  primary : Option Nat
  seq : Nat
  result : Nat
  data : Bytes
  sender : Nat
  rsi : Bytes
deriving DecidableEq, Repr

/-- `MatchConfig`, matcher.h:25-31 -/
structure Config where
  quorum : MofN
  seq : Nat
  includePrimary : Bool
  primaryOnly : Bool
deriving DecidableEq, Repr

/-- `MatchKey`, matcher.h:34-36 -/
structure Key where
  primary : Option Nat
  seq : Nat
  result : Nat
  data : Bytes
deriving DecidableEq, Repr

/-- `operator<` of `std::optional<ReplicaId>`: empty is below everything -/
def optLt : Option Nat → Option Nat → Bool
  | none, some _ => true
  | some a, some b => decide (a < b)
  | _, none => false

/-- `ReplyMetadata::operator<`, msg_receiver.h:36-41; it does not look at `result` -/
def metaLt (a b : Key) : Bool := optLt a.primary b.primary || (a.primary == b.primary && decide (a.seq < b.seq))

/-- `ReplyMetadata::operator==`, msg_receiver.h:32-34; it does look at `result` -/
def metaEq (a b : Key) : Bool := a.primary == b.primary && a.seq == b.seq && a.result == b.result

/-- `MatchKey::operator<`, matcher.h:40-48 -/
def Key.lt (a b : Key) : Bool := metaLt a b || (metaEq a b && decide (a.data < b.data))

/-- `std::map<ReplicaId, Msg>::insert_or_assign`: as a list of pairs with distinct ids -/
def assign (id : Nat) (d : Bytes) : List (Nat × Bytes) → List (Nat × Bytes)
  | [] => [(id, d)]
  | (i, x) :: t => if i = id then (id, d) :: t else (i, x) :: assign id d t

/-- `matches_[key].insert_or_assign(from, data)`, matcher.cpp:19-27.  `std::map` with `MatchKey::operator<`: the entry is the
first one not below the key; it is the key's entry when the key is not below it either.  (For a comparator that is not a
strict weak order the position found by the red-black tree can differ from this scan when the map has two or more entries;
with at most one entry it is the same.) -/
def upd (k : Key) (id : Nat) (d : Bytes) : List (Key × List (Nat × Bytes)) → List (Key × List (Nat × Bytes))
  | [] => [(k, [(id, d)])]
  | (k', v) :: t =>
    if k'.lt k then (k', v) :: upd k id d t
    else if k.lt k' then (k, [(id, d)]) :: (k', v) :: t
    else (k', assign id d v) :: t

/-- `Matcher::valid`, `validSource`, matcher.cpp:43-62 -/
def valid (c : Config) (r : Reply) : Bool := c.seq == r.seq && c.quorum.dests.contains r.sender

/-- the key of a reply, matcher.cpp:17-18 -/
def keyOf (c : Config) (r : Reply) : Key :=
  ⟨if c.includePrimary then r.primary else none, r.seq, r.result, r.data⟩

/-- `Match` / `Reply`, matcher.h:51-54, base_types.h:57-61 -/
structure Match where
  result : Nat
  data : Bytes
  rsi : List (Nat × Bytes)
  primary : Option Nat
deriving DecidableEq, Repr

abbrev Entries := List (Key × List (Nat × Bytes))

/-- `Matcher::match`, matcher.cpp:32-41 -/
def findMatch (c : Config) (m : Entries) : Option Match :=
  (m.find? (fun e => e.2.length == c.quorum.waitFor)).map fun e => ⟨e.1.result, e.1.data, e.2, e.1.primary⟩

/-- `Matcher::onReply`, matcher.cpp:15-30 -/
def onReply (c : Config) (m : Entries) (r : Reply) : Entries × Option Match :=
  if valid c r then
    let m' := upd (keyOf c r) r.sender r.rsi m
    (m', findMatch c m')
  else (m, none)

/-- what happens to a request between `send` and its result: a reply is taken from the receiver, or a retry round ends
with too many different replies and `clearReplies` is called (bft_client.cpp:300-305; here it may happen at any time) -/
inductive Ev where
  | reply (r : Reply)
  | clear
deriving DecidableEq, Repr

/-- The life of one request's certificate: `Client::wait`, bft_client.cpp:316-352.  The certificate is erased at the first
match; `Reply`s for other sequence numbers are not handed to it.  For a primary-only request the first reply that names its
sender as primary is taken without the matcher (bft_client.cpp:330-340; `primary` is always set by the receiver,
msg_receiver.cpp:68). -/
def run (c : Config) : Entries → List Ev → Option Match
  | _, [] => none
  | _, .clear :: t => run c [] t
  | m, .reply r :: t =>
    if r.seq ≠ c.seq then run c m t
    else if c.primaryOnly then
      if r.primary = some r.sender then some ⟨r.result, r.data, [(r.sender, r.rsi)], r.primary⟩ else run c m t
    else
      match onReply c m r with
      | (_, some x) => some x
      | (m', none) => run c m' t

/-! ## Quorum conversion, quorums.cpp -/

/-- the cluster as the client knows it, quorums.h:54-61 -/
structure Cluster where
  all : List Nat
  ro : List Nat
  f : Nat
  c : Nat

/-- `ReadQuorum`/`WriteQuorum`, quorums.h:22-46 -/
inductive Quorum where
  | linearizable (dests : List Nat)
  | byzantineSafe (dests : List Nat)
  | all (dests : List Nat)
  | mofn (m : MofN)

/-- `validateDestinations`, quorums.cpp:81-94; `true` = no exception -/
def validDests (k : Cluster) (d : List Nat) : Bool :=
  !d.isEmpty && d.all (fun r => k.all.contains r || k.ro.contains r)

/-- `toMofN`, quorums.cpp:19-79; `none` = exception.  `std::set` is a list without duplicates. -/
def toMofN (k : Cluster) : Quorum → Option MofN
  | .linearizable d =>
    let w := 2 * k.f + k.c + 1
    if d.isEmpty then some ⟨w, k.all⟩
    else if d.length < w then none
    else if validDests k d then some ⟨w, d⟩ else none
  | .byzantineSafe d =>
    let w := k.f + 1
    if d.isEmpty then some ⟨w, k.all⟩
    else if d.length < w then none
    else if validDests k d then some ⟨w, d⟩ else none
  | .all d =>
    if d.isEmpty then some ⟨k.all.length, k.all⟩
    else if validDests k d then some ⟨d.length, d⟩ else none
  | .mofn m => if m.waitFor > m.dests.length then none else if validDests k m.dests then some m else none

/-! ## Reception -/

/-- `sizeof(ClientReplyMsgHeader)`, ClientMsgs.hpp:53-65 -/
def replyHdr : Nat := 28

/-- `MsgReceiver::onNewMessage`, msg_receiver.cpp:45-90, from the parsed length fields on: body and replica-specific bytes, or
`none` when they are taken from outside the message.  `data_len - replicaSpecificInfoLength` is a 32-bit subtraction. -/
def splitReply (msg : Bytes) (span dataLen rsiLen : Nat) : Option (Bytes × Bytes) :=
  let bodyLen := (dataLen + (2 ^ 32 - rsiLen)) % 2 ^ 32
  match slice msg (replyHdr + span) bodyLen, slice msg (replyHdr + span + bodyLen) rsiLen with
  | some b, some r => some (b, r)
  | _, _ => none

end Verif.Client
