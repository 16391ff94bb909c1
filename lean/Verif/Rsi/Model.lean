import Verif.Clients.Model
import Verif.Client.Matcher

/-!
# Model of the replica specific information of replies

Sources: `bftengine/src/bftengine/ReplicaSpecificInfoManager.{hpp,cpp}` (rsi), the two functions of
`ClientsManager.cpp` that use it (cm), `ClientReplyMsg.cpp` (crm), and the client's split of a reply
(`Client.splitReply`, `msg_receiver.cpp`).

Simplifications: the persistent storage is a map from the object index to the bytes last written (its transactions are
C34); the pages of the common part of a reply are C14; tracing and metrics are left out.
-/
namespace Verif.Rsi
open Verif.Bytes

/-- `RsiItem` (rsi.hpp:19-41) -/
structure Item where
  index : Nat := 0
  sn : Nat := 0
  data : Bytes := []
  deriving DecidableEq, Repr

/-- `RSI_DATA_PREFIX_SIZE` (rsi.hpp:24) -/
def prefixSize : Nat := 24

/-- `RsiItem::serialize` (rsi.cpp:17-29) -/
def Item.serialize (i : Item) : Bytes :=
  leEncode 8 i.index ++ leEncode 8 i.sn ++ leEncode 8 i.data.length ++ i.data

/-- `RsiItem::deserialize` (rsi.cpp:30-38): the item, and the number of bytes the last `memcpy` writes beyond the
string, which is empty (it is never resized).  `none`: `data` is shorter than what is read from it. -/
def deserialize (b : Bytes) : Option (Item × Nat) :=
  match slice b 0 8, slice b 8 8, slice b 16 8 with
  | some x, some y, some z =>
    let n := leDecode z
    match slice b prefixSize n with
    | none => none
    | some _ => some (⟨leDecode x, leDecode y, []⟩, n)
  | _, _, _ => none

/-- `RsiDataManager` (rsi.hpp:43-62); `store` is what `PersistentStorage` holds per index, kept over restarts -/
structure Mgr where
  num : Nat
  batch : Nat
  store : Nat → Option Bytes := fun _ => none
  cache : Nat → List Item := fun _ => []
  next : Nat → Nat := fun _ => 0

/-- `getRsiForClient` (rsi.cpp:40-45) -/
def Mgr.get (m : Mgr) (client sn : Nat) : Item := ((m.cache client).find? fun i => i.sn == sn).getD {}

/-- the object index of a record (rsi.cpp:48-50), in 32-bit arithmetic -/
def slot (batch client next : Nat) : Nat := (client * batch % 2 ^ 32 + next % 2 ^ 32 % batch) % 2 ^ 32

/-- `setRsiForClient` (rsi.cpp:46-63) -/
def Mgr.set (m : Mgr) (client sn : Nat) (data : Bytes) : Mgr :=
  let n := m.next client % 2 ^ 32
  let item : Item := ⟨n, sn, data⟩
  let c := m.cache client
  let c := if m.batch ≤ c.length then c.drop 1 else c
  { m with
    next := fun x => if x = client then m.next client + 1 else m.next x
    store := fun x => if x = slot m.batch client (m.next client) then some item.serialize else m.store x
    cache := fun x => if x = client then c ++ [item] else m.cache x }

/-- the records of one client that `init` keeps (rsi.cpp:67-74), and the bytes written beyond strings on the way;
`none`: out of bounds read -/
def loadClient (store : Nat → Option Bytes) (batch client : Nat) : List Nat → Option (List Item × Nat)
  | [] => some ([], 0)
  | o :: rest =>
    match loadClient store batch client rest with
    | none => none
    | some (l, w) =>
      match store ((client * batch % 2 ^ 32 + o) % 2 ^ 32) with
      | none => some (l, w)
      | some b =>
        match deserialize b with
        | none => none
        | some (i, n) => some (if i.data.isEmpty then l else i :: l, w + n)

/-- insertion into a list sorted by index, for `std::sort` (rsi.cpp:75-77) -/
def insertByIndex (i : Item) : List Item → List Item
  | [] => [i]
  | j :: l => if i.index < j.index then i :: j :: l else j :: insertByIndex i l

def sortByIndex (l : List Item) : List Item := l.foldr insertByIndex []

/-- `init` for one client (rsi.cpp:65-83) -/
def Mgr.initClient (m : Mgr) (client : Nat) : Option (Mgr × Nat) :=
  match loadClient m.store m.batch client (List.range m.batch) with
  | none => none
  | some (l, w) =>
    let l := sortByIndex l
    some ({ m with
      cache := fun x => if x = client then l else m.cache x
      next := fun x => if x = client then (l.getLast?.map (·.index)).getD 0 else m.next x }, w)

/-- `init` (rsi.cpp:64-84) for the clients given; with the number of bytes written out of bounds -/
def Mgr.initAll (m : Mgr) : List Nat → Option (Mgr × Nat)
  | [] => some (m, 0)
  | c :: rest =>
    match m.initClient c with
    | none => none
    | some (m, w) =>
      match m.initAll rest with
      | none => none
      | some (m, w') => some (m, w + w')

/-- constructor (rsi.hpp:45-48): a new process on the stored records -/
def restart (m : Mgr) : Option (Mgr × Nat) :=
  Mgr.initAll { num := m.num, batch := m.batch, store := m.store } (List.range m.num)

/-! ## Replies (cm) -/

/-- a `ClientReplyMsg` as sent: the allocated bytes after the header, and the two length fields -/
structure Msg where
  body : Bytes
  replyLen : Nat
  rsiLen : Nat
  deriving DecidableEq, Repr

/-- `setReplicaSpecificInfoLength` (crm:55-58): asserts `length <= maxReplyLength()`, the allocated space -/
def Msg.setRsiLen (m : Msg) (n : Nat) : Option Msg := if n ≤ m.body.length then some { m with rsiLen := n } else none

/-- `setReplyLength` (crm:49-53) -/
def Msg.setReplyLen (m : Msg) (n : Nat) : Option Msg := if n ≤ m.body.length then some { m with replyLen := n } else none

/-- The part of `allocateNewReplyMsgAndWriteToStorage` (cm:332-387) about replica specific information.  `buf` is the
memory the reply pointer leads to, of which the first `replyLength` bytes are the reply, the last `rsiLength` of these
its replica specific part.  `none`: abort or a read outside `buf`. -/
def newReply (m : Mgr) (client sn : Nat) (buf : Bytes) (replyLength rsiLength : Nat) : Option (Mgr × Msg) :=
  let common := replyLength - rsiLength
  match slice buf 0 common with
  | none => none
  | some body =>
    -- `std::string(reply + commonMsgSize, rsiLength)` where `commonMsgSize` is the size of the message with its header
    match slice buf (Clients.hdrLen + common) rsiLength with
    | none => none
    | some data =>
      match Msg.setRsiLen ⟨body, common, 0⟩ rsiLength with
      | none => none
      | some r => some (m.set client sn data, r)

/-- The part of `allocateReplyFromSavedOne` (cm:425-444) about replica specific information: `common` is the reply read
from the reserved pages.  `none`: abort. -/
def savedReply (m : Mgr) (client sn : Nat) (common : Bytes) : Option Msg :=
  let r : Msg := ⟨common, common.length, 0⟩
  let d := (m.get client sn).data
  if 0 < d.length then
    match r.setReplyLen (r.replyLen + d.length) with
    | none => none
    | some r => Msg.setRsiLen ⟨r.body ++ d, r.replyLen, 0⟩ d.length
  else some r

/-- what the client makes of a message (`msg_receiver.cpp:73-85`): data and replica specific information -/
def received (hdr : Bytes) (r : Msg) : Option (Bytes × Bytes) := Client.splitReply (hdr ++ r.body) 0 r.replyLen r.rsiLen

end Verif.Rsi
