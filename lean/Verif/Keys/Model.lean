import Verif.Util.Bytes
/-!
# Rotation of the consensus keys

bftengine/src/bftengine/KeyExchangeManager.cpp, bftengine/include/bftengine/KeyExchangeManager.hpp, bftengine/src/bftengine/KeyStore.{h,cpp},
bftengine/include/bftengine/CryptoManager.hpp, libs/crypto/src/threshsign/ThresholdSignaturesTypes.cpp (`updateKeys`,
`updateVerificationKey`), libs/util/serializable.hpp and the entry in bftengine/src/bftengine/RequestHandler.cpp.

A replica has, for each range of sequence numbers, a *cryptosystem*: its own secret key and the verification key of each replica.  A key
exchange is a request that is executed by all replicas; it installs a verification key from a later checkpoint on.

Simplifications: sequence numbers are natural numbers below 2^63 (`SeqNum` is a signed 64-bit number, `generated_sn` an unsigned one); keys are
byte strings; client keys, TLS keys and metrics are left out; the number of the epoch is fixed.
-/
namespace Verif.Keys
open Verif.Bytes

abbrev Key := Bytes

/-- how executing a request can end the process: a failed `ConcordAssert`, a write outside of an array, an exception that nobody catches
(IncomingMsgsStorageImp.cpp:198-201 terminates) -/
inductive Err where
  | abort
  | oob
  | thrown
deriving DecidableEq, Repr

abbrev R (α : Type) := Except Err α

/-! ## Cryptosystems by checkpoint -/

/-- `Cryptosystem`, ThresholdSignaturesTypes.h:170: `privateKeys_` (one) and `verificationKeys_`, here by replica id (the code counts from 1,
CryptoManager.hpp:93-94) -/
structure Sys where
  secret : Bytes
  vk : Nat → Key

/-- `cryptoSystems_`, CryptoManager.hpp:185: a `std::map` from checkpoints, ascending -/
abbrev Mgr := List (Nat × Sys)

/-- `checkpointWindowSize`, CryptoManager.hpp:26 -/
def checkpointWindow : Nat := 150

/-- `kWorkWindowSize`, SysConsts.hpp -/
def workWindow : Nat := 300

/-- the checkpoint from which keys generated at `sn` are in force, CryptoManager.hpp:152 -/
def effectiveFrom (sn : Nat) : Nat := sn / checkpointWindow + 2

/-- the checkpoint of a sequence number, CryptoManager.hpp:136 -/
def checkpointOf (q : Nat) : Nat := (q - 1) / checkpointWindow

/-- `std::map::insert` of a new key -/
def insertAt {α : Type} (c : Nat) (y : α) : List (Nat × α) → List (Nat × α)
  | [] => [(c, y)]
  | (d, z) :: l => if c < d then (c, y) :: (d, z) :: l else (d, z) :: insertAt c y l

/-- `std::map::find` -/
def hasKey {α : Type} (c : Nat) (l : List (Nat × α)) : Bool := l.any (fun p => p.1 == c)

/-- `cryptoSystems_.rbegin()->second`; the map is never empty, the default is not used -/
def lastSys (m : Mgr) : Sys :=
  match m.getLast? with
  | some p => p.2
  | none => ⟨[], fun _ => []⟩

/-- `create`, CryptoManager.hpp:150-161 -/
def create (m : Mgr) (sn : Nat) : Mgr :=
  if hasKey (effectiveFrom sn) m then m else insertAt (effectiveFrom sn) (lastSys m) m

/-- a change of the cryptosystem of checkpoint `c` -/
def modifyAt (c : Nat) (f : Sys → Sys) (m : Mgr) : Mgr := m.map (fun p => if p.1 = c then (p.1, f p.2) else p)

/-- `updateVerificationKey`, ThresholdSignaturesTypes.cpp:177-179 -/
def Sys.setVk (s : Sys) (r : Nat) (k : Key) : Sys := { s with vk := fun x => if x = r then k else s.vk x }

/-- `updateKeys`, ThresholdSignaturesTypes.cpp:170-175 -/
def Sys.setOwn (s : Sys) (me : Nat) (secret : Bytes) (k : Key) : Sys := { secret := secret, vk := fun x => if x = me then k else s.vk x }

/-- `onPublicKeyExchange`, CryptoManager.hpp:88-96 -/
def onPublic (m : Mgr) (k : Key) (r sn : Nat) : Mgr := modifyAt (effectiveFrom sn) (fun s => s.setVk r k) (create m sn)

/-- `onPrivateKeyExchange`, CryptoManager.hpp:80-87 -/
def onPrivate (m : Mgr) (me : Nat) (secret : Bytes) (k : Key) (sn : Nat) : Mgr :=
  modifyAt (effectiveFrom sn) (fun s => s.setOwn me secret k) (create m sn)

/-- `get`, CryptoManager.hpp:134-148: the cryptosystem used to sign and verify at sequence number `q` -/
def sysAt (m : Mgr) (q : Nat) : Option Sys := (m.reverse.find? (fun p => decide (p.1 ≤ checkpointOf q))).map (·.2)

/-! ## The page of the keys of one replica -/

/-- an 8-byte length and the characters, serializable.hpp:211-217 -/
def encStr (s : Bytes) : Bytes := leEncode 8 s.length ++ s

/-- the name that `getName` returns for KeyStore.h:33 -/
def keysName : Bytes := "bftEngine::impl::ClusterKeyStore::PublicKeys".toList.map (fun ch => UInt8.ofNat ch.toNat)

/-- a pair of the map, serializable.hpp:282-286 -/
def encEntry (e : Nat × Key) : Bytes := leEncode 8 e.1 ++ encStr e.2

/-- `serialize` of `PublicKeys`, KeyStore.h:38, serializable.hpp:109-115, 169-174: name, version, number of keys, keys -/
def encKeys (l : List (Nat × Key)) : Bytes := encStr keysName ++ encStr [49] ++ leEncode 8 l.length ++ (l.map encEntry).flatten

/-- an integer from the stream; past its end the code leaves the variable as it was (`oob` here), serializable.hpp:256-260 -/
def decNat (b : Bytes) : R (Nat × Bytes) :=
  match slice b 0 8 with
  | none => .error .oob
  | some x => .ok (leDecode x, b.drop 8)

/-- a string from the stream, serializable.hpp:220-228: `new char[sz]` throws for lengths from 2^63 on -/
def decStr (b : Bytes) : R (Bytes × Bytes) :=
  match decNat b with
  | .error x => .error x
  | .ok (sz, b') =>
    if sz ≥ 2 ^ 63 then .error .thrown
    else
      match slice b' 0 sz with
      | none => .error .oob
      | some s => .ok (s, b'.drop sz)

/-- the pairs of a map, serializable.hpp:155-160, 282-291 -/
def decEntries : (n : Nat) → Bytes → R (List (Nat × Key))
  | 0, _ => .ok []
  | n + 1, b =>
    match decNat b with
    | .error x => .error x
    | .ok (sn, b1) =>
      match decStr b1 with
      | .error x => .error x
      | .ok (k, b2) =>
        match decEntries n b2 with
        | .error x => .error x
        | .ok l => .ok ((sn, k) :: l)

/-- `PublicKeys::deserialize`, KeyStore.h:39, serializable.hpp:181-205.  An unknown name or a wrong version throws. -/
def decKeys (b : Bytes) : R (List (Nat × Key)) :=
  match decStr b with
  | .error x => .error x
  | .ok (nm, b1) =>
    if nm ≠ keysName then .error .thrown
    else
      match decStr b1 with
      | .error x => .error x
      | .ok (v, b2) =>
        if v ≠ [49] then .error .thrown
        else
          match decNat b2 with
          | .error x => .error x
          | .ok (n, b3) => decEntries n b3

/-! ## The replica -/

/-- a secret key and its public key -/
structure Pair where
  priv : Bytes
  pub : Key
deriving DecidableEq

structure Cfg where
  /-- `clusterSize_` -/
  n : Nat
  /-- `repID_` -/
  me : Nat
  epoch : Nat
  /-- `sizeOfReservedPage` -/
  pageSize : Nat
  /-- the cryptosystem of the configuration, CryptoManager.hpp:170-174 -/
  init : Sys
  /-- `getkeyExchangeOnStart` -/
  exchangeOnStart : Bool
  /-- `waitForFullCommOnStartup ? clusterSize_ : quorumSize_`, KeyExchangeManager.hpp:49, KeyExchangeManager.cpp:38 (`2f + c`) -/
  liveSize : Nat

structure St where
  /-- the reserved pages of the key store -/
  pages : Nat → Option Bytes
  /-- `clusterKeys_`, KeyStore.h:103; the keys of a replica that has none are the empty list -/
  store : Nat → List (Nat × Key)
  /-- `private_keys_.data_.keys`, in the file of secrets -/
  privs : List (Nat × Bytes)
  /-- `seq_candidate_map_`, in memory -/
  cands : List (Nat × Pair)
  /-- `candidate_private_keys_.generated`, in memory; `none` when its cid is empty -/
  cand : Option Pair
  mgr : Mgr

/-- `KeyExchangeMsg`, KeyExchangeMsg.hpp:15-25 -/
structure Msg where
  op : Nat
  key : Key
  rep : Nat
  sn : Nat
  epoch : Nat
deriving DecidableEq

/-- `keyExists(repId, sn)`, KeyStore.h:69-72 -/
def keyExists (s : St) (r sn : Nat) : Bool := hasKey sn (s.store r)

/-- `push`, KeyStore.h:34-37, 49-54 and KeyStore.cpp:50-63, BCStateTran.cpp:723-742: the key is kept for ever and all keys of a replica go to one
page.  For a replica id outside of the cluster the page belongs to somebody else (or to nobody) and the verification key is written outside
of `verificationKeys_`: `oob`. -/
def push (c : Cfg) (s : St) (m : Msg) : R St :=
  let l := insertAt m.sn m.key (s.store m.rep)
  if m.rep ≥ c.n then .error .oob
  else if (encKeys l).length > c.pageSize then .error .abort
  else .ok { s with
    store := fun r => if r = m.rep then l else s.store r
    pages := fun r => if r = m.rep then some (encKeys l) else s.pages r }

/-- the candidate for a sequence number -/
def candAt (s : St) (sn : Nat) : Option Pair := (s.cands.find? (fun p => p.1 == sn)).map (·.2)

/-- the two branches after `push`, KeyExchangeManager.cpp:99-112; `onKeyExchange` of the secrets, KeyExchangeManager.hpp:143-150 -/
def install (c : Cfg) (s : St) (m : Msg) : R St :=
  match (if m.rep = c.me then candAt s m.sn else none) with
  | some p =>
    if p.pub ≠ m.key then .error .abort
    else if hasKey m.sn s.privs then .error .abort
    else .ok { s with
      privs := insertAt m.sn p.priv s.privs
      cands := s.cands.filter (fun x => x.1 != m.sn)
      cand := none
      mgr := onPrivate s.mgr c.me p.priv m.key m.sn }
  | none => .ok { s with mgr := onPublic s.mgr m.key m.rep m.sn }

/-- the checks before a key is taken over, KeyExchangeManager.cpp:82-97 -/
def accepts (c : Cfg) (s : St) (m : Msg) (req : Nat) : Bool :=
  m.op != 1 && m.epoch == c.epoch && !(decide (m.sn < req / workWindow * workWindow)) && !keyExists s m.rep m.sn

/-- `onKeyExchange`, KeyExchangeManager.cpp:75-125; `req` is the sequence number of the batch that is executed -/
def onKeyExchange (c : Cfg) (s : St) (m : Msg) (req : Nat) : R St :=
  if accepts c s m req then
    match push c s m with
    | .error x => .error x
    | .ok s1 => install c s1 m
  else .ok s

/-- a request with the key exchange flag is executed, RequestHandler.cpp:59-71: neither the client that sent it nor its signature is looked at.
`client` is not used. -/
def executeKeyExchange (c : Cfg) (s : St) (_client : Nat) (m : Msg) (req : Nat) : R St := onKeyExchange c s m req

/-- `lastGeneratedSeqnum`, KeyExchangeManager.hpp:156-160; `generated.sn` is 0 outside of `onKeyExchange` -/
def lastGenerated (s : St) : Nat :=
  match s.privs.getLast? with
  | some p => p.1
  | none => 0

/-- `generateConsensusKeyAndSendInternalClientMsg`, KeyExchangeManager.cpp:242-280; `fresh` is the pair a generator would return.  The result is
the message that is sent, if any.  Nothing is saved. -/
def generate (c : Cfg) (s : St) (sn : Nat) (fresh : Pair) : St × Option Msg :=
  if lastGenerated s ≠ 0 ∧ (sn < lastGenerated s ∨ (sn - lastGenerated s) / checkpointWindow < 2) then (s, none)
  else
    match s.cand, candAt s sn with
    | none, none => ({ s with
        cands := (sn, fresh) :: s.cands
        cand := some fresh }, some ⟨0, fresh.pub, c.me, sn, c.epoch⟩)
    | some p, _ => ({ s with cands := (sn, p) :: s.cands.filter (fun x => x.1 != sn) }, some ⟨0, p.pub, c.me, sn, c.epoch⟩)
    | none, some _ => ({ s with cands := (sn, ⟨[], []⟩) :: s.cands.filter (fun x => x.1 != sn) }, some ⟨0, [], c.me, sn, c.epoch⟩)

/-! ## Restart and state transfer -/

/-- one replica id, sequence number and key -/
structure Ex where
  rep : Nat
  sn : Nat
  key : Key
deriving DecidableEq, Repr

/-- `std::multimap::insert`: after the elements with the same sequence number -/
def insMulti (e : Ex) : List Ex → List Ex
  | [] => [e]
  | d :: l => if d.sn ≤ e.sn then d :: insMulti e l else e :: d :: l

/-- the keys in the order of replica ids and sequence numbers, KeyExchangeManager.cpp:132-135 -/
def allKeys (n : Nat) (store : Nat → List (Nat × Key)) : List Ex :=
  ((List.range n).map (fun r => (store r).map (fun p => (⟨r, p.1, p.2⟩ : Ex)))).flatten

/-- `ordered_public_keys`, KeyExchangeManager.cpp:131-135 -/
def ordered (n : Nat) (store : Nat → List (Nat × Key)) : List Ex := (allKeys n store).foldl (fun l e => insMulti e l) []

/-- the loop over the public keys, KeyExchangeManager.cpp:137-138 -/
def replayPublic (m : Mgr) (l : List Ex) : Mgr := l.foldl (fun m e => onPublic m e.key e.rep e.sn) m

/-- `getKey`, KeyStore.h:56-63 -/
def getKey (store : Nat → List (Nat × Key)) (r sn : Nat) : Option Key := ((store r).find? (fun p => p.1 == sn)).map (·.2)

/-- the loop over the private keys, KeyExchangeManager.cpp:140-142 -/
def replayPrivate (me : Nat) (store : Nat → List (Nat × Key)) (m : Mgr) : List (Nat × Bytes) → R Mgr
  | [] => .ok m
  | (sn, p) :: l =>
    match getKey store me sn with
    | none => .error .abort
    | some k => replayPrivate me store (onPrivate m me p k sn) l

/-- `notifyRegistry`, KeyExchangeManager.cpp:127-143 -/
def notify (c : Cfg) (store : Nat → List (Nat × Key)) (privs : List (Nat × Bytes)) (m : Mgr) : R Mgr :=
  replayPrivate c.me store (replayPublic m (ordered c.n store)) privs

/-- `loadReplicaKeyStoreFromReserevedPages`, KeyStore.cpp:31-48: the stream has the whole page, filled up with zeros (BCStateTran.cpp:723-742);
an exception is turned into a failed assertion -/
def loadPage (pageSize : Nat) : Option Bytes → R (List (Nat × Key))
  | none => .ok []
  | some b =>
    match decKeys (b ++ List.replicate (pageSize - b.length) 0) with
    | .error .thrown => .error .abort
    | .error x => .error x
    | .ok l => .ok l

/-- the pages of the replicas below `n`, KeyStore.cpp:19-29 -/
def loadPages (pageSize : Nat) (pages : Nat → Option Bytes) : (n : Nat) → R (Nat → List (Nat × Key))
  | 0 => .ok (fun _ => [])
  | n + 1 =>
    match loadPages pageSize pages n with
    | .error x => .error x
    | .ok st =>
      match loadPage pageSize (pages n) with
      | .error x => .error x
      | .ok l => .ok (fun r => if r = n then l else st r)

/-- the first start of a replica -/
def boot (c : Cfg) : St where
  pages := fun _ => none
  store := fun _ => []
  privs := []
  cands := []
  cand := none
  mgr := [(0, c.init)]

/-- the process ends and starts again, KeyExchangeManager.cpp:35-50, KeyStore.h:43-47: the pages and the file of secrets remain -/
def restart (c : Cfg) (s : St) : R St :=
  match loadPages c.pageSize s.pages c.n with
  | .error x => .error x
  | .ok st =>
    match notify c st s.privs [(0, c.init)] with
    | .error x => .error x
    | .ok m => .ok { pages := s.pages, store := st, privs := s.privs, cands := [], cand := none, mgr := m }

/-- `numOfExchangedReplicas`, KeyStore.h:65 -/
def numExchanged (n : Nat) (store : Nat → List (Nat × Key)) : Nat := ((List.range n).filter (fun r => !(store r).isEmpty)).length

/-- `exchanged`, KeyExchangeManager.hpp:48-54 -/
def exchanged (c : Cfg) (store : Nat → List (Nat × Key)) : Bool :=
  if c.exchangeOnStart then decide (numExchanged c.n store + 1 ≥ c.liveSize) && !(store c.me).isEmpty else true

/-- `loadPublicKeys` at the end of a state transfer that installed `pages`, KeyExchangeManager.cpp:145-154 -/
def transferred (c : Cfg) (s : St) (pages : Nat → Option Bytes) : R St :=
  match loadPages c.pageSize pages c.n with
  | .error x => .error x
  | .ok st =>
    if c.exchangeOnStart && exchanged c st && decide (numExchanged c.n st < c.liveSize) then .error .abort
    else
      match notify c st s.privs s.mgr with
      | .error x => .error x
      | .ok m => .ok { s with
        pages := pages
        store := st
        mgr := m }

/-! ## The bytes of a key exchange request -/

/-- the name of `KeyExchangeMsg` -/
def msgName : Bytes := "KeyExchangeMsg".toList.map (fun ch => UInt8.ofNat ch.toNat)

/-- `serialize` of a `KeyExchangeMsg` of version "2", KeyExchangeMsg.hpp:43-51 (the algorithm is two zero bytes here) -/
def encMsg (m : Msg) : Bytes :=
  encStr msgName ++ encStr [50] ++ leEncode 1 m.op ++ encStr m.key ++ leEncode 2 m.rep ++ leEncode 8 m.sn ++ leEncode 8 m.epoch ++ leEncode 2 0

/-- `deserializeMsg`, KeyExchangeMsg.hpp:34-40, 52-59 -/
def decMsg (b : Bytes) : R Msg :=
  match decStr b with
  | .error x => .error x
  | .ok (nm, b1) =>
    if nm ≠ msgName then .error .thrown
    else
      match decStr b1 with
      | .error x => .error x
      | .ok (v, b2) =>
        if v ≠ [50] then .error .thrown
        else
          match slice b2 0 1 with
          | none => .error .oob
          | some op =>
            match decStr (b2.drop 1) with
            | .error x => .error x
            | .ok (k, b3) =>
              match slice b3 0 2, slice b3 2 8, slice b3 10 8 with
              | some r, some sn, some ep => .ok ⟨leDecode op, k, leDecode r, leDecode sn, leDecode ep⟩
              | _, _, _ => .error .oob

/-- a request with the key exchange flag and these bytes is executed, RequestHandler.cpp:59-71 -/
def executeBytes (c : Cfg) (s : St) (client : Nat) (b : Bytes) (req : Nat) : R St :=
  match decMsg b with
  | .error x => .error x
  | .ok m => executeKeyExchange c s client m req

end Verif.Keys
