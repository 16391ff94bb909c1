import Verif.Util.Bytes

/-!
# Model of the v4 blockchain (`concord::kvbc::v4blockchain`)

Sources: `kvbc/src/v4blockchain/v4_blockchain.cpp` (v4), `kvbc/src/v4blockchain/detail/blockchain.cpp` (bc),
`kvbc/src/v4blockchain/detail/latest_keys.cpp` (lk), `kvbc/src/v4blockchain/detail/st_chain.cpp` (st),
`kvbc/src/v4blockchain/detail/categories.cpp` (cat), `kvbc/src/v4blockchain/detail/blocks.cpp`,
`kvbc/src/replica_state_sync_imp.cpp` (sync).

Simplifications made throughout:
* a block buffer `|VERSION|DIGEST|KEY-VALUES|` (`blocks.h`) is the pair of its parent digest and its updates (the
  serialisation of the updates is the subject of C28); a digest is a number and the digest function is a parameter;
* a column family keyed by block id is an association list on the id (the keys are 8-byte big-endian ids, whose
  byte order is the numeric order: C24/`Kvbc.KeyOrder`); the two latest-keys families are functions from the stored
  key bytes (category prefix, then key) to the stored value bytes (value, flags byte, 8-byte version);
* a RocksDB snapshot is the contents of the two latest-keys families at the time it was taken;
* the tags of immutable updates, the metrics and the logging are left out; block ids do not wrap.
-/
namespace Verif.V4
open Verif.Bytes

abbrev Str := List UInt8
abbrev Digest := Nat

/-- `concordUtils::toBigEndianStringBuffer` of a 64-bit number (`util/endianness.hpp`) -/
def be64 (n : Nat) : Str := (leEncode 8 n).reverse

/-- `concordUtils::fromBigEndianBuffer<uint64_t>` -/
def unbe64 (b : Str) : Nat := leDecode b.reverse

/-- `categorization::CATEGORY_TYPE` (`categorization/base_types.h`) -/
inductive CatType
  | merkle
  | versioned
  | immutable
  deriving DecidableEq, Repr

/-- `ValueWithFlags` (`categorized_kvbc_msgs.cmf`) -/
structure VVal where
  data : Str
  stale : Bool
  deriving DecidableEq, Repr

/-- `BlockMerkleInput`, `VersionedInput`, `ImmutableInput` (`categorized_kvbc_msgs.cmf`): the maps are lists with
distinct keys (see `Spec.UpdOk`) -/
inductive CatInput
  | merkle (kv : List (Str × Str)) (deletes : List Str)
  | versioned (kv : List (Str × VVal)) (deletes : List Str)
  | immutable (kv : List (Str × Str))
  deriving DecidableEq, Repr

/-- `CategoryInput::kv`: the updates of a block per category -/
abbrev Updates := List (Str × CatInput)

/-- `v4blockchain::detail::Block` -/
structure Block where
  parent : Digest
  updates : Updates
  deriving DecidableEq, Repr

/-- A column family keyed by block id -/
abbrev BMap := List (Nat × Block)

namespace BMap

/-- point lookup -/
def get (m : BMap) (i : Nat) : Option Block := (m.find? fun e => e.1 == i).map (·.2)

/-- `del` -/
def del (m : BMap) (i : Nat) : BMap := m.filter fun e => !(e.1 == i)

/-- `put` -/
def put (m : BMap) (i : Nat) (b : Block) : BMap := (i, b) :: m.del i

/-- remove the ids in `[lo, hi)` for which `keep` is false (`delRange`, `DeleteFilesInRange`) -/
def delRange (m : BMap) (lo hi : Nat) (keep : Nat → Bool) : BMap :=
  m.filter fun e => !(decide (lo ≤ e.1) && decide (e.1 < hi) && !keep e.1)

/-- `seekAtMost(MAX_BLOCK_ID)`: the greatest key, 0 when there is none (bc:232-242, st:56-66) -/
def maxKey (m : BMap) : Nat := (m.map (·.1)).foldr max 0

/-- `seekAtLeast(1)`: the smallest key ≥ 1 (bc:244-257) -/
def minKey (m : BMap) : Option Nat :=
  (m.map (·.1)).foldr
    (fun k acc => if k = 0 then acc else match acc with
      | none => some k
      | some a => some (min k a))
    none

end BMap

/-- the two column families of the latest keys: `LATEST_KEYS_CF`, `IMMUTABLE_KEYS_CF` -/
inductive Fam
  | latest
  | immut
  deriving DecidableEq, Repr

abbrev Kv := Fam → Str → Option Str

/-- an operation of a write batch on a latest-keys family -/
inductive KvOp
  | put (f : Fam) (k v : Str)
  | del (f : Fam) (k : Str)
  deriving DecidableEq, Repr

def KvOp.apply (kv : Kv) : KvOp → Kv
  | .put f k v => fun f' k' => if f' = f ∧ k' = k then some v else kv f' k'
  | .del f k => fun f' k' => if f' = f ∧ k' = k then none else kv f' k'

def applyKv (kv : Kv) (ops : List KvOp) : Kv := ops.foldl KvOp.apply kv

/-- the value stored under `v4_snapshot_sequence`: the RocksDB sequence number of a snapshot (here what a read at
that sequence number sees) and the stable version (`v4_blockchain.h:190-216`) -/
structure Snap where
  view : Kv
  stable : Nat

/-- a serialised write batch of the recovery DB: key operations and the deletion of a block -/
structure RevBatch where
  kv : List KvOp
  block : Nat
  deriving DecidableEq, Repr

/-- category id ↦ type and prefix (`CATEGORIES_CF`, cat) in order of registration -/
abbrev Cats := List (Str × CatType × UInt8)

/-- What is on disk.  `rcv` is the recovery DB (`concord_recovery_execution`), `rcvChk` the one of a DB checkpoint
(`concord_recovery_checkpoint`), `chkSnap` the entries `v4_snapshot_sequence_checkpoint ++ id` of `MISC_CF`. -/
structure Disk where
  cats : Cats
  blocks : BMap := []
  st : BMap := []
  kv : Kv := fun _ _ => none
  genesis : Option Nat := none
  snap : Option Snap := none
  chkSnap : Nat → Option Snap := fun _ => none
  rcv : Nat → Option RevBatch := fun _ => none
  rcvChk : Nat → Option RevBatch := fun _ => none

/-- What a process holds in memory (`v4_blockchain.h:268-281`, `blockchain.h:147-153`, `st_chain.h`).  `held` says
that `snap_shot_` is set: the process holds the RocksDB snapshot it stored. -/
structure Proc where
  last : Nat := 0
  genesis : Nat := 0
  future : Option Digest := none
  lastSn : Option Nat := none
  held : Bool := false
  stLast : Nat := 0
  deriving DecidableEq, Repr

structure Sys where
  d : Disk
  p : Proc

/-- `abort`: a failed assertion or a dereference of an empty optional; `thrown`: an exception -/
inductive Err
  | abort
  | thrown
  deriving DecidableEq, Repr

abbrev R := Except Err

/-! ## Categories (cat) -/

namespace Cats

/-- lookup in `category_types_` and `category_to_prefix_` -/
def get (c : Cats) (id : Str) : Option (CatType × UInt8) := (c.find? fun e => e.1 == id).map (·.2)

/-- `Categories::addNewCategory` (cat:88-109) -/
def addNew (c : Cats) (id : Str) (t : CatType) : R Cats :=
  if (c.get id).isSome then .error .abort
  else
    let prefix_ := UInt8.ofNat (0x21 + (c.length + 1))
    if c.any (fun e => e.2.2 == prefix_) then .error .abort
    else if 100 < c.length + 1 then .error .abort
    else .ok (c ++ [(id, t, prefix_)])

/-- `Categories::initNewBlockchainCategories` (cat:75-86) with types given -/
def addAll (c : Cats) : List (Str × CatType) → R Cats
  | [] => .ok c
  | (id, t) :: rest => do
    let c ← if (c.get id).isSome then .ok c else c.addNew id t
    addAll c rest

/-- `Categories::initExistingBlockchainCategories` (cat:111-140) and, on an empty family,
`initNewBlockchainCategories` (cat:75-86): `none` is "no types given" -/
def init (c : Cats) (types : Option (List (Str × CatType))) : R Cats :=
  match types with
  | none => if c.isEmpty then .error .thrown else .ok c
  | some ts =>
    if c.all (fun e => ts.any fun t => t.1 == e.1 && t.2 == e.2.1) then c.addAll ts else .error .thrown

end Cats

/-- the family of a category type (lk:287-293, `getColumnFamilyFromCategory`) -/
def famOf : CatType → Fam
  | .immutable => .immut
  | _ => .latest

/-- `LatestKeys::STALE_ON_UPDATE` and no flags (`latest_keys.h:45-49`) -/
def flagByte (stale : Bool) : UInt8 := if stale then 1 else 0

/-- value, flags and version as stored (lk:57-157) -/
def encVal (v : Str) (stale : Bool) (ver : Nat) : Str := v ++ flagByte stale :: be64 ver

/-- `LatestKeys::handleCategoryUpdates` (lk:57-157): the writes of one category -/
def catOps (p : UInt8) (id : Nat) : CatInput → List KvOp
  | .merkle kv dels =>
    kv.map (fun e => KvOp.put .latest (p :: e.1) (encVal e.2 false id)) ++
      dels.map fun k => KvOp.del .latest (p :: k)
  | .versioned kv dels =>
    kv.map (fun e => KvOp.put .latest (p :: e.1) (encVal e.2.data e.2.stale id)) ++
      dels.map fun k => KvOp.del .latest (p :: k)
  | .immutable kv => kv.map fun e => KvOp.put .immut (p :: e.1) (encVal [] true id)

/-- `LatestKeys::addBlockKeys` (lk:44-55); `categoryPrefix` throws on an unknown category (`categories.h:40-45`) -/
def latestOps (cats : Cats) (id : Nat) : Updates → R (List KvOp)
  | [] => .ok []
  | (c, i) :: rest =>
    match cats.get c with
    | none => .error .thrown
    | some (_, p) => do
      let ops ← latestOps cats id rest
      pure (catOps p id i ++ ops)

/-- `revertCategoryKeysImp` on one key (lk:196-242): the value of the snapshot, or a deletion -/
def revertPut (view : Kv) (f : Fam) (k : Str) : KvOp :=
  match view f k with
  | some v => .put f k v
  | none => .del f k

/-- `revertDeletedKeysImp` on one key (lk:244-285): the value of the snapshot, or nothing -/
def revertDel (view : Kv) (k : Str) : List KvOp :=
  match view .latest k with
  | some v => [.put .latest k v]
  | none => []

/-- `revertCategoryKeys` (lk:172-194) -/
def revertCatOps (view : Kv) (p : UInt8) : CatInput → List KvOp
  | .merkle kv dels =>
    kv.map (fun e => revertPut view .latest (p :: e.1)) ++ dels.flatMap fun k => revertDel view (p :: k)
  | .versioned kv dels =>
    kv.map (fun e => revertPut view .latest (p :: e.1)) ++ dels.flatMap fun k => revertDel view (p :: k)
  | .immutable kv => kv.map fun e => revertPut view .immut (p :: e.1)

/-- `LatestKeys::revertLastBlockKeys` (lk:159-170) -/
def revertOps (cats : Cats) (view : Kv) : Updates → R (List KvOp)
  | [] => .ok []
  | (c, i) :: rest =>
    match cats.get c with
    | none => .error .thrown
    | some (_, p) => do
      let ops ← revertOps cats view rest
      pure (revertCatOps view p i ++ ops)

/-- `LKCompactionFilter::Filter` (lk:482-496): true when RocksDB drops the entry during a compaction -/
def filterOut (genesis : Nat) (val : Str) : Bool :=
  let stale := (val.drop (val.length - 9)).head? == some 1
  if !stale || decide (val.length ≤ 8) then false
  else
    let ver := unbe64 (val.drop (val.length - 8))
    if genesis ≤ ver then false else true

/-! ## Updates -/

def lookup {β : Type} (l : List (Str × β)) (k : Str) : Option β := (l.find? fun e => e.1 == k).map (·.2)

/-- `map[k] = v` -/
def upsert {β : Type} (l : List (Str × β)) (k : Str) (v : β) : List (Str × β) :=
  (k, v) :: l.filter fun e => !(e.1 == k)

/-- `kConcordInternalCategoryId` (`db_categories.h:30`): "concord_internal" -/
def internalCat : Str := [99, 111, 110, 99, 111, 114, 100, 95, 105, 110, 116, 101, 114, 110, 97, 108]

/-- `IBlockMetadata::kBlockMetadataKey` (`block_metadata.hpp:22`) -/
def metaKey : Str := [0x21]

/-- `keyTypes::genesis_block_key` (`kvbc_key_types.hpp:34`) -/
def genesisKey : Str := [0x32]

/-- `getBlockSequenceNumber` (v4:307-319) with `BlockMetadata::getSequenceNum` (`block_metadata.cpp:34-37`) -/
def seqNumOf (u : Updates) : R Nat :=
  match lookup u internalCat with
  | none => .ok 0
  | some (.versioned kv _) =>
    match lookup kv metaKey with
    | none => .ok 0
    | some v => if v.data.length = 8 then .ok (unbe64 v.data) else .error .abort
  | some _ => .error .thrown

/-- `addGenesisBlockKey` (v4:321-329) -/
def addGenesisKey (genesis : Nat) (u : Updates) : R Updates :=
  match lookup u internalCat with
  | none => .ok (upsert u internalCat (.versioned [(genesisKey, ⟨be64 genesis, true⟩)] []))
  | some (.versioned kv dels) => .ok (upsert u internalCat (.versioned (upsert kv genesisKey ⟨be64 genesis, true⟩) dels))
  | some _ => .error .thrown

/-! ## `Blockchain` (bc) -/

section
variable (H : Nat → Block → Digest)

/-- constructor: last reachable and genesis ids (bc:22-52, 232-257; st:22-33) -/
def openProc (d : Disk) : R Proc :=
  let last := d.blocks.maxKey
  let g := match d.genesis with
    | some g => some g
    | none => d.blocks.minKey
  match g with
  | none => .ok { last := last, stLast := d.st.maxKey }
  | some g => if 0 < g ∧ g ≤ last then .ok { last := last, genesis := g, stLast := d.st.maxKey } else .error .abort

/-- `Blockchain::calculateBlockDigest` (bc:156-165) -/
def calcDigest (d : Disk) (id : Nat) : R Digest :=
  if id < 1 then .ok 0
  else match d.blocks.get id with
    | none => .error .abort
    | some b => .ok (H id b)

/-- the parent digest `Blockchain::addBlock` puts in the new block (bc:63-72) -/
def parentFor (s : Sys) : R Digest :=
  match s.p.future with
  | some g => .ok g
  | none => calcDigest H s.d s.p.last

/-- `setBlockId` (bc:259-262) -/
def setBlockId (p : Proc) (id : Nat) : Proc :=
  { p with
    last := id
    genesis := if p.genesis = 0 then id else p.genesis }

/-- `onNewBFTSequenceNumber` (v4:236-305): the sequence number to remember (0: none).  The compaction it may start
is an instance of `compact`. -/
def onNew (s : Sys) (u : Updates) : R Nat × Sys :=
  match seqNumOf u with
  | .error e => (.error e, s)
  | .ok n =>
    if n = 0 then (.ok 0, s)
    else match s.p.lastSn with
      | some l =>
        if l = n then (.ok n, s)
        else if n < l then (.ok 0, s)
        else (.ok n, ⟨{ s.d with snap := some ⟨s.d.kv, l⟩ }, { s.p with held := true }⟩)
      | none =>
        if s.d.snap.isSome then (.ok n, s)
        else (.ok n, ⟨{ s.d with snap := some ⟨s.d.kv, 0⟩ }, { s.p with held := true }⟩)

/-- `setLastBlockSequenceNumber` when the number is positive (v4:99, 474) -/
def setSn (p : Proc) (n : Nat) : Proc := if n = 0 then p else { p with lastSn := some n }

/-- `KeyValueBlockchain::add(updates, block, batch)` (v4:105-112) with `Blockchain::addBlock` (bc:61-81) and
`addBlockKeys`: the new block and the operations on the latest keys.  The digest of the new block is remembered for
the next one before the keys are looked at, hence also when `latestOps` throws. -/
def mkBatch (s : Sys) (u : Updates) : R (Block × List KvOp) × Sys :=
  match parentFor H s with
  | .error e => (.error e, s)
  | .ok par =>
    let id := s.p.last + 1
    let b : Block := ⟨par, u⟩
    let s := { s with p := { s.p with future := some (H id b) } }
    match latestOps s.d.cats id u with
    | .error e => (.error e, s)
    | .ok ops => (.ok (b, ops), s)

/-- the atomic write of a new block (`native_client_->write`) and `setBlockId`; `delSt` is the deletion of the block
from the state transfer chain in the same batch (v4:463-475) -/
def writeBlock (s : Sys) (b : Block) (ops : List KvOp) (delSt : Bool) : Sys :=
  let id := s.p.last + 1
  ⟨{ s.d with
      blocks := s.d.blocks.put id b
      kv := applyKv s.d.kv ops
      st := if delSt then s.d.st.del id else s.d.st },
    setBlockId s.p id⟩

/-- `KeyValueBlockchain::add(Updates&&)` (v4:78-103) -/
def add (s : Sys) (u : Updates) : R Nat × Sys :=
  let (rsn, s1) := onNew s u
  match addGenesisKey s.p.genesis u with
  | .error e => (.error e, s1)
  | .ok u' =>
    match mkBatch H s1 u' with
    | (.error e, s2) => (.error e, s2)
    | (.ok (b, ops), s2) =>
      match rsn with
      | .error e => (.error e, s2)
      | .ok sn =>
        let s3 := writeBlock s2 b ops false
        (.ok s3.p.last, { s3 with p := setSn s3.p sn })

/-- `Blockchain::deleteBlocksUntil` (bc:82-121).  `files = some keep`: `deleteFilesInRange`, which may leave the
blocks selected by `keep`; `none`: `delRange`. -/
def deleteBlocksUntil (s : Sys) (until_ : Nat) (files : Option (Nat → Bool)) : R Nat × Sys :=
  if s.p.genesis = 0 then (.error .abort, s)
  else if ¬ s.p.genesis < until_ then (.error .abort, s)
  else if s.p.last = s.p.genesis then (.ok (s.p.genesis - 1), s)
  else
    let ld := min (s.p.last - 1) (until_ - 1)
    (.ok ld,
      ⟨{ s.d with
          blocks := s.d.blocks.delRange 1 (ld + 1) (files.getD fun _ => false)
          genesis := some (ld + 1) },
        { s.p with genesis := ld + 1 }⟩)

/-- `Blockchain::deleteGenesisBlock` (bc:139-148) -/
def deleteGenesis (s : Sys) : R Unit × Sys :=
  if s.p.genesis = 0 then (.error .abort, s)
  else if ¬ s.p.genesis < s.p.last then (.error .abort, s)
  else
    (.ok (),
      ⟨{ s.d with
          blocks := s.d.blocks.del s.p.genesis
          genesis := some (s.p.genesis + 1) },
        { s.p with genesis := s.p.genesis + 1 }⟩)

/-! ## State transfer chain -/

/-- `pruneOnSTLink` (v4:446-460): the loop, `deleteGenesis` while the genesis is below the recorded one -/
def pruneLoop (target : Nat) : Nat → Sys → Sys
  | 0, s => s
  | n + 1, s =>
    if 1 ≤ s.p.genesis ∧ s.p.genesis < s.p.last ∧ s.p.genesis < target then pruneLoop target n (deleteGenesis s).2 else s

/-- `pruneOnSTLink` (v4:446-460): the genesis id recorded in the updates -/
def pruneOnLink (s : Sys) (u : Updates) : R Unit × Sys :=
  match lookup u internalCat with
  | none => (.ok (), s)
  | some (.versioned kv _) =>
    match lookup kv genesisKey with
    | none => (.ok (), s)
    | some v => (.ok (), pruneLoop (unbe64 (v.data.take 8)) s.p.last s)
  | some _ => (.error .thrown, s)

/-- `writeSTLinkTransaction` (v4:463-475) -/
def linkOne (s : Sys) (u : Updates) : R Unit × Sys :=
  match onNew s u with
  | (.error e, s1) => (.error e, s1)
  | (.ok sn, s1) =>
    match mkBatch H s1 u with
    | (.error e, s2) => (.error e, s2)
    | (.ok (b, ops), s2) =>
      match pruneOnLink (writeBlock s2 b ops true) u with
      | (.error e, s3) => (.error e, s3)
      | (.ok _, s3) => (.ok (), { s3 with p := setSn s3.p sn })

/-- the loop of `linkSTChain` (v4:426-444) from the block after the last one; `true`: reached the end -/
def linkLoop : Nat → Sys → R Bool × Sys
  | 0, s => (.ok true, s)
  | n + 1, s =>
    match s.d.st.get (s.p.last + 1) with
    | none => (.ok false, s)
    | some b =>
      match linkOne H s b.updates with
      | (.error e, s1) => (.error e, s1)
      | (.ok _, s1) => linkLoop n s1

/-- `linkSTChain` (v4:426-444) -/
def linkSTChain (s : Sys) : R Unit × Sys :=
  if s.p.stLast = 0 then (.ok (), s)
  else match linkLoop H (s.p.stLast - s.p.last) s with
    | (.error e, s1) => (.error e, s1)
    | (.ok true, s1) => (.ok (), { s1 with p := { s1.p with stLast := 0 } })
    | (.ok false, s1) => (.ok (), s1)

/-- `addBlockToSTChain` (v4:382-424); an exception while linking terminates the process -/
def addToST (s : Sys) (id : Nat) (b : Block) (lastBlock : Bool) : R Unit × Sys :=
  if id ≤ s.p.last then (.error .thrown, s)
  else
    let has := if s.p.stLast < id then none else s.d.st.get id
    match has with
    | some b' => if b' = b then (.ok (), s) else (.error .thrown, s)
    | none =>
      let s1 : Sys := ⟨{ s.d with st := s.d.st.put id b }, { s.p with stLast := max s.p.stLast id }⟩
      if lastBlock then
        match linkSTChain H s1 with
        | (.error _, s2) => (.error .abort, s2)
        | r => r
      else (.ok (), s1)

/-- constructor with `link_st_chain` (v4:28-62) -/
def openSys (d : Disk) : R Sys :=
  match openProc d with
  | .error e => .error e
  | .ok p =>
    match linkSTChain H ⟨d, p⟩ with
    | (.error e, _) => .error e
    | (.ok _, s) => .ok s

end

/-! ## Recovery -/

/-- the version compared with the stable version: the block id for a DB checkpoint, else the BFT sequence number
(v4:166-230) -/
def versionOf (chk : Option Nat) (id : Nat) (u : Updates) : R Nat :=
  match chk with
  | some _ => .ok id
  | none => seqNumOf u

/-- the body of the loop of `storeLastReachableRevertBatch` (v4:203-218): nothing when the recovery DB has a batch for
the block -/
def storeOne (d : Disk) (snap : Snap) (rc : Nat → Option RevBatch) (id : Nat) (b : Block) : R (Nat → Option RevBatch) :=
  match rc id with
  | some _ => .ok rc
  | none =>
    match revertOps d.cats snap.view b.updates with
    | .error e => .error e
    | .ok ops => .ok fun i => if i = id then some ⟨ops, id⟩ else rc i

/-- the loop of `storeLastReachableRevertBatch` (v4:185-227) from block `id`: for every unstable block that the
recovery DB does not have yet, store the batch reverting its keys to the snapshot and deleting the block.  `fuel`
iterations are made at most (an interrupted pass). -/
def revertLoop (chk : Option Nat) (d : Disk) (snap : Snap) (genesis : Nat) :
    (fuel : Nat) → (rc : Nat → Option RevBatch) → (id : Nat) → R (Nat → Option RevBatch)
  | 0, rc, _ => .ok rc
  | n + 1, rc, id =>
    match d.blocks.get id with
    | none => .error .abort
    | some b => do
      let v ← versionOf chk id b.updates
      if v ≤ snap.stable then pure rc
      else do
        let rc ← storeOne d snap rc id b
        if id - 1 = genesis then pure rc else revertLoop chk d snap genesis n rc (id - 1)

/-- `BlockchainRecovery` (v4:740-769) with `storeLastReachableRevertBatch` (v4:166-230) on the replica's own DB: the
read-only pass at start-up, interrupted after `fuel` blocks -/
def recoverRO (d : Disk) (fuel : Nat) : R Disk := do
  let p ← openProc d
  if p.genesis = p.last then pure d
  else match d.snap with
    | none => pure d
    | some sn => do
      let rc ← revertLoop none d sn p.genesis fuel d.rcv p.last
      pure { d with rcv := rc }

/-- the same pass on the copy of the DB made for the DB checkpoint at block `blk` (`Replica.cpp:356-360`) -/
def recoverChk (d : Disk) (blk : Nat) : R Disk := do
  let p ← openProc d
  if p.genesis = p.last then pure d
  else match d.chkSnap blk with
    | none => pure d
    | some sn => do
      let rc ← revertLoop (some blk) d sn p.genesis (p.last + 1) d.rcvChk p.last
      pure { d with rcvChk := rc }

/-- apply the stored batch of the last block (v4:140-155, 670-690) -/
def applyRevert (s : Sys) (b : RevBatch) : Sys :=
  ⟨{ s.d with
      kv := applyKv s.d.kv b.kv
      blocks := s.d.blocks.del b.block },
    setBlockId s.p (s.p.last - 1)⟩

/-- `deleteLastReachableBlock` (v4:131-155) -/
def deleteLast (s : Sys) : R Unit × Sys :=
  if s.p.last = 0 then (.error .thrown, s)
  else if s.p.last = s.p.genesis then (.error .thrown, s)
  else match s.d.rcv s.p.last with
    | none => (.error .abort, s)
    | some b => (.ok (), applyRevert s b)

/-- `onFinishDeleteLastReachable` (v4:701-704) -/
def finishDelete (s : Sys) : Sys := { s with d := { s.d with rcv := fun _ => none } }

/-- `ReplicaStateSyncImp::executeBasedOnBlockId` (sync:100-144): delete the blocks after `mtd`; it gives up after
`limit` deletions -/
def syncLoop (mtd limit : Nat) : (fuel : Nat) → (deleted : Nat) → Sys → R Nat × Sys
  | 0, n, s => (.ok n, finishDelete s)
  | f + 1, n, s =>
    if mtd < s.p.last ∧ s.p.genesis ≤ s.p.last then
      match deleteLast s with
      | (.error e, s1) => (.error e, s1)
      | (.ok _, s1) => if n + 1 = limit then (.error .thrown, s1) else syncLoop mtd limit f (n + 1) s1
    else (.ok n, finishDelete s)

def syncBlockId (s : Sys) (mtd limit : Nat) : R Nat × Sys :=
  if limit = 0 then (.ok 0, s) else syncLoop mtd limit (s.p.last + 1) 0 s

/-- `checkpointInProcess(true, id)` (v4:706-738): take the snapshot of a DB checkpoint -/
def chkStart (s : Sys) (id : Nat) : R Sys :=
  if s.p.last = id then
    .ok { s with d := { s.d with chkSnap := fun i => if i = id then some ⟨s.d.kv, id⟩ else s.d.chkSnap i } }
  else .error .abort

/-- the loop of `trimBlocksFromSnapshot` (v4:652-699) -/
def trimLoop (blk : Nat) : Nat → Sys → R Sys
  | 0, s => .ok s
  | n + 1, s =>
    if blk < s.p.last then
      match s.d.rcvChk s.p.last with
      | none => .error .abort
      | some b => trimLoop blk n (applyRevert s b)
    else .ok s

/-- `trimBlocksFromSnapshot` (v4:652-699) -/
def trim (s : Sys) (blk : Nat) : R Sys :=
  if blk = 0 ∨ s.p.last < blk then .error .abort
  else if blk ≤ s.p.genesis then .error .thrown
  else do
    let s ← trimLoop blk s.p.last s
    pure { s with d := { s.d with
      rcvChk := fun _ => none
      chkSnap := fun i => if i = blk then none else s.d.chkSnap i } }

/-! ## RocksDB compaction -/

/-- a compaction that visits the entries `sel`: the filter drops the stale ones of pruned blocks (lk:482-496) -/
def compact (s : Sys) (sel : Fam → Str → Bool) : Sys :=
  { s with d := { s.d with kv := fun f k => match s.d.kv f k with
      | some v => if sel f k && filterOut s.p.genesis v then none else some v
      | none => none } }

/-! ## Reads -/

/-- a returned value: its category type (the alternative of the variant), block id and data -/
structure Value where
  type : CatType
  ver : Nat
  data : Str
  deriving DecidableEq, Repr

/-- `Blockchain::hasBlock` and `KeyValueBlockchain::hasBlock` (bc:264-269, v4:332-338, st:35-40) -/
def hasBlock (s : Sys) (id : Nat) : Bool :=
  if s.p.last < id then (if s.p.stLast < id then false else (s.d.st.get id).isSome)
  else if id < s.p.genesis then false
  else (s.d.blocks.get id).isSome

/-- `getBlockUpdates` (bc:178-183) -/
def getBlockUpdates (s : Sys) (id : Nat) : Option Updates := (s.d.blocks.get id).map (·.updates)

/-- `getBlockData` (v4:340-348) -/
def getBlockData (s : Sys) (id : Nat) : Option Block :=
  if s.p.last < id then s.d.st.get id else s.d.blocks.get id

/-- `parentDigest` (v4:355-367) -/
def parentDigest (s : Sys) (id : Nat) : R (Option Digest) :=
  if s.p.last < id then .ok ((s.d.st.get id).map (·.parent))
  else if id < s.p.genesis then .ok none
  else match s.d.blocks.get id with
    | none => .error .abort
    | some b => .ok (some b.parent)

/-- `getValueFromUpdate` (v4:522-545) -/
def valueFrom (id : Nat) (key : Str) : CatInput → Option Value
  | .merkle kv _ => (lookup kv key).map fun v => ⟨.merkle, id, v⟩
  | .versioned kv _ => (lookup kv key).map fun v => ⟨.versioned, id, v.data⟩
  | .immutable kv => (lookup kv key).map fun v => ⟨.immutable, id, v⟩

/-- `get(category, key, block)` (v4:547-569) -/
def get (s : Sys) (cat key : Str) (id : Nat) : Option Value :=
  match getBlockUpdates s id with
  | none => none
  | some u => match lookup u cat with
    | none => none
    | some i => valueFrom id key i

/-- `LatestKeys::getLatestVersion` (lk:400-428); `categoryType` of an unknown category throws -/
def getLatestVersion (s : Sys) (cat key : Str) : R (Option Nat) :=
  match s.d.cats.get cat with
  | none => .error .thrown
  | some (t, p) => .ok ((s.d.kv (famOf t) (p :: key)).map fun v => unbe64 (v.drop (v.length - 8)))

/-- `LatestKeys::getValue` (lk:295-331) for a category that is not immutable, `getLatest` (v4:571-582) -/
def getLatest (s : Sys) (cat key : Str) : R (Option Value) :=
  match s.d.cats.get cat with
  | none => .error .thrown
  | some (.immutable, p) =>
    match s.d.kv .immut (p :: key) with
    | none => .ok none
    | some v => .ok (get s cat key (unbe64 (v.drop (v.length - 8))))
  | some (t, p) =>
    .ok ((s.d.kv .latest (p :: key)).map fun v => ⟨t, unbe64 (v.drop (v.length - 8)), v.take (v.length - 9)⟩)

/-- `std::unique`: drop an element equal to the one before it (bc:219-220) -/
def uniqueAdj : List Nat → List Nat
  | [] => []
  | [a] => [a]
  | a :: b :: l => if a = b then uniqueAdj (b :: l) else a :: uniqueAdj (b :: l)

/-- `multiGet` (v4:584-618) with `multiGetBlockUpdates` and `multiGetBlockData` (bc:185-231): throws when a block id
occurs twice after `std::unique` -/
def multiGet (s : Sys) (cat : Str) (kvs : List (Str × Nat)) : R (List (Option Value)) :=
  let ids := uniqueAdj (kvs.map (·.2))
  if ids.eraseDups.length ≠ ids.length then .error .thrown
  else .ok (kvs.map fun e => get s cat e.1 e.2)

/-- `multiGetLatest` (v4:620-638) -/
def multiGetLatest (s : Sys) (cat : Str) (keys : List Str) : R (List (Option Value)) :=
  match s.d.cats.get cat with
  | none => .error .thrown
  | some (.immutable, p) =>
    multiGet s cat (keys.map fun k => (k, match s.d.kv .immut (p :: k) with
      | none => 0
      | some v => unbe64 (v.drop (v.length - 8))))
  | some (t, p) =>
    .ok (keys.map fun k =>
      (s.d.kv .latest (p :: k)).map fun v => ⟨t, unbe64 (v.drop (v.length - 8)), v.take (v.length - 9)⟩)

/-- the test of `getStaleKeys` (v4:819-863): the latest version of the key is past the block, or there is none -/
def goneAfter (s : Sys) (cat : Str) (id : Nat) (k : Str) : R Bool :=
  match getLatestVersion s cat k with
  | .error e => .error e
  | .ok none => .ok true
  | .ok (some v) => .ok (decide (id < v))

/-- `getStaleKeys` (v4:819-863) for one category -/
def staleKeysOf (s : Sys) (cat : Str) (id : Nat) (i : CatInput) : R (List Str) :=
  match i with
  | .merkle kv dels => do
    let ks ← (kv.map (·.1)).filterM (goneAfter s cat id)
    pure (ks ++ dels)
  | .versioned kv dels => do
    let ks ← kv.filterM fun e => do
      let g ← goneAfter s cat id e.1
      pure (g || e.2.stale)
    pure (ks.map (·.1) ++ dels)
  | .immutable kv => pure (kv.map (·.1))

/-- `getBlockStaleKeys` (v4:802-817) -/
def getBlockStaleKeys (s : Sys) (id : Nat) : R (List (Str × List Str)) :=
  match getBlockUpdates s id with
  | none => .error .thrown
  | some u => u.mapM fun e => do
    let ks ← staleKeysOf s e.1 id e.2
    pure (e.1, ks)

end Verif.V4
