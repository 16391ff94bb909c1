import Verif.Kvbc.Merkle
import Verif.Kvbc.Immutable
import Verif.Cmf.Model
set_option linter.unusedVariables false
/-!
# The categorized blockchain: all categories, digests, raw blocks, state-transfer chain (C26, C27)

Model of `kvbc/src/categorization/kv_blockchain.cpp`, `blocks.cpp`, `include/categorization/{blocks,blockchain}.h`.
The categories are those of `Verif/Kvbc` (versioned, immutable, block-Merkle).

Simplifications.
* Each category has its own column families.  (The code gives all block-Merkle categories the *same* families; the model
  is faithful for at most one block-Merkle category.)
* A write batch is applied atomically (RocksDB is trusted); every read of an operation sees the database before it.
* A raw block read back from the state-transfer column family is the one written there: `Verif.Cmf.cmf_roundtrip`.
* Block ids stay below `2^63` (`TaggedVersion`).
-/
namespace Verif.Chain
open Verif.Bytes Verif.Kvbc

abbrev CatId := Bytes

/-- the hash functions: those of the categories, and the one of block digests -/
structure Hashes where
  m : MHash
  d : Bytes → Bytes

/-- the updates of one category (categorized_kvbc_msgs.cmf: BlockMerkleInput, VersionedInput, ImmutableInput) -/
inductive CInput where
  | merkle (i : MInput)
  | versioned (i : VInput) (root : Bool)
  | immutable (kv : List (Key × (Bytes × List Bytes))) (root : Bool)

/-- what a block stores about one category (BlockMerkleOutput, VersionedOutput, ImmutableOutput) -/
inductive COutput where
  | merkle (o : MOutput)
  | versioned (keys : VOut) (root : Option Bytes)
  | immutable (keys : List (Key × List Bytes)) (roots : Option (List (Bytes × Bytes)))

/-- the column families of one category -/
inductive CState where
  | merkle (s : MState)
  | versioned (s : VState)
  | immutable (s : IState)

/-- root hash of a versioned update (versioned_kv_category.cpp:82-87, 100-117): h(h(k1) ‖ h(v1) ‖ …) -/
def vRoot (H : MHash) (kv : List (Key × ValueWithFlags)) : Bytes :=
  H.h (kv.flatMap (fun x => H.h x.1 ++ H.h x.2.data))

/-- tags of an immutable update, sorted (`std::map` of hashers, immutable_kv_category.cpp:34-54) -/
def tagsOf (kv : List (Key × (Bytes × List Bytes))) : List (Bytes × Unit) :=
  (kv.flatMap (fun x => x.2.2)).foldl (fun m t => emplace t () m) []

/-- root hash per tag (immutable_kv_category.cpp:34-54, 96-117) -/
def iRoots (H : MHash) (kv : List (Key × (Bytes × List Bytes))) : List (Bytes × Bytes) :=
  (tagsOf kv).map (fun t => (t.1, H.h (kv.flatMap (fun x => x.2.2.flatMap (fun t' =>
    if t' = t.1 then H.h x.1 ++ H.h x.2.1 else [])))))

/-- `handleCategoryUpdates` + `add` of the category (kv_blockchain.cpp:741-778); `none` = exception: the updates are of
another type than the category (`std::get`) -/
def catAdd (H : MHash) (b : Nat) : CInput → CState → Option (CState × COutput)
  | .merkle i, .merkle s => (s.add H b i).map (fun r => (.merkle r.1, .merkle r.2))
  | .versioned i root, .versioned s =>
    some (.versioned (Kvbc.add b i s).1, .versioned (Kvbc.add b i s).2 (if root then some (vRoot H i.kv) else none))
  | .immutable kv root, .immutable s =>
    some (.immutable (iAdd b (kv.map (fun x => (x.1, x.2.1))) s).1,
      .immutable (kv.map (fun x => (x.1, x.2.2))) (if root then some (iRoots H kv) else none))
  | _, _ => none

/-- `deleteGenesisBlock` per category (kv_blockchain.cpp:654-677) -/
def catPrune (H : MHash) (b : Nat) : COutput → CState → Option CState
  | .merkle o, .merkle s => (s.deleteGenesis H b o).map .merkle
  | .versioned out _, .versioned s => (deleteGenesis b out s).map .versioned
  | .immutable keys _, .immutable s => some (.immutable (iDelete (keys.map (·.1)) s))
  | _, _ => none

/-- `deleteLastReachableBlock` per category (kv_blockchain.cpp:679-705) -/
def catUndo (H : MHash) (b : Nat) : COutput → CState → Option CState
  | .merkle o, .merkle s => some (.merkle (s.deleteLast H b o))
  | .versioned out _, .versioned s => some (.versioned (deleteLastReachable b out s))
  | .immutable keys _, .immutable s => some (.immutable (iDelete (keys.map (·.1)) s))
  | _, _ => none

/-- reconstruction of one key of a block-Merkle category (blocks.cpp:53-66): deleted, or its value; `none` = the value is
missing, `ConcordAssert(false)` -/
def mKey (H : MHash) (s : MState) (b : Nat) (x : Key × Bool) : Option (Sum Key (Key × Bytes)) :=
  if x.2 then some (.inl x.1) else (s.get H x.1 b).map (fun v => .inr (x.1, v.2))

/-- blocks.cpp:81-94 -/
def vKey (s : VState) (b : Nat) (x : Key × VFlags) : Option (Sum Key (Key × ValueWithFlags)) :=
  if x.2.deleted then some (.inl x.1) else (get s x.1 b).map (fun v => .inr (x.1, ⟨v.2, x.2.staleOnUpdate⟩))

/-- blocks.cpp:112-121 -/
def iKey (s : IState) (b : Nat) (x : Key × List Bytes) : Option (Key × (Bytes × List Bytes)) :=
  (iGet s x.1 b).map (fun v => (x.1, (v.2, x.2)))

def lefts {α β : Type} : List (Sum α β) → List α
  | [] => []
  | .inl a :: r => a :: lefts r
  | .inr _ :: r => lefts r
def rights {α β : Type} : List (Sum α β) → List β
  | [] => []
  | .inl _ :: r => rights r
  | .inr b :: r => b :: rights r

/-- `RawBlock::getUpdates` (blocks.cpp:43-122): the updates of a stored block, from the update info and the values in the
database; `none` = failed assertion -/
def catRebuild (H : MHash) (b : Nat) : COutput → CState → Option CInput
  | .merkle o, .merkle s => (o.keys.mapM (mKey H s b)).map (fun l => .merkle { kv := rights l, deletes := lefts l })
  | .versioned out root, .versioned s =>
    (out.mapM (vKey s b)).map (fun l => .versioned { kv := rights l, deletes := lefts l } root.isSome)
  | .immutable keys roots, .immutable s => (keys.mapM (iKey s b)).map (fun l => .immutable l roots.isSome)
  | _, _ => none

/-- `CategoryInput`: a `std::map`, sorted by category -/
abbrev Updates := List (CatId × CInput)

/-- `RawBlockData` (categorized_kvbc_msgs.cmf:103-110) -/
structure Raw where
  parent : Bytes
  updates : Updates
  merkleRoots : List (CatId × Bytes)
  versionedRoots : List (CatId × Bytes)
  immutableRoots : List (CatId × List (Bytes × Bytes))

/-- `BlockData` (categorized_kvbc_msgs.cmf:93-101); the id is the key it is stored under -/
structure Block where
  parent : Bytes
  outs : List (CatId × COutput)

/-- `addRootHash` (blocks.h:124-137), for all categories of a block -/
def merkleRootsOf (outs : List (CatId × COutput)) : List (CatId × Bytes) :=
  outs.filterMap (fun x => match x.2 with | .merkle o => some (x.1, o.rootHash) | _ => none)
def versionedRootsOf (outs : List (CatId × COutput)) : List (CatId × Bytes) :=
  outs.filterMap (fun x => match x.2 with | .versioned _ (some r) => some (x.1, r) | _ => none)
def immutableRootsOf (outs : List (CatId × COutput)) : List (CatId × List (Bytes × Bytes)) :=
  outs.filterMap (fun x => match x.2 with | .immutable _ (some r) => some (x.1, r) | _ => none)

/-- a raw block: parent digest, updates, root hashes of the update infos -/
def mkRaw (p : Bytes) (u : Updates) (outs : List (CatId × COutput)) : Raw :=
  { parent := p
    updates := u
    merkleRoots := merkleRootsOf outs
    versionedRoots := versionedRootsOf outs
    immutableRoots := immutableRootsOf outs }

/-- the database of the categories: the registered ones and their contents -/
abbrev Db := CatId → Option CState

/-- apply `f` to the categories named in `l`; `none` = a category does not exist or `f` fails -/
def onCats {α β : Type} (f : α → CState → Option β) (db : Db) (l : List (CatId × α)) : Option (List (CatId × β)) :=
  l.mapM (fun x => match db x.1 with
    | none => none
    | some s => (f x.2 s).map (fun r => (x.1, r)))

/-- the database after writing the given categories -/
def Db.write (db : Db) (l : List (CatId × CState)) : Db := fun id =>
  match l.lookup id with
  | some s => some s
  | none => db id

/-! ## Serialized raw blocks and digests -/

open Verif.Cmf in
/-- `RawBlockData` as a CMF type (categorized_kvbc_msgs.cmf: messages 1-6 and 2005) -/
def tMerkleInput : Ty := .pair (.map .str (.prim .str)) (.pair (.list (.prim .str)) .unit)
open Verif.Cmf in
def tVersionedInput : Ty :=
  .pair (.map .str (.pair (.prim .str) (.pair (.prim .bool) .unit))) (.pair (.list (.prim .str)) (.pair (.prim .bool) .unit))
open Verif.Cmf in
def tImmutableInput : Ty :=
  .pair (.map .str (.pair (.prim .str) (.pair (.list (.prim .str)) .unit))) (.pair (.prim .bool) .unit)
open Verif.Cmf in
def tInput : Alts := .cons 1 tMerkleInput (.cons 3 tVersionedInput (.cons 5 tImmutableInput .nil))
open Verif.Cmf in
def tHash : Ty := .fixed 32 (.prim (.uint 1))
open Verif.Cmf in
def tRaw : Ty := .pair tHash (.pair (.pair (.map .str (.oneof tInput)) .unit)
  (.pair (.map .str tHash) (.pair (.map .str tHash) (.pair (.map .str (.map .str tHash)) .unit))))

def cHash (h : Bytes) : tHash.T := (h.map (fun b => b.toNat) : List Nat)

def cInput : CInput → tInput.T
  | .merkle i => .inl (i.kv, i.deletes, ())
  | .versioned i root => .inr (.inl (i.kv.map (fun x => (x.1, x.2.data, x.2.staleOnUpdate, ())), i.deletes, root, ()))
  | .immutable kv root => .inr (.inr (.inl (kv.map (fun x => (x.1, x.2.1, x.2.2, ())), root, ())))

def cRaw (r : Raw) : tRaw.T :=
  (cHash r.parent, (r.updates.map (fun x => (x.1, cInput x.2)), ()), r.merkleRoots.map (fun x => (x.1, cHash x.2)),
    r.versionedRoots.map (fun x => (x.1, cHash x.2)),
    r.immutableRoots.map (fun x => (x.1, x.2.map (fun y => (y.1, cHash y.2)))), ())

/-- `detail::serialize(RawBlockData)`; `none` = `cmfAssert` -/
def serRaw (r : Raw) : Option Bytes := tRaw.enc (cRaw r)

/-- `computeBlockDigest` (BCStateTran.cpp:63-65, 3983-4006): the block id (in host byte order) and the block; the size
argument is a `uint32_t`; `none` = failed assertion -/
def digest (H : Hashes) (b : Nat) (r : Raw) : Option Bytes :=
  match serRaw r with
  | none => none
  | some bs =>
    if b = 0 ∨ bs.length % 2 ^ 32 = 0 then none
    else some (H.d (leEncode 8 b ++ bs.take (bs.length % 2 ^ 32)))

/-! ## The blockchain -/

structure Chain where
  db : Db
  /-- BLOCKS_CF -/
  blocks : Nat → Option Block
  genesis : Nat
  last : Nat
  /-- `last_raw_block_` -/
  cache : Option (Nat × Raw)
  /-- ST_CHAIN_CF -/
  st : Nat → Option Raw

/-- a new blockchain with registered categories (kv_blockchain.cpp: constructor, initNewBlockchainCategories) -/
def Chain.new (db : Db) : Chain :=
  { db := db, blocks := fun _ => none, genesis := 0, last := 0, cache := none, st := fun _ => none }

/-- `Blockchain::getRawBlock` (blockchain.h:67-73, blocks.cpp:24-38); `none` = no such block, or a failed assertion -/
def Chain.getRaw (H : Hashes) (c : Chain) (b : Nat) : Option Raw :=
  match c.blocks b with
  | none => none
  | some bl => (onCats (catRebuild H.m b) c.db bl.outs).map (fun u => mkRaw bl.parent u bl.outs)

def zeroDigest : Bytes := List.replicate 32 0

/-- `computeParentBlockDigest` (kv_blockchain.cpp:221-255) -/
def Chain.parentDigest (H : Hashes) (c : Chain) (b : Nat) : Option Bytes :=
  let stored := if b > 1 then (match c.getRaw H (b - 1) with | none => none | some r => digest H (b - 1) r)
    else some zeroDigest
  match c.cache with
  | some (i, r) => if i = b - 1 then digest H (b - 1) r else stored
  | none => stored

/-- `addBlock(CategoryInput&&, batch)` and the write of the batch (kv_blockchain.cpp:190-219; blockchain.h:42-51);
`none` = exception or failed assertion, nothing written -/
def Chain.append (H : Hashes) (c : Chain) (u : Updates) : Option Chain :=
  let b := c.last + 1
  match c.parentDigest H b, onCats (catAdd H.m b) c.db u with
  | some p, some l =>
    let outs := l.map (fun x => (x.1, x.2.2))
    some { c with
      db := c.db.write (l.map (fun x => (x.1, x.2.1)))
      blocks := fun i => if i = b then some { parent := p, outs := outs } else c.blocks i
      genesis := if c.genesis = 0 then 1 else c.genesis
      last := b
      cache := some (b, mkRaw p u outs) }
  | _, _ => none

/-- `kConcordInternalCategoryId` = "concord_internal" (kvbc/include/categorization/db_categories.h:30) -/
def internalCat : CatId := [99, 111, 110, 99, 111, 114, 100, 95, 105, 110, 116, 101, 114, 110, 97, 108]
/-- `keyTypes::genesis_block_key` (kvbc/include/kvbc_key_types.hpp:34): `std::string(1, 0x32)` -/
def genesisKey : Key := [0x32]

/-- `map[k] = v` -/
def assign {α : Type} (k : Key) (v : α) : List (Key × α) → List (Key × α)
  | [] => [(k, v)]
  | y :: ys => if k = y.1 then (k, v) :: ys
               else if keyLt k y.1 then (k, v) :: y :: ys
               else y :: assign k v ys

/-- `addGenesisBlockKey` (kv_blockchain.cpp:166-173); `none` = `std::get` of another type -/
def addGenesisKey (g : Nat) (u : Updates) : Option Updates :=
  match u.lookup internalCat with
  | none => some (assign internalCat
      (.versioned { kv := [(genesisKey, ⟨(leEncode 8 g).reverse, true⟩)], deletes := [] } false) u)
  | some (.versioned i root) => some (assign internalCat
      (.versioned { i with kv := assign genesisKey ⟨(leEncode 8 g).reverse, true⟩ i.kv } root) u)
  | some _ => none

/-- `addBlock(Updates&&)` (kv_blockchain.cpp:179-188) -/
def Chain.addBlock (H : Hashes) (c : Chain) (u : Updates) : Option Chain :=
  if c.last + 1 < 2 ^ 63 then (addGenesisKey c.genesis u).bind (c.append H) else none

/-- `deleteGenesisBlock` (kv_blockchain.cpp:487-562); `none` = exception or failed assertion -/
def Chain.prune (H : Hashes) (c : Chain) : Option Chain :=
  if c.genesis < 1 then none
  else if c.genesis = c.last then none
  else match c.blocks c.genesis with
    | none => none
    | some bl => (onCats (catPrune H.m c.genesis) c.db bl.outs).map (fun l =>
        { c with
          db := c.db.write l
          blocks := fun i => if i = c.genesis then none else c.blocks i
          genesis := c.genesis + 1 })

/-- `deleteLastReachableBlock` (kv_blockchain.cpp:567-616) -/
def Chain.deleteLast (H : Hashes) (c : Chain) : Option Chain :=
  if c.last = 0 then none
  else if c.last = c.genesis then none
  else match c.blocks c.last with
    | none => none
    | some bl => (onCats (catUndo H.m c.last) c.db bl.outs).map (fun l =>
        { c with
          db := c.db.write l
          blocks := fun i => if i = c.last then none else c.blocks i
          last := c.last - 1 })

inductive Ev where
  | add (u : Updates)
  /-- an addition that throws after `last_raw_block_` was replaced (kv_blockchain.cpp:196-212) -/
  | failAdd (r : Raw)
  | prune
  | deleteLast
  /-- the process restarts: the cached raw block is lost; first and last block ids are read from BLOCKS_CF
  (blockchain.cpp:20-62), see `blocks_range` -/
  | restart

def Chain.step (H : Hashes) (c : Chain) : Ev → Option Chain
  | .add u => c.addBlock H u
  | .failAdd r => some { c with cache := some (c.last + 1, r) }
  | .prune => c.prune H
  | .deleteLast => c.deleteLast H
  | .restart => some { c with cache := none }

def Chain.run (H : Hashes) (c : Chain) : List Ev → Option Chain
  | [] => some c
  | e :: es => (c.step H e).bind (fun c' => c'.run H es)

/-- `calculateBlockDigest` (kv_blockchain.cpp:830-838) of a block of the chain -/
def Chain.blockDigest (H : Hashes) (c : Chain) (b : Nat) : Option Bytes :=
  match c.getRaw H b with
  | none => none
  | some r => digest H b r

end Verif.Chain
