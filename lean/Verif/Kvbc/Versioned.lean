import Verif.Util.Bytes
set_option linter.unusedSimpArgs false
set_option linter.unusedVariables false
/-!
# Model of the versioned key-value category and of its use by the blockchain

`kvbc/src/categorization/versioned_kv_category.cpp`, `kvbc/include/categorization/base_types.h` (TaggedVersion),
`kvbc/src/categorization/kv_blockchain.cpp` (addBlock, deleteGenesisBlock, deleteLastReachableBlock, deleteBlock),
`kvbc/src/categorization/blocks.cpp` (reconstruction of the updates of a stored block).

The three column families of the category (`values`, `latest_ver`, `active keys from pruned blocks`) are kept per
key (`KState`).  A write batch is a sequence of writes; all reads of an operation go to the database as it was
before the batch (`s`), all writes go to the accumulated batch (`acc`).  RocksDB itself is trusted: a batch is
applied atomically.  Key ordering of the database iterator is dealt with in `KeyOrder.lean`.
-/
namespace Verif.Kvbc
open Verif.Bytes

abbrev Key := Bytes

/-- `DbValue` (cmf/categorized_kvbc_msgs.cmf:151-154) -/
structure DbValue where
  deleted : Bool
  data : Bytes
deriving DecidableEq, Repr

/-- `TaggedVersion` (base_types.h:91-112) -/
structure Tagged where
  deleted : Bool
  version : Nat
deriving DecidableEq, Repr

/-- `TaggedVersion::encode` (base_types.h:103-108): 64-bit word with the deleted flag in the high bit -/
def Tagged.encode (t : Tagged) : Nat :=
  if t.deleted then t.version ||| 0x8000000000000000 else t.version

/-- `TaggedVersion(uint64_t)` (base_types.h:93-98) -/
def Tagged.decode (n : Nat) : Tagged :=
  { deleted := (0x8000000000000000 &&& n) != 0
    version := 0x7FFFFFFFFFFFFFFF &&& n }

/-- `ValueWithFlags` (categorized_kvbc_msgs.cmf:8-11) -/
structure ValueWithFlags where
  data : Bytes
  staleOnUpdate : Bool
deriving DecidableEq, Repr

/-- `VersionedInput` (categorized_kvbc_msgs.cmf:13-17).  `kv` is a `std::map`, here its list of entries.
`calculate_root_hash` does not influence stored keys or values; see `ChainHash.lean` for the root hash. -/
structure VInput where
  kv : List (Key × ValueWithFlags)
  deletes : List Key
deriving DecidableEq, Repr

/-- `VersionedKeyFlags` (categorized_kvbc_msgs.cmf:63-66) -/
structure VFlags where
  deleted : Bool
  staleOnUpdate : Bool
deriving DecidableEq, Repr

/-- `VersionedOutput::keys` (categorized_kvbc_msgs.cmf:68-69), a `std::map` kept as its sorted list of entries -/
abbrev VOut := List (Key × VFlags)

/-- what the three column families hold for one key -/
structure KState where
  /-- values_cf: block id ↦ value -/
  values : Nat → Option DbValue
  /-- latest_ver_cf: encoded tagged version -/
  latest : Option Nat
  /-- active_cf: the pruned block whose value is still the active one -/
  active : Option Nat

/-- the category's database: key ↦ its entries -/
abbrev VState := Key → KState

def VState.empty : VState := fun _ => { values := fun _ => none, latest := none, active := none }

/-- replace the entries of one key -/
def upd (s : VState) (k : Key) (f : KState → KState) : VState := fun k' => if k' = k then f (s k') else s k'

def KState.putValue (b : Nat) (v : DbValue) (x : KState) : KState :=
  { x with values := fun b' => if b' = b then some v else x.values b' }
def KState.delValue (b : Nat) (x : KState) : KState :=
  { x with values := fun b' => if b' = b then none else x.values b' }
def KState.putLatest (t : Tagged) (x : KState) : KState := { x with latest := some t.encode }
def KState.delLatest (x : KState) : KState := { x with latest := none }
def KState.putActive (b : Nat) (x : KState) : KState := { x with active := some b }
def KState.delActive (x : KState) : KState := { x with active := none }

/-- byte-wise order of `std::string` keys -/
def keyLt : Key → Key → Bool
  | [], [] => false
  | [], _ :: _ => true
  | _ :: _, [] => false
  | a :: as, b :: bs => if a.toNat < b.toNat then true else if b.toNat < a.toNat then false else keyLt as bs

/-- `std::map::emplace`: insert at the sorted place, do nothing when the key is present
(addKeyToUpdateInfo, versioned_kv_category.cpp:135-140) -/
def emplace {α : Type} (k : Key) (v : α) : List (Key × α) → List (Key × α)
  | [] => [(k, v)]
  | y :: ys => if k = y.1 then y :: ys
               else if keyLt k y.1 then (k, v) :: y :: ys
               else y :: emplace k v ys

/-- `addDeletes` (versioned_kv_category.cpp:68-80), one key: latest version, tombstone value, update info -/
def addDelete (b : Nat) (acc : VState × VOut) (k : Key) : VState × VOut :=
  (upd acc.1 k (fun x => (x.putLatest ⟨true, b⟩).putValue b ⟨true, []⟩),
   emplace k ⟨true, false⟩ acc.2)

/-- `addUpdates` (versioned_kv_category.cpp:89-118), one key -/
def addUpdate (b : Nat) (acc : VState × VOut) (kv : Key × ValueWithFlags) : VState × VOut :=
  (upd acc.1 kv.1 (fun x => (x.putLatest ⟨false, b⟩).putValue b ⟨false, kv.2.data⟩),
   emplace kv.1 ⟨false, kv.2.staleOnUpdate⟩ acc.2)

/-- `VersionedKeyValueCategory::add` (versioned_kv_category.cpp:59-66) -/
def add (b : Nat) (inp : VInput) (s : VState) : VState × VOut :=
  inp.kv.foldl (addUpdate b) (inp.deletes.foldl (addDelete b) (s, []))

/-- `getLatestVersion` (versioned_kv_category.cpp:377-383) -/
def getLatestVersion (s : VState) (k : Key) : Option Tagged := (s k).latest.map Tagged.decode

/-- `get` (versioned_kv_category.cpp:282-292): block id and data of the value -/
def get (s : VState) (k : Key) (b : Nat) : Option (Nat × Bytes) :=
  match (s k).values b with
  | none => none
  | some v => if v.deleted then none else some (b, v.data)

/-- `getLatest` (versioned_kv_category.cpp:294-300) -/
def getLatest (s : VState) (k : Key) : Option (Nat × Bytes) :=
  match getLatestVersion s k with
  | none => none
  | some t => if t.deleted then none else get s k t.version

/-- `multiGet` (versioned_kv_category.cpp:302-336); `none` = the assertion on the sizes fails -/
def multiGet (s : VState) (ks : List Key) (vs : List Nat) : Option (List (Option (Nat × Bytes))) :=
  if ks.length = vs.length then
    some ((ks.zip vs).map (fun kv => match (s kv.1).values kv.2 with
      | none => none
      | some v => if !v.deleted then some (kv.2, v.data) else none))
  else none

/-- `multiGetLatestVersion` (versioned_kv_category.cpp:385-402) -/
def multiGetLatestVersion (s : VState) (ks : List Key) : List (Option Tagged) :=
  ks.map (fun k => (s k).latest.map Tagged.decode)

/-- the merge loop of `multiGetLatest` (versioned_kv_category.cpp:366-373): `retrieved_values[value_index]` -/
def mergeRetrieved : List (Option Tagged) → List (Option (Nat × Bytes)) → Option (List (Option (Nat × Bytes)))
  | [], _ => some []
  | none :: ts, rs => (mergeRetrieved ts rs).map (none :: ·)
  | some t :: ts, rs =>
    if t.deleted then (mergeRetrieved ts rs).map (none :: ·)
    else match rs with
      | [] => none
      | r :: rs => (mergeRetrieved ts rs).map (r :: ·)

/-- selection of the keys to retrieve (versioned_kv_category.cpp:346-352) -/
def foundKey (kv : Key × Option Tagged) : Option (Key × Nat) :=
  match kv.2 with
  | some t => if !t.deleted then some (kv.1, t.version) else none
  | none => none

/-- `multiGetLatest` (versioned_kv_category.cpp:338-375); `none` = out-of-bounds access or failed assertion -/
def multiGetLatest (s : VState) (ks : List Key) : Option (List (Option (Nat × Bytes))) :=
  let versions := multiGetLatestVersion s ks
  let found := (ks.zip versions).filterMap foundKey
  if found.length = ks.length then multiGet s (found.map (·.1)) (found.map (·.2))
  else
    match multiGet s (found.map (·.1)) (found.map (·.2)) with
    | none => none
    | some retrieved => mergeRetrieved versions retrieved

/-- first loop of `deleteGenesisBlock` (versioned_kv_category.cpp:204-211): drop the value of a previously pruned
block that was still active for this key -/
def dropActive (x : KState) (acc : KState) : KState :=
  match x.active with
  | some a => (acc.delValue a).delActive
  | none => acc

/-- second loop of `deleteGenesisBlock` (versioned_kv_category.cpp:213-241), one key: `x` is the database, `acc` the
batch so far; `none` = `ConcordAssert(latest.has_value())` fails -/
def pruneKey (b : Nat) (fl : VFlags) (x : KState) (acc : KState) : Option KState :=
  match x.latest.map Tagged.decode with
  | none => none
  | some latest =>
    if fl.staleOnUpdate then
      let acc := acc.delValue b
      some (if latest.version = b then acc.delLatest else acc)
    else if fl.deleted ∧ latest.version = b then some (acc.delLatest.delValue b)
    else if latest.version > b then some (acc.delValue b)
    else some (acc.putActive b)

/-- `deleteGenesisBlock` (versioned_kv_category.cpp:199-243) -/
def deleteGenesis (b : Nat) (out : VOut) (s : VState) : Option VState :=
  let s1 := out.foldl (fun acc kf => upd acc kf.1 (dropActive (s kf.1))) s
  out.foldlM (fun acc kf => (pruneKey b kf.2 (s kf.1) (acc kf.1)).map (fun r => upd acc kf.1 (fun _ => r))) s1

/-- `seekAtMost(key, b)` followed by `prev()` on values_cf, when `(key, b)` itself is present: the largest version
below `b` of the same key, if any (versioned_kv_category.cpp:252-263; see `KeyOrder.lean` for the byte order) -/
def prevVersion (x : KState) : Nat → Option (Nat × DbValue)
  | 0 => none
  | b + 1 => match x.values b with
    | some v => some (b, v)
    | none => prevVersion x b

/-- `deleteLastReachableBlock` (versioned_kv_category.cpp:245-280), one key -/
def unlinkKey (b : Nat) (x : KState) (acc : KState) : KState :=
  let acc := match prevVersion x b with
    | some (v, d) => acc.putLatest ⟨d.deleted, v⟩
    | none => acc.delLatest
  acc.delValue b

def deleteLastReachable (b : Nat) (out : VOut) (s : VState) : VState :=
  out.foldl (fun acc kf => upd acc kf.1 (unlinkKey b (s kf.1))) s

/-! ## The category inside a blockchain

One category of `KeyValueBlockchain`; the chain with all its categories is `Chain.lean`.  A block that does not
update the category has the empty output. -/

structure VChain where
  st : VState
  /-- BLOCKS_CF: block id ↦ the category's part of `categories_updates_info` -/
  blocks : Nat → Option VOut
  genesis : Nat
  last : Nat

def VChain.empty : VChain := { st := VState.empty, blocks := fun _ => none, genesis := 0, last := 0 }

inductive Ev where
  | add (inp : VInput)
  | prune
  | deleteLast

/-- `addBlock` (kv_blockchain.cpp:190-219) and `setAddedBlockId` (blockchain.h:40-49).  Block ids stay below 2^63:
the high bit is taken by the deleted flag. -/
def VChain.addBlock (c : VChain) (inp : VInput) : VChain :=
  let b := c.last + 1
  let r := add b inp c.st
  { st := r.1
    blocks := fun i => if i = b then some r.2 else c.blocks i
    genesis := if c.genesis = 0 then 1 else c.genesis
    last := b }

/-- `deleteGenesisBlock` (kv_blockchain.cpp:487-562); `none` = throws or aborts -/
def VChain.prune (c : VChain) : Option VChain :=
  if c.genesis < 1 then none
  else if c.genesis = c.last then none
  else match c.blocks c.genesis with
    | none => none
    | some out =>
      match deleteGenesis c.genesis out c.st with
      | none => none
      | some st => some
          { st := st
            blocks := fun i => if i = c.genesis then none else c.blocks i
            genesis := c.genesis + 1
            last := c.last }

/-- `deleteLastReachableBlock` (kv_blockchain.cpp:567-616); `none` = throws -/
def VChain.deleteLast (c : VChain) : Option VChain :=
  if c.last = 0 then none
  else if c.last = c.genesis then none
  else match c.blocks c.last with
    | none => none
    | some out => some
        { st := deleteLastReachable c.last out c.st
          blocks := fun i => if i = c.last then none else c.blocks i
          genesis := c.genesis
          last := c.last - 1 }

def VChain.step (c : VChain) : Ev → Option VChain
  | .add inp => if c.last + 1 < 2 ^ 63 then some (c.addBlock inp) else none
  | .prune => c.prune
  | .deleteLast => c.deleteLast

/-- run a history of operations; `none` when a step throws or aborts -/
def VChain.run (c : VChain) : List Ev → Option VChain
  | [] => some c
  | e :: es => match c.step e with
    | none => none
    | some c' => c'.run es

end Verif.Kvbc
