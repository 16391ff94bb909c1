import Verif.Kvbc.VersionedSpec
set_option linter.unusedSimpArgs false
set_option linter.unusedVariables false
/-!
# Model of the block-Merkle category

`kvbc/src/categorization/block_merkle_category.cpp`.  Column families: KEYS (values by hash of the key and block),
LATEST_KEY_VERSION (by raw key), ACTIVE_KEYS_FROM_PRUNED_BLOCKS (by hash), PRUNED_BLOCKS, and the Merkle tree whose
leaves are blocks.  All reads of an operation see the database before the batch (`s`), all writes go to `acc`.

Simplification: the sparse Merkle tree is kept as the contents (block ↦ leaf value) of each stored version.  The node
level representation, its updates and the deletion of stale nodes are modelled and proved in `Verif/Smt` (C20–C22):
an update yields a new version whose root hash is a function of the contents, and removing the data stale at version
`v` leaves exactly the versions from `v` on readable.
-/
namespace Verif.Kvbc
open Verif.Bytes

abbrev KHash := Bytes

/-- the hash functions: SHA3-256 of a string, and the root hash of a tree given its contents (C20) -/
structure MHash where
  h : Bytes → KHash
  tree : (Nat → Option Bytes) → KHash

/-- `BlockMerkleInput` (categorized_kvbc_msgs.cmf:1-4) -/
structure MInput where
  kv : List (Key × Bytes)
  deletes : List Key
deriving DecidableEq, Repr

/-- `BlockMerkleOutput` (categorized_kvbc_msgs.cmf:44-51): keys with their deleted flag, root hash, tree version -/
structure MOutput where
  keys : List (Key × Bool)
  rootHash : KHash
  version : Nat

/-- the stored Merkle tree: contents per version, pointer to the latest version (root key 0), versions that have an
entry in the stale index, last version whose stale data was deleted (stale index 0) -/
structure TreeDb where
  roots : Nat → Option (Nat → Option Bytes)
  latest : Nat
  stale : Nat → Bool
  lastDeleted : Nat

def TreeDb.empty : TreeDb := { roots := fun _ => none, latest := 0, stale := fun _ => false, lastDeleted := 0 }

structure MState where
  values : KHash → Nat → Option DbValue
  latest : Key → Option Nat
  active : KHash → Option Nat
  pruned : Nat → Option (List KHash)
  tree : TreeDb

def MState.empty : MState :=
  { values := fun _ _ => none, latest := fun _ => none, active := fun _ => none, pruned := fun _ => none,
    tree := TreeDb.empty }

def MState.putValue (h : KHash) (b : Nat) (v : DbValue) (s : MState) : MState :=
  { s with values := fun h' b' => if h' = h ∧ b' = b then some v else s.values h' b' }
def MState.delValue (h : KHash) (b : Nat) (s : MState) : MState :=
  { s with values := fun h' b' => if h' = h ∧ b' = b then none else s.values h' b' }
def MState.setLatest (k : Key) (n : Option Nat) (s : MState) : MState :=
  { s with latest := fun k' => if k' = k then n else s.latest k' }
def MState.setActive (h : KHash) (n : Option Nat) (s : MState) : MState :=
  { s with active := fun h' => if h' = h then n else s.active h' }
def MState.setPruned (b : Nat) (l : Option (List KHash)) (s : MState) : MState :=
  { s with pruned := fun b' => if b' = b then l else s.pruned b' }

/-- `hashNewBlock` (block_merkle_category.cpp:28-53): h(h(k1) ‖ h(v1) ‖ … ‖ h(dk1) ‖ …) -/
def hashNewBlock (H : MHash) (inp : MInput) : Bytes :=
  H.h ((inp.kv.flatMap (fun kv => H.h kv.1 ++ H.h kv.2)) ++ inp.deletes.flatMap H.h)

/-- `inputToOutput` (block_merkle_category.cpp:55-64) -/
def inputToOutput (inp : MInput) : List (Key × Bool) :=
  inp.deletes.foldl (fun o k => emplace k true o) (inp.kv.foldl (fun o kv => emplace kv.1 false o) [])

/-- first loop of `putKeys` (block_merkle_category.cpp:170-182) -/
def putAdded (H : MHash) (b : Nat) (s : MState) (kv : Key × Bytes) : MState :=
  (s.putValue (H.h kv.1) b ⟨false, kv.2⟩).setLatest kv.1 (some b)

/-- second loop of `putKeys` (block_merkle_category.cpp:184-193) -/
def putDeleted (H : MHash) (b : Nat) (s : MState) (k : Key) : MState :=
  (s.putValue (H.h k) b ⟨true, []⟩).setLatest k (some (Tagged.encode ⟨true, b⟩))

/-- `putKeys` (block_merkle_category.cpp:165-194) -/
def putKeys (H : MHash) (b : Nat) (inp : MInput) (s : MState) : MState :=
  inp.deletes.foldl (putDeleted H b) (inp.kv.foldl (putAdded H b) s)

/-- contents of the tree `tree_.update` starts from: `get_latest_root` (block_merkle_category.cpp:778-788).  Version 0
is the empty tree: either there is no latest-root entry, or (after the only tree version was removed) the entry points
to itself and its thirteen zero bytes decode as a node without children.  `none` = terminate. -/
def TreeDb.root (t : TreeDb) : Option (Nat → Option Bytes) :=
  if t.latest = 0 then some (fun _ => none) else t.roots t.latest

/-- contents after an update (tree.cpp:140-190): puts, then removals -/
def treeApply (adds : List (Nat × Bytes)) (removes : List Nat) (m : Nat → Option Bytes) : Nat → Option Bytes :=
  fun b => if b ∈ removes then none else match adds.lookup b with | some v => some v | none => m b

/-- `tree_.update` + `putMerkleNodes` (tree.cpp:140-190; block_merkle_category.cpp:195-231).  An update without puts
that removes no present block leaves no root for the new version (see `Smt/Examples.lean`). -/
def TreeDb.update (adds : List (Nat × Bytes)) (removes : List Nat) (t : TreeDb) : Option TreeDb :=
  match t.root with
  | none => none
  | some m =>
    let v := t.latest + 1
    let eff := !adds.isEmpty || removes.any (fun b => (m b).isSome)
    some
      { roots := fun i => if i = v then (if eff then some (treeApply adds removes m) else none) else t.roots i
        latest := v
        stale := fun i => if i = v then true else t.stale i
        lastDeleted := t.lastDeleted }

/-- `add` (block_merkle_category.cpp:332-343) -/
def MState.add (H : MHash) (b : Nat) (inp : MInput) (s : MState) : Option (MState × MOutput) :=
  let s1 := putKeys H b inp s
  match s.tree.update [(b, hashNewBlock H inp)] [] with
  | none => none
  | some t =>
    match t.roots t.latest with
    | none => none
    | some m => some ({ s1 with tree := t }, { keys := inputToOutput inp, rootHash := H.tree m, version := t.latest })

/-- `get` (block_merkle_category.cpp:345-363) -/
def MState.get (H : MHash) (s : MState) (k : Key) (b : Nat) : Option (Nat × Bytes) :=
  match s.values (H.h k) b with
  | none => none
  | some v => if v.deleted then none else some (b, v.data)

/-- `getLatest` (block_merkle_category.cpp:365-382) -/
def MState.getLatest (H : MHash) (s : MState) (k : Key) : Option (Nat × Bytes) :=
  match (s.latest k).map Tagged.decode with
  | none => none
  | some t => if !t.deleted then s.get H k t.version else none

/-- `findActiveKeysFromPrunedBlocks` (block_merkle_category.cpp:483-506): the keys of the block that are still active in
an already pruned block, each with that block -/
def findActive (hs : List KHash) (s : MState) : List (KHash × Nat) :=
  hs.filterMap (fun h => (s.active h).map (fun p => (h, p)))

/-- deletions of `rewriteAlreadyPrunedBlocks` (block_merkle_category.cpp:523-527).  The code groups the keys by block
(an unordered map); the deletions of different keys are independent, so they are modelled before the regrouping. -/
def dropOverwritten (ow : List (KHash × Nat)) (acc : MState) : MState :=
  ow.foldl (fun acc x => (acc.delValue x.1 x.2).setActive x.1 none) acc

/-- order of `KeyHash` values (std::array comparison) -/
def hashLe (a b : KHash) : Bool := !keyLt b a

/-- `remainingActiveKeys` (block_merkle_category.cpp:294-306): sort both, `std::set_difference`.  Neither list has
duplicates, so the difference is a filter. -/
def remainingActiveKeys (previously deleted : List KHash) : List KHash :=
  (previously.mergeSort hashLe).filter (fun h => !deleted.contains h)

/-- serialized `DbValue` as stored in KEYS_CF: flag, big-endian length, data (cmf, serialize.cpp) -/
def serDbValue (v : DbValue) : Bytes :=
  (if v.deleted then 1 else 0) :: (leEncode 4 v.data.length).reverse ++ v.data

/-- `computeRootHash` (block_merkle_category.cpp:732-757) without the writes; `none` = a value is missing -/
def prunedRoot (H : MHash) (s : MState) (b : Nat) (active : List KHash) : Option Bytes :=
  (active.mapM (fun h => (s.values h b).map (fun v => h ++ H.h (serDbValue v)))).map (fun l => H.h l.flatten)

/-- `rewriteAlreadyPrunedBlocks` (block_merkle_category.cpp:516-541), one block: new `PRUNED_BLOCKS` entry and tree
leaf (`none` = removed).  `none` = a failed assertion. -/
def rewriteOne (H : MHash) (s : MState) (ow : List (KHash × Nat)) (p : Nat) : Option (Option (List KHash × Bytes)) :=
  match s.pruned p with
  | none => none
  | some act =>
    let rest := remainingActiveKeys act ((ow.filter (fun x => x.2 = p)).map (·.1))
    if rest.isEmpty then some none
    else (prunedRoot H s p rest).map (fun v => some (rest, v))

/-- `rewriteAlreadyPrunedBlocks` (block_merkle_category.cpp:516-541), all blocks -/
def rewriteAll (H : MHash) (s : MState) (ow : List (KHash × Nat)) :
    List Nat → MState × List (Nat × Bytes) × List Nat → Option (MState × List (Nat × Bytes) × List Nat)
  | [], r => some r
  | p :: ps, (acc, adds, rems) =>
    match rewriteOne H s ow p with
    | none => none
    | some none => rewriteAll H s ow ps (acc.setPruned p none, adds, rems ++ [p])
    | some (some (rest, v)) => rewriteAll H s ow ps (acc.setPruned p (some rest), adds ++ [(p, v)], rems)

/-- `deleteInactiveKeys` (block_merkle_category.cpp:258-291), one key: batch and collected active keys; `none` = a
failed assertion (`latest_versions[i].has_value()`, `block_id ≤ version`) -/
def deleteInactive (H : MHash) (b : Nat) (s : MState) (acc : MState × List KHash) (k : Key) :
    Option (MState × List KHash) :=
  match (s.latest k).map Tagged.decode with
  | none => none
  | some t =>
    if b ≤ t.version then
      if b = t.version then
        if t.deleted then some ((acc.1.delValue (H.h k) b).setLatest k none, acc.2)
        else some (acc.1, acc.2 ++ [H.h k])
      else some (acc.1.delValue (H.h k) b, acc.2)
    else none

/-- `deleteStaleData` with its batches (block_merkle_category.cpp:683-730): all stale entries of the versions
`last_deleted + 1 … tree_version` must exist; versions below `tree_version` are no longer readable.  `none` = a failed
assertion or exception.  The batches of fifty versions written before the final one are not separated. -/
def TreeDb.deleteStale (s : TreeDb) (v : Nat) (acc : TreeDb) : Option TreeDb :=
  if s.lastDeleted < v then
    if ∀ i < v - s.lastDeleted, s.stale (s.lastDeleted + 1 + i) = true then
      some
        { roots := fun i => if i < v then none else acc.roots i
          latest := acc.latest
          stale := fun i => if s.lastDeleted < i ∧ i ≤ v then false else acc.stale i
          lastDeleted := v }
    else none
  else none

/-- `deleteGenesisBlock` (block_merkle_category.cpp:591-613) -/
def MState.deleteGenesis (H : MHash) (b : Nat) (out : MOutput) (s : MState) : Option MState :=
  let keys := out.keys.map (·.1)
  let ow := findActive (keys.map H.h) s
  match rewriteAll H s ow (ow.map (·.2)).eraseDups (dropOverwritten ow s, [], []) with
  | none => none
  | some (acc, adds, rems) =>
    match keys.foldlM (deleteInactive H b s) (acc, []) with
    | none => none
    | some (acc, act) =>
      -- writePrunedBlock (759-767)
      let r : Option (MState × List (Nat × Bytes) × List Nat) :=
        if act.isEmpty then some (acc, adds, rems ++ [b])
        else (prunedRoot H s b act).map (fun v =>
          ((act.foldl (fun acc h => acc.setActive h (some b)) acc).setPruned b (some act), adds ++ [(b, v)], rems))
      match r with
      | none => none
      | some (acc, adds, rems) =>
        match s.tree.update adds rems with
        | none => none
        | some t => (s.tree.deleteStale out.version t).map (fun t => { acc with tree := t })

/-- the version before `b` of one hashed key (iterator `seekAtMost`, `prev`; see `KeyOrder.lean`) -/
def MState.prevVersion (s : MState) (h : KHash) : Nat → Option (Nat × DbValue)
  | 0 => none
  | b + 1 => match s.values h b with
    | some v => some (b, v)
    | none => s.prevVersion h b

/-- `deleteLastReachableBlock` (block_merkle_category.cpp:615-648), one key -/
def unlinkM (H : MHash) (b : Nat) (s : MState) (acc : MState) (k : Key) : MState :=
  let acc := match s.prevVersion (H.h k) b with
    | some (v, d) => acc.setLatest k (some (Tagged.encode ⟨d.deleted, v⟩))
    | none => acc.setLatest k none
  acc.delValue (H.h k) b

/-- `removeMerkleNodes` (block_merkle_category.cpp:237-254) -/
def TreeDb.remove (v : Nat) (t : TreeDb) : TreeDb :=
  { roots := fun i => if i = v then none else t.roots i
    latest := v - 1
    stale := fun i => if i = v then false else t.stale i
    lastDeleted := t.lastDeleted }

/-- `deleteLastReachableBlock` (block_merkle_category.cpp:615-648) -/
def MState.deleteLast (H : MHash) (b : Nat) (out : MOutput) (s : MState) : MState :=
  let acc := (out.keys.map (·.1)).foldl (unlinkM H b s) s
  { acc with tree := s.tree.remove out.version }

/-! ## The category inside a blockchain -/

structure MChain where
  st : MState
  /-- BLOCKS_CF; `some none` is a block without updates of this category -/
  blocks : Nat → Option (Option MOutput)
  genesis : Nat
  last : Nat

def MChain.empty : MChain := { st := MState.empty, blocks := fun _ => none, genesis := 0, last := 0 }

inductive MEv where
  | add (inp : Option MInput)
  | prune
  | deleteLast

/-- `addBlock` (kv_blockchain.cpp:190-219) restricted to this category -/
def MChain.addBlock (H : MHash) (c : MChain) (inp : Option MInput) : Option MChain :=
  let b := c.last + 1
  let g := if c.genesis = 0 then 1 else c.genesis
  match inp with
  | none => some { st := c.st, blocks := fun i => if i = b then some none else c.blocks i, genesis := g, last := b }
  | some inp => (c.st.add H b inp).map (fun r =>
      { st := r.1, blocks := fun i => if i = b then some (some r.2) else c.blocks i, genesis := g, last := b })

/-- `deleteGenesisBlock` (kv_blockchain.cpp:487-562) -/
def MChain.prune (H : MHash) (c : MChain) : Option MChain :=
  if c.genesis < 1 then none
  else if c.genesis = c.last then none
  else match c.blocks c.genesis with
    | none => none
    | some out =>
      let st := match out with | none => some c.st | some out => c.st.deleteGenesis H c.genesis out
      st.map (fun st =>
        { st := st, blocks := fun i => if i = c.genesis then none else c.blocks i, genesis := c.genesis + 1,
          last := c.last })

/-- `deleteLastReachableBlock` (kv_blockchain.cpp:567-616) -/
def MChain.deleteLast (H : MHash) (c : MChain) : Option MChain :=
  if c.last = 0 then none
  else if c.last = c.genesis then none
  else match c.blocks c.last with
    | none => none
    | some out => some
        { st := match out with | none => c.st | some out => c.st.deleteLast H c.last out
          blocks := fun i => if i = c.last then none else c.blocks i
          genesis := c.genesis, last := c.last - 1 }

def MChain.step (H : MHash) (c : MChain) : MEv → Option MChain
  | .add inp => if c.last + 1 < 2 ^ 63 then c.addBlock H inp else none
  | .prune => c.prune H
  | .deleteLast => c.deleteLast H

def MChain.run (H : MHash) (c : MChain) : List MEv → Option MChain
  | [] => some c
  | e :: es => match c.step H e with
    | none => none
    | some c' => c'.run H es

end Verif.Kvbc
