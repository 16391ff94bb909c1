/-!
# The sparse Merkle tree: batched nodes, walker, update cache, tree

Models `kvbc/src/sparse_merkle/{internal_node,walker,update_cache,tree}.cpp` and the headers beside them, function by
function, together with the way `BlockMerkleCategory` stores a batch
(`kvbc/src/categorization/block_merkle_category.cpp:206-240, 778-799`).

A function that can abort (`ConcordAssert`, `std::get` on the wrong alternative, `std::terminate`) returns an `Option`;
`none` is the abort.  Not modelled: histograms, 64-bit overflow of versions, serialisation of nodes.
-/
set_option linter.unusedVariables false
namespace Verif.Smt

/-- `Hash` (base_types.h:124-212): 32 bytes, written here as their 256 bits, most significant bit first. -/
abbrev Hash := List Bool
/-- `Version` (base_types.h:32-54): a `uint64_t`; overflow is not modelled. -/
abbrev Ver := Nat
/-- a byte string (`Sliver`) -/
abbrev Bytes := List UInt8

/-- `Hasher` (base_types.h:215-233): `hash` is SHA3-256, `parent` is SHA3-256 of the two hashes.  They are arbitrary
functions here; `hash_len` is `Hash::SIZE_IN_BITS`. -/
structure Hasher where
  hash : Bytes → Hash
  parent : Hash → Hash → Hash
  hash_len : ∀ b, (hash b).length = 256

/-- `PLACEHOLDER_HASH` (base_types.h:133-139, 235): the hash of the empty string. -/
def Hasher.placeholder (hs : Hasher) : Hash := hs.hash []

/-- `LeafKey` (keys.h:64-97) -/
structure LeafKey where
  hash : Hash
  version : Ver
deriving DecidableEq, Repr

/-- `LeafChild` (internal_node.h:51-64) -/
structure LeafChild where
  hash : Hash
  key : LeafKey
deriving DecidableEq, Repr

/-- `Child` = `variant<LeafChild, InternalChild>` (internal_node.h:68-80) -/
inductive Child
  | leaf (l : LeafChild)
  | internal (hash : Hash) (version : Ver)
deriving DecidableEq, Repr

/-- `BatchedInternalNode::children_` (internal_node.h:168-169, 433): an array of 31 optional children.  A function from
indexes is used for the array; the code only uses indexes below 31 (proved: `Verif.Smt.at_lt`). -/
abbrev Node := Nat → Option Child

/-- `BatchedInternalNode()` (internal_node.h:249): all children empty -/
def emptyNode : Node := fun _ => none

/-- assignment `children_[i] = x` -/
def set (c : Node) (i : Nat) (x : Option Child) : Node := fun j => if j = i then x else c j

/-- `MAX_CHILDREN` (internal_node.h:168) -/
def MAX_CHILDREN : Nat := 31
/-- `Nibble::SIZE_IN_BITS` (base_types.h:59) -/
def NIBBLE_BITS : Nat := 4
/-- `Hash::MAX_NIBBLES` (base_types.h:131) -/
def MAX_NIBBLES : Nat := 64

/-- `Hash::getNibble` (base_types.h:94-106, 169-173): four bits starting at `4 n`. -/
def getNibble (k : Hash) (n : Nat) : Nat := ((k.drop (4 * n)).take 4).foldl (fun a b => 2 * a + b.toNat) 0

/-- `Nibble::getBit` (base_types.h:67-70): bit counted from the least significant. -/
def getBit (n : Nat) (i : Nat) : Bool := n / 2 ^ i % 2 == 1

/-- `Hash::prefix_bits_in_common(other)` (base_types.h:177-194) -/
def prefixBits : Hash → Hash → Nat
  | a :: as, b :: bs => if a = b then prefixBits as bs + 1 else 0
  | _, _ => 0

/-- `Hash::prefix_bits_in_common(other, depth)` (base_types.h:200-208) -/
def prefixBitsAt (a b : Hash) (depth : Nat) : Nat :=
  if prefixBits a b > depth * NIBBLE_BITS then prefixBits a b - depth * NIBBLE_BITS else 0

/-- `leftChildIndex` (internal_node.h:358) -/
def leftChildIndex (i : Nat) : Nat := 2 * i + 1
/-- `rightChildIndex` (internal_node.h:361) -/
def rightChildIndex (i : Nat) : Nat := 2 * i + 2
/-- `isLeftChild` (internal_node.h:364) -/
def isLeftChild (i : Nat) : Bool := i % 2 != 0
/-- `parentIndex` (internal_node.h:338-341) -/
def parentIndex (i : Nat) : Option Nat := if i = 0 then none else some ((i - 1) / 2)
/-- `nibbleToIndex` (internal_node.cpp:385-388) -/
def nibbleToIndex (n : Nat) : Nat := MAX_CHILDREN / 2 + n
/-- `height` (internal_node.cpp:390-396) -/
def height (i : Nat) : Nat := if i = 0 then 4 else if i < 3 then 3 else if i < 7 then 2 else if i < 15 then 1 else 0
/-- the choice of the next index by a bit of the nibble (internal_node.cpp:67-71, 166-170, 204-208) -/
def step (i : Nat) (b : Bool) : Nat := if b then rightChildIndex i else leftChildIndex i

/-- `isEmpty` (internal_node.h:323) -/
def isEmpty (c : Node) (i : Nat) : Bool := (c i).isNone
/-- `isInternal` (internal_node.cpp:406-411) -/
def isInternal (c : Node) (i : Nat) : Bool := match c i with | some (.internal _ _) => true | _ => false
/-- `peerIndex` (internal_node.h:347-355) -/
def peerIndex (c : Node) (i : Nat) : Option Nat :=
  if i = 0 then none
  else
    let p := if isLeftChild i then i + 1 else i - 1
    if isEmpty c p then none else some p
/-- `getHash` (internal_node.cpp:398-404) -/
def getHash (hs : Hasher) (c : Node) (i : Nat) : Hash :=
  match c i with
  | none => hs.placeholder
  | some (.leaf l) => l.hash
  | some (.internal h _) => h
/-- `hash()` (internal_node.h:288): hash of the node's root -/
def nodeHash (hs : Hasher) (c : Node) : Hash := getHash hs c 0
/-- `version()` (internal_node.cpp:352-356); `std::get` on a leaf throws, but index 0 never holds a leaf when it is
called (a leaf there is mapped to version 0 here). -/
def nodeVersion (c : Node) : Ver := match c 0 with | some (.internal _ v) => v | _ => 0
/-- `numChildren` (internal_node.cpp:358-360) -/
def numChildren (c : Node) : Nat := (List.range MAX_CHILDREN).countP (fun i => (c i).isSome)
/-- `numLeafChildren` (internal_node.cpp:371-378) -/
def numLeafChildren (c : Node) : Nat :=
  (List.range MAX_CHILDREN).countP (fun i => match c i with | some (.leaf _) => true | _ => false)
/-- `numLevel0Children` (internal_node.cpp:380-383) -/
def numLevel0Children (c : Node) : Nat :=
  (List.range MAX_CHILDREN).countP (fun i => decide (MAX_CHILDREN / 2 ≤ i) && (c i).isSome)
/-- `safeToRemove` (internal_node.cpp:282) -/
def safeToRemove (c : Node) : Bool := numLeafChildren c == 0 && numLevel0Children c == 0

/-- `updateHashes` (internal_node.cpp:26-56).  The first argument bounds the number of iterations (the index halves each
time, so five are enough). -/
def updateHashesLoop (hs : Hasher) : Nat → Node → Nat → Ver → Option Node
  | 0, _, _, _ => none
  | n + 1, c, i, v =>
    if i = 0 then none
    else
      let ph := if isLeftChild i then hs.parent (getHash hs c i) (getHash hs c (i + 1))
                else hs.parent (getHash hs c (i - 1)) (getHash hs c i)
      let p := (i - 1) / 2
      match c p with
      | some (.leaf _) => none
      | _ =>
        let c' := set c p (some (.internal ph v))
        if p = 0 then some c' else updateHashesLoop hs n c' p v

/-- `updateHashes` (internal_node.cpp:26-56) -/
def updateHashes (hs : Hasher) (c : Node) (i : Nat) (v : Ver) : Option Node := updateHashesLoop hs 5 c i v

/-- `InsertResult` (internal_node.h:171-207) -/
inductive InsertResult
  | complete (stale : Option LeafKey)
  | createNew (stored : LeafChild)
  | existing (nextVersion : Ver)
deriving DecidableEq

/-- `insertInternalChildren` (internal_node.cpp:157-174).  `k + 1` is the value of `i` plus one in the `for` loop. -/
def insertInternalChildren (hs : Hasher) (nib : Nat) (v : Ver) (untilHeight : Nat) : Nat → Node → Nat → Node × Nat
  | 0, c, i => (c, i)
  | k + 1, c, i =>
    if untilHeight ≤ k then
      let i' := step i (getBit nib k)
      insertInternalChildren hs nib v untilHeight k (set c i' (some (.internal hs.placeholder v))) i'
    else (c, i)

/-- `insertTwoLeafChildren` (internal_node.cpp:176-193) -/
def insertTwoLeafChildren (hs : Hasher) (c : Node) (i : Nat) (v : Ver) (nib common : Nat) (l1 l2 : LeafChild) :
    Option (Node × InsertResult) :=
  let b := getBit nib (NIBBLE_BITS - common - 1)
  let c := set c (step i b) (some (.leaf l1))
  let c := set c (step i (!b)) (some (.leaf l2))
  (updateHashes hs c (step i b) v).map (fun c => (c, .complete none))

/-- `splitNode` (internal_node.cpp:116-155) -/
def splitNode (hs : Hasher) (c : Node) (i : Nat) (stored l : LeafChild) (depth : Nat) : Option (Node × InsertResult) :=
  let v := l.key.version
  let c := set c i (some (.internal hs.placeholder v))
  if height i = 0 then some (c, .createNew stored)
  else
    let common := prefixBitsAt stored.key.hash l.key.hash depth
    if common = 0 then none
    else
      let nib := getNibble l.key.hash depth
      let untilHeight := if common < NIBBLE_BITS then NIBBLE_BITS - common else 0
      let ci := insertInternalChildren hs nib v untilHeight (height i) c i
      if common < NIBBLE_BITS then insertTwoLeafChildren hs ci.1 ci.2 v nib common l stored
      else some (ci.1, .createNew stored)

/-- the walk of `insert` and `remove` down the node (internal_node.cpp:66-74, 203-211): go down while the child is an
`InternalChild`.  `Sum.inl i` = stopped at index `i`, which is not internal; `Sum.inr i` = reached level 0 at the
internal child `i`. -/
def walkDown (c : Node) (nib : Nat) : Nat → Nat → Sum Nat Nat
  | 0, i => .inr i
  | k + 1, i =>
    let i' := step i (getBit nib k)
    if isInternal c i' then walkDown c nib k i' else .inl i'

/-- `BatchedInternalNode::insert` (internal_node.cpp:58-92) with `insertIntoEmptyChild` (94-103) and `overwrite`
(105-114) -/
def nodeInsert (hs : Hasher) (c : Node) (l : LeafChild) (depth : Nat) (cur : Ver) : Option (Node × InsertResult) :=
  match walkDown c (getNibble l.key.hash depth) NIBBLE_BITS 0 with
  | .inl i =>
    match c i with
    | none => (updateHashes hs (set c i (some (.leaf l))) i cur).map (fun c => (c, .complete none))
    | some (.leaf stored) =>
      if stored.key.hash = l.key.hash then
        (updateHashes hs (set c i (some (.leaf l))) i l.key.version).map (fun c => (c, .complete (some stored.key)))
      else splitNode hs c i stored l depth
    | some (.internal _ _) => none
  | .inr i =>
    match c i with
    | some (.internal _ v) => some (c, .existing v)
    | _ => none

/-- `RemoveResult` (internal_node.h:209-246) -/
inductive RemoveResult
  | complete (version : Ver)
  | notFound
  | removeNode (promoted : Option LeafChild) (removedVersion : Ver)
  | descend (nextVersion : Ver)
deriving DecidableEq

/-- the promotion loop of `removeLeafChild` (internal_node.cpp:257-280): `j` is `peer_index` -/
def promoteLoop (hs : Hasher) (peer : LeafChild) (new removed : Ver) (depth : Nat) :
    Nat → Node → Nat → Option (Node × RemoveResult)
  | 0, _, _ => none
  | n + 1, c, j =>
    match parentIndex j with
    | none => some (c, .removeNode (some peer) removed)
    | some p =>
      if (peerIndex c p).isSome then
        (updateHashes hs (set c p (some (.leaf peer))) p new).map (fun c => (c, .complete removed))
      else if p = 0 ∧ depth = 0 then
        (updateHashes hs (set c j (some (.leaf peer))) j new).map (fun c => (c, .complete removed))
      else promoteLoop hs peer new removed depth n (set c p none) p

/-- `removeLeafChild` (internal_node.cpp:234-280) -/
def removeLeafChild (hs : Hasher) (c : Node) (i : Nat) (new removed : Ver) (depth : Nat) : Option (Node × RemoveResult) :=
  if i = 0 then none
  else
    let c := set c i none
    match peerIndex c i with
    | none =>
      if numChildren c = 1 then (updateHashes hs c i new).map (fun c => (c, .removeNode none removed)) else none
    | some p =>
      match c p with
      | some (.internal _ _) => (updateHashes hs c i new).map (fun c => (c, .complete removed))
      | some (.leaf peer) => promoteLoop hs peer new removed depth 6 (set c p none) p
      | none => none

/-- `BatchedInternalNode::remove` (internal_node.cpp:195-232) -/
def nodeRemove (hs : Hasher) (c : Node) (key : Hash) (depth : Nat) (new : Ver) : Option (Node × RemoveResult) :=
  match walkDown c (getNibble key depth) NIBBLE_BITS 0 with
  | .inl i =>
    match c i with
    | none => some (c, .notFound)
    | some (.leaf l) => if l.key.hash = key then removeLeafChild hs c i new l.key.version depth else some (c, .notFound)
    | some (.internal _ _) => none
  | .inr i =>
    match c i with
    | some (.internal _ v) => some (c, .descend v)
    | _ => none

/-- `linkChild` (internal_node.cpp:299-303) -/
def linkChild (hs : Hasher) (c : Node) (nib : Nat) (h : Hash) (v : Ver) : Option Node :=
  updateHashes hs (set c (nibbleToIndex nib) (some (.internal h v))) (nibbleToIndex nib) v

/-- the loop of `unlinkChild` (internal_node.cpp:318-349) -/
def unlinkLoop (hs : Hasher) (v : Ver) : Nat → Node → Nat → Option (Node × Option LeafChild)
  | 0, _, _ => none
  | n + 1, c, i =>
    match parentIndex i with
    | none =>
      match c i with
      | none => if numChildren c = 0 then some (c, none) else none
      | some (.leaf l) =>
        let c := set c i none
        if numChildren c = 0 then some (c, some l) else none
      | some (.internal _ _) => none
    | some p =>
      match peerIndex c i with
      | some q =>
        if (c i).isSome || isInternal c q then (updateHashes hs c i v).map (fun c => (c, none))
        else unlinkLoop hs v n (set (set c p (c q)) q none) p
      | none => unlinkLoop hs v n (set (set c p (c i)) i none) p

/-- `unlinkChild` (internal_node.cpp:308-350) -/
def unlinkChild (hs : Hasher) (c : Node) (nib : Nat) (v : Ver) (promoted : Option LeafChild) :
    Option (Node × Option LeafChild) :=
  let i := nibbleToIndex nib
  let c := set c i (promoted.map Child.leaf)
  if (peerIndex c i).isSome && promoted.isSome then (updateHashes hs c i v).map (fun c => (c, none))
  else unlinkLoop hs v 6 c i

/-! ## Walker and cache -/

/-- `NibblePath` (base_types.h:241-332): a list of nibbles, first one at the head -/
abbrev Path := List Nat

/-- `UpdateCache` (update_cache.h:35-77).  `db` is the reader's `get_internal`; `nodes` is the map `internal_nodes_`;
`staleInternal` and `staleLeaf` are the sets of `StaleNodeIndexes` (update_batch.h:28-33). -/
structure Cache where
  version : Ver
  db : Ver → Path → Option Node
  original : Node
  nodes : Path → Option Node
  staleInternal : List (Ver × Path)
  staleLeaf : List LeafKey

/-- constructor (update_cache.h:37-38) -/
def Cache.new (root : Node) (db : Ver → Path → Option Node) : Cache :=
  { version := nodeVersion root + 1, db := db, original := root, nodes := fun _ => none, staleInternal := [],
    staleLeaf := [] }

/-- `getInternalNode` (update_cache.cpp:17-23) -/
def Cache.get (k : Cache) (v : Ver) (p : Path) : Option Node :=
  match k.nodes p with
  | some n => some n
  | none => k.db v p
/-- `getRoot` (update_cache.cpp:31-37) -/
def Cache.getRoot (k : Cache) : Node := (k.nodes []).getD k.original
/-- `put` (update_cache.cpp:39) -/
def Cache.put (k : Cache) (p : Path) (n : Node) : Cache :=
  { k with nodes := fun q => if q = p then some n else k.nodes q }
/-- `remove` (update_cache.cpp:43) -/
def Cache.remove (k : Cache) (p : Path) : Cache := { k with nodes := fun q => if q = p then none else k.nodes q }
/-- `putStale` for leaf keys (update_cache.cpp:25-29) -/
def Cache.putStaleLeaf (k : Cache) (l : Option LeafKey) : Cache :=
  match l with
  | some l => { k with staleLeaf := l :: k.staleLeaf }
  | none => k
/-- `putStale` for internal keys (update_cache.cpp:41) -/
def Cache.putStale (k : Cache) (v : Ver) (p : Path) : Cache := { k with staleInternal := (v, p) :: k.staleInternal }

/-- `Walker` (walker.h:29-77); the head of `stack` is the top -/
structure Walker where
  cache : Cache
  stack : List Node
  cur : Node
  path : Path
  staleVersion : Ver

/-- constructor (walker.h:31-34) -/
def Walker.new (k : Cache) : Walker :=
  { cache := k, stack := [], cur := k.getRoot, path := [], staleVersion := nodeVersion k.getRoot }

/-- `depth` (walker.h:36) -/
def Walker.depth (w : Walker) : Nat := w.path.length

/-- `markCurrentNodeStale` (walker.cpp:96-102) -/
def Walker.markStale (w : Walker) : Walker :=
  if w.staleVersion ≠ 0 ∧ w.staleVersion ≠ w.cache.version then
    { w with cache := w.cache.putStale w.staleVersion w.path }
  else w

/-- `cacheCurrentNode` (walker.cpp:104) -/
def Walker.cacheCurrent (w : Walker) : Walker := { w with cache := w.cache.put w.path w.cur }

/-- the loop of `appendEmptyNodes` (walker.cpp:23-27) -/
def appendLoop (key : Hash) : Nat → Walker → Option Walker
  | 0, w => some w
  | n + 1, w =>
    if w.path.length < MAX_NIBBLES - 1 then
      appendLoop key n { w with path := w.path ++ [getNibble key w.path.length], stack := emptyNode :: w.stack }
    else none

/-- `appendEmptyNodes` (walker.cpp:21-32); `append` asserts the path is short enough (base_types.h:273-276) -/
def appendEmptyNodes (w : Walker) (key : Hash) (n : Nat) : Option Walker :=
  let w := { w with stack := w.cur :: w.stack }
  (appendLoop key (n - 1) w).bind fun w =>
    if w.path.length < MAX_NIBBLES - 1 then
      some { w with path := w.path ++ [getNibble key w.path.length], cur := emptyNode, staleVersion := nodeVersion emptyNode }
    else none

/-- `descend` (walker.cpp:34-42) -/
def Walker.descend (w : Walker) (key : Hash) (next : Ver) : Option Walker :=
  if w.path.length < MAX_NIBBLES - 1 then
    let p := w.path ++ [getNibble key w.path.length]
    (w.cache.get next p).map fun n =>
      { w with stack := w.cur :: w.stack, path := p, cur := n, staleVersion := nodeVersion n }
  else none

/-- `pop` (walker.cpp:84-94): returns the nibble and hash of the node left -/
def Walker.pop (hs : Hasher) (w : Walker) : Option (Walker × Nat × Hash) :=
  match w.stack, w.path.getLast? with
  | top :: rest, some nib =>
    some ({ w with stack := rest, path := w.path.dropLast, cur := top, staleVersion := nodeVersion top }, nib,
      nodeHash hs w.cur)
  | _, _ => none

/-- `ascend` (walker.cpp:56-67) -/
def Walker.ascend (hs : Hasher) (w : Walker) : Option Walker :=
  (w.markStale.cacheCurrent.pop hs).bind fun (w, nib, h) =>
    (linkChild hs w.cur nib h w.cache.version).map fun n => { w with cur := n }

/-- the loop of `ascendToRoot` and what follows it (walker.cpp:48-54); recursion on the length of the path -/
def ascendLoop (hs : Hasher) : Nat → Walker → Option Walker
  | 0, w => some w.markStale.cacheCurrent
  | n + 1, w => (w.ascend hs).bind (ascendLoop hs n)

/-- `ascendToRoot` (walker.cpp:46-54): one iteration for each nibble of the path -/
def Walker.ascendToRoot (hs : Hasher) (w : Walker) (key : Option LeafKey) : Option Walker :=
  ascendLoop hs w.path.length { w with cache := w.cache.putStaleLeaf key }

/-- `removeCurrentNode` (walker.cpp:69-76) -/
def Walker.removeCurrent (hs : Hasher) (w : Walker) : Option (Walker × Option Nat) :=
  let w := w.markStale
  let w := { w with cache := w.cache.remove w.path }
  if w.path = [] then some (w, none) else (w.pop hs).map fun (w, nib, _) => (w, some nib)

/-- `insertEmptyRootAtCurrentVersion` (walker.cpp:78-82) -/
def Walker.insertEmptyRoot (hs : Hasher) (w : Walker) : Walker :=
  { w with cache := w.cache.put [] (set emptyNode 0 (some (.internal hs.placeholder w.cache.version))) }

/-! ## Tree -/

/-- `handleCollision` (tree.cpp:39-45) -/
def handleCollision (hs : Hasher) (w : Walker) (stored l : LeafChild) : Option Walker :=
  (appendEmptyNodes w l.key.hash (prefixBitsAt l.key.hash stored.key.hash w.depth / 4)).bind fun w =>
  (nodeInsert hs w.cur stored w.depth w.cache.version).bind fun (c, _) =>
  (nodeInsert hs c l w.depth w.cache.version).bind fun (c, r) =>
  match r with
  | .complete stale => { w with cur := c }.ascendToRoot hs stale
  | _ => none

/-- `insert` (tree.cpp:50-68).  The bound is `MAX_NIBBLES`: the assertion on the depth stops longer walks. -/
def treeInsert (hs : Hasher) : Nat → Walker → LeafChild → Option Walker
  | 0, _, _ => none
  | n + 1, w, l =>
    if w.depth < MAX_NIBBLES then
      (nodeInsert hs w.cur l w.depth w.cache.version).bind fun (c, r) =>
      let w := { w with cur := c }
      match r with
      | .complete stale => w.ascendToRoot hs stale
      | .createNew stored => handleCollision hs w stored l
      | .existing v => (w.descend l.key.hash v).bind fun w => treeInsert hs n w l
    else none

/-- the loop of `removeBatchedInternalNode` (tree.cpp:71-75): recursion on the length of the path -/
def removeNodeLoop (hs : Hasher) : Nat → Walker → Option LeafChild → Option (Walker × Option LeafChild)
  | 0, w, p => some (w, p)
  | n + 1, w, p =>
    if safeToRemove w.cur then
      (w.removeCurrent hs).bind fun (w, nib) =>
        match nib with
        | some nib =>
          (unlinkChild hs w.cur nib w.cache.version p).bind fun (c, p') => removeNodeLoop hs n { w with cur := c } p'
        | none => none
    else some (w, p)

/-- `removeBatchedInternalNode` (tree.cpp:70-93) -/
def removeBatchedNode (hs : Hasher) (w : Walker) (promoted : Option LeafChild) : Option Walker :=
  (removeNodeLoop hs w.path.length w promoted).bind fun (w, p) =>
  match p with
  | some l =>
    (nodeInsert hs w.cur l w.depth w.cache.version).bind fun (c, r) =>
      match r with
      | .complete _ => { w with cur := c }.ascendToRoot hs none
      | _ => none
  | none =>
    if w.path = [] ∧ safeToRemove w.cur = true then
      (w.removeCurrent hs).map fun (w, _) => w.insertEmptyRoot hs
    else w.ascendToRoot hs none

/-- `remove` (tree.cpp:95-121) -/
def treeRemove (hs : Hasher) : Nat → Walker → Hash → Option Walker
  | 0, _, _ => none
  | n + 1, w, key =>
    if w.depth < MAX_NIBBLES then
      (nodeRemove hs w.cur key w.depth w.cache.version).bind fun (c, r) =>
      let w := { w with cur := c }
      match r with
      | .complete v => w.ascendToRoot hs (some ⟨key, v⟩)
      | .notFound => some w
      | .removeNode promoted v => removeBatchedNode hs { w with cache := w.cache.putStaleLeaf (some ⟨key, v⟩) } promoted
      | .descend v => (w.descend key v).bind fun w => treeRemove hs n w key
    else none

/-- one deletion of `update_impl` (tree.cpp:157-161) -/
def deleteKey (hs : Hasher) (k : Cache) (key : Bytes) : Option Cache :=
  (treeRemove hs MAX_NIBBLES (Walker.new k) (hs.hash key)).map (·.cache)

/-- one insertion of `update_impl` (tree.cpp:163-178) -/
def insertKey (hs : Hasher) (k : Cache) (kv : Bytes × Bytes) : Option Cache :=
  (treeInsert hs MAX_NIBBLES (Walker.new k) ⟨hs.hash kv.2, ⟨hs.hash kv.1, k.version⟩⟩).map (·.cache)

/-- `UpdateBatch` (update_batch.h:37-41).  `internal p` is the node written under `InternalNodeKey(version, p)`. -/
structure Batch where
  version : Ver
  internal : Path → Option Node
  leaves : List (LeafKey × Bytes)
  staleInternal : List (Ver × Path)
  staleLeaf : List LeafKey

/-- the stored tree: column families of `BlockMerkleCategory` for internal nodes, leaves and stale indexes, and the entry
at root version 0 that names the latest version. -/
structure Db where
  internal : Ver → Path → Option Node
  leaves : LeafKey → Option Bytes
  latest : Option Ver
  stale : Ver → Option (List (Ver × Path) × List LeafKey)

/-- the empty database -/
def Db.empty : Db := { internal := fun _ _ => none, leaves := fun _ => none, latest := none, stale := fun _ => none }

/-- `get_latest_root` (block_merkle_category.cpp:778-788) -/
def Db.latestRoot (db : Db) : Option Node :=
  match db.latest with
  | some v => db.internal v []
  | none => some emptyNode

/-- `Tree::update` and `update_impl` (tree.cpp:130-191): deletes first, then puts, then the batch -/
def treeUpdate (hs : Hasher) (db : Db) (puts : List (Bytes × Bytes)) (dels : List Bytes) : Option Batch :=
  db.latestRoot.bind fun root =>
  (dels.foldlM (deleteKey hs) (Cache.new root db.internal)).bind fun k =>
  (puts.foldlM (insertKey hs) k).map fun k =>
    { version := k.version, internal := k.nodes, leaves := puts.map (fun kv => (⟨hs.hash kv.1, k.version⟩, kv.2)),
      staleInternal := k.staleInternal, staleLeaf := k.staleLeaf }

/-- `putMerkleNodes`, `putStaleKeys`, `putLatestTreeVersion` (block_merkle_category.cpp:195-231): the batch is written -/
def Db.write (db : Db) (b : Batch) : Db :=
  { internal := fun v p => if v = b.version then (match b.internal p with | some n => some n | none => db.internal v p)
      else db.internal v p
    leaves := fun k => match b.leaves.reverse.find? (fun x => x.1 = k) with | some x => some x.2 | none => db.leaves k
    latest := some b.version
    stale := fun v => if v = b.version then some (b.staleInternal, b.staleLeaf) else db.stale v }

/-- `Tree::get_root_hash` of a tree just opened on the database (tree.h:47, 52) -/
def Db.rootHash (hs : Hasher) (db : Db) : Option Hash := db.latestRoot.map (nodeHash hs)

/-- an update followed by writing its batch -/
def Db.update (hs : Hasher) (db : Db) (puts : List (Bytes × Bytes)) (dels : List Bytes) : Option Db :=
  (treeUpdate hs db puts dels).map db.write

/-- `addStaleKeysToDeleteBatch` (block_merkle_category.cpp:309-320) for one tree version: the nodes and leaves listed as
stale since `v` are deleted, and the list with them -/
def Db.deleteStale (db : Db) (v : Ver) : Db :=
  match db.stale v with
  | none => db
  | some (ns, ls) =>
    { db with
      internal := fun u p => if (u, p) ∈ ns then none else db.internal u p
      leaves := fun k => if k ∈ ls then none else db.leaves k
      stale := fun u => if u = v then none else db.stale u }

end Verif.Smt
