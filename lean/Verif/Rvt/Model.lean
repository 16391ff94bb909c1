import Verif.Util.Bytes
set_option linter.unusedVariables false
/-!
# Range validation tree (C29)

Model of `RangeValidationTree` (bftengine/src/bcstatetransfer/RangeValidationTree.cpp and .hpp), function by function, with failed
assertions as `none`.

Simplifications: a shared pointer to a node is the node's id, nodes are entered in `id_to_node_` when they are made (the code does it
a few statements later and checks there that the id is new, as here); ids are pairs of level and index, ordered by level first (the
code packs them into 64 bits: 8 for the level, 56 for the index); indexes and powers of `RVT_K` do not wrap; the arrays of left- and
rightmost nodes are not limited to 255 levels.  Loops have fuel; running out of it counts as failure, and the theorems show that it
does not happen.
-/
namespace Verif.Rvt
open Verif.Bytes

/-- `NodeInfo` (RangeValidationTree.hpp:219-271) -/
structure Id where
  lvl : Nat
  idx : Nat
deriving DecidableEq

def Id.lt (x y : Id) : Prop := x.lvl < y.lvl ∨ (x.lvl = y.lvl ∧ x.idx < y.idx)
instance (x y : Id) : Decidable (x.lt y) := by unfold Id.lt; infer_instance

/-- the digest function over id and data, as a number; and the constants of the tree -/
structure Par where
  K : Nat
  /-- `kNodeValueModulo_` -/
  M : Nat
  fetch : Nat
  hash : Id → Bytes → Nat

/-- the value of an RVB (level 0): `computeNodeInitialValue` and the constructor of `NodeVal` (cpp:104-116, hpp:164-166) -/
def Par.leaf (P : Par) (i : Nat) (data : Bytes) : Int := ((P.hash ⟨0, i⟩ data % P.M : Nat) : Int)
/-- the initial value of a node of the tree -/
def Par.iv (P : Par) (x : Id) : Int := ((P.hash x (List.replicate 32 0) % P.M : Nat) : Int)

/-- `parentRvbIndexFromChild` = `minPossibleSiblingRvbIndex` (cpp:74-82) -/
def Par.up (P : Par) (lvl i : Nat) : Nat := (i - 1) / P.K ^ (lvl + 1) * P.K ^ (lvl + 1) + 1

/-- `nextRvbIndex` (cpp:89-94) -/
def Par.nextIdx (P : Par) (x : Id) : Option Nat := if (x.idx - 1) % P.K ^ x.lvl = 0 then some (x.idx + P.K ^ x.lvl) else none

/-- `RVTNode` (hpp:319-348) -/
structure Node where
  parent : Option Id
  kids : List Id
  /-- `insertion_counter_`; `none` = not initialised -/
  cnt : Option Nat
  iv : Int
  cv : Int
deriving DecidableEq

/-- `RangeValidationTree` (hpp:389-396) -/
structure Tree where
  node : Id → Option Node
  root : Option Id
  left : Nat → Option Id
  right : Nat → Option Id
  min : Nat
  max : Nat
  erase : List Id

/-- the constructor, and `clear` (cpp:955-967) -/
def Tree.empty : Tree where
  node := fun _ => none
  root := none
  left := fun _ => none
  right := fun _ => none
  min := 0
  max := 0
  erase := []

def Tree.set (t : Tree) (x : Id) (n : Node) : Tree := { t with node := fun y => if y = x then some n else t.node y }

/-- `NodeVal::operator+=` (hpp:178-181).  OpenSSL's remainder has the sign of the dividend. -/
def Par.add (P : Par) (a b : Int) : Int := (a + b).tmod P.M

/-- `toPositive`: adds the modulus while the value is negative (hpp:208-212) -/
def Par.toPos (P : Par) (a : Int) : Int := if a < 0 then a % P.M else a

/-- `NodeVal::operator-=` (hpp:183-187) -/
def Par.sub (P : Par) (a b : Int) : Int := P.toPos ((P.M + a - b).tmod P.M)

/-- `RVTNode::addValue` (cpp:196-205) -/
def Tree.addValue (P : Par) (t : Tree) (x : Id) (v : Int) : Option Tree := do
  let n ← t.node x
  some (t.set x { n with cv := P.add n.cv v })

/-- `RVTNode::subtractValue` (cpp:207-216) -/
def Tree.subValue (P : Par) (t : Tree) (x : Id) (v : Int) : Option Tree := do
  let n ← t.node x
  some (t.set x { n with cv := P.sub n.cv v })

/-- `RVTNode::pushChildId` (cpp:250-263) -/
def Tree.push (P : Par) (t : Tree) (x c : Id) : Option Tree := do
  let n ← t.node x
  guard (∀ l ∈ n.kids.getLast?, l.lt c)
  guard (n.cnt.getD ((c.idx - P.up c.lvl c.idx) / P.K ^ c.lvl) < P.K)
  some (t.set x { n with
    kids := n.kids ++ [c]
    cnt := some (n.cnt.getD ((c.idx - P.up c.lvl c.idx) / P.K ^ c.lvl) + 1) })

/-- `RVTNode::popChildId` (cpp:265-269) -/
def Tree.pop (t : Tree) (x c : Id) : Option Tree := do
  let n ← t.node x
  guard (n.kids.head? = some c)
  some (t.set x { n with kids := n.kids.tail })

def Tree.setParent (t : Tree) (x : Id) (p : Option Id) : Option Tree := do
  let n ← t.node x
  some (t.set x { n with parent := p })

def Par.above (P : Par) (c : Id) : Id := ⟨c.lvl + 1, P.up c.lvl c.idx⟩

/-- a new node above `c` (cpp:154-161, 176-184), entered in the map (new id, checked by the code at cpp:674, 757, 799, 808) -/
def Tree.make (P : Par) (t : Tree) (c : Id) : Option (Tree × Id) :=
  if (t.node (P.above c)).isSome then none
  else some (t.set (P.above c) ⟨none, [], none, P.iv (P.above c), P.iv (P.above c)⟩, P.above c)

/-- `getRVTNodeByType(node, PARENT)` (cpp:624-633): `none` for the root; the parent must exist -/
def Tree.parentOf (t : Tree) (x : Id) : Option (Option Id) :=
  if t.root = some x then some none
  else do
    let n ← t.node x
    let p ← n.parent
    let _ ← t.node p
    some (some p)

/-- the check at the top of `updateOpenRvtNodeArrays` (cpp:918-926) -/
def Tree.arraysOk (t : Tree) (l : Nat) : Bool := t.left l == t.right l || ((t.left l).isSome && (t.right l).isSome)

/-- the new leftmost node of the level of `x` (cpp:937-942) -/
def Tree.nextLeft (P : Par) (t : Tree) (x : Id) : Option (Option Id) :=
  if t.left x.lvl = some x then
    match P.nextIdx x with
    | none => none
    | some i => some (if (t.node ⟨x.lvl, i⟩).isSome then some ⟨x.lvl, i⟩ else none)
  else some (t.left x.lvl)

/-- `updateOpenRvtNodeArrays(ADD_NODE_TO_RIGHT)` (cpp:917-932) -/
def Tree.addRight (t : Tree) (x : Id) : Option Tree := do
  guard (t.arraysOk x.lvl)
  some { t with
    right := fun l => if l = x.lvl then some x else t.right l
    left := fun l => if l = x.lvl then (if t.left l = none then some x else t.left l) else t.left l }

/-- `updateOpenRvtNodeArrays(CHECK_REMOVE_NODE)` (cpp:917-926, 933-949) -/
def Tree.checkRemove (P : Par) (t : Tree) (x : Id) : Option Tree := do
  guard (t.arraysOk x.lvl)
  guard (¬ (t.right x.lvl = some x ∧ t.left x.lvl ≠ some x))
  let next ← t.nextLeft P x
  some { t with
    left := fun l => if l = x.lvl then next else t.left l
    right := fun l => if l = x.lvl then (if t.right l = some x then none else t.right l) else t.right l }

/-- `setNewRoot`: what happens to the old root (cpp:880-893) -/
def Tree.oldRoot (P : Par) (t : Tree) (x : Id) : Option Tree :=
  match t.root with
  | none => some t
  | some r =>
    if x.lvl = 0 then none
    else if x.lvl = r.lvl + 1 then t.setParent r (some x)
    else if r.lvl = x.lvl + 1 then t.checkRemove P r
    else none

/-- `setNewRoot` for a node (cpp:873-898) -/
def Tree.setRoot (P : Par) (t : Tree) (x : Id) : Option Tree := do
  let t ← t.oldRoot P x
  let t ← ({ t with root := some x } : Tree).setParent x none
  t.addRight x

/-- the loop of `addValueToInternalNodes` (cpp:711-724) and the last addition -/
def addUpLoop (P : Par) (v : Int) (bottom : Id) : Nat → Tree → Id → Option Tree
  | 0, _, _ => none
  | fuel + 1, t, x => do
    let t ← t.addValue P x v
    let n ← t.node x
    match n.parent with
    | some _ => do
      guard (t.root ≠ some x)
      let p ← t.parentOf x
      let p ← p
      if t.root = some p then (if p ≠ bottom then t.addValue P p v else some t) else addUpLoop P v bottom fuel t p
    | none => do
      guard (t.root = some x)
      if x ≠ bottom then t.addValue P x v else some t

/-- `addValueToInternalNodes` (cpp:707-725) -/
def Tree.addUp (P : Par) (t : Tree) (x : Option Id) (v : Int) : Option Tree :=
  match x, t.root with
  | none, _ => some t
  | some _, none => none
  | some x, some r => addUpLoop P v x (r.lvl + 1) t x

/-- `openForInsertion` (cpp:900-906): the rightmost node of the level, if it has insertions left (hpp:335, 341) -/
def Tree.openIns (P : Par) (t : Tree) (l : Nat) : Option Id := do
  let x ← t.right l
  let n ← t.node x
  if n.cnt = none ∨ n.cnt.getD 0 < P.K then some x else none

/-- first loop of `addInternalNode` (cpp:740-769): up to the level of the root -/
def climb (P : Par) : Nat → Tree → Id → Int → Option (Tree × Id)
  | 0, _, _, _ => none
  | fuel + 1, t, x, v => do
    let r ← t.root
    if x.lvl = r.lvl then some (t, x)
    else do
      let n ← t.node x
      match n.parent with
      | some _ => do
        let p ← t.parentOf x
        let p ← p
        let t ← t.addValue P p v
        climb P fuel t p v
      | none => match t.openIns P (x.lvl + 1) with
        | some p => do
          let t ← t.setParent x (some p)
          let t ← t.push P p x
          let np ← t.node p
          guard (np.kids.length ≤ P.K)
          let t ← t.addValue P p v
          climb P fuel t p v
        | none => do
          let (t, p) ← t.make P x
          let t ← t.push P p x
          let t ← t.addValue P p v
          let t ← t.addRight p
          let t ← t.setParent x (some p)
          climb P fuel t p (P.add v (P.iv p))

/-- second loop of `addInternalNode` (cpp:789-827): new roots, until one is above both -/
def newRoots (P : Par) : Nat → Tree → Id → Option Tree
  | 0, _, _ => none
  | fuel + 1, t, x => do
    let r ← t.root
    let nr ← t.node r
    let (t, y) ← t.make P r
    let t ← t.push P y r
    let t ← t.addValue P y nr.cv
    let t ← t.setRoot P y
    let nx ← t.node x
    if P.up r.lvl r.idx ≠ P.up x.lvl x.idx then do
      let (t, z) ← t.make P x
      let t ← t.setParent x (some z)
      let t ← t.push P z x
      let t ← t.addValue P z nx.cv
      let t ← t.addRight z
      newRoots P fuel t z
    else do
      let t ← t.setParent x (some y)
      let t ← t.push P y x
      t.addValue P y nx.cv

/-- `addInternalNode` (cpp:734-828) -/
def Tree.addInternal (P : Par) (t : Tree) (x : Id) : Option Tree := do
  let n ← t.node x
  guard (n.parent = none)
  let r ← t.root
  let (t, y) ← climb P (r.lvl + 1) t x n.iv
  if t.root = some y then some t else newRoots P (y.idx + 1) t y

/-- `addRVBNode` (cpp:667-686) -/
def Tree.addLeaf (P : Par) (t : Tree) (i : Nat) (v : Int) : Option Tree :=
  match t.openIns P 1 with
  | some p => do
    let t ← t.push P p ⟨0, i⟩
    let n ← t.node p
    guard (n.kids.length ≤ P.K)
    t.addUp P (some p) v
  | none => do
    let (t, p) ← t.make P ⟨0, i⟩
    let t ← t.push P p ⟨0, i⟩
    let t ← t.addRight p
    let t ← if t.root = none then t.setRoot P p else some t
    let t ← t.addInternal P p
    t.addUp P (some p) v

/-- the parent loses its child `x` (cpp:841-850) -/
def Tree.dropNode (P : Par) (t : Tree) (rvt p x : Id) (iv : Int) : Option Tree := do
  let t ← t.pop p x
  if x = rvt then some t
  else do
    let t ← ({ t with erase := x :: t.erase } : Tree).checkRemove P x
    t.addUp P (some p) (-iv)

/-- first loop of `removeAndUpdateInternalNodes` (cpp:836-853) -/
def trim (P : Par) (rvt : Id) (v : Int) : Nat → Tree → Id → Option Tree
  | 0, _, _ => none
  | fuel + 1, t, x =>
    if t.root = some x then some t
    else do
      let p ← t.parentOf x
      let p ← p
      let n ← t.node x
      let t ← if n.kids = [] then t.dropNode P rvt p x n.iv else some t
      let t ← t.subValue P x v
      trim P rvt v fuel t p

/-- second loop of `removeAndUpdateInternalNodes` (cpp:863-870) -/
def shrink (P : Par) : Nat → Tree → Option Tree
  | 0, _ => none
  | fuel + 1, t => do
    let r ← t.root
    let n ← t.node r
    if n.kids.length = 1 ∧ r.lvl > 1 then do
      let t : Tree := { t with erase := r :: t.erase }
      guard (t.right (r.lvl - 1) = t.left (r.lvl - 1))
      let t ← t.checkRemove P r
      let y ← t.right (r.lvl - 1)
      let t ← t.setRoot P y
      shrink P fuel t
    else some t

/-- `removeAndUpdateInternalNodes` (cpp:830-871) -/
def Tree.removeUp (P : Par) (t : Tree) (x : Id) (v : Int) : Option Tree := do
  let r ← t.root
  let t ← trim P x v (r.lvl + 1) t x
  let t ← t.subValue P r v
  let n ← t.node r
  if n.kids = [] then do
    guard (r.lvl = 1)
    some .empty
  else shrink P (r.lvl + 1) t

/-- the bottom node loses its last child (cpp:692-701) -/
def Tree.dropBottom (P : Par) (t : Tree) (x : Id) (iv : Int) : Option Tree := do
  let t ← t.checkRemove P x
  let p ← ({ t with erase := x :: t.erase } : Tree).parentOf x
  ({ t with erase := x :: t.erase } : Tree).addUp P p (-iv)

/-- `removeRVBNode` (cpp:688-705) -/
def Tree.removeLeaf (P : Par) (t : Tree) (i : Nat) (v : Int) : Option Tree := do
  let x ← t.left 1
  let n ← t.node x
  let t ← if n.kids.length = 1 then t.dropBottom P x n.iv else some t
  let t ← t.pop x ⟨0, i⟩
  t.removeUp P x v

/-- `isValidRvbId` (cpp:569-571) -/
def Par.valid (P : Par) (id : Nat) : Bool := id ≠ 0 ∧ P.fetch ≠ 0 ∧ id % P.fetch = 0

/-- `addRightNode` (cpp:971-984) -/
def Tree.addRightNode (P : Par) (t : Tree) (id : Nat) (data : Bytes) : Option Tree := do
  guard (P.valid id)
  let i := id / P.fetch
  guard (t.max > 0 → t.max + 1 = i)
  let t ← t.addLeaf P i (P.leaf i data)
  some { t with
    max := i
    min := if t.min = 0 then i else t.min }

/-- `removeLeftNode` (cpp:995-1015) -/
def Tree.removeLeftNode (P : Par) (t : Tree) (id : Nat) (data : Bytes) : Option Tree := do
  guard (t.root ≠ none)
  guard (P.valid id)
  let i := id / P.fetch
  guard (t.min = i)
  let t ← t.removeLeaf P i (P.leaf i data)
  let t : Tree := { t with
    node := fun x => if x ∈ t.erase then none else t.node x
    erase := [] }
  some (if t.root = none then { t with
      min := 0
      max := 0 }
    else { t with min := t.min + 1 })

/-- `getRootCurrentValueStr` (hpp:131; the text is the number in hexadecimal) -/
def Tree.rootValue (t : Tree) : Option Int := do
  let r ← t.root
  let n ← t.node r
  some n.cv

/-- `getDirectParentValueStr` (cpp:1232-1258) -/
def Tree.groupValue (P : Par) (t : Tree) (id : Nat) : Option Int :=
  if P.valid id then
    let i := id / P.fetch
    let p := if i ≤ P.K then 1 else if i % P.K = 0 then i - P.K + 1 else i - i % P.K + 1
    (t.node ⟨1, p⟩).map (·.cv)
  else none

/-- `getRvbIds` (cpp:1206-1225, 573-579) of the level 1 node with index `p` -/
def Tree.rvbIds (P : Par) (t : Tree) (x : Id) : List Nat :=
  if x.lvl = 1 ∧ x.idx % P.K = 1 then
    match t.node x with
    | none => []
    | some n =>
      let lo := (n.kids.head?.map (·.idx)).getD 0
      let hi := (n.kids.getLast?.map (·.idx)).getD 0
      (List.range' lo (hi + 1 - lo)).map (· * P.fetch)
  else []

/-- `getMinRvbId`, `getMaxRvbId` (cpp:1260-1269) -/
def Tree.minId (P : Par) (t : Tree) : Nat := t.min * P.fetch
def Tree.maxId (P : Par) (t : Tree) : Nat := t.max * P.fetch

/-- the loop of `getRvbGroupIds` (cpp:1187-1201) with the result so far; `none` = `return std::vector<RVBGroupId>()` -/
def Tree.groupLoop (P : Par) (t : Tree) (must : Bool) (j : Nat) : Nat → Nat → List Id → Option (List Id)
  | 0, _, acc => some acc
  | fuel + 1, i, acc =>
    if i ≤ j then
      if acc.getLast? = some ⟨1, P.up 0 i⟩ then t.groupLoop P must j fuel (P.up 0 i + (P.K - 1) + 1) acc
      else if must ∧ t.node ⟨1, P.up 0 i⟩ = none then none
      else t.groupLoop P must j fuel (P.up 0 i + (P.K - 1) + 1) (acc ++ [⟨1, P.up 0 i⟩])
    else some acc

/-- `getRvbGroupIds` (cpp:1173-1204); invalid ids fail the assertion -/
def Tree.groupIds (P : Par) (t : Tree) (id id' : Nat) (must : Bool) : Option (List Id) := do
  guard (P.valid id ∧ P.valid id')
  if id > id' then some []
  else some ((t.groupLoop P must (id' / P.fetch) (id' / P.fetch + 1) (id / P.fetch) []).getD [])

end Verif.Rvt
