import Verif.Smt.Model
/-!
# Specification for the sparse Merkle tree (C20, C21, C22)

Independent of batched nodes, walker and cache: what the root hash should be, what a version of the stored tree should
answer, and which stored nodes a version needs.
-/
namespace Verif.Smt

/-- bit `d` of a key hash -/
def keyBit (d : Nat) (x : Hash × Hash) : Bool := x.1.getD d false

/-- hash of the sub-trie at depth `d` that holds the given (key hash, value hash) pairs: nothing gives the placeholder, a
lone pair gives its value hash, more are split by bit `d`. -/
def subHash (hs : Hasher) : Nat → Nat → List (Hash × Hash) → Hash
  | _, _, [] => hs.placeholder
  | _, _, [x] => x.2
  | 0, _, _ => hs.placeholder
  | n + 1, d, l => hs.parent (subHash hs n (d + 1) (l.filter (fun x => keyBit d x == false))) (subHash hs n (d + 1) (l.filter (keyBit d)))

/-- root hash for a set of (key hash, value hash) pairs: the root is always split -/
def rootSpec (hs : Hasher) (l : List (Hash × Hash)) : Hash :=
  if l = [] then hs.placeholder
  else hs.parent (subHash hs 255 1 (l.filter (fun x => keyBit 0 x == false))) (subHash hs 255 1 (l.filter (keyBit 0)))

/-- contents: keys to values -/
abbrev Contents := Bytes → Option Bytes

/-- an update: the deletes, then the puts -/
structure Upd where
  puts : List (Bytes × Bytes)
  dels : List Bytes

/-- what an update does to the contents -/
def applyUpd (m : Contents) (u : Upd) : Contents := fun k =>
  match u.puts.find? (fun kv => kv.1 == k) with
  | some kv => some kv.2
  | none => if k ∈ u.dels then none else m k

/-- `puts` is a map (`std::map` in the code): no key twice -/
def Upd.ok (u : Upd) : Prop := (u.puts.map (·.1)).Nodup

/-- the update changes something: it puts a key or deletes one that is there -/
def Upd.effective (m : Contents) (u : Upd) : Prop := u.puts ≠ [] ∨ ∃ k ∈ u.dels, (m k).isSome

/-- reading the leaf for a key hash by walking down stored nodes -/
def readNode (get : Ver → Path → Option Node) : Nat → Path → Node → Hash → Option LeafChild
  | 0, _, _, _ => none
  | n + 1, q, c, key =>
    let nib := getNibble key q.length
    match walkDown c nib NIBBLE_BITS 0 with
    | .inl i =>
      match c i with
      | some (.leaf l) => if l.key.hash = key then some l else none
      | _ => none
    | .inr i =>
      match c i with
      | some (.internal _ v) => (get v (q ++ [nib])).bind fun c' => readNode get n (q ++ [nib]) c' key
      | _ => none

/-- reading a key at a version of the stored tree -/
def Db.read (hs : Hasher) (db : Db) (v : Ver) (key : Bytes) : Option Bytes :=
  (db.internal v []).bind fun root => (readNode db.internal 64 [] root (hs.hash key)).bind fun l => db.leaves l.key

/-- the stored internal nodes needed by version `x` -/
inductive Reach (db : Db) (x : Ver) : Ver → Path → Prop
  | root : Reach db x x []
  | step {u q c nib h u'} : Reach db x u q → db.internal u q = some c → nib < 16 → c (nibbleToIndex nib) = some (.internal h u') →
      Reach db x u' (q ++ [nib])

/-- what happens to the stored tree: an update is applied and written, or the nodes and leaves that became stale with
version `v` are deleted -/
inductive Ev
  | upd (u : Upd)
  | prune (v : Ver)

/-- one event; `none` is an abort -/
def runEv (hs : Hasher) (db : Db) : Ev → Option Db
  | .upd u => db.update hs u.puts u.dels
  | .prune v => some (db.deleteStale v)

/-- a history from a stored tree -/
def run (hs : Hasher) (db : Db) (evs : List Ev) : Option Db := evs.foldlM (runEv hs) db

/-- the updates of a history -/
def updates (evs : List Ev) : List Upd := evs.filterMap (fun e => match e with | .upd u => some u | .prune _ => none)

/-- the versions pruned in a history -/
def prunes (evs : List Ev) : List Ver := evs.filterMap (fun e => match e with | .upd _ => none | .prune v => some v)

/-- contents after the first `x` updates -/
def contentsAt (us : List Upd) (x : Nat) : Contents := (us.take x).foldl applyUpd (fun _ => none)

/-- the keys named in some updates -/
def keysOf (us : List Upd) : List Bytes := us.flatMap (fun u => u.puts.map (·.1) ++ u.dels)

/-- no two of these keys have the same hash -/
def DistinctHashes (hs : Hasher) (ks : List Bytes) : Prop := ∀ k ∈ ks, ∀ k' ∈ ks, hs.hash k = hs.hash k' → k = k'

/-- every update is a map of puts and changes something -/
def Effective (us : List Upd) : Prop := ∀ (i : Nat) (u : Upd), us[i]? = some u → u.ok ∧ u.effective (contentsAt us i)

/-- the pairs of hashes given to `parent` when the sub-trie hash is computed -/
def subInputs (hs : Hasher) : Nat → Nat → List (Hash × Hash) → List (Hash × Hash)
  | _, _, [] => []
  | _, _, [_] => []
  | 0, _, _ => []
  | n + 1, d, l =>
    (subHash hs n (d + 1) (l.filter (fun x => keyBit d x == false)), subHash hs n (d + 1) (l.filter (keyBit d))) ::
      (subInputs hs n (d + 1) (l.filter (fun x => keyBit d x == false)) ++ subInputs hs n (d + 1) (l.filter (keyBit d)))

/-- the pairs of hashes given to `parent` when the root hash is computed -/
def rootInputs (hs : Hasher) (l : List (Hash × Hash)) : List (Hash × Hash) :=
  if l = [] then []
  else (subHash hs 255 1 (l.filter (fun x => keyBit 0 x == false)), subHash hs 255 1 (l.filter (keyBit 0))) ::
    (subInputs hs 255 1 (l.filter (fun x => keyBit 0 x == false)) ++ subInputs hs 255 1 (l.filter (keyBit 0)))

/-- two different inputs, one from each list, with the same parent hash -/
def Collision (hs : Hasher) (i i' : List (Hash × Hash)) : Prop :=
  ∃ p ∈ i, ∃ p' ∈ i', p ≠ p' ∧ hs.parent p.1 p.2 = hs.parent p'.1 p'.2

end Verif.Smt
