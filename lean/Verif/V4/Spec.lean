import Verif.V4.Model

/-!
# Specification of the v4 blockchain: the reads as functions of the history of blocks

The history is the list of all blocks ever added and not reverted, the block with id `i` at position `i - 1`,
pruned or not.  Nothing here mentions column families, flags, batches or snapshots.
-/
namespace Verif.V4.Spec
open Verif.V4

/-- What a block did to a key of a category: `none` nothing, `some none` deleted it, `some (some (data, stale))`
wrote `data`; `stale` says that the value may go once the block is pruned (all immutable keys, and the versioned
ones added with `stale_on_update`).  A block that writes and deletes the same key deletes it. -/
def touch (u : Updates) (cat key : Str) : Option (Option (Str × Bool)) :=
  match lookup u cat with
  | none => none
  | some (.merkle kv dels) =>
    if key ∈ dels then some none else (lookup kv key).map fun v => some (v, false)
  | some (.versioned kv dels) =>
    if key ∈ dels then some none else (lookup kv key).map fun v => some (v.data, v.stale)
  | some (.immutable kv) => (lookup kv key).map fun v => some (v, true)

structure Entry where
  ver : Nat
  data : Str
  stale : Bool
  deriving DecidableEq, Repr

/-- The latest value of a key after the first `n` blocks of the history -/
def latestAt (hb : List Block) (cat key : Str) : Nat → Option Entry
  | 0 => none
  | n + 1 =>
    match hb[n]? with
    | none => latestAt hb cat key n
    | some b =>
      match touch b.updates cat key with
      | none => latestAt hb cat key n
      | some none => none
      | some (some (v, st)) => some ⟨n + 1, v, st⟩

/-- The latest value of a key -/
def latest (hb : List Block) (cat key : Str) : Option Entry := latestAt hb cat key hb.length

/-- the digest of block `n` of the history (0 when there is none: `n = 0`) -/
def digestOf (H : Nat → Block → Digest) (hb : List Block) : Nat → Digest
  | 0 => 0
  | j + 1 => match hb[j]? with
    | some a => H (j + 1) a
    | none => 0

/-- The history is a hash chain: every block carries the digest of the one before it, the first one carries 0 -/
def ChainOk (H : Nat → Block → Digest) (hb : List Block) : Prop :=
  ∀ (i : Nat) (b : Block), hb[i]? = some b → b.parent = digestOf H hb i

/-- The history `hb'` continues `hb` with blocks whose updates a state transfer delivered, as a hash chain -/
def Extends (H : Nat → Block → Digest) (hb : List Block) (st : BMap) (hb' : List Block) : Prop :=
  hb <+: hb' ∧ ChainOk H hb' ∧
    ∀ (i : Nat) (b : Block), hb.length ≤ i → hb'[i]? = some b → ∃ b0, st.get (i + 1) = some b0 ∧ b.updates = b0.updates

/-- the type of the updates of a category -/
def typeOf : CatInput → CatType
  | .merkle _ _ => .merkle
  | .versioned _ _ => .versioned
  | .immutable _ => .immutable

/-- the keys of the map of a category are distinct -/
def NodupKeys : CatInput → Prop
  | .merkle kv _ => (kv.map (·.1)).Nodup
  | .versioned kv _ => (kv.map (·.1)).Nodup
  | .immutable kv => (kv.map (·.1)).Nodup

/-- Updates as the C++ types and the contract of `Updates` make them: the maps have distinct keys, a category is
registered with the type it is used with ("using the same category ID for different category types is an error",
`updates.h:32`). -/
structure UpdOk (cats : Cats) (u : Updates) : Prop where
  nodup : (u.map (·.1)).Nodup
  keys : ∀ c i, (c, i) ∈ u → NodupKeys i
  typed : ∀ c i t p, (c, i) ∈ u → cats.get c = some (t, p) → t = typeOf i

/-- What a user may read in a state whose history is `hb` and whose first kept block is `genesis` -/
structure Reads (hb : List Block) (genesis : Nat) (s : Sys) : Prop where
  /-- the ids reported -/
  last : s.p.last = hb.length
  genesis_eq : s.p.genesis = genesis
  genesis_le : hb ≠ [] → 1 ≤ genesis ∧ genesis ≤ hb.length
  /-- exactly the blocks from the genesis to the last one exist (before the ones of a state transfer in progress) -/
  has : ∀ i, 1 ≤ i → i ≤ hb.length → hasBlock s i = decide (genesis ≤ i)
  /-- a kept block is returned as it was added -/
  updates : ∀ i b, genesis ≤ i + 1 → hb[i]? = some b → getBlockUpdates s (i + 1) = some b.updates
  data : ∀ i b, genesis ≤ i + 1 → hb[i]? = some b → getBlockData s (i + 1) = some b
  parent : ∀ i b, genesis ≤ i + 1 → hb[i]? = some b → parentDigest s (i + 1) = .ok (some b.parent)
  /-- a versioned read of a kept block returns what the block wrote -/
  get : ∀ i b cat key, genesis ≤ i + 1 → hb[i]? = some b →
    V4.get s cat key (i + 1) = (lookup b.updates cat).bind (valueFrom (i + 1) key)
  /-- the latest version of a key is the id of the last block that wrote it, unless a later one deleted it; the
  entry of a stale key of a pruned block may be gone -/
  version : ∀ cat t p key, s.d.cats.get cat = some (t, p) →
    match latest hb cat key with
    | none => getLatestVersion s cat key = .ok none
    | some e => getLatestVersion s cat key = .ok (some e.ver) ∨
        (e.stale = true ∧ e.ver < genesis ∧ getLatestVersion s cat key = .ok none)
  /-- and its latest value is what that block wrote -/
  value : ∀ cat t p key, s.d.cats.get cat = some (t, p) →
    match latest hb cat key with
    | none => getLatest s cat key = .ok none
    | some e => getLatest s cat key = .ok (some ⟨t, e.ver, e.data⟩) ∨
        (e.stale = true ∧ e.ver < genesis ∧ getLatest s cat key = .ok none)

end Verif.V4.Spec
