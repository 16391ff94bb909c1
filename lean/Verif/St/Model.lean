import Verif.Cert.Model
import Verif.Rvt.Theorems
set_option linter.unusedVariables false
/-!
# State transfer, destination side (C35)

Model of the fetching replica of `BCStateTran` (bftengine/src/bcstatetransfer/BCStateTran.cpp), of `RVBManager` (RVBManager.cpp) as
far as fetching uses it, of `SourceSelector` and of the data store.  A failed `ConcordAssert` is `abort`, an access outside a buffer
or another undefined operation is `fault`.

Simplifications.  Messages are records, `lenOk` says that `msgLen` equals the size the message claims; messages too short for their
header, and 32-bit wrap of sizes, are left out.  Time is left out: what depends on it (the choice and replacement of the source, time
outs, fresh request numbers, which asynchronous writes have ended) is chosen freely by the environment (`Ora`); the primary is never
excluded from the sources (`updateCurrentPrimary`).  The loop of `processData` may be cut at every iteration, so that a crash can
follow each of them; one iteration is one transaction of the data store.  `checkConsistency`, the post-processing thread, metrics and
the source side (`SendingBatch`) are left out.  Digest functions, and reading the serialised tree, are parameters.
-/
namespace Verif.St
open Verif.Bytes

inductive R (α : Type) where
  | ok (a : α)
  /-- a failed `ConcordAssert` -/
  | abort
  /-- undefined behaviour -/
  | fault

def R.bind {α β : Type} (x : R α) (f : α → R β) : R β :=
  match x with
  | .ok a => f a
  | .abort => .abort
  | .fault => .fault

instance : Monad R where
  pure := R.ok
  bind := R.bind

/-- `ConcordAssert` -/
def require (p : Prop) [Decidable p] : R Unit := if p then .ok () else .abort

def ofOption {α : Type} : Option α → R α
  | some a => .ok a
  | none => .abort

/-- `DIGEST_SIZE` zero bytes, `Digest::makeZero` -/
def zero : Bytes := List.replicate 32 0

/-- `DataStore::CheckpointDesc` (DataStore.hpp) -/
structure Desc where
  num : Nat
  maxBlock : Nat
  maxDigest : Bytes
  pagesDigest : Bytes
  rvb : Bytes
deriving DecidableEq

def Desc.zero : Desc := ⟨0, 0, St.zero, St.zero, []⟩

/-- `CheckpointSummaryMsg` (Messages.hpp:78-106) -/
structure Summary where
  desc : Desc
  seq : Nat
  lenOk : Bool

/-- `CheckpointSummaryMsg::equivalent` (Messages.hpp:140-158) -/
def Summary.eqv (a b : Summary) : Bool :=
  a.desc.maxBlock == b.desc.maxBlock && a.desc.num == b.desc.num && a.desc.maxDigest == b.desc.maxDigest &&
    a.desc.pagesDigest == b.desc.pagesDigest && a.desc.rvb == b.desc.rvb

/-- `ItemDataMsg` (Messages.hpp:238-263) -/
structure Item where
  seq : Nat
  block : Nat
  total : Nat
  chunk : Nat
  last : Bool
  rvb : Nat
  data : Bytes
  lenOk : Bool
deriving DecidableEq

/-- configuration and parameters -/
structure Cfg where
  n : Nat
  ro : Nat
  f : Nat
  self : Nat
  /-- `maxNumberOfChunksInBatch` -/
  batch : Nat
  maxBlock : Nat
  maxVBlock : Nat
  /-- `maxNumOfChunksInAppBlock_`, `maxNumOfChunksInVBlock_` -/
  chunksApp : Nat
  chunksV : Nat
  maxPending : Nat
  maxStored : Nat
  pages : Nat
  pageSize : Nat
  /-- size of `ioPool_` -/
  io : Nat
  /-- `enableReservedPages` -/
  resPages : Bool
  /-- constants of the tree: `RVT_K` and `fetchRangeSize` -/
  P : Rvt.Par
  /-- `computeDigestOfBlock` -/
  H : Nat → Bytes → Bytes
  /-- `IAppState::getPrevDigestFromBlock` -/
  prev : Bytes → Bytes
  /-- `computeDigestOfPage` -/
  pageH : Nat → Nat → Bytes → Bytes
  /-- `computeDigestOfPagesDescriptor`: of page, checkpoint and digest of every page -/
  descH : List (Nat × Nat × Bytes) → Bytes
  /-- `setSerializedRvbData` and `validate` -/
  parse : Bytes → Option Rvt.Tree

/-- `buffer_` has this size (BCStateTran.cpp:100-106, 372) -/
def Cfg.maxItem (c : Cfg) : Nat := max c.maxBlock c.maxVBlock
def Cfg.fetch (c : Cfg) : Nat := c.P.fetch
/-- `SourceSelector::allOtherReplicas_` -/
def Cfg.others (c : Cfg) : List Nat := (List.range c.n).filter (fun r => r ≠ c.self)

/-- `ID_OF_VBLOCK_RES_PAGES` (BCStateTran.hpp:431) -/
def vblock : Nat := 2 ^ 64 - 1

/-- `BlocksBatchDesc` (BCStateTran.hpp:433-449); `upperBoundBlockId` is always `maxBlockId` -/
structure Batch where
  lo : Nat
  hi : Nat
  next : Nat
deriving DecidableEq

def Batch.none : Batch := ⟨0, 0, 0⟩
/-- BCStateTran.cpp:1408-1415 -/
def Batch.valid (b : Batch) : Bool := b.lo ≠ 0 ∧ b.lo ≤ b.hi ∧ b.lo ≤ b.next ∧ b.next ≤ b.hi
/-- BCStateTran.cpp:1395-1406, hpp:441 -/
def Batch.le (a b : Batch) : Bool := (if a.lo ≠ b.lo then decide (a.lo < b.lo) else decide (b.next < a.next)) || a == b

/-! ## RVB manager -/

/-- `RVBManager`: `in_mem_rvt_`, `stored_rvb_digests_` (a map, here in ascending order), `stored_rvb_digests_group_ids_` -/
structure Rvbm where
  tree : Rvt.Tree
  stored : List (Nat × Bytes)
  groups : List Rvt.Id

def Rvbm.empty : Rvbm := ⟨.empty, [], []⟩

/-- `nextRvbBlockId` (RVBManager.cpp:743-749) -/
def Cfg.nextRvb (c : Cfg) (b : Nat) : Nat := if c.fetch * (b / c.fetch) < b then c.fetch * (b / c.fetch) + c.fetch else c.fetch * (b / c.fetch)
/-- `prevRvbBlockId` -/
def Cfg.prevRvb (c : Cfg) (b : Nat) : Nat := c.fetch * (b / c.fetch)
/-- `isRvbBlockId` (BCStateTran.cpp:3221-3224) -/
def Cfg.isRvb (c : Cfg) (b : Nat) : Bool := b % c.fetch == 0

/-- the new tree fails to span the blocks to be fetched (RVBManager.cpp:325-331; the comparison of the upper ends is as in the code) -/
def Cfg.noSpan (c : Cfg) (t : Rvt.Tree) (empty : Bool) (lo hi : Nat) : Bool :=
  (decide (c.nextRvb lo ≤ c.prevRvb hi) && empty) || (decide (c.nextRvb lo < t.minId c.P) || decide (c.prevRvb hi < t.maxId c.P))

/-- `setRvbData` (RVBManager.cpp:299-352); `none` = false returned -/
def Rvbm.setData (c : Cfg) (rv : Rvbm) (data : Bytes) (lo hi : Nat) : Option Rvbm :=
  if data = [] then (if c.noSpan .empty true lo hi then none else some .empty)
  else match c.parse data with
    | none => none
    | some t => if c.noSpan t false lo hi then none else some { rv with tree := t }

/-- `getNextRequiredRvbGroupid` (RVBManager.cpp:613-624); group id 0 is `none` -/
def Rvbm.nextGroup (c : Cfg) (rv : Rvbm) (a b : Nat) : R (Option Rvt.Id) :=
  if b < a then .ok none
  else do
    let l ← ofOption (rv.tree.groupIds c.P a b true)
    .ok (l.find? (fun g => g ∉ rv.groups))

/-- `getFetchBlocksRvbGroupId` (RVBManager.cpp:583-611): only its assertions matter here -/
def Rvbm.fetchGroup (c : Cfg) (rv : Rvbm) (a b : Nat) : R (Option Rvt.Id) := do
  require (a ≤ b)
  match rv.stored.head?, rv.stored.getLast? with
  | some x, some y => do
    require ((y.1 - x.1) % c.fetch = 0)
    require ((y.1 - x.1) / c.fetch + 1 = rv.stored.length)
    if x.1 ≤ a ∧ b ≤ y.1 then .ok none else rv.nextGroup c (c.nextRvb a) (c.prevRvb b)
  | _, _ => rv.nextGroup c (c.nextRvb a) (c.prevRvb b)

/-- the loop of `getRvbGroupMaxBlockIdOfNonStoredRvbGroup` (RVBManager.cpp:643-653) -/
def Rvbm.groupMaxLoop (c : Cfg) (rv : Rvbm) (a b : Nat) : List Rvt.Id → R Nat
  | [] => .ok b
  | g :: l =>
    if g ∉ rv.groups then
      match (rv.tree.rvbIds c.P g).getLast? with
      | none => .abort
      | some x => if a ≤ x then .ok x else .abort
    else rv.groupMaxLoop c a b l

/-- `getRvbGroupMaxBlockIdOfNonStoredRvbGroup` (RVBManager.cpp:626-655) -/
def Rvbm.groupMax (c : Cfg) (rv : Rvbm) (a b : Nat) : R Nat := do
  require (a ≤ b)
  if c.prevRvb b ≤ c.nextRvb a then .ok b
  else do
    let l ← ofOption (rv.tree.groupIds c.P (c.nextRvb a) (c.prevRvb b) true)
    if l.length < 2 then .ok b else rv.groupMaxLoop c (c.nextRvb a) b l

/-- entry `i` of the table of digests: 8 bytes of block number, 32 of digest (RVBManager.hpp:206-209) -/
def entry (data : Bytes) (i : Nat) : Nat × Bytes := (leDecode ((data.drop (40 * i)).take 8), (data.drop (40 * i + 8)).take 32)

/-- first stage of `setSerializedDigestsOfRvbGroup` (RVBManager.cpp:454-494): the digests collected; `none` = false returned -/
def Rvbm.collect (c : Cfg) (rv : Rvbm) (need : Option Rvt.Id) (maxCycle : Nat) : List (Nat × Bytes) → (expect : Nat) → List (Nat × Bytes) → R (Option (List (Nat × Bytes)))
  | [], _, acc => .ok (some acc)
  | e :: l, expect, acc =>
    if e.1 % c.fetch ≠ 0 then .ok none
    else if maxCycle < e.1 ∨ rv.tree.maxId c.P < e.1 then .ok (some acc)
    else if expect ≠ 0 ∧ e.1 ≠ expect then .ok none
    else do
      let g ← ofOption (rv.tree.groupIds c.P e.1 e.1 true)
      require (g.length = 1)
      if need ≠ g.head? then .ok none
      else rv.collect c need maxCycle l (e.1 + c.fetch) (acc ++ [e])

/-- a tree over the digests received, third stage (RVBManager.cpp:534-537) -/
def buildTree (c : Cfg) : Rvt.Tree → List (Nat × Bytes) → R Rvt.Tree
  | t, [] => .ok t
  | t, e :: l => do
    let t ← ofOption (t.addRightNode c.P e.1 e.2)
    buildTree c t l

/-- the digests of a group are dropped (RVBManager.cpp:555-564) -/
def Rvbm.dropGroup (c : Cfg) (rv : Rvbm) (g : Rvt.Id) : List (Nat × Bytes) → R (List (Nat × Bytes))
  | [] => .ok []
  | e :: l => do
    let gs ← ofOption (rv.tree.groupIds c.P e.1 e.1 true)
    require (gs.length = 1)
    let r ← rv.dropGroup c g l
    .ok (if gs.head? = some g then r else e :: r)

/-- `std::map::merge` into ascending entries: entries that are there stay -/
def insertKey (e : Nat × Bytes) : List (Nat × Bytes) → List (Nat × Bytes)
  | [] => [e]
  | x :: l => if e.1 < x.1 then e :: x :: l else if e.1 = x.1 then x :: l else x :: insertKey e l

/-- fourth stage (RVBManager.cpp:547-567) -/
def Rvbm.keep (c : Cfg) (rv : Rvbm) (g : Rvt.Id) (ds : List (Nat × Bytes)) : R Rvbm :=
  match rv.groups ++ [g] with
  | g1 :: g2 :: g3 :: gs => do
    let st ← rv.dropGroup c g1 rv.stored
    .ok ⟨rv.tree, ds.foldl (fun l e => insertKey e l) st, g2 :: g3 :: gs⟩
  | gs => .ok ⟨rv.tree, ds.foldl (fun l e => insertKey e l) rv.stored, gs⟩

/-- second and third stage: the digests are those of a whole group of the tree (RVBManager.cpp:513-545) -/
def Rvbm.checkGroup (c : Cfg) (rv : Rvbm) (g : Rvt.Id) (ds : List (Nat × Bytes)) : R Bool :=
  if ds.map (·.1) ≠ rv.tree.rvbIds c.P g then .ok false
  else do
    let t ← buildTree c .empty ds
    .ok (decide (t.rootValue = rv.tree.groupValue c.P ((ds.head?.map (·.1)).getD 0)))

/-- `setSerializedDigestsOfRvbGroup` (RVBManager.cpp:417-577) of the first `size` bytes of the buffer; with the digests that were
accepted.  `none` = false returned -/
def Rvbm.setDigests (c : Cfg) (rv : Rvbm) (buf : Bytes) (size lo hi maxCycle : Nat) : R (Option (Rvbm × List (Nat × Bytes))) := do
  let need ← rv.nextGroup c (c.nextRvb lo) (c.prevRvb hi)
  if size % 40 ≠ 0 ∨ size = 0 then .ok none
  else if c.P.K < size / 40 then .ok none
  else if buf.length < size then .fault
  else do
    let ds ← rv.collect c need maxCycle ((List.range (size / 40)).map (entry buf)) 0 []
    match ds with
    | none => .ok none
    | some [] => .ok none
    | some ds =>
      match need with
      | none => .ok none
      | some g => do
        let good ← rv.checkGroup c g ds
        if good then do
          let rv ← rv.keep c g ds
          .ok (some (rv, ds))
        else .ok none

/-! ## Reserved pages -/

/-- `pages` of the data store: page and checkpoint to digest and content (InMemoryDataStore.hpp) -/
abbrev Store := Nat → Nat → Option (Bytes × Bytes)

/-- the entry of a page with the greatest checkpoint up to a given one, as found by `getResPagesDescriptor` (the map has greater
checkpoints first, InMemoryDataStore.cpp:319-348) and by `getResPage` (256-288) -/
def Store.rel (m : Store) (p : Nat) : Nat → Option (Nat × Bytes × Bytes)
  | 0 => (m p 0).map (fun x => (0, x))
  | k + 1 => match m p (k + 1) with
    | some x => some (k + 1, x)
    | none => m.rel p k

/-- one line of the descriptor -/
def Store.line (m : Store) (ck p : Nat) : Nat × Nat × Bytes :=
  match m.rel p ck with
  | some (k, d, _) => (p, k, d)
  | none => (0, 0, zero)

/-- `getResPagesDescriptor` (InMemoryDataStore.cpp:319-348) -/
def Store.desc (m : Store) (n ck : Nat) : List (Nat × Nat × Bytes) := (List.range n).map (m.line ck)

def Store.set (m : Store) (p k : Nat) (x : Bytes × Bytes) : Store := fun p' k' => if p' = p ∧ k' = k then some x else m p' k'

/-- `setResPage` (InMemoryDataStore.cpp:229-254): an entry that is there keeps its digest -/
def Store.setResPage (m : Store) (p k : Nat) (d b : Bytes) (check : Bool) : R Store :=
  match m p k with
  | none => .ok (m.set p k (d, b))
  | some x => if check then .abort else .ok (m.set p k (x.1, b))

/-- `deleteCoveredResPageInSmallerCheckpoints` (InMemoryDataStore.cpp:290-316): the entries of a page below the greatest one up to `k0` -/
def Store.deleteCovered (m : Store) (k0 : Nat) : Store := fun p k =>
  if k0 ≤ 1 then m p k
  else match m.rel p k0 with
    | some (k', _) => if k < k' then none else m p k
    | none => m p k

/-- `ElementOfVirtualBlock` (BCStateTran.hpp:752-757) -/
structure Elem where
  page : Nat
  ckpt : Nat
  digest : Bytes
  content : Bytes

/-- `getVirtualElement` (BCStateTran.cpp:1250-1259) -/
def elem (ps : Nat) (v : Bytes) (i : Nat) : Elem :=
  let o := 12 + i * (44 + ps)
  ⟨leDecode ((v.drop o).take 4), leDecode ((v.drop (o + 4)).take 8), (v.drop (o + 12)).take 32, (v.drop (o + 44)).take ps⟩

/-- the loop of `checkStructureOfVirtualBlock` (BCStateTran.cpp:1287-1307) -/
def elemsOk (known : Nat) : Option Nat → List Elem → Bool
  | _, [] => true
  | l, e :: es => decide (known ≤ e.ckpt) && e.digest != zero && (match l with | none => true | some p => decide (p < e.page)) && elemsOk known (some e.page) es

/-- `checkStructureOfVirtualBlock` (BCStateTran.cpp:1261-1309): the elements, and `lastCheckpointKnownToRequester` -/
def parseV (ps : Nat) (v : Bytes) : Option (List Elem × Nat) :=
  if v.length < 12 then none
  else if (v.length - 12) % (44 + ps) ≠ 0 then none
  else
    let es := (List.range ((v.length - 12) / (44 + ps))).map (elem ps v)
    let known := leDecode ((v.drop 4).take 8)
    if leDecode (v.take 4) = es.length ∧ elemsOk known none es then some (es, known) else none

/-- the loop of `checkVirtualBlockOfResPages` (BCStateTran.cpp:2966-2984): `none` = a wrong digest -/
def applyElems (c : Cfg) (known : Nat) : List Elem → List (Nat × Nat × Bytes) → R (Option (List (Nat × Nat × Bytes)))
  | [], d => .ok (some d)
  | e :: es, d =>
    if c.pageH e.page e.ckpt e.content ≠ e.digest then .ok none
    else match d[e.page]? with
      | none => .fault
      | some x => do
        require (x.2.1 ≤ known)
        applyElems c known es (d.set e.page (e.page, e.ckpt, e.digest))

/-- `checkVirtualBlockOfResPages` (BCStateTran.cpp:2943-2997): the elements and the list of pages, if all is well -/
def checkV (c : Cfg) (m : Store) (lastStored : Nat) (want v : Bytes) : R (Option (List Elem × List (Nat × Nat × Bytes))) :=
  match parseV c.pageSize v with
  | none => .ok none
  | some (es, known) =>
    if lastStored ≠ known then .ok none
    else do
      let d ← applyElems c known es (m.desc c.pages known)
      match d with
      | none => .ok none
      | some d => .ok (if c.descH d = want then some (es, d) else none)

/-- the updated pages are written (BCStateTran.cpp:3612-3618) -/
def installElems (check : Bool) : Store → List Elem → R Store
  | m, [] => .ok m
  | m, e :: es => do
    let m ← m.setResPage e.page e.ckpt e.digest e.content check
    installElems check m es

/-! ## The state -/

/-- what the outside sees -/
inductive Out where
  /-- a checkpoint was chosen, with the last block then reachable -/
  | adopt (d : Desc) (reach : Nat)
  /-- digests of a group were accepted -/
  | digests (ds : List (Nat × Bytes))
  /-- a block was handed to the storage -/
  | put (i : Nat) (b : Bytes)
  /-- the storage reported that the block is written -/
  | done (i : Nat)
  /-- the transfer is complete: the callbacks run.  With the reserved pages before and after, and the list of pages that was
  accepted -/
  | complete (d : Desc) (before : Store) (lines : List (Nat × Nat × Bytes)) (after : Store)
  /-- a restart, with the last block then reachable -/
  | restart (reach : Nat)

structure S where
  -- data store
  fetching : Bool
  cbf : Option Desc
  first : Nat
  last : Nat
  firstStored : Nat
  lastStored : Nat
  descs : Nat → Option Desc
  pages : Store
  -- memory
  certs : Nat → Option (Concord.Cert.St Summary)
  counts : Nat → Nat
  seq : Nat
  finalizing : Bool
  fetch : Batch
  commit : Batch
  /-- `digestOfNextRequiredBlock_` -/
  dnext : Bytes
  /-- `targetCheckpointDesc_` -/
  target : Desc
  /-- `pendingItemDataMsgs`, in its order -/
  pending : List Item
  buf : Bytes
  src : Option Nat
  pref : List Nat
  /-- `ioContexts_`: the blocks being written -/
  io : List Nat
  /-- `postponedSendFetchBlocksMsg_` -/
  postponed : Bool
  rv : Rvbm
  -- not in the program
  log : List Out

inductive Fs where
  | idle | summaries | blocks | pages | finalizing
deriving DecidableEq

/-- `getFetchingState` (BCStateTran.cpp:1516-1541), without its effects -/
def S.fs (s : S) : Fs :=
  if s.finalizing then .finalizing
  else if !s.fetching then .idle
  else match s.cbf with
    | none => .summaries
    | some _ => if 0 < s.last then .blocks else .pages

/-- what the environment decides in one iteration of `processData` -/
structure Ora where
  /-- 0: the source stays, 1: replaced at once, 2: replaced gracefully -/
  mode : Nat
  pick : Nat
  /-- how many writes have ended when asked -/
  ready : Nat
  expired : Bool
  seq : Nat

/-! ## Writing blocks -/

/-- the loop of `finalizePutblockAsync` (BCStateTran.cpp:3121-3178) for at most `k` writes -/
def S.finLoop : Nat → S → R S
  | 0, s => .ok s
  | k + 1, s =>
    match s.io with
    | [] => .ok s
    | b :: io =>
      if b ≠ s.commit.next then .abort
      else if s.commit.next = s.commit.lo then
        if s.commit.hi + 1 ≤ s.last ∧ io = [] then
          .ok { s with
            io := io
            first := s.commit.hi + 1
            log := s.log ++ [.done b] }
        else .abort
      else S.finLoop k { s with
        io := io
        commit := { s.commit with next := s.commit.next - 1 }
        log := s.log ++ [.done b] }

/-- `finalizePutblockAsync` (BCStateTran.cpp:3104-3183) -/
def S.finalize (s : S) (k : Nat) : R S :=
  if s.io = [] then .ok s
  else if s.commit.next = 0 then .abort
  else s.finLoop k

/-- `computeNextBatchToFetch` (BCStateTran.cpp:3185-3209) with the tree `rv`; it also clears `digestOfNextRequiredBlock_` -/
def S.nextBatch (c : Cfg) (s : S) (rv : Rvbm) (lo : Nat) : R Batch := do
  let m := lo + c.batch - 1
  let m := if !c.isRvb m ∧ lo ≤ m - m % c.fetch ∧ m % c.fetch ≤ m then m - m % c.fetch else m
  let m := min m s.last
  let u ← rv.groupMax c lo m
  let b : Batch := ⟨lo, min m u, min m u⟩
  require b.valid
  require (s.fetch.next < c.batch + b.lo)
  .ok b

/-- `getFetchingState` reaches `GettingMissingBlocks` (BCStateTran.cpp:1480-1490) -/
def S.enterBlocks (c : Cfg) (s : S) (rv : Rvbm) (d : Desc) : R S := do
  require (s.dnext = zero)
  let b ← s.nextBatch c rv s.first
  .ok { s with
    target := d
    fetch := b
    commit := b
    dnext := zero }

/-- `getFetchingState` reaches `GettingMissingResPages` (BCStateTran.cpp:1491-1496, 1535) -/
def S.enterPages (s : S) (d : Desc) : R S := do
  require (s.first = 0)
  .ok { s with
    target := d
    fetch := { s.fetch with next := vblock }
    dnext := d.pagesDigest }

/-- `onGettingMissingBlocksEnd` (BCStateTran.cpp:3679-3688) -/
def S.endBlocks (s : S) (d : Desc) : R S :=
  S.enterPages { s with
    fetch := .none
    commit := .none
    pending := []
    dnext := s.target.pagesDigest
    first := 0
    last := 0 } d

/-- `stReset` (BCStateTran.cpp:3287-3341) with `resetStoredCp` and `resetDataStore` false -/
def S.reset (s : S) (rvbm : Bool) : R S := do
  let s ← (if 0 < s.commit.next then s.finalize s.io.length else .ok s)
  .ok { s with
    dnext := zero
    pending := []
    certs := fun _ => none
    counts := fun _ => 0
    fetch := .none
    commit := .none
    src := none
    pref := []
    target := .zero
    postponed := false
    seq := 0
    finalizing := false
    io := []
    rv := if rvbm then .empty else s.rv }

/-- `startCollectingStateImpl` and `sendAskForCheckpointSummariesMsg` (BCStateTran.cpp:943-964, 1554-1578) -/
def S.start (s : S) (seq : Nat) : R S := do
  let s ← s.reset true
  let s := { s with fetching := true }
  require (s.fs = .summaries)
  .ok { s with seq := seq }

/-- `startCollectingStateInternal` (BCStateTran.cpp:906-922) -/
def S.restartCycle (s : S) (seq : Nat) : R S := do
  require (s.pref = [])
  S.start { s with
    cbf := none
    first := 0
    last := 0
    fetching := false } seq

/-! ## Chunks -/

/-- the order of `pendingItemDataMsgs` (BCStateTran.hpp:467-474) -/
def Item.before (a b : Item) : Bool := if a.block ≠ b.block then decide (b.block < a.block) else decide (a.chunk < b.chunk)

/-- `std::set::emplace`: `none` if the chunk is there -/
def insertItem (m : Item) : List Item → Option (List Item)
  | [] => some [m]
  | x :: l => if m.before x then some (m :: x :: l) else if x.before m then (insertItem m l).map (x :: ·) else none

def sizeOf (l : List Item) : Nat := (l.map (fun m => m.data.length)).sum

/-- `clearPendingItemsData(b, b)` (BCStateTran.cpp:2794-2813): after `erase` the loop also steps over the following element; beyond
the end that is undefined (`none`) -/
def clearBlock (b : Nat) : List Item → Option (List Item)
  | [] => some []
  | x :: l =>
    if x.block = b then
      match l with
      | [] => none
      | y :: l => (clearBlock b l).map (y :: ·)
    else (clearBlock b l).map (x :: ·)

inductive Scan where
  | bad
  | part (avail : Nat)
  | full (total : Nat)
deriving DecidableEq

/-- first loop of `getNextFullBlock` (BCStateTran.cpp:2835-2860) -/
def scan (req maxSize : Nat) : List Item → (tot avail size : Nat) → Scan
  | [], tot, avail, size => .part avail
  | m :: l, tot, avail, size =>
    if m.block ≠ req then .part avail
    else
      let tot := if tot = 0 then m.total else tot
      let size := size + (m.data.length - m.rvb)
      if tot ≠ m.total ∨ tot < m.chunk ∨ maxSize < size then .bad
      else if avail + 1 < m.chunk then .part avail
      else if m.chunk = tot then .full tot
      else scan req maxSize l tot m.chunk size

/-- second loop of `getNextFullBlock` (BCStateTran.cpp:2879-2903): chunks are copied to `buffer_`, with the digests in them, although
the sizes were checked without -/
def assemble (req tot maxSize bufLen : Nat) : List Item → (cur : Nat) → Bytes → R (Bytes × List Item)
  | [], _, _ => .abort
  | m :: l, cur, acc =>
    if ¬ (m.block = req ∧ 1 ≤ m.chunk ∧ m.total = tot ∧ cur + 1 = m.chunk ∧ acc.length + m.data.length - m.rvb ≤ maxSize) then .abort
    else if bufLen < acc.length + m.data.length then .fault
    else if m.chunk = tot then .ok (acc ++ m.data, l)
    else assemble req tot maxSize bufLen l m.chunk (acc ++ m.data)

inductive Next where
  | bad
  | part
  | full (d : Bytes)

/-- `getNextFullBlock` (BCStateTran.cpp:2815-2903) -/
def S.nextFull (c : Cfg) (s : S) (blocks : Bool) : R (Next × S) := do
  require (1 ≤ s.fetch.next)
  let maxSize := if blocks then c.maxBlock else c.maxVBlock
  match scan s.fetch.next maxSize s.pending 0 0 0 with
  | .bad => .ok (.bad, s)
  | .part _ => .ok (.part, s)
  | .full tot => do
    let (d, l) ← assemble s.fetch.next tot maxSize s.buf.length s.pending 0 []
    .ok (.full d, { s with
      pending := l
      buf := d ++ s.buf.drop d.length })

/-- `isMaxFetchedBlockIdInCycle`, `isLastFetchedBlockIdInCycle` (BCStateTran.cpp:3238-3244) -/
def S.isMaxInCycle (s : S) (i : Nat) : Bool := i == s.fetch.hi && s.last == s.fetch.hi
def S.isLastInCycle (s : S) (i : Nat) : Bool := i == s.fetch.lo && s.last == s.fetch.hi

/-- `checkBlock` (BCStateTran.cpp:2905-2941); an empty block fails an assertion of `computeDigestOfBlockImpl` (3983-3993) -/
def S.checkBlock (c : Cfg) (s : S) (i : Nat) (b : Bytes) : R Bool :=
  if b = [] ∨ i = 0 then .abort
  else if c.isRvb i then
    .ok (match s.rv.stored.find? (fun e => e.1 == i) with
      | none => false
      | some e => e.2 == c.H i b)
  else if s.isMaxInCycle i then .ok (s.target.maxDigest == c.H i b)
  else if s.dnext = zero then .abort
  else .ok (s.dnext == c.H i b)

/-- `trySendFetchBlocksMsg` (BCStateTran.cpp:1580-1623) -/
def S.trySend (c : Cfg) (s : S) (o : Ora) : R S :=
  if s.src = none then .abort
  else if s.io.length = c.io then .ok { s with postponed := true }
  else do
    let _ ← s.rv.fetchGroup c s.fetch.lo s.fetch.hi
    .ok { s with
      seq := o.seq
      postponed := false }

/-! ## `processData`, BCStateTran.cpp:3343-3677 -/

inductive Cont where
  | stop
  | again (bad : Bool)
deriving DecidableEq

/-- `updateSource` (SourceSelector.cpp:119-128, 204-230) -/
def S.updateSource (c : Cfg) (s : S) (o : Ora) : R S :=
  let p := match s.src with
    | some r => s.pref.filter (· ≠ r)
    | none => s.pref
  let p := if p = [] then c.others else p
  match p[o.pick % p.length]? with
  | none => .abort
  | some r => .ok { s with
      src := some r
      pref := p }

/-- the assertions on the state of the fetch (3378-3393) -/
def S.fetchOk (s : S) (blocks : Bool) : Bool :=
  if blocks then s.commit.valid && s.fetch.valid && s.commit.le s.fetch && (s.fetch.next == s.fetch.hi || s.dnext != zero)
  else s.fetch.next == vblock && s.dnext != zero

/-- digests that came with the block are checked and kept (3424-3445); with whether all is well -/
def S.takeDigests (c : Cfg) (s : S) (rvb : Nat) : R (Bool × S) :=
  if rvb = 0 then .ok (true, s)
  else do
    let r ← s.rv.setDigests c s.buf rvb s.fetch.lo s.fetch.hi s.target.maxBlock
    match r with
    | none => .ok (false, s)
    | some (rv, ds) => .ok (true, { s with
        rv := rv
        log := s.log ++ [.digests ds] })

/-- how many writes `finalizePutblockAsync` waits for (3494-3495) -/
def S.waits (c : Cfg) (s : S) (o : Ora) : Nat := if s.io.length = c.io then o.ready + 1 else o.ready

/-- a valid block, not the last one of the cycle (3503-3556) -/
def S.putNext (c : Cfg) (s : S) (o : Ora) (b : Bytes) (send : Bool) : R (Cont × S) :=
  if c.io ≤ s.io.length then .abort
  else if c.maxBlock < b.length then .fault
  else match clearBlock s.fetch.next s.pending with
    | none => .fault
    | some pend => do
      let s1 : S := { s with
        pending := pend
        io := s.io ++ [s.fetch.next]
        dnext := c.prev b
        log := s.log ++ [.put s.fetch.next b] }
      let s2 ← (if s.fetch.next = s.fetch.lo then do
          require (s1.fetch.hi + 1 ≤ s1.last)
          let s2 ← s1.finalize s1.io.length
          let bt ← s2.nextBatch c s2.rv (s.fetch.hi + 1)
          .ok { s2 with
            fetch := bt
            commit := bt
            dnext := zero }
        else .ok { s1 with fetch := { s1.fetch with next := s1.fetch.next - 1 } })
      if send ∨ s2.postponed then do
        let s3 ← s2.trySend c o
        .ok (.stop, s3)
      else .ok (.again false, s2)

/-- the last block of the cycle (3557-3610) -/
def S.putLast (c : Cfg) (s : S) (o : Ora) (b : Bytes) : R (Cont × S) := do
  let s ← s.finalize s.io.length
  require (s.fetch = s.commit)
  require (s.io = [])
  let d ← ofOption s.cbf
  let s ← S.endBlocks { s with log := s.log ++ [.put s.fetch.next b, .done s.fetch.next] } d
  .ok (.stop, { s with seq := o.seq })

/-- a valid block (3470-3610) -/
def S.putBlock (c : Cfg) (s : S) (o : Ora) (b : Bytes) (send : Bool) : R (Cont × S) := do
  let lastIn := s.isLastInCycle s.fetch.next
  let s ← s.finalize (s.waits c o)
  if lastIn then s.putLast c o b else s.putNext c o b send

/-- a block is complete in the buffer (3419-3446) -/
def S.onBlock (c : Cfg) (s : S) (o : Ora) (d : Bytes) (rvb : Nat) (send : Bool) : R (Cont × S) := do
  let (good, s) ← s.takeDigests c rvb
  if !good then .ok (.again true, s)
  else if d.length < rvb then .fault
  else do
    let valid ← s.checkBlock c s.fetch.next (d.drop rvb)
    if valid then s.putBlock c o (d.drop rvb) send else .ok (.again true, s)

/-- `deleteOldCheckpoints`: the first checkpoint that stays (BCStateTran.cpp:564-572) -/
def firstKept (descs : Nat → Option Desc) (num : Nat) : Nat → Nat → Nat
  | 0, k => k
  | fuel + 1, k => if k < num ∧ (descs k).isNone then firstKept descs num fuel (k + 1) else k

def Cfg.keptFrom (c : Cfg) (descs : Nat → Option Desc) (num : Nat) : Nat :=
  let k0 := if c.maxStored ≤ num then num - c.maxStored + 1 else 0
  if 0 < k0 then firstKept descs num (num - k0) k0 else k0

/-- `deleteOldCheckpoints` (BCStateTran.cpp:563-595) -/
def S.deleteOld (c : Cfg) (s : S) (num : Nat) : S :=
  let k := c.keptFrom s.descs num
  let del := decide (2 ≤ k ∧ s.firstStored < k)
  { s with
    descs := fun i => if del ∧ i < k then none else s.descs i
    pages := if del then s.pages.deleteCovered k else s.pages
    firstStored := max k s.firstStored
    lastStored := num }

/-- the pages are installed and the transfer ends (3612-3668) -/
def S.install (c : Cfg) (s : S) (es : List Elem) (lines : List (Nat × Nat × Bytes)) : R S := do
  let check := s.target.num ≠ s.lastStored
  let pages ← (if c.resPages then installElems check s.pages es else .ok s.pages)
  let d ← ofOption s.cbf
  require (s.lastStored ≤ s.target.num)
  require (s.target.num = d.num)
  require (s.first = 0 ∧ s.last = 0)
  require (s.io = [])
  require (check → s.descs s.target.num = none)
  let s1 : S := S.deleteOld c { s with
    pages := pages
    descs := fun i => if i = s.target.num then some s.target else s.descs i
    cbf := none } s.target.num
  .ok { s1 with
    finalizing := true
    log := s.log ++ [.complete s.target s.pages lines s1.pages] }

/-- the virtual block is complete in the buffer (3447-3457, 3612-3668) -/
def S.onPages (c : Cfg) (s : S) (v : Bytes) : R (Cont × S) := do
  if !c.resPages then do
    let s ← s.install c [] []
    .ok (.stop, s)
  else do
    let r ← checkV c s.pages s.lastStored s.dnext v
    match r with
    | none => .ok (.again true, s)
    | some (es, lines) => do
      let s ← s.install c es lines
      .ok (.stop, s)

/-- one iteration (3357-3676); `last` and `rvb` are the arguments of `processData` -/
def S.iter (c : Cfg) (s : S) (blocks last : Bool) (rvb : Nat) (o : Ora) (bad : Bool) : R (Cont × S) := do
  let mode := if s.src = none ∨ bad then 1 else o.mode
  if mode ≠ 0 ∧ !blocks ∧ s.pref = [] then do
    let s ← s.restartCycle o.seq
    .ok (.stop, s)
  else do
    let s ← (if mode ≠ 0 then s.updateSource c o else .ok s)
    let s := if mode = 1 then { s with pending := [] } else s
    require (s.fetchOk blocks)
    let (nx, s) ← s.nextFull c blocks
    match nx with
    | .bad => .ok (.again true, s)
    | .full d => if blocks then s.onBlock c o d rvb (decide (last ∨ mode ≠ 0)) else s.onPages c d
    | .part =>
      if mode ≠ 0 ∨ o.expired ∨ s.postponed ∨ last then
        if blocks then do
          let s ← s.finalize o.ready
          let s ← s.trySend c o
          .ok (.stop, s)
        else .ok (.stop, { s with seq := o.seq })
      else .ok (.stop, s)

/-- the loop, cut after `cut` iterations -/
def S.loop (c : Cfg) (blocks last : Bool) (rvb : Nat) (o : Nat → Ora) : (cut : Nat) → Bool → S → R S
  | 0, _, s => .ok s
  | cut + 1, bad, s => do
    let (k, s) ← s.iter c blocks last rvb (o cut) bad
    match k with
    | .stop => .ok s
    | .again bad => S.loop c blocks last rvb o cut bad s

/-- `processData` -/
def S.process (c : Cfg) (s : S) (last : Bool) (rvb : Nat) (o : Nat → Ora) (cut : Nat) : R S :=
  match s.fs with
  | .blocks => if s.pref = [] ∨ c.maxPending < sizeOf s.pending then .abort else S.loop c true last rvb o cut false s
  | .pages => if s.pref = [] ∨ c.maxPending < sizeOf s.pending then .abort else S.loop c false last rvb o cut false s
  | _ => .abort

/-! ## Messages and other events -/

/-- the certificate for one checkpoint (BCStateTran.cpp:1773-1779; `MsgsCertificate<CheckpointSummaryMsg, false, false, true>`,
bcstatetransfer/MsgsCertificate.hpp, the same algorithm as the one modelled in `Verif.Cert.Model`; messages are classified until the
certificate is complete, which is `keepAll = false` there) -/
def Cfg.cert (c : Cfg) : Concord.Cert.Params Summary where
  n := c.n
  maxFails := c.f
  required := c.f + 1
  self := c.self
  selfTrust := false
  selfRequired := false
  keepAll := false
  eqv := Summary.eqv

/-- replicas whose summary equals the chosen one (BCStateTran.cpp:1823-1830) -/
def Cfg.backers (c : Cfg) (ct : Concord.Cert.St Summary) (m : Summary) : List Nat :=
  (List.range c.n).filter (fun r => match ct.msgOf r with | some x => x.eqv m | none => false)

/-- the certificate is complete (BCStateTran.cpp:1798-1895) -/
def S.adopt (c : Cfg) (s : S) (ct : Concord.Cert.St Summary) (reach : Nat) (o : Nat → Ora) (cut : Nat) : R S := do
  let m ← ofOption (ct.bestCorrectMsg c.cert)
  require (s.pref = [] ∧ s.src = none ∧ s.fetch.next = 0 ∧ s.dnext = zero ∧ s.pending = [] ∧ s.io = [])
  match s.rv.setData c m.desc.rvb (reach + 1) m.desc.maxBlock with
  | none => s.restartCycle (o 0).seq
  | some rv => do
    require (c.f + 1 ≤ (c.backers ct m).length)
    require (s.cbf = none)
    let s1 : S := { s with
      rv := rv
      pref := c.backers ct m
      cbf := some m.desc
      certs := fun _ => none
      counts := fun _ => 0
      seq := 0
      log := s.log ++ [.adopt m.desc reach] }
    if reach < m.desc.maxBlock then do
      let s2 ← S.enterBlocks c { s1 with
        first := reach + 1
        last := m.desc.maxBlock } rv m.desc
      s2.process c false 0 o cut
    else do
      require (s1.first = 0 ∧ s1.last = 0)
      let s2 ← s1.enterPages m.desc
      s2.process c false 0 o cut

/-- a summary is stored in the certificate of its checkpoint (BCStateTran.cpp:1764-1794) -/
def S.addSummary (c : Cfg) (s : S) (r : Nat) (m : Summary) : S × Concord.Cert.St Summary :=
  let ct := ((s.certs m.desc.num).getD {}).addMsg c.cert r m
  ({ s with
    certs := fun k => if k = m.desc.num then some ct.1 else s.certs k
    counts := if ct.2 then fun q => if q = r then s.counts r + 1 else s.counts q else s.counts }, ct.1)

/-- `onMessage(CheckpointSummaryMsg)` (BCStateTran.cpp:1729-1898); `reach` is `getLastReachableBlockNum` -/
def S.onSummary (c : Cfg) (s : S) (r : Nat) (m : Summary) (reach : Nat) (o : Nat → Ora) (cut : Nat) : R S :=
  if s.fs ≠ .summaries then .ok s
  else if !m.lenOk ∨ m.desc.num = 0 ∨ m.desc.pagesDigest = zero ∨ m.seq = 0 then .ok s
  else if m.seq ≠ s.seq ∨ m.desc.num < s.lastStored then .ok s
  else if c.maxStored + 1 ≤ s.counts r then .ok s
  else
    let (s1, ct) := s.addSummary c r m
    if !ct.complete then .ok s1 else s1.adopt c ct reach o cut

/-- checks of an `ItemDataMsg` that depend on the message alone (BCStateTran.cpp:2554-2571) -/
def itemOk (c : Cfg) (blocks : Bool) (m : Item) : Bool :=
  decide (m.lenOk ∧ m.seq ≠ 0 ∧ m.block ≠ 0 ∧ m.total ≠ 0 ∧ m.total ≤ (if blocks then c.chunksApp else c.chunksV) ∧ m.chunk ≠ 0 ∧ m.data ≠ [] ∧ m.rvb < m.data.length)

/-- the message is wanted now (BCStateTran.cpp:2574-2624) -/
def S.wants (c : Cfg) (s : S) (blocks : Bool) (r : Nat) (m : Item) : Bool :=
  if blocks then decide (s.src = some r ∧ s.fetch.lo ≤ m.block ∧ m.block ≤ s.fetch.next ∧ m.data.length + sizeOf s.pending ≤ c.maxPending)
  else decide (s.src = some r ∧ m.seq = s.seq ∧ m.block = vblock ∧ m.data.length + sizeOf s.pending ≤ c.maxPending ∧ m.rvb = 0)

/-- `onMessage(ItemDataMsg)` (BCStateTran.cpp:2518-2657) -/
def S.onItem (c : Cfg) (s : S) (r : Nat) (m : Item) (o : Nat → Ora) (cut : Nat) : R S :=
  if s.fs ≠ .blocks ∧ s.fs ≠ .pages then .ok s
  else if r ∉ c.others then .ok s
  else if !itemOk c (s.fs = .blocks) m then .ok s
  else if s.fs = .pages ∧ ¬ (s.first = 0 ∧ s.last = 0) then .abort
  else if !s.wants c (s.fs = .blocks) r m then .ok s
  else match insertItem m s.pending with
    | none => .ok s
    | some l => S.process c { s with pending := l } m.last m.rvb o cut

/-- `onMessage(RejectFetchingMsg)` (BCStateTran.cpp:2452-2515); `notFound` = the code is `RES_PAGE_NOT_FOUND` -/
def S.onReject (c : Cfg) (s : S) (r seq : Nat) (notFound : Bool) (o : Nat → Ora) (cut : Nat) : R S :=
  if s.fs ≠ .blocks ∧ s.fs ≠ .pages then .ok s
  else if s.src ≠ some r ∨ s.seq ≠ seq ∨ (s.fs = .blocks ∧ notFound) ∨ (s.fs = .pages ∧ !notFound) then .ok s
  else if s.fs = .pages then S.restartCycle { s with
      src := none
      pref := [] } (o 0).seq
  else
    let p := s.pref.filter (· ≠ r)
    S.process c { s with
      src := none
      pref := if p = [] then c.others else p
      pending := [] } false 0 o cut

/-- `finalizeCycle` (BCStateTran.cpp:1046-1062) -/
def S.finish (s : S) : R S := do
  let s ← S.reset { s with finalizing := false } false
  let s := { s with fetching := false }
  require (s.fs = .idle)
  .ok s

/-- `onTimerImpl` (BCStateTran.cpp:967-1044): `go` says that the time-out for summaries has passed, or that the callbacks have ended;
`clear` that summaries are forgotten (1018-1019) -/
def S.onTimer (c : Cfg) (s : S) (go clear : Bool) (o : Nat → Ora) (cut : Nat) : R S :=
  match s.fs with
  | .summaries => .ok (if go then { s with
      certs := if clear then fun _ => none else s.certs
      counts := if clear then fun _ => 0 else s.counts
      seq := (o 0).seq } else s)
  | .blocks => s.process c false 0 o cut
  | .pages => s.process c false 0 o cut
  | .finalizing => if go then s.finish else .ok s
  | .idle => .ok s

/-- memory after a restart; `tree` is the tree made from local blocks when no serialised one can be read (RVBManager.cpp:116-140);
`rubbish` is the content of the new buffer -/
def S.boot (c : Cfg) (s : S) (tree : Rvt.Tree) (rubbish : Bytes) (reach : Nat) : S where
  fetching := s.fetching
  cbf := s.cbf
  first := s.first
  last := s.last
  firstStored := s.firstStored
  lastStored := s.lastStored
  descs := s.descs
  pages := s.pages
  certs := fun _ => none
  counts := fun _ => 0
  seq := 0
  finalizing := false
  fetch := .none
  commit := .none
  dnext := zero
  target := .zero
  pending := []
  buf := rubbish
  src := none
  pref := []
  io := []
  postponed := false
  rv := match s.cbf with
    | some d => ⟨(if d.rvb = [] then tree else (c.parse d.rvb).getD tree), [], []⟩
    | none => ⟨tree, [], []⟩
  log := s.log ++ [.restart reach]

/-- a crash, and `initImpl` (BCStateTran.cpp:357-430).  `early`: there are blocks above the last reachable one, so that the state is
asked for before the tree is loaded (`checkConsistency`, 381, 3838-3842) -/
def S.crash (c : Cfg) (s : S) (reach : Nat) (tree : Rvt.Tree) (rubbish : Bytes) (early : Bool) : R S :=
  if rubbish.length ≠ c.maxItem then .abort
  else
    let s := s.boot c tree rubbish reach
    match s.fs, s.cbf with
    | .blocks, some d => do
      let s ← s.enterBlocks c (if early then .empty else s.rv) d
      let s := { s with pref := c.others }
      require (reach ≤ s.last)
      if reach = s.last then s.endBlocks d else .ok s
    | .pages, some d => do
      let s ← s.enterPages d
      .ok { s with pref := c.others }
    | _, _ => .ok s

/-- pages of the application enter the store (`checkpointReservedPages`, BCStateTran.cpp:537-547; InMemoryDataStore.cpp:206-227) -/
def associate (c : Cfg) (num : Nat) : Store → List (Nat × Bytes) → R Store
  | m, [] => .ok m
  | m, (p, b) :: l =>
    if c.pages ≤ p then .abort
    else match m p num with
      | some _ => .abort
      | none => associate c num (m.set p num (c.pageH p num b, b)) l

/-- `createCheckpointOfCurrentStateImpl` (BCStateTran.cpp:597-626), with what the blockchain and the tree give to the descriptor -/
def S.checkpoint (c : Cfg) (s : S) (num maxBlock : Nat) (maxDigest rvb : Bytes) (tree : Rvt.Tree) (upd : List (Nat × Bytes)) : R S :=
  if s.fetching ∨ num = 0 then .abort
  else if num = s.lastStored then .ok s
  else if num < s.lastStored then .abort
  else do
    let pages ← associate c num s.pages upd
    require (s.descs num = none)
    let d : Desc := ⟨num, maxBlock, maxDigest, c.descH (pages.desc c.pages num), rvb⟩
    .ok (S.deleteOld c { s with
      pages := pages
      descs := fun i => if i = num then some d else s.descs i
      rv := { s.rv with tree := tree } } num)

inductive Ev where
  | start (seq : Nat)
  | summary (r : Nat) (m : Summary) (reach : Nat) (o : Nat → Ora) (cut : Nat)
  | item (r : Nat) (m : Item) (o : Nat → Ora) (cut : Nat)
  | reject (r seq : Nat) (notFound : Bool) (o : Nat → Ora) (cut : Nat)
  | timer (go clear : Bool) (o : Nat → Ora) (cut : Nat)
  | crash (reach : Nat) (tree : Rvt.Tree) (rubbish : Bytes) (early : Bool)
  | checkpoint (num maxBlock : Nat) (maxDigest rvb : Bytes) (tree : Rvt.Tree) (upd : List (Nat × Bytes))

/-- `handleStateTransferMessageImpl` drops messages of unknown senders and its own (BCStateTran.cpp:1163-1171) -/
def Cfg.sender (c : Cfg) (r : Nat) : Bool := decide (r < c.n + c.ro ∧ r ≠ c.self)

def S.step (c : Cfg) (s : S) : Ev → R S
  | .start seq => if s.fs = .idle then s.start seq else .ok s
  | .summary r m reach o cut => if c.sender r then s.onSummary c r m reach o cut else .ok s
  | .item r m o cut => if c.sender r then s.onItem c r m o cut else .ok s
  | .reject r seq nf o cut => if c.sender r then s.onReject c r seq nf o cut else .ok s
  | .timer go clear o cut => s.onTimer c go clear o cut
  | .crash reach tree rubbish early => s.crash c reach tree rubbish early
  | .checkpoint num mb md rvb tree upd => s.checkpoint c num mb md rvb tree upd

def S.run (c : Cfg) (s : S) : List Ev → R S
  | [] => .ok s
  | e :: es => (s.step c e).bind (fun s => s.run c es)

/-- a new replica (`initImpl`, BCStateTran.cpp:412-424) -/
def S.init (c : Cfg) (buf : Bytes) : S where
  fetching := false
  cbf := none
  first := 0
  last := 0
  firstStored := 0
  lastStored := 0
  descs := fun _ => none
  pages := fun _ _ => none
  certs := fun _ => none
  counts := fun _ => 0
  seq := 0
  finalizing := false
  fetch := .none
  commit := .none
  dnext := zero
  target := .zero
  pending := []
  buf := buf
  src := none
  pref := []
  io := []
  postponed := false
  rv := .empty
  log := []

end Verif.St
