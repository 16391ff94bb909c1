import Verif.Rp.OMap
import Verif.St.Model
import Verif.Kvbc.KeyOrder
set_option linter.unusedVariables false
/-!
# Reserved pages and checkpoints of the state transfer module (C41)

Model of the reserved pages in `BCStateTran` (bftengine/src/bcstatetransfer/BCStateTran.cpp), `InMemoryDataStore` and `DBDataStore`:
saving and loading pages, creating checkpoints and deleting old ones, serving pages to another replica, installing pages fetched from
another replica, and what is in the database.  A failed `ConcordAssert` is `abort`, an access outside a buffer is `fault`
(`Verif.St.R`).

Simplifications.  The integers and the flag in the database (`putInt`, as decimal strings) are kept as numbers.  What concerns blocks
and the range validation tree is only carried along in the descriptors.  Every function is one transaction of the database or
one write, so a crash leaves the database as it was before or after; `restart` is a crash followed by a start.  The keys are those of
`v2MerkleTree::STKeyManipulator`, in byte order.  Sizes are not reduced modulo 2^32 except where the chunks of a virtual block are
computed.  Of the state machine of the destination (C35) there is only the flag `isFetchingState` and the installation of the pages.
-/
namespace Verif.Rp
open Verif.Bytes Verif.St

/-- `pages` (InMemoryDataStore.hpp:199-204): page and checkpoint to digest and content -/
abbrev Pages := List ((Nat × Nat) × (Bytes × Bytes))

/-- `InMemoryDataStore` (InMemoryDataStore.hpp:150-204) -/
structure Mem where
  pend : List (Nat × Bytes)
  pages : Pages
  /-- `descMap` -/
  descs : List (Nat × Desc)
  first : Nat
  last : Nat
  fetching : Bool
deriving DecidableEq

/-- the database; of `GeneralIds` (DBDataStore.hpp:134-149) those that are used here -/
structure Db where
  kv : List (Bytes × Bytes)
  first : Nat
  last : Nat
  fetching : Bool
deriving DecidableEq

structure S where
  mem : Mem
  db : Db
  /-- `cacheOfVirtualBlockForResPages` (BCStateTran.hpp:379-393) -/
  cache : List ((Nat × Nat) × Bytes)
deriving DecidableEq

/-! ## Database: keys and values -/

/-- `generateSTPendingPageKey` (storage/src/merkle_tree_key_manipulator.cpp:42-44; type and subtype: db_types.h:42, 57-65) -/
def kPend (p : Nat) : Bytes := [1, 2] ++ Kvbc.beEncode 4 p
/-- `getReservedPageKeyPrefix` (merkle_tree_key_manipulator.cpp:54-57) -/
def kPrefix : Bytes := [1, 3]
/-- `generateSTReservedPageDynamicKey` (merkle_tree_key_manipulator.cpp:50-53) -/
def kPage (p k : Nat) : Bytes := kPrefix ++ (Kvbc.beEncode 4 p ++ Kvbc.beEncode 8 k)
/-- `generateSTCheckpointDescriptorKey` (merkle_tree_key_manipulator.cpp:46-48) -/
def kDesc (k : Nat) : Bytes := [1, 4] ++ Kvbc.beEncode 8 k

/-- the value of a pending page (DBDataStore.cpp:352-356) -/
def encPend (b : Bytes) : Bytes := leEncode 4 b.length ++ b
/-- `serializeResPage` (DBDataStore.cpp:254-261) -/
def encPage (ps p k : Nat) (d b : Bytes) : Bytes := leEncode 4 p ++ (leEncode 8 k ++ (d ++ (leEncode 4 ps ++ b.take ps)))
/-- `serializeCheckpoint` (DBDataStore.cpp:176-182) -/
def encDesc (d : Desc) : Bytes := leEncode 8 d.num ++ (leEncode 8 d.maxBlock ++ (d.maxDigest ++ (d.pagesDigest ++ (leEncode 8 d.rvb.length ++ d.rvb))))

/-- `Serializable::deserialize` of `n` bytes (libs/util/serializable.hpp:250-300); a stream that is too short leaves the memory as it
was, here a fault -/
def rd (n : Nat) (v : Bytes) : R (Bytes × Bytes) := if n ≤ v.length then .ok (v.take n, v.drop n) else .fault

/-- `deserializePendingPage` (DBDataStore.cpp:330-334) -/
def decPend (v : Bytes) : R Bytes := do
  let (n, v) ← rd 4 v
  let (b, _) ← rd (leDecode n) v
  .ok b

/-- `deserializeResPage` (DBDataStore.cpp:262-273) -/
def decPage (ps : Nat) (v : Bytes) : R (Nat × Nat × Bytes × Bytes) := do
  let (p, v) ← rd 4 v
  let (k, v) ← rd 8 v
  let (d, v) ← rd 32 v
  let (n, v) ← rd 4 v
  require (leDecode n = ps)
  let (b, _) ← rd ps v
  .ok (leDecode p, leDecode k, d, b)

/-- `deserializeCheckpoint` (DBDataStore.cpp:183-189) -/
def decDesc (v : Bytes) : R Desc := do
  let (k, v) ← rd 8 v
  let (mb, v) ← rd 8 v
  let (d, v) ← rd 32 v
  let (d', v) ← rd 32 v
  let (n, v) ← rd 8 v
  let (r, _) ← rd (leDecode n) v
  .ok ⟨leDecode k, leDecode mb, d, d', r⟩

/-- a write of a transaction -/
inductive W where
  | put (k v : Bytes)
  | del (k : Bytes)
  | first (n : Nat)
  | last (n : Nat)
  | fetching (b : Bool)
deriving DecidableEq

def Db.write (db : Db) : W → Db
  | .put k v => { db with kv := Rp.put Kvbc.keyLt k v db.kv }
  | .del k => { db with kv := Rp.del k db.kv }
  | .first n => { db with first := n }
  | .last n => { db with last := n }
  | .fetching b => { db with fetching := b }

/-- the writes of a transaction, in their order -/
def Db.commit (db : Db) (ws : List W) : Db := ws.foldl Db.write db

/-! ## In memory -/

/-- the page with zeros behind -/
def pad (ps : Nat) (b : Bytes) : Bytes := b ++ List.replicate (ps - b.length) 0

/-- `setPendingResPage` (InMemoryDataStore.cpp:151-169) -/
def Mem.setPend (ps : Nat) (m : Mem) (p : Nat) (b : Bytes) : R Mem := do
  require (b.length ≤ ps)
  .ok { m with pend := put natLt p (pad ps b) m.pend }

/-- `associatePendingResPageWithCheckpoint` (InMemoryDataStore.cpp:205-227) -/
def Mem.associate (m : Mem) (p k : Nat) (d : Bytes) : R Mem :=
  match get p m.pend with
  | none => .abort
  | some b => do
    require (get (p, k) m.pages = none)
    .ok { m with
      pages := put pageLt (p, k) (d, b) m.pages
      pend := del p m.pend }

/-- `setResPage` (InMemoryDataStore.cpp:229-254): an entry that is there keeps its digest -/
def Mem.setResPage (m : Mem) (p k : Nat) (d b : Bytes) (check : Bool) : R Mem :=
  match get (p, k) m.pages with
  | none => .ok { m with pages := put pageLt (p, k) (d, b) m.pages }
  | some x => if check then .abort else .ok { m with pages := put pageLt (p, k) (x.1, b) m.pages }

/-- `getResPage` (InMemoryDataStore.cpp:256-288): checkpoint, digest and content -/
def Mem.getResPage (m : Mem) (p k : Nat) : R (Option (Nat × Bytes × Bytes)) := do
  require (k ≤ m.last)
  match lower pageLt (p, k) m.pages with
  | [] => .ok none
  | e :: _ =>
    if p < e.1.1 then .ok none
    else do
      require (e.1.2 ≤ k)
      .ok (some (e.1.2, e.2))

/-- the loop of `deleteCoveredResPageInSmallerCheckpoints` (InMemoryDataStore.cpp:303-313), with `prevItemPageId` and
`prevItemIsInLastRelevantCheckpoint` -/
def coverLoop (min : Nat) : Nat → Bool → Pages → Pages
  | _, _, [] => []
  | pp, pr, e :: es => if e.1.1 = pp ∧ pr = true then coverLoop min pp pr es else e :: coverLoop min e.1.1 (decide (e.1.2 ≤ min)) es

/-- `deleteCoveredResPageInSmallerCheckpoints` (InMemoryDataStore.cpp:290-316) -/
def Mem.deleteCovered (c : Cfg) (m : Mem) (min : Nat) : R Mem :=
  if min ≤ 1 then .ok m
  else match m.pages with
    | [] => .ok m
    | e :: es =>
      let ps := e :: coverLoop min e.1.1 (decide (e.1.2 ≤ min)) es
      do
        require (ps.length ≤ c.pages * (c.maxStored + 1))
        .ok { m with pages := ps }

/-- the loop of `deleteCoveredResPageInSmallerCheckpointsTxn` (DBDataStore.cpp:405-417): the keys that are deleted -/
def coverKeys (min : Nat) : Nat → Bool → Pages → List W
  | _, _, [] => []
  | pp, pr, e :: es => if e.1.1 = pp ∧ pr = true then .del (kPage e.1.1 e.1.2) :: coverKeys min pp pr es else coverKeys min e.1.1 (decide (e.1.2 ≤ min)) es

/-- `deleteCoveredResPageInSmallerCheckpointsTxn` (DBDataStore.cpp:396-419) -/
def Mem.coverKeys (m : Mem) (min : Nat) : List W :=
  match m.pages with
  | [] => []
  | e :: es => Rp.coverKeys min e.1.1 (decide (e.1.2 ≤ min)) es

/-- the loop of `getResPagesDescriptor` (InMemoryDataStore.cpp:330-346) -/
def descLoop (k : Nat) : Pages → List (Nat × Nat × Bytes) → R (List (Nat × Nat × Bytes))
  | [], d => .ok d
  | e :: es, d =>
    if e.1.2 ≤ k then
      match d[e.1.1]? with
      | none => .fault
      | some x =>
        if 0 < x.2.1 then do
          require (e.1.2 < x.2.1)
          descLoop k es d
        else descLoop k es (d.set e.1.1 (e.1.1, e.1.2, e.2.1))
    else descLoop k es d

/-- `getResPagesDescriptor` (InMemoryDataStore.cpp:319-348) -/
def Mem.descriptor (c : Cfg) (m : Mem) (k : Nat) : R (List (Nat × Nat × Bytes)) :=
  descLoop k m.pages (List.replicate c.pages (0, 0, zero))

/-- `setCheckpointDesc` (InMemoryDataStore.cpp:90-99) -/
def Mem.setDesc (m : Mem) (k : Nat) (d : Desc) (check : Bool) : R Mem := do
  require (k = d.num)
  require (check = false ∨ get k m.descs = none)
  .ok { m with descs := put natLt k d m.descs }

/-- `DBDataStore::hasCheckpointDesc` (DBDataStore.cpp:197-206): reads the database if the descriptor is not in memory -/
def Mem.hasDesc (db : Db) (m : Mem) (k : Nat) : R (Bool × Mem) :=
  match get k m.descs with
  | some _ => .ok (true, m)
  | none =>
    match get (kDesc k) db.kv with
    | none => .ok (false, m)
    | some v => do
      let d ← decDesc v
      let m ← m.setDesc k d true
      .ok (true, m)

/-- `deleteDescOfSmallerCheckpoints` (InMemoryDataStore.cpp:117-123) -/
def Mem.dropDescs (m : Mem) (k : Nat) : Mem := { m with descs := m.descs.dropWhile (fun e => decide (e.1 < k)) }

/-- `deleteDescOfSmallerCheckpointsTxn` (DBDataStore.cpp:211-220) -/
def Mem.dropDescKeys (m : Mem) (k : Nat) : List W := (m.descs.takeWhile (fun e => decide (e.1 < k))).map (fun e => .del (kDesc e.1))

/-! ## Pages -/

/-- `saveReservedPage` (BCStateTran.cpp:723-742, DBDataStore.cpp:350-358) -/
def S.save (c : Cfg) (s : S) (p : Nat) (b : Bytes) : R S :=
  if s.mem.fetching then .ok s
  else do
    require (p < c.pages)
    require (b.length ≤ c.pageSize)
    let m ← s.mem.setPend c.pageSize p b
    .ok { s with
      mem := m
      db := s.db.write (.put (kPend p) (encPend b)) }

/-- `zeroReservedPage` (BCStateTran.cpp:745-759) -/
def S.zeroPage (c : Cfg) (s : S) (p : Nat) : R S :=
  if s.mem.fetching then .ok s
  else do
    require (p < c.pages)
    let b := List.replicate c.pageSize 0
    let m ← s.mem.setPend c.pageSize p b
    .ok { s with
      mem := m
      db := s.db.write (.put (kPend p) (encPend b)) }

/-- `loadReservedPage` (BCStateTran.cpp:688-720): `none` = false; a length of zero is refused by `getResPage` (InMemoryDataStore.cpp:284) but not for a
pending page -/
def S.load (c : Cfg) (s : S) (p len : Nat) : R (Option Bytes) := do
  require (p < c.pages)
  require (len ≤ c.pageSize)
  match get p s.mem.pend with
  | some b => .ok (some (b.take len))
  | none =>
    if s.mem.last = 0 then .ok none
    else do
      let r ← s.mem.getResPage p s.mem.last
      match r with
      | none => .ok none
      | some (k, _, b) => do
        require (0 < len)
        require (k ≤ s.mem.last)
        .ok (some (b.take len))

/-! ## Checkpoints -/

/-- the loop of `checkpointReservedPages` (BCStateTran.cpp:543-548) with `associatePendingResPageWithCheckpoint` of the data base
(DBDataStore.cpp:360-388) -/
def assocAll (c : Cfg) (k : Nat) : List Nat → Mem → List W → R (Mem × List W)
  | [], m, ws => .ok (m, ws)
  | p :: ps, m, ws =>
    match get p m.pend with
    | none => .abort
    | some b => do
      let d := c.pageH p k b
      let m ← m.associate p k d
      assocAll c k ps m (ws ++ [.put (kPage p k) (encPage c.pageSize p k d b), .del (kPend p)])

/-- `checkpointReservedPages` (BCStateTran.cpp:537-561) -/
def Mem.checkpointPages (c : Cfg) (m : Mem) (k : Nat) : R (Mem × List W × Bytes) := do
  let (m, ws) ← assocAll c k (m.pend.map (·.1)) m []
  require (m.pend = [])
  let d ← m.descriptor c k
  .ok (m, ws, c.descH d)

/-- the loop that looks for the first checkpoint to keep (BCStateTran.cpp:571-572) -/
def findMin (db : Db) (k : Nat) : Nat → Nat → Mem → R (Nat × Mem)
  | 0, min, m => .ok (min, m)
  | fuel + 1, min, m =>
    if min < k then do
      let (b, m) ← m.hasDesc db min
      if b then .ok (min, m) else findMin db k fuel (min + 1) m
    else .ok (min, m)

/-- `deleteOldCheckpoints` (BCStateTran.cpp:563-598) -/
def Mem.deleteOld (c : Cfg) (db : Db) (m : Mem) (k : Nat) : R (Mem × List W) := do
  let min0 := if c.maxStored ≤ k then k - c.maxStored + 1 else 0
  let old := m.first
  let (min, m) ← (if 0 < min0 then findMin db k k min0 m else .ok (min0, m))
  let (m, ws) ← (if 2 ≤ min ∧ old < min then do
    let w1 := m.dropDescKeys min
    let m := m.dropDescs min
    let w2 := m.coverKeys min
    let m ← m.deleteCovered c min
    .ok (m, w1 ++ w2)
    else .ok (m, []))
  if old < min then .ok ({ m with
    first := min
    last := k }, ws ++ [.first min, .last k])
  else .ok ({ m with last := k }, ws ++ [.last k])

/-- `createCheckpointOfCurrentStateImpl` (BCStateTran.cpp:600-626) and `createCheckpointDesc` (499-531); number and digest of the last
block and the data of the tree come from outside -/
def S.ckpt (c : Cfg) (s : S) (k mb : Nat) (dg rvb : Bytes) : R S := do
  require (s.mem.fetching = false)
  require (0 < k)
  if k = s.mem.last then .ok s
  else do
    require (s.mem.last < k)
    let (m, w1, d) ← s.mem.checkpointPages c k
    let desc : Desc := ⟨k, mb, dg, d, rvb⟩
    let m ← m.setDesc k desc true
    let (m, w3) ← m.deleteOld c s.db k
    .ok { s with
      mem := m
      db := s.db.commit (w1 ++ [.put (kDesc k) (encDesc desc)] ++ w3) }

/-- `getDigestOfCheckpointImpl` (BCStateTran.cpp:643-686): number and digest of the last block, and digest of the pages -/
def S.digestOf (s : S) (k : Nat) : R (Nat × Bytes × Bytes) := do
  require (0 < k)
  require (s.mem.first ≤ k)
  require (k ≤ s.mem.last)
  let (b, m) ← s.mem.hasDesc s.db k
  require (b = true)
  let d ← ofOption (get k m.descs)
  .ok (d.maxBlock, d.maxDigest, d.pagesDigest)

/-! ## State transfer -/

/-- `startCollectingStateImpl` (BCStateTran.cpp:941-953) with `deleteAllPendingPages` (DBDataStore.cpp:389-402) and `stReset` (BCStateTran.cpp:3309-3312);
ignored while fetching (930-939) -/
def S.collect (s : S) : S :=
  if s.mem.fetching then s
  else {
    mem := { s.mem with
      pend := []
      fetching := true }
    db := s.db.commit (s.mem.pend.map (fun e => W.del (kPend e.1)) ++ [.fetching true])
    cache := [] }

/-- `finalizeCycle` (BCStateTran.cpp:1046-1057), and the first transaction of `startCollectingStateInternal` (906-917) -/
def S.finish (s : S) : S := {
  mem := { s.mem with fetching := false }
  db := s.db.commit [.fetching false]
  cache := [] }

/-- the updated pages are written (BCStateTran.cpp:3606-3610) -/
def installAll (c : Cfg) (check : Bool) : List Elem → Mem → List W → R (Mem × List W)
  | [], m, ws => .ok (m, ws)
  | e :: es, m, ws => do
    let m ← m.setResPage e.page e.ckpt e.digest e.content check
    installAll c check es m (ws ++ [.put (kPage e.page e.ckpt) (encPage c.pageSize e.page e.ckpt e.digest e.content)])

/-- the entry of a page and a checkpoint: the pages as C35 has them -/
def store (m : Pages) : Store := fun p k => get (p, k) m

/-- a virtual block has come for the checkpoint `d` (BCStateTran.cpp:3420-3440): if it is right (`checkVirtualBlockOfResPages`, C35) it is
installed (3590-3625), with the checkpoint -/
def S.install (c : Cfg) (s : S) (d : Desc) (v : Bytes) : R S := do
  let r ← checkV c (store s.mem.pages) s.mem.last d.pagesDigest v
  match r with
  | none => .ok s
  | some (es, _) => do
    let check := decide (d.num ≠ s.mem.last)
    let (m, w1) ← installAll c check es s.mem []
    require (m.last ≤ d.num)
    let m ← m.setDesc d.num d check
    let (m, w3) ← m.deleteOld c s.db d.num
    .ok { s with
      mem := m
      db := s.db.commit (w1 ++ [.put (kDesc d.num) (encDesc d)] ++ w3) }

/-! ## Start -/

/-- the loop of `loadResPages` (DBDataStore.cpp:281-296) -/
def loadPages (c : Cfg) : List (Bytes × Bytes) → Mem → R Mem
  | [], m => .ok m
  | e :: es, m =>
    if kPrefix.isPrefixOf e.1 then do
      let (p, k, d, b) ← decPage c.pageSize e.2
      let m ← m.setResPage p k d b true
      loadPages c es m
    else .ok m

/-- `loadPendingPages` (DBDataStore.cpp:336-348) -/
def loadPend (c : Cfg) (kv : List (Bytes × Bytes)) : List Nat → Mem → R Mem
  | [], m => .ok m
  | p :: ps, m =>
    match get (kPend p) kv with
    | none => loadPend c kv ps m
    | some v => do
      let b ← decPend v
      let m ← m.setPend c.pageSize p b
      loadPend c kv ps m

/-- `DBDataStore::load` (DBDataStore.cpp:60-115) -/
def loadMem (c : Cfg) (db : Db) : R Mem := do
  let m : Mem := ⟨[], [], [], db.first, db.last, db.fetching⟩
  let m ← (if 0 < db.last then loadPages c (lower Kvbc.keyLt (kPage 0 0) db.kv) m else .ok m)
  loadPend c db.kv (List.range c.pages) m

/-- what is checked of a page (BCStateTran.cpp:3943-3955) -/
def checkPage (c : Cfg) (m : Mem) (k : Nat) (ds : List (Nat × Nat × Bytes)) (p : Nat) : R Unit := do
  let r ← m.getResPage p k
  match r with
  | none => .ok ()
  | some (k', _, b) =>
    match ds[p]? with
    | none => .fault
    | some x => do
      require (x.1 = p)
      require (x.2.1 ≤ k)
      require (0 < x.2.1)
      require (x.2.1 = k')
      require (c.pageH p k' b = x.2.2)

def checkPages (c : Cfg) (m : Mem) (k : Nat) (ds : List (Nat × Nat × Bytes)) : List Nat → R Unit
  | [] => .ok ()
  | p :: ps => do
    checkPage c m k ds p
    checkPages c m k ds ps

/-- what is checked of a stored checkpoint (BCStateTran.cpp:3905-3957, without the blocks) -/
def checkCkpt (c : Cfg) (db : Db) (m : Mem) (k : Nat) : R Mem := do
  let (b, m) ← m.hasDesc db k
  if b then do
    let d ← ofOption (get k m.descs)
    require (d.num = k)
    let ds ← m.descriptor c k
    require (c.descH ds = d.pagesDigest)
    checkPages c m k ds (List.range c.pages)
    .ok m
  else .ok m

/-- `checkStoredCheckpoints` (BCStateTran.cpp:3899-3961): checkpoints from `k` on -/
def checkStored (c : Cfg) (db : Db) : List Nat → Mem → R Mem
  | [], m => .ok m
  | k :: ks, m => do
    let m ← checkCkpt c db m k
    checkStored c db ks m

/-- `checkFirstAndLastCheckpoint` (BCStateTran.cpp:3811-3821) -/
def checkEnds (c : Cfg) (db : Db) (m : Mem) : R Mem := do
  require (m.first ≤ m.last)
  require (m.last - m.first + 1 ≤ c.maxStored)
  let m ← (if m.last = 0 then .ok m
    else do
      let (b, m) ← m.hasDesc db m.last
      require (b = true)
      .ok m)
  if m.first ≠ 0 ∧ m.first ≠ m.last then do
    let (b, m) ← m.hasDesc db m.first
    require (b = true)
    .ok m
  else .ok m

/-- a start on the database: `DBDataStore::load`, and `checkConsistency` (BCStateTran.cpp:3757-3790) as far as pages are concerned -/
def S.start (c : Cfg) (db : Db) : R S := do
  let m ← loadMem c db
  let m ← checkEnds c db m
  let m ← (if 0 < m.last then checkStored c db (List.range' m.first (m.last + 1 - m.first)) m else .ok m)
  require (m.fetching = false ∨ m.pend = [])
  .ok ⟨m, db, []⟩

/-- a crash and a new start -/
def S.restart (c : Cfg) (s : S) : R S := S.start c s.db

/-! ## Serving pages -/

/-- the pages that go into the virtual block (BCStateTran.cpp:2700-2707) -/
def updated (m : Mem) (k known : Nat) : List Nat → R (List Nat)
  | [] => .ok []
  | p :: ps => do
    let r ← m.getResPage p k
    match r with
    | none => updated m k known ps
    | some (k', _) => do
      require (k' ≤ k)
      let l ← updated m k known ps
      .ok (if known < k' then p :: l else l)

/-- one element (BCStateTran.cpp:2733-2748) -/
def element (c : Cfg) (m : Mem) (k known p : Nat) : R Bytes := do
  let r ← m.getResPage p k
  match r with
  | none => .abort
  | some (k', d, b) => do
    require (k' ≤ k)
    require (known < k')
    require (d ≠ zero)
    .ok (leEncode 4 p ++ (leEncode 8 k' ++ (d ++ b.take c.pageSize)))

def elements (c : Cfg) (m : Mem) (k known : Nat) : List Nat → R Bytes
  | [] => .ok []
  | p :: ps => do
    let e ← element c m k known p
    let es ← elements c m k known ps
    .ok (e ++ es)

/-- `createVBlock` (BCStateTran.cpp:2694-2757) -/
def createV (c : Cfg) (m : Mem) (k known : Nat) : R Bytes := do
  let ps ← updated m k known (List.range c.pages)
  let es ← elements c m k known ps
  .ok (leEncode 4 ps.length ++ (leEncode 8 known ++ es))

/-- order of `DescOfVBlockForResPages` (BCStateTran.hpp:384-389) -/
def vLt (a b : Nat × Nat) : Bool := if a.1 ≠ b.1 then decide (a.1 < b.1) else decide (a.2 < b.2)

/-- `kMaxVBlocksInCache` (BCStateTran.hpp:247) -/
def maxCache : Nat := 28

/-- `setVBlockInCache` (BCStateTran.cpp:2678-2692) -/
def cacheSet (cache : List ((Nat × Nat) × Bytes)) (x : Nat × Nat) (v : Bytes) : List ((Nat × Nat) × Bytes) :=
  put vLt x v (if cache.length = maxCache then cache.drop 1 else cache)

/-- offset of a chunk in the block, a 32-bit number (BCStateTran.cpp:2408) -/
def chunkOff (mc next : Nat) : Nat := ((next + 2 ^ 32 - 1) * mc) % 2 ^ 32

/-- the chunks that are sent (BCStateTran.cpp:2400-2448): `fuel` is `maxNumberOfChunksInBatch` less those sent, `next` a 16-bit number;
the offset is a 32-bit number, a copy from outside of the block is a fault -/
def chunks (mc seq : Nat) (v : Bytes) (num lastSize : Nat) : Nat → Nat → R (List Item)
  | 0, _ => .ok []
  | fuel + 1, next => do
    let size := if next < num then mc else lastSize
    require (0 < size)
    let off := chunkOff mc next
    if v.length < off + size then .fault
    else do
      let it : Item := ⟨seq, St.vblock, num % 2 ^ 16, next, decide (fuel = 0 ∨ next = num), 0, (v.drop off).take size, true⟩
      if fuel = 0 then .ok [it]
      else if next < num then do
        let l ← chunks mc seq v num lastSize fuel ((next + 1) % 2 ^ 16)
        .ok (it :: l)
      else .ok [it]

/-- the chunks of a block after `lastKnown` (BCStateTran.cpp:2377-2399) -/
def sendV (c : Cfg) (mc seq : Nat) (v : Bytes) (lastKnown : Nat) : R (List Item) :=
  let num := v.length / mc + (if v.length % mc ≠ 0 then 1 else 0)
  let lastSize := if v.length % mc ≠ 0 then v.length % mc else mc
  let next := (lastKnown + 1) % 2 ^ 16
  if num < next then .ok []
  else chunks mc seq v num lastSize (max 1 c.batch) next

/-- `FetchResPagesMsg` (Messages.hpp:190-202) -/
structure Fetch where
  seq : Nat
  known : Nat
  required : Nat
  lastKnown : Nat

/-- what is sent: `none` is `RejectFetchingMsg` -/
abbrev Answer := Option (List Item)

/-- `getVBlockFromCache`, or a new block (BCStateTran.cpp:2361-2376, 2663-2676) -/
def S.vblock (c : Cfg) (s : S) (k known : Nat) : R (Bytes × S) :=
  match get (k, known) s.cache with
  | some v => .ok (v, s)
  | none => do
    let v ← createV c s.mem k known
    .ok (v, { s with cache := cacheSet s.cache (k, known) v })

/-- `onMessage(FetchResPagesMsg)` (BCStateTran.cpp:2313-2450), after the checks of the message numbers -/
def S.fetch (c : Cfg) (mc : Nat) (s : S) (f : Fetch) : R (S × Answer) :=
  if f.seq = 0 ∨ f.required = 0 then .ok (s, some [])
  else if s.mem.fetching then .ok (s, none)
  else do
    let (b, m) ← s.mem.hasDesc s.db f.required
    let s := { s with mem := m }
    if b then do
      let (v, s) ← s.vblock c f.required f.known
      require ((parseV c.pageSize v).isSome = true)
      let l ← sendV c mc f.seq v f.lastKnown
      .ok (s, some l)
    else .ok (s, none)

end Verif.Rp
