import Verif.V4.Theorems
import Verif.V4.Trim
import Verif.V4.Stale

/-!
# C37: concrete runs

The hypotheses of the theorems are met by concrete runs, and the defects found are shown on concrete runs.
-/
set_option linter.unusedSimpArgs false
set_option linter.unusedVariables false
namespace Verif.V4.Examples
open Verif.V4 Verif.Bytes Spec

deriving instance DecidableEq for Except

/-- a toy digest -/
def H : Nat → Block → Digest := fun i b => 1000 * b.parent + 10 * i + b.updates.length

def catM : Str := [109]
def catV : Str := [118]
def catI : Str := [105]

def types : List (Str × CatType) :=
  [(internalCat, .versioned), (catM, .merkle), (catV, .versioned), (catI, .immutable)]

def cats : Cats := [(internalCat, .versioned, 0x22), (catM, .merkle, 0x23), (catV, .versioned, 0x24), (catI, .immutable, 0x25)]

/-- a block of sequence number `sn` that writes `x` under key 1 of the merkle category, a stale versioned key and an
immutable key, and deletes key `del` -/
def upd (sn : Nat) (x del : UInt8) : Updates :=
  [(internalCat, .versioned [(metaKey, ⟨be64 sn, false⟩)] []),
   (catM, .merkle [([1], [x])] [[del]]),
   (catV, .versioned [([2, x], ⟨[x], true⟩)] []),
   (catI, .immutable [([3, x], [x])])]

def s0 : Sys := ⟨{ cats := cats }, {}⟩

def nextS (s : Sys) (u : Updates) : Sys := (add H s u).2

def s1 := nextS s0 (upd 1 10 200)
def s2 := nextS s1 (upd 2 20 200)
def s3 := nextS s2 (upd 3 30 1)
def s4 := nextS s3 (upd 3 31 200)
/-- prune block 1 after block 2 -/
def s2p := (deleteBlocksUntil s2 2 none).2
def s3p := nextS s2p (upd 3 30 1)
def s4p := nextS s3p (upd 3 31 200)

def block (hb : List Block) (g : Nat) (u : Updates) : Block :=
  ⟨digestOf H hb hb.length, match addGenesisKey g u with | .ok u' => u' | .error _ => []⟩

def hb1 : List Block := [] ++ [block [] 0 (upd 1 10 200)]
def hb2 : List Block := hb1 ++ [block hb1 1 (upd 2 20 200)]
def hb3 : List Block := hb2 ++ [block hb2 2 (upd 3 30 1)]
def hb4 : List Block := hb3 ++ [block hb3 2 (upd 3 31 200)]

theorem updOk (sn : Nat) (x del : UInt8) : UpdOk cats (upd sn x del) := by
  refine ⟨show [internalCat, catM, catV, catI].Nodup by decide, ?_, ?_⟩
  · intro c i h
    simp only [upd, List.mem_cons, List.not_mem_nil, or_false, Prod.mk.injEq] at h
    rcases h with ⟨_, rfl⟩ | ⟨_, rfl⟩ | ⟨_, rfl⟩ | ⟨_, rfl⟩ <;> simp [NodupKeys]
  · intro c i t p h ht
    simp only [upd, List.mem_cons, List.not_mem_nil, or_false, Prod.mk.injEq] at h
    rcases h with ⟨rfl, rfl⟩ | ⟨rfl, rfl⟩ | ⟨rfl, rfl⟩ | ⟨rfl, rfl⟩
    · have : cats.get internalCat = some (.versioned, 0x22) := by decide
      rw [this] at ht; cases ht; rfl
    · have : cats.get catM = some (.merkle, 0x23) := by decide
      rw [this] at ht; cases ht; rfl
    · have : cats.get catV = some (.versioned, 0x24) := by decide
      rw [this] at ht; cases ht; rfl
    · have : cats.get catI = some (.immutable, 0x25) := by decide
      rw [this] at ht; cases ht; rfl

/-- one more block of a run -/
theorem step {hb : List Block} {s : Sys} (h : Reach H true hb s) {g id sn : Nat} {x del : UInt8} (hc : s.d.cats = cats)
    (hg : s.p.genesis = g) (hio : seqNumOf (upd sn x del) = .ok sn) (hle : s.p.lastSn.getD 0 ≤ sn)
    (hsz : hb.length + 1 < 2 ^ 64) (ha : (add H s (upd sn x del)).1 = .ok id) :
    Reach H true (hb ++ [block hb g (upd sn x del)]) (nextS s (upd sn x del)) := by
  subst hg
  have hk : ∃ u', addGenesisKey s.p.genesis (upd sn x del) = .ok u' := ⟨_, rfl⟩
  obtain ⟨u', hk⟩ := hk
  have hb' : block hb s.p.genesis (upd sn x del) = ⟨digestOf H hb hb.length, u'⟩ := by
    unfold block; rw [hk]
  rw [hb']
  refine .add (id := id) h (by rw [hc]; exact updOk sn x del) ⟨sn, hio, hle⟩ hsz ?_ hk
  unfold nextS
  rw [← ha]

set_option maxRecDepth 100000 in
theorem reach0 : Reach H true [] s0 := .init (types := types) (p := 0x22) (by rfl) (by decide)

set_option maxRecDepth 100000 in
theorem reach1 : Reach H true hb1 s1 :=
  step reach0 (g := 0) (id := 1) rfl rfl (by decide +kernel) (by decide) (by decide) (by rfl)

set_option maxRecDepth 100000 in
theorem reach2 : Reach H true hb2 s2 :=
  step reach1 (g := 1) (id := 2) rfl (by rfl) (by decide +kernel) (by decide +kernel) (by decide) (by rfl)

set_option maxRecDepth 100000 in
theorem reach2p : Reach H true hb2 s2p := .prune (n := 2) (files := none) (r := 1) reach2 (by rfl)

set_option maxRecDepth 100000 in
theorem reach3p : Reach H true hb3 s3p :=
  step reach2p (g := 2) (id := 3) rfl (by rfl) (by decide +kernel) (by decide +kernel) (by decide) (by rfl)

set_option maxRecDepth 100000 in
theorem reach4p : Reach H true hb4 s4p :=
  step reach3p (g := 2) (id := 4) rfl (by rfl) (by decide +kernel) (by decide +kernel) (by decide) (by rfl)

/-- the observations of a state: genesis, last block, the latest values of three keys -/
structure Obs where
  genesis : Nat
  last : Nat
  m : R (Option Value)
  v : R (Option Value)
  i : R (Option Value)
  deriving DecidableEq

def obs (s : Sys) : Obs :=
  ⟨s.p.genesis, s.p.last, getLatest s catM [1], getLatest s catV [2, 10], getLatest s catI [3, 31]⟩

/-- The run meets the hypotheses of `v4_reads`, `v4_prune`, `v4_add_read_back` and is not trivial: the key deleted and
written by sequence number 3. -/
example : obs s4p = ⟨2, 4, .ok (some ⟨.merkle, 4, [31]⟩), .ok (some ⟨.versioned, 1, [10]⟩), .ok (some ⟨.immutable, 4, [31]⟩)⟩ := by
  decide +kernel

/-- the deletion by block 3 -/
example : getLatest s3p catM [1] = .ok none := by decide +kernel

/-- a compaction drops the stale key of the pruned block -/
example : getLatest (compact s4p fun _ _ => true) catV [2, 10] = .ok none ∧
    getLatest (compact s4p fun _ _ => true) catV [2, 20] = .ok (some ⟨.versioned, 2, [20]⟩) := by decide +kernel

/-! ## The hypotheses of the recovery theorems -/

theorem boundary : Boundary hb4 3 2 := by
  refine ⟨by decide, ?_, ?_⟩
  · intro i b hi hb
    match i, hi with
    | 2, _ => cases hb; decide +kernel
    | 3, _ => cases hb; decide +kernel
    | i + 4, _ => cases hb
  · intro b _ hb
    cases hb
    decide +kernel

/-- The crash in the middle of sequence number 3 meets the hypotheses of `v4_recovered`, `v4_recovery_completes` and
`v4_sync`. -/
theorem crashed : s4p.d.st = [] ∧ s4p.p.held = true ∧ s4p.p.lastSn = some 3 ∧ s4p.p.genesis ≤ 2 := by decide +kernel

/-- the disk after the read-only pass -/
def scanned (d : Disk) : Disk := (recoverRO d (d.blocks.maxKey + 1)).toOption.getD d

/-- the process after the next start, with a snapshot that reads as nothing any more -/
def restarted (d : Disk) : Option Sys := (openSys H (forget (scanned d) fun _ _ => none)).toOption

/-- the start after the crash brings back the state after block 2 -/
example : (restarted s4p.d).map (fun s => (syncBlockId s 2 10).1) = some (.ok 2) ∧
    (restarted s4p.d).map (fun s => obs (syncBlockId s 2 10).2) = some (obs s2p) := by decide +kernel

/-- and so does one that crashed after deleting the first block -/
example : (restarted s4p.d).map (fun s => (restarted (deleteLast s).2.d).map fun s => obs (syncBlockId s 2 10).2)
    = some (some (obs s2p)) := by decide +kernel

/-- the recovery completes, by the theorem -/
example : ∃ s', RSteps H 2 (.down s4p.d) (.up s') ∧ Reads (hb4.take 2) s4p.p.genesis s' := by
  obtain ⟨h1, h2, h3, h4⟩ := crashed
  obtain ⟨s', h5⟩ := v4_recovery_completes reach4p h1 h2 h3 boundary h4 (by decide) (.refl _)
  exact ⟨s', h5, v4_recovered reach4p h1 h2 h3 boundary h4 (by decide) h5⟩

/-- a DB checkpoint at block 3, copied after block 4, meets the hypotheses of `v4_trim` -/
example : ∃ d1 p s', recoverChk { s4p.d with
      chkSnap := fun i => if i = 3 then some ⟨s3p.d.kv, 3⟩ else s4p.d.chkSnap i
      rcvChk := fun _ => none } 3 = .ok d1 ∧ openProc d1 = .ok p ∧ trim ⟨d1, p⟩ 3 = .ok s' ∧
      Reads (hb4.take 3) s4p.p.genesis s' :=
  v4_trim (s0 := s3p) reach4p reach3p rfl (by decide +kernel) (by decide +kernel) (by decide) rfl

/-- the stale keys of block 2: key 1 was written again by block 4, the versioned and the immutable key are stale from
the start, key 200 was deleted -/
example : getBlockStaleKeys s4p 2 = .ok [(internalCat, [genesisKey, metaKey]), (catM, [[1], [200]]), (catV, [[2, 20]]),
    (catI, [[3, 20]])] := by decide +kernel

/-! ## State transfer -/

/-- a new replica that received the blocks of the first one -/
def t1 := (addToST H s0 1 (block [] 0 (upd 1 10 200)) false).2
def t2 := (addToST H t1 3 (block hb2 2 (upd 3 30 1)) false).2
def t3 := (addToST H t2 2 (block hb1 1 (upd 2 20 200)) true).2

/-- linking prunes as the blocks say and gives the same reads -/
example : obs t3 = obs s3p ∧ t3.d.st = [] ∧ (t3.d.blocks.get 3) = (s3p.d.blocks.get 3) := by decide +kernel

/-! ## Defects -/

/-- BUG55: `multiGet` throws when a block id is asked for twice but not in a row: `std::unique` is applied to ids
that are not sorted, and the result is checked to have as many entries as ids. -/
theorem multiGet_unsorted_throws : multiGet s2 catM [([1], 1), ([1], 2), ([1], 1)] = .error .thrown ∧
    multiGet s2 catM [([1], 1), ([1], 1), ([1], 2)] =
      .ok [some ⟨.merkle, 1, [10]⟩, some ⟨.merkle, 1, [10]⟩, some ⟨.merkle, 2, [20]⟩] := by decide +kernel

/-- BUG56: an `add` that throws (here: an unknown category) has already remembered the digest of the block that never
was; the next block carries it as parent digest and the chain is broken. -/
def bad : Sys := (add H s2 [([99, 99], .merkle [] [])]).2

theorem failed_add_breaks_chain : (add H s2 [([99, 99], .merkle [] [])]).1 = .error .thrown ∧
    parentDigest (nextS bad (upd 3 30 1)) 3 ≠ parentDigest (nextS s2 (upd 3 30 1)) 3 := by decide +kernel

/-- BUG57: after a restart the first new sequence number takes no snapshot, because one is stored already.  A crash in
the middle of it reverts the keys to the stored snapshot, which was taken before the *previous* sequence number: here
key 1 reads as sequence number 1 left it, although block 2 of sequence number 2 is kept. -/
def r2 : Sys := (restarted s2.d).getD s0
def r3 : Sys := nextS r2 (upd 3 30 200)
/-- the snapshot stored by sequence number 2, which the compaction has not touched -/
def r3' : Option Sys := (openSys H (scanned { r3.d with snap := s2.d.snap })).toOption

theorem no_snapshot_after_restart : obs r2 = obs s2 ∧ r2.p.held = false ∧ r3.d.snap.isSome = true ∧ r3.p.held = false := by decide +kernel

theorem recovery_loses_sequence_number : r3'.map (fun s => (syncBlockId s 2 10).1) = some (.ok 1) ∧
    r3'.map (fun s => getLatest (syncBlockId s 2 10).2 catM [1]) = some (.ok (some ⟨.merkle, 1, [10]⟩)) ∧
    getLatest s2 catM [1] = .ok (some ⟨.merkle, 2, [20]⟩) := by decide +kernel

/-- BUG59: `executeBasedOnBlockId` throws when exactly the allowed number of blocks had to be deleted, although all of
them were. -/
theorem exact_limit_throws : (restarted s4p.d).map (fun s => (syncBlockId s 2 2).1) = some (.error .thrown) ∧
    (restarted s4p.d).map (fun s => (syncBlockId s 2 2).2.p.last) = some 2 := by decide +kernel

end Verif.V4.Examples
