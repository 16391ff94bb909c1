import Verif.St.PagesRun
set_option linter.unusedVariables false
/-!
# State transfer: examples and findings (C35)
-/
namespace Verif.St.Ex
open Verif.Bytes

/-- a small digest -/
def dig (l : List Nat) : Bytes := leEncode 32 (l.foldl (fun a x => (a * 131 + x + 7) % 4294967291) 1 + 1)

theorem dig_length (l : List Nat) : (dig l).length = 32 := leEncode_length 32 _

def exP : Rvt.Par where
  K := 2
  M := 4294967291
  fetch := 2
  hash := fun x d => d.foldl (fun a b => (a * 257 + b.toNat) % 4294967291) (7 * x.lvl + 31 * x.idx + 5)

def exH (i : Nat) (b : Bytes) : Bytes := dig (i :: b.map UInt8.toNat)

/-- the blocks of the correct replicas -/
def blk : Nat → Bytes
  | 0 => [0]
  | i + 1 => exH i (blk i) ++ [UInt8.ofNat (i + 1)]

theorem blk_chain (i : Nat) : (blk (i + 1)).take 32 = exH i (blk i) := by
  show (exH i (blk i) ++ [UInt8.ofNat (i + 1)]).take 32 = _
  rw [List.take_append_of_le_length (by rw [exH, dig_length]), List.take_of_length_le (by rw [exH, dig_length])]

/-- digests of blocks 2 and 4 -/
def exWin : Rvt.Win := ⟨1, [exH 2 (blk 2), exH 4 (blk 4)]⟩

def exPageH (p k : Nat) (b : Bytes) : Bytes := dig (p :: k :: b.map UInt8.toNat)

/-- four replicas, one of them may be faulty; this one is replica 3; batches of 4 blocks; every second block is in the tree -/
def exC : Cfg where
  n := 4
  ro := 1
  f := 1
  self := 3
  batch := 4
  maxBlock := 200
  maxVBlock := 200
  chunksApp := 4
  chunksV := 4
  maxPending := 1000
  maxStored := 3
  pages := 2
  pageSize := 4
  io := 2
  resPages := true
  P := exP
  H := exH
  prev := fun b => b.take 32
  pageH := exPageH
  descH := fun l => dig (l.flatMap (fun x => x.1 :: x.2.1 :: x.2.2.map UInt8.toNat))
  parse := fun b => if b = [7] then Rvt.Tree.empty.run exP (exWin.build 2) else none

/-- the pages of the correct replicas at checkpoint 1 -/
def exLines : List (Nat × Nat × Bytes) := [(0, 1, exPageH 0 1 [1, 2, 3, 4]), (1, 1, exPageH 1 1 [5, 6, 7, 8])]

def exDesc : Desc := ⟨1, 5, exH 5 (blk 5), exC.descH exLines, [7]⟩

/-- an environment that changes nothing on its own; all writes end at once -/
def quiet (seq : Nat) : Nat → Ora := fun _ => ⟨0, 0, 5, false, seq⟩

/-- a summary of replica `r` -/
def sum (r : Nat) (d : Desc) : Ev := .summary r ⟨d, 9, true⟩ 0 (quiet 10) 9

/-- a whole block from replica 0, `pre` being the digests before it -/
def item (i : Nat) (pre : Bytes) (last : Bool) : Ev := .item 0 ⟨10, i, 1, 1, last, pre.length, pre ++ blk i, true⟩ (quiet 10) 9

def entryOf (i : Nat) (d : Bytes) : Bytes := leEncode 8 i ++ d

/-- the digests of the group -/
def group : Bytes := entryOf 2 (exH 2 (blk 2)) ++ entryOf 4 (exH 4 (blk 4))

def elemOf (p k : Nat) (d content : Bytes) : Bytes := leEncode 4 p ++ leEncode 8 k ++ d ++ content

def vbOf (known : Nat) (es : List Bytes) : Bytes := leEncode 4 es.length ++ leEncode 8 known ++ es.flatten

def exV : Bytes := vbOf 0 [elemOf 0 1 (exPageH 0 1 [1, 2, 3, 4]) [1, 2, 3, 4], elemOf 1 1 (exPageH 1 1 [5, 6, 7, 8]) [5, 6, 7, 8]]

/-- the pages from replica 0 -/
def pages (v : Bytes) : Ev := .item 0 ⟨10, vblock, 1, 1, true, 0, v, true⟩ (quiet 10) 9

def begin2 : List Ev := [.start 9, sum 0 exDesc, sum 1 exDesc]

/-- a transfer of five blocks and two pages; with a crash on the way, after which the timer asks again -/
def exEvs : List Ev := begin2 ++ [item 4 group false, item 3 [] false, item 2 [] false, item 1 [] true, .crash 4 .empty (List.replicate 200 0) false,
  .timer false false (quiet 10) 9, item 5 [] true, pages exV, .timer true false (quiet 10) 9]

/-- what stands in the log, in short -/
def tag : Out → List Nat
  | .adopt d r => [0, d.num, r]
  | .digests ds => 1 :: ds.map (·.1)
  | .put i b => [2, i, if b = blk i then 1 else 0]
  | .done i => [3, i]
  | .complete d before lines after => [4, d.num, if after.desc 2 d.num = exLines then 1 else 0]
  | .restart r => [5, r]

def tags : R S → Option (List (List Nat))
  | .ok s => some (s.log.map tag)
  | _ => none

set_option maxRecDepth 100000 in
/-- the transfer: checkpoint 1 chosen, digests of blocks 2 and 4 accepted, blocks 4, 3, 2, 1, a restart, block 5, and the pages -/
theorem ex_transfer : tags ((S.init exC []).run exC begin2) = some [[0, 1, 0]] ∧
    tags ((S.init exC (List.replicate 200 0)).run exC exEvs) = some [[0, 1, 0], [1, 2, 4], [2, 4, 1], [3, 4], [2, 3, 1], [3, 3], [2, 2, 1], [3, 2], [2, 1, 1], [3, 1], [5, 4], [2, 5, 1], [3, 5], [4, 1, 1]] := by
  decide +kernel

theorem exP_ok : exP.Ok := ⟨by decide, by decide⟩

set_option maxRecDepth 100000 in
/-- the checkpoint is a true one -/
theorem exDesc_true : TrueDesc exC blk exDesc := by
  refine ⟨rfl, fun _ => ?_⟩
  obtain ⟨t, ht⟩ := Rvt.never_aborts exP_ok (by decide) (show Rvt.Win.nil.run exP.fetch (exWin.build 2) = some exWin by decide +kernel)
  exact ⟨exWin, t, (by decide +kernel), ht, ht, (by decide), (by decide +kernel)⟩

theorem exDesc_pages : TruePages exC (fun _ => exLines) exDesc := ⟨rfl, by decide⟩

theorem mem_sum {r : Nat} {m : Summary} {reach : Nat} {o : Nat → Ora} {cut : Nat} (h : Ev.summary r m reach o cut ∈ exEvs) : m.desc = exDesc := by
  simp only [exEvs, begin2, sum, item, pages, List.cons_append, List.nil_append, List.mem_cons, Ev.summary.injEq, reduceCtorEq, List.not_mem_nil, or_false, false_or] at h
  rcases h with h | h <;> rw [h.2.1]

/-- the hypotheses of `blocks_true`, `pages_true` and `complete_has_all` are met by this run, with replica 2 faulty -/
theorem ex_meets : exC.P.Ok ∧ 0 < exC.fetch ∧ exC.resPages = true ∧ 1 ≤ exC.maxStored ∧ Honest exC exEvs [2] (TrueDesc exC blk) ∧ Honest exC exEvs [2] (TruePages exC (fun _ => exLines)) ∧
    (∀ i, exC.prev (blk (i + 1)) = exC.H i (blk i)) ∧ ∃ s, (S.init exC (List.replicate 200 0)).run exC exEvs = .ok s ∧ (∃ d b l a, Out.complete d b l a ∈ s.log) ∧ Out.put 5 (blk 5) ∈ s.log := by
  refine ⟨exP_ok, by decide, rfl, by decide, ⟨by decide, fun r m reach o cut h _ => ?_⟩, ⟨by decide, fun r m reach o cut h _ => ?_⟩, blk_chain, ?_⟩
  · rw [mem_sum h]; exact exDesc_true
  · rw [mem_sum h]; exact exDesc_pages
  · have h := ex_transfer.2
    cases hr : (S.init exC (List.replicate 200 0)).run exC exEvs with
    | abort => rw [hr] at h; cases h
    | fault => rw [hr] at h; cases h
    | ok s =>
      rw [hr] at h
      have h : s.log.map tag = _ := Option.some.inj h
      have h1 : [4, 1, 1] ∈ s.log.map tag := by rw [h]; decide
      have h2 : [2, 5, 1] ∈ s.log.map tag := by rw [h]; decide
      obtain ⟨o1, m1, e1⟩ := List.mem_map.1 h1
      obtain ⟨o2, m2, e2⟩ := List.mem_map.1 h2
      refine ⟨s, rfl, ?_, ?_⟩
      · cases o1 with
        | complete d b l a => exact ⟨d, b, l, a, m1⟩
        | _ => exact absurd e1 (by simp [tag])
      · cases o2 with
        | put i b =>
          simp only [tag, List.cons.injEq, and_true, true_and] at e2
          obtain ⟨rfl, e2⟩ := e2
          split at e2
          · rename_i hb
            rw [hb] at m2; exact m2
          · cases e2
        | _ => exact absurd e2 (by simp [tag])

/-! ## Findings -/

def ends : R S → Nat
  | .ok _ => 0
  | .abort => 1
  | .fault => 2

/-- a chunk from replica 0 -/
def chunk (i total k rvb : Nat) (data : Bytes) : Ev := .item 0 ⟨10, i, total, k, false, rvb, data, true⟩ (quiet 10) 9

def go (es : List Ev) : R S := (S.init exC (List.replicate 200 0)).run exC (begin2 ++ es)

set_option maxRecDepth 100000 in
/-- BUG46: sizes are checked without the digests a chunk claims to have, but all of it is copied to the buffer: one source writes
beyond the end of the buffer (here 201 bytes into 200) -/
theorem heap_overflow : ends (go [chunk 4 1 1 200 (List.replicate 201 0)]) = 2 := by decide +kernel

def srcOf : R S → Option Nat
  | .ok s => s.src
  | _ => none

/-- the source changes whenever it must -/
def next (seq : Nat) : Nat → Ora := fun _ => ⟨0, 0, 5, false, seq⟩

set_option maxRecDepth 100000 in
/-- BUG47: the size of the digests is taken from the chunk that happens to come last.  A correct source sends the digests in the first
of the chunks of a block; when the second one completes the block, the digests are read as part of the block, the block is refused and
the correct source is dropped; so a first block of a batch that has more than one chunk is never accepted. -/
theorem honest_source_refused : srcOf (go []) = some 0 ∧
    srcOf (go [chunk 4 2 1 group.length (group ++ (blk 4).take 10), chunk 4 2 2 0 ((blk 4).drop 10)]) = some 1 ∧
    tags (go [chunk 4 2 1 group.length (group ++ (blk 4).take 10), chunk 4 2 2 0 ((blk 4).drop 10)]) = some [[0, 1, 0]] ∧
    tags (go [chunk 4 1 1 group.length (group ++ blk 4)]) = some [[0, 1, 0], [1, 2, 4], [2, 4, 1]] := by decide +kernel

set_option maxRecDepth 100000 in
/-- BUG48: a surplus chunk of a block that is complete makes `clearPendingItemsData` step beyond the end of the set -/
theorem surplus_chunk_undefined : ends (go [item 4 group false, chunk 2 1 1 0 (blk 2), chunk 2 1 2 0 [1], item 3 [] false]) = 2 := by decide +kernel

set_option maxRecDepth 100000 in
/-- BUG49: a summary of a read-only replica (here replica 4) counts for the certificate but not as a source; the assertion that there
are `f + 1` sources fails -/
theorem read_only_summary_aborts : ends ((S.init exC (List.replicate 200 0)).run exC [.start 9, sum 0 exDesc, sum 4 exDesc]) = 1 := by decide +kernel

/-- blocks up to 5 -/
def blocks5 : List Ev := [item 4 group false, item 3 [] false, item 2 [] false, item 1 [] true, item 5 [] true]

set_option maxRecDepth 100000 in
/-- BUG50: the number of a page is not checked against the number of pages; a source writes outside the list -/
theorem page_number_unchecked : ends (go (blocks5 ++ [pages exV])) = 0 ∧
    ends (go (blocks5 ++ [pages (vbOf 0 [elemOf 2 1 (exPageH 2 1 [1, 2, 3, 4]) [1, 2, 3, 4]])])) = 2 := by decide +kernel

/-- a later checkpoint, reached when this replica has its own checkpoint 1 -/
def exDesc2 : Desc := ⟨2, 5, exH 5 (blk 5), exC.descH exLines, [7]⟩

set_option maxRecDepth 100000 in
/-- BUG53: a page this replica already has for its last checkpoint passes all checks when the source sends it again, and then fails an
assertion -/
theorem resent_page_aborts : ends ((S.init exC (List.replicate 200 0)).run exC
    ([.checkpoint 1 5 (exH 5 (blk 5)) [7] .empty [(0, [1, 2, 3, 4]), (1, [5, 6, 7, 8])], .start 9] ++
      [.summary 0 ⟨exDesc2, 9, true⟩ 5 (quiet 10) 9, .summary 1 ⟨exDesc2, 9, true⟩ 5 (quiet 10) 9, pages (vbOf 1 [])])) = 0 ∧
    ends ((S.init exC (List.replicate 200 0)).run exC
    ([.checkpoint 1 5 (exH 5 (blk 5)) [7] .empty [(0, [1, 2, 3, 4]), (1, [5, 6, 7, 8])], .start 9] ++
      [.summary 0 ⟨exDesc2, 9, true⟩ 5 (quiet 10) 9, .summary 1 ⟨exDesc2, 9, true⟩ 5 (quiet 10) 9, pages (vbOf 1 [elemOf 0 1 (exPageH 0 1 [1, 2, 3, 4]) [1, 2, 3, 4]])])) = 1 := by decide +kernel

set_option maxRecDepth 100000 in
/-- BUG54: digests for block 0 fail an assertion instead of being refused -/
theorem block_zero_aborts : ends (go [chunk 4 1 1 40 (entryOf 0 (exH 2 (blk 2)) ++ blk 4)]) = 1 := by decide +kernel

end Verif.St.Ex
