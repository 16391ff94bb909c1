import Verif.V4.Inv

/-!
# Recovery: reverting the blocks of an unfinished sequence number

A start of the replica after a crash is a read-only pass that computes revert batches (`recoverRO`), the opening of
the DB for writing, and the deletion of the last blocks by the state synchronisation (`Replica.cpp:318-345`,
`replica_state_sync_imp.cpp`).  The process may crash again anywhere.  RocksDB keeps what a snapshot sees only while
a process holds it: once the DB is opened for writing by a new process, what a read at the stored sequence number
sees is arbitrary (`forget`).
-/
set_option linter.unusedSimpArgs false
set_option linter.unusedVariables false
namespace Verif.V4
open Verif.Bytes Spec

/-- the view of the stored snapshot becomes arbitrary -/
def forget (d : Disk) (view : Kv) : Disk := { d with snap := d.snap.map fun sn => { sn with view := view } }

/-- where a replica is in its start-up -/
inductive Node
  /-- no process is running -/
  | down (d : Disk)
  /-- the read-only pass has completed -/
  | ready (d : Disk)
  /-- the DB is open for writing, the state synchronisation is running -/
  | opened (s : Sys)
  /-- the replica runs -/
  | up (s : Sys)

/-- one step of a start-up that synchronises to block `mtd` -/
inductive RStep (H : Nat → Block → Digest) (mtd : Nat) : Node → Node → Prop
  /-- the read-only pass, interrupted after `n` blocks by a crash -/
  | scan {d d' n} : recoverRO d n = .ok d' → RStep H mtd (.down d) (.down d')
  /-- the read-only pass to its end -/
  | scanned {d d'} : recoverRO d (d.blocks.maxKey + 1) = .ok d' → RStep H mtd (.down d) (.ready d')
  /-- open for writing -/
  | open_ {d view s} : openSys H (forget d view) = .ok s → RStep H mtd (.ready d) (.opened s)
  /-- a compaction runs -/
  | compact {s} (sel) : RStep H mtd (.opened s) (.opened (compact s sel))
  /-- delete the last block -/
  | del {s s'} : mtd < s.p.last → deleteLast s = (.ok (), s') → RStep H mtd (.opened s) (.opened s')
  | crash {s} : RStep H mtd (.opened s) (.down s.d)
  | crashRO {d} : RStep H mtd (.ready d) (.down d)
  /-- nothing more to delete -/
  | done {s} : ¬ mtd < s.p.last → RStep H mtd (.opened s) (.up (finishDelete s))

/-- any number of steps -/
inductive RSteps (H : Nat → Block → Digest) (mtd : Nat) : Node → Node → Prop
  | refl (a) : RSteps H mtd a a
  | tail {a b c} : RSteps H mtd a b → RStep H mtd b c → RSteps H mtd a c

/-! ## The state at the crash -/

/-- Block `k` is the last block of the finished sequence numbers and `view` is what the families held then: the stored
snapshot was taken after block `k`, all later blocks have sequence numbers above the stored stable one, and block `k`
has not.  For a DB checkpoint (`chk`) block ids take the place of sequence numbers. -/
structure Prot (chk : Option Nat) (hb : List Block) (k : Nat) (view : Kv) (stable : Nat) (cats : Cats) (g : Nat) :
    Prop where
  le : k ≤ hb.length
  after : ∀ i b, k ≤ i → hb[i]? = some b → ∃ n, versionOf chk (i + 1) b.updates = .ok n ∧ stable < n
  before : ∀ b, 1 ≤ k → hb[k - 1]? = some b → ∃ n, versionOf chk k b.updates = .ok n ∧ n ≤ stable
  view : KvOk cats hb k g view

/-- what is known of the entry of a key after `n` blocks -/
def EntryOk (t : CatType) (g : Nat) (o : Option Entry) (x : Option Str) : Prop :=
  match o with
  | none => x = none
  | some e => x = some (encE t e) ∨ (e.stale = true ∧ e.ver < g ∧ x = none)

/-- `x` is the entry `y`, or nothing when the compaction filter may drop `y` -/
def Sub (g : Nat) (x y : Option Str) : Prop := x = y ∨ (x = none ∧ ∃ v, y = some v ∧ filterOut g v = true)

/-- some block after block `j` touches the key -/
def Touched (hb : List Block) (j : Nat) (cat key : Str) : Prop :=
  ∃ i b, j ≤ i ∧ hb[i]? = some b ∧ touch b.updates cat key ≠ none

/-- the families while blocks are being reverted: the last block is `j`, keys touched by reverted blocks have the
value of the snapshot -/
def Mid (cats : Cats) (hb : List Block) (view : Kv) (j g : Nat) (kv : Kv) : Prop :=
  ∀ cat t p, cats.get cat = some (t, p) → ∀ key,
    (¬ Touched hb j cat key → EntryOk t g (latestAt hb cat key j) (kv (famOf t) (p :: key))) ∧
    (Touched hb j cat key → Sub g (kv (famOf t) (p :: key)) (view (famOf t) (p :: key)))

/-- a stored revert batch is the right one -/
def GoodRev (cats : Cats) (hb : List Block) (k : Nat) (view : Kv) (i : Nat) (x : RevBatch) : Prop :=
  k < i ∧ i ≤ hb.length ∧ ∃ b ops, hb[i - 1]? = some b ∧ revertOps cats view b.updates = .ok ops ∧ x = ⟨ops, i⟩

/-- the disk during recovery, `j` being the last block -/
structure RInv (hb : List Block) (k g : Nat) (view : Kv) (stable : Nat) (cats : Cats) (d : Disk) (j : Nat) : Prop where
  dcats : d.cats = cats
  kj : k ≤ j
  jn : j ≤ hb.length
  g1 : 1 ≤ g
  gk : g ≤ k
  gen : GenOk j g d.genesis
  blocks : BlocksOk (hb.take j) g d.blocks
  st : d.st = []
  kv : Mid cats hb view j g d.kv
  rc : ∀ i x, d.rcv i = some x → GoodRev cats hb k view i x
  snap : ∃ v, d.snap = some ⟨v, stable⟩

/-- all the batches needed are stored -/
def Full (k : Nat) (d : Disk) (j : Nat) : Prop := ∀ i, k < i → i ≤ j → (d.rcv i).isSome

/-- the stored snapshot still reads as it did -/
def Fresh (view : Kv) (d : Disk) : Prop := ∀ sn, d.snap = some sn → sn.view = view

/-! ## Lemmas -/

theorem latestAt_untouched {hb : List Block} {cat key : Str} {j n : Nat} (hj : j ≤ n)
    (h : ∀ i b, j ≤ i → i < n → hb[i]? = some b → touch b.updates cat key = none) :
    latestAt hb cat key n = latestAt hb cat key j := by
  induction n with
  | zero => have : j = 0 := by omega
            subst this; rfl
  | succ n ih =>
    by_cases he : j = n + 1
    · subst he; rfl
    · rw [latestAt]
      have := ih (by omega) fun i b h1 h2 => h i b h1 (by omega)
      cases hb' : hb[n]? with
      | none => exact this
      | some b =>
        dsimp only
        rw [h n b (by omega) (by omega) hb']
        exact this

theorem Mid.start {cats : Cats} {hb : List Block} {view : Kv} {g : Nat} {kv : Kv} (h : KvOk cats hb hb.length g kv) :
    Mid cats hb view hb.length g kv := by
  intro cat t p hc key
  constructor
  · intro _; exact h cat t p hc key
  · intro ⟨i, b, hi, hb', _⟩
    rw [List.getElem?_eq_none hi] at hb'
    cases hb'

theorem EntryOk.sub {t : CatType} {g g0 : Nat} {o : Option Entry} {x y : Option Str} (h : EntryOk t g0 o y)
    (hg : g0 ≤ g) (hs : Sub g x y) (hv : ∀ e, o = some e → e.ver < 2 ^ 64)
    (hi : ∀ e, o = some e → t = .immutable → e.stale = true) : EntryOk t g o x := by
  cases o with
  | none =>
    have h : y = none := h
    subst h
    rcases hs with hs | ⟨_, v, hv, _⟩
    · exact hs
    · cases hv
  | some e =>
    have h : y = some (encE t e) ∨ (e.stale = true ∧ e.ver < g0 ∧ y = none) := h
    rcases hs with hs | ⟨hx, v, hy, hf⟩
    · subst hs
      rcases h with h | ⟨h1, h2, h3⟩
      · exact Or.inl h
      · exact Or.inr ⟨h1, by omega, h3⟩
    · rcases h with h | ⟨_, _, h3⟩
      · rw [h] at hy
        cases hy
        obtain ⟨h1, h2⟩ := filterOut_entry (hv e rfl) (hi e rfl) hf
        exact Or.inr ⟨h1, h2, hx⟩
      · rw [h3] at hy; cases hy

/-- reverting is complete when block `k` is the last one -/
theorem Mid.finish {cats : Cats} {hb : List Block} (hh : HistOk cats hb) {view : Kv} {k g : Nat} {kv : Kv}
    (hk : k ≤ hb.length) (hsz : hb.length < 2 ^ 64) (hv : KvOk cats hb k g view) (h : Mid cats hb view k g kv) :
    KvOk cats (hb.take k) k g kv := by
  have h2 : KvOk cats hb k g kv := by
    intro cat t p hc key
    show EntryOk t g (latestAt hb cat key k) (kv (famOf t) (p :: key))
    by_cases ht : Touched hb k cat key
    · have hs := (h cat t p hc key).2 ht
      refine EntryOk.sub (hv cat t p hc key) (Nat.le_refl _) hs ?_ ?_
      · intro e he
        have := (latestAt_ver he).2.1
        omega
      · intro e he hi
        subst hi
        exact latestAt_immut hh hc he
    · exact (h cat t p hc key).1 ht
  exact h2.congr fun i hi => by rw [List.getElem?_take_of_lt hi]

/-- reverting one block -/
theorem Mid.revert {cats : Cats} (hcats : CatsOk cats) {hb : List Block} (hh : HistOk cats hb) {view : Kv} {j g : Nat}
    {kv : Kv} (hj : j + 1 ≤ hb.length) (h : Mid cats hb view (j + 1) g kv) {b : Block} (hb' : hb[j]? = some b)
    {ops : List KvOp} (ho : revertOps cats view b.updates = .ok ops) : Mid cats hb view j g (applyKv kv ops) := by
  intro cat t p hc key
  have hu := hh.1 b (List.mem_of_getElem? hb')
  have he := revertOps_effect hcats hu ho hc key
  have hm := h cat t p hc key
  have htsplit : Touched hb j cat key ↔ touch b.updates cat key ≠ none ∨ Touched hb (j + 1) cat key := by
    constructor
    · intro ⟨i, b', hi, hbi, ht⟩
      by_cases hij : i = j
      · subst hij
        rw [hb'] at hbi
        cases hbi
        exact Or.inl ht
      · exact Or.inr ⟨i, b', by omega, hbi, ht⟩
    · intro hx
      rcases hx with hx | ⟨i, b', hi, hbi, ht⟩
      · exact ⟨j, b, Nat.le_refl _, hb', hx⟩
      · exact ⟨i, b', by omega, hbi, ht⟩
  rw [applyKv_eq]
  constructor
  · intro hnt
    rw [htsplit] at hnt
    have ht0 : touch b.updates cat key = none := by
      cases ht : touch b.updates cat key with
      | none => rfl
      | some o => exact absurd (Or.inl (by rw [ht]; simp)) hnt
    rw [ht0] at he
    have he : effect ops (famOf t) (p :: key) = none := he
    rw [he]
    have := hm.1 (fun x => hnt (Or.inr x))
    rw [latestAt_untouched (j := j) (n := j + 1) (by omega) (by
      intro i b1 h1 h2 h3
      have : i = j := by omega
      subst this
      rw [hb'] at h3
      cases h3
      exact ht0)] at this
    exact this
  · intro ht
    rw [htsplit] at ht
    cases htb : touch b.updates cat key with
    | none =>
      rw [htb] at he ht
      have he : effect ops (famOf t) (p :: key) = none := he
      rw [he]
      rcases ht with ht | ht
      · exact absurd rfl ht
      · exact hm.2 ht
    | some o =>
      rw [htb] at he
      cases o with
      | some x =>
        have he : effect ops (famOf t) (p :: key) = some (view (famOf t) (p :: key)) := he
        rw [he]
        exact Or.inl rfl
      | none =>
        have he : effect ops (famOf t) (p :: key) = some (view (famOf t) (p :: key)) ∨
          (effect ops (famOf t) (p :: key) = none ∧ view (famOf t) (p :: key) = none) := he
        rcases he with he | ⟨he, hv⟩
        · rw [he]; exact Or.inl rfl
        · rw [he, hv]
          show Sub g (kv (famOf t) (p :: key)) none
          left
          by_cases hlater : Touched hb (j + 1) cat key
          · have := hm.2 hlater
            rw [hv] at this
            rcases this with h | ⟨h, _⟩ <;> exact h
          · have := hm.1 hlater
            rw [latestAt, hb'] at this
            dsimp only at this
            rw [htb] at this
            exact this

theorem Mid.compact {cats : Cats} {hb : List Block} (hh : HistOk cats hb) {view : Kv} {j g : Nat}
    (hj : j ≤ hb.length) (hsz : hb.length < 2 ^ 64) {s : Sys}
    (hg : s.p.genesis = g) (h : Mid cats hb view j g s.d.kv) (sel : Fam → Str → Bool) :
    Mid cats hb view j g (V4.compact s sel).d.kv := by
  intro cat t p hc key
  have hm := h cat t p hc key
  have hd := compact_drop s sel (famOf t) (p :: key)
  rw [hg] at hd
  constructor
  · intro hnt
    refine EntryOk.sub (hm.1 hnt) (Nat.le_refl _) hd ?_ ?_
    · intro e he
      have := (latestAt_ver he).2.1
      omega
    · intro e he hi
      subst hi
      exact latestAt_immut hh hc he
  · intro ht
    have h1 := hm.2 ht
    rcases hd with hd | ⟨hd, v, hv, hf⟩
    · rw [hd]; exact h1
    · rcases h1 with h1 | ⟨h1, _⟩
      · rw [h1] at hv
        exact Or.inr ⟨hd, v, hv, hf⟩
      · rw [h1] at hv; cases hv

/-! ## The read-only pass -/

theorem revertLoop_ok {chk : Option Nat} {hb : List Block} {k g j : Nat} {view : Kv} {stable : Nat} {cats : Cats}
    (hp : Prot chk hb k view stable cats g) (hh : HistOk cats hb) {d : Disk} (hcats : d.cats = cats)
    (hj : j ≤ hb.length) (hgk : g ≤ k) (hg1 : 1 ≤ g) (hbl : BlocksOk (hb.take j) g d.blocks) (sn : Snap) (hst : sn.stable = stable) :
    ∀ (fuel : Nat) (rc : Nat → Option RevBatch) (id : Nat), k ≤ id → id ≤ j → g < id →
      ((∀ i, k < i → i ≤ id → (rc i).isSome) ∨ sn.view = view) →
      ∃ rc', revertLoop chk d sn g fuel rc id = .ok rc' ∧
        (∀ i x, rc i = some x → rc' i = some x) ∧
        (∀ i x, rc' i = some x → rc i = some x ∨ GoodRev cats hb k view i x) ∧
        (id - k ≤ fuel → ∀ i, k < i → i ≤ id → (rc' i).isSome) := by
  intro fuel
  induction fuel with
  | zero =>
    intro rc id hk hid hgid hrc
    refine ⟨rc, rfl, fun i x h => h, fun i x h => Or.inl h, ?_⟩
    intro h0 i h1 h2
    omega
  | succ n ih =>
    intro rc id hk hid hgid hrc
    have hlt : id - 1 < hb.length := by omega
    have hgb : hb[id - 1]? = some hb[id - 1] := List.getElem?_eq_getElem hlt
    have hget : d.blocks.get id = some hb[id - 1] := by
      have := hbl.kept (id - 1) hb[id - 1] (by omega) (by rw [List.getElem?_take_of_lt (by omega)]; exact hgb)
      have e : id - 1 + 1 = id := by omega
      rw [e] at this
      exact this
    unfold revertLoop
    rw [hget]
    dsimp only
    by_cases hidk : id = k
    · obtain ⟨m, hm, hle⟩ := hp.before hb[id - 1] (by omega) (by rw [← hidk]; exact hgb)
      rw [← hidk] at hm
      rw [hm]
      simp only [bind, Except.bind]
      rw [if_pos (by rw [hst]; exact hle)]
      exact ⟨rc, rfl, fun i x h => h, fun i x h => Or.inl h, fun _ i h1 h2 => by omega⟩
    · obtain ⟨m, hm, hle⟩ := hp.after (id - 1) hb[id - 1] (by omega) hgb
      have e1 : id - 1 + 1 = id := by omega
      rw [e1] at hm
      rw [hm]
      simp only [bind, Except.bind]
      rw [if_neg (by rw [hst]; omega)]
      -- the batch of this block
      have hone : ∃ rc1, storeOne d sn rc id hb[id - 1] = .ok rc1 ∧
          (∀ i x, rc i = some x → rc1 i = some x) ∧
          (∀ i x, rc1 i = some x → rc i = some x ∨ GoodRev cats hb k view i x) ∧ (rc1 id).isSome := by
        unfold storeOne
        cases hrid : rc id with
        | some x => exact ⟨rc, rfl, fun i x h => h, fun i x h => Or.inl h, by rw [hrid]; rfl⟩
        | none =>
          have hview : sn.view = view := by
            rcases hrc with h | h
            · have := h id (by omega) (Nat.le_refl _)
              rw [hrid] at this
              cases this
            · exact h
          obtain ⟨ops, hops⟩ := revertOps_ok (view := view)
            (hh.2 hb[id - 1] (List.getElem_mem ..))
          dsimp only
          rw [hcats, hview, hops]
          refine ⟨_, rfl, ?_, ?_, ?_⟩
          · intro i x hx
            by_cases hi : i = id
            · subst hi; rw [hrid] at hx; cases hx
            · rw [if_neg hi]; exact hx
          · intro i x hx
            by_cases hi : i = id
            · subst hi
              rw [if_pos rfl] at hx
              cases hx
              exact Or.inr ⟨by omega, by omega, _, ops, hgb, hops, rfl⟩
            · rw [if_neg hi] at hx; exact Or.inl hx
          · rw [if_pos rfl]; rfl
      obtain ⟨rc1, h1, hext1, hgood1, hsome1⟩ := hone
      rw [h1]
      dsimp only
      by_cases hstop : id - 1 = g
      · rw [if_pos hstop]
        refine ⟨rc1, rfl, hext1, hgood1, ?_⟩
        intro _ i hi1 hi2
        have : i = id := by omega
        subst this
        exact hsome1
      · rw [if_neg hstop]
        obtain ⟨rc', hr, hext, hgood, hfull⟩ := ih rc1 (id - 1) (by omega) (by omega) (by omega) (by
          rcases hrc with h | h
          · left
            intro i hi1 hi2
            have := h i hi1 (by omega)
            obtain ⟨x, hx⟩ := Option.isSome_iff_exists.1 this
            rw [hext1 i x hx]
            rfl
          · exact Or.inr h)
        refine ⟨rc', hr, fun i x h => hext i x (hext1 i x h), ?_, ?_⟩
        · intro i x hx
          rcases hgood i x hx with h | h
          · exact hgood1 i x h
          · exact Or.inr h
        · intro hf i hi1 hi2
          by_cases hi : i = id
          · subst hi
            obtain ⟨x, hx⟩ := Option.isSome_iff_exists.1 hsome1
            rw [hext _ x hx]
            rfl
          · exact hfull (by omega) i hi1 (by omega)

section
variable {H : Nat → Block → Digest}

/-- the facts that do not change during recovery -/
structure RCtx (H : Nat → Block → Digest) (hb : List Block) (k g : Nat) (view : Kv) (stable : Nat) (cats : Cats) : Prop where
  prot : Prot none hb k view stable cats g
  ccats : CatsOk cats
  hist : HistOk cats hb
  chain : ChainOk H hb
  size : hb.length < 2 ^ 64

theorem take_length {hb : List Block} {j : Nat} (h : j ≤ hb.length) : (hb.take j).length = j := by
  rw [List.length_take]; omega

theorem RInv.openProc {hb : List Block} {k g : Nat} {view : Kv} {stable : Nat} {cats : Cats} {d : Disk} {j : Nat}
    (h : RInv hb k g view stable cats d j) : openProc d = .ok { last := j, genesis := g, stLast := 0 } := by
  have := openProc_eq (d := d) (hb := hb.take j) (g := g) (by rw [take_length h.jn]; exact h.gen) h.blocks
  rw [take_length h.jn, h.st] at this
  exact this

/-- the read-only pass -/
theorem RInv.scan {hb : List Block} {k g : Nat} {view : Kv} {stable : Nat} {cats : Cats} (hx : RCtx H hb k g view stable cats)
    {d : Disk} {j : Nat} (h : RInv hb k g view stable cats d j) (hf : Fresh view d ∨ Full k d j) (n : Nat) :
    ∃ d', recoverRO d n = .ok d' ∧ RInv hb k g view stable cats d' j ∧ (Fresh view d' ∨ Full k d' j) ∧
      (j - k ≤ n → Full k d' j) ∧ d'.blocks = d.blocks := by
  unfold recoverRO
  rw [h.openProc]
  simp only [bind, Except.bind]
  by_cases hgj : g = j
  · rw [if_pos hgj]
    refine ⟨d, rfl, h, hf, ?_, rfl⟩
    intro _ i h1 h2
    have := h.gk
    omega
  · rw [if_neg hgj]
    obtain ⟨v, hsn⟩ := h.snap
    rw [hsn]
    dsimp only
    have hgk := h.gk
    have hkj := h.kj
    obtain ⟨rc', hr, hext, hgood, hfull⟩ := revertLoop_ok hx.prot hx.hist h.dcats h.jn h.gk h.g1 h.blocks ⟨v, stable⟩ rfl
      n d.rcv j h.kj (Nat.le_refl _) (by omega) (by
        rcases hf with hf | hf
        · exact Or.inr (hf _ hsn)
        · exact Or.inl hf)
    rw [hr]
    refine ⟨_, rfl, ?_, ?_, ?_, rfl⟩
    · exact ⟨h.dcats, h.kj, h.jn, h.g1, h.gk, h.gen, h.blocks, h.st, h.kv, by
        intro i x hx'
        rcases hgood i x hx' with h1 | h1
        · exact h.rc i x h1
        · exact h1, ⟨v, rfl⟩⟩
    · rcases hf with hf | hf
      · left
        intro sn he
        exact hf sn (by rw [hsn]; exact he)
      · right
        intro i h1 h2
        obtain ⟨x, hx'⟩ := Option.isSome_iff_exists.1 (hf i h1 h2)
        show (rc' i).isSome
        rw [hext i x hx']
        rfl
    · exact fun hn => hfull hn

/-- the open system during recovery -/
structure OInv (hb : List Block) (k g : Nat) (view : Kv) (stable : Nat) (cats : Cats) (s : Sys) : Prop where
  disk : RInv hb k g view stable cats s.d s.p.last
  full : Full k s.d s.p.last
  genesis : s.p.genesis = g
  future : s.p.future = none
  fresh : s.p.lastSn = none ∧ s.p.held = false

theorem RInv.open_ {hb : List Block} {k g : Nat} {view : Kv} {stable : Nat} {cats : Cats}
    {d : Disk} {j : Nat} (h : RInv hb k g view stable cats d j) (hf : Full k d j) (v : Kv) :
    ∃ s, openSys H (forget d v) = .ok s ∧ OInv hb k g view stable cats s ∧ s.p.last = j := by
  have hd : RInv hb k g view stable cats (forget d v) j := by
    obtain ⟨w, hsn⟩ := h.snap
    exact ⟨h.dcats, h.kj, h.jn, h.g1, h.gk, h.gen, h.blocks, h.st, h.kv, h.rc, ⟨v, by unfold forget; rw [hsn]; rfl⟩⟩
  refine ⟨⟨forget d v, { last := j, genesis := g, stLast := 0 }⟩, ?_, ⟨hd, hf, rfl, rfl, rfl, rfl⟩, rfl⟩
  unfold openSys
  rw [hd.openProc]
  dsimp only
  unfold linkSTChain
  rw [if_pos rfl]

theorem OInv.compact {hb : List Block} {k g : Nat} {view : Kv} {stable : Nat} {cats : Cats} (hx : RCtx H hb k g view stable cats)
    {s : Sys} (h : OInv hb k g view stable cats s) (sel : Fam → Str → Bool) : OInv hb k g view stable cats (V4.compact s sel) := by
  have hd := h.disk
  exact ⟨⟨hd.dcats, hd.kj, hd.jn, hd.g1, hd.gk, hd.gen, hd.blocks, hd.st,
    hd.kv.compact hx.hist hd.jn hx.size h.genesis sel, hd.rc, hd.snap⟩, h.full, h.genesis, h.future, h.fresh⟩

/-- deleting the last block -/
theorem OInv.del' {hb : List Block} {k g : Nat} {view : Kv} {stable : Nat} {cats : Cats} (hcc : CatsOk cats) (hhist : HistOk cats hb)
    {s : Sys} (h : OInv hb k g view stable cats s) (hk : k < s.p.last) :
    ∃ s' b, s.d.rcv s.p.last = some b ∧ s' = applyRevert s b ∧ deleteLast s = (.ok (), s') ∧ OInv hb k g view stable cats s' ∧ s'.p.last = s.p.last - 1 := by
  have hd := h.disk
  have hgk := hd.gk
  have hg1 := hd.g1
  have hjn := hd.jn
  unfold deleteLast
  rw [if_neg (by omega), if_neg (by rw [h.genesis]; omega)]
  obtain ⟨x, hrx⟩ := Option.isSome_iff_exists.1 (h.full s.p.last hk (Nat.le_refl _))
  rw [hrx]
  dsimp only
  obtain ⟨_, _, b, ops, hbj, hops, hxe⟩ := hd.rc _ _ hrx
  subst hxe
  refine ⟨_, _, rfl, rfl, rfl, ?_, rfl⟩
  have hj : s.p.last - 1 + 1 = s.p.last := by omega
  refine ⟨?_, ?_, ?_, h.future, h.fresh⟩
  · refine ⟨hd.dcats, ?_, ?_, hg1, hgk, ?_, ?_, hd.st, ?_, hd.rc, hd.snap⟩
    · show k ≤ s.p.last - 1; omega
    · show s.p.last - 1 ≤ hb.length; omega
    · show GenOk (s.p.last - 1) g s.d.genesis
      have := hd.gen
      exact ⟨fun h0 => by omega, fun _ => ⟨hg1, by omega⟩, fun _ => this.stored (by omega)⟩
    · show BlocksOk (hb.take (s.p.last - 1)) g (s.d.blocks.del s.p.last)
      have hbk := hd.blocks
      refine ⟨?_, ?_, ?_, ?_⟩
      · intro i hi
        rw [take_length (by omega)] at hi
        rw [BMap.get_del]
        by_cases he : i = s.p.last
        · rw [if_pos he]
        · rw [if_neg he]
          exact hbk.above i (by rw [take_length hjn]; omega)
      · rw [BMap.get_del]
        split
        · rfl
        · exact hbk.zero
      · intro i b' hgi hi
        have hlt : i < s.p.last - 1 := by
          rcases Nat.lt_or_ge i (s.p.last - 1) with h | h
          · exact h
          · rw [List.getElem?_eq_none (by rw [take_length (by omega)]; exact h)] at hi; cases hi
        rw [BMap.get_del, if_neg (by omega)]
        refine hbk.kept i b' hgi ?_
        rw [List.getElem?_take_of_lt hlt] at hi
        rw [List.getElem?_take_of_lt (by omega)]
        exact hi
      · intro i b' hi
        rw [BMap.get_del] at hi
        by_cases he : i + 1 = s.p.last
        · rw [if_pos he] at hi; cases hi
        · rw [if_neg he] at hi
          have := hbk.leaked i b' hi
          have hlt : i < s.p.last := by
            rcases Nat.lt_or_ge i s.p.last with h | h
            · exact h
            · rw [List.getElem?_eq_none (by rw [take_length hjn]; exact h)] at this; cases this
          rw [List.getElem?_take_of_lt hlt] at this
          rw [List.getElem?_take_of_lt (by omega)]
          exact this
    · show Mid cats hb view (s.p.last - 1) g (applyKv s.d.kv ops)
      refine Mid.revert hcc hhist (by omega) ?_ hbj hops
      rw [hj]
      exact hd.kv
  · intro i h1 h2
    have h2 : i ≤ s.p.last - 1 := h2
    exact h.full i h1 (by omega)
  · show (if s.p.genesis = 0 then s.p.last - 1 else s.p.genesis) = g
    rw [if_neg (by rw [h.genesis]; omega)]
    exact h.genesis

theorem OInv.del {hb : List Block} {k g : Nat} {view : Kv} {stable : Nat} {cats : Cats} (hx : RCtx H hb k g view stable cats)
    {s : Sys} (h : OInv hb k g view stable cats s) (hk : k < s.p.last) :
    ∃ s', deleteLast s = (.ok (), s') ∧ OInv hb k g view stable cats s' ∧ s'.p.last = s.p.last - 1 := by
  obtain ⟨s', _, _, _, h1, h2, h3⟩ := h.del' hx.ccats hx.hist hk
  exact ⟨s', h1, h2, h3⟩

/-- when block `k` is the last one, the process runs with the history up to `k` -/
theorem OInv.finish {hb : List Block} {k g : Nat} {view : Kv} {stable : Nat} {cats : Cats} (hx : RCtx H hb k g view stable cats)
    {s : Sys} (h : OInv hb k g view stable cats s) (hk : s.p.last = k) : Inv H (hb.take k) (finishDelete s) := by
  have hd := h.disk
  have hkn := hx.prot.le
  have hl := take_length hkn
  have hdc : s.d.cats = cats := hd.dcats
  refine ⟨?_, ?_, chainOk_take hx.chain k, by rw [hl]; have := hx.size; omega, by rw [hl]; exact hk, ?_, ?_, ?_, ?_⟩
  · show CatsOk s.d.cats
    rw [hdc]; exact hx.ccats
  · show HistOk s.d.cats _
    rw [hdc]
    exact ⟨fun b hb' => hx.hist.1 b (List.mem_of_mem_take hb'), fun b hb' => hx.hist.2 b (List.mem_of_mem_take hb')⟩
  · rw [hl]
    show GenOk k s.p.genesis s.d.genesis
    rw [h.genesis, ← hk]; exact hd.gen
  · show BlocksOk _ s.p.genesis s.d.blocks
    rw [h.genesis]
    have := hd.blocks
    rw [hk] at this
    exact this
  · show KvOk s.d.cats _ _ s.p.genesis s.d.kv
    rw [hl, hdc, h.genesis]
    have hm := hd.kv
    rw [hk] at hm
    exact Mid.finish hx.hist hkn hx.size hx.prot.view hm
  · intro x hx'
    have : s.p.future = some x := hx'
    rw [h.future] at this
    cases this

/-- the invariant of a node -/
def NInv (H : Nat → Block → Digest) (hb : List Block) (k g : Nat) (view : Kv) (stable : Nat) (cats : Cats) : Node → Prop
  | .down d => ∃ j, RInv hb k g view stable cats d j ∧ (Fresh view d ∨ Full k d j)
  | .ready d => ∃ j, RInv hb k g view stable cats d j ∧ Full k d j
  | .opened s => OInv hb k g view stable cats s
  | .up s => Inv H (hb.take k) s ∧ s.p.genesis = g ∧ s.d.cats = cats ∧ (∀ i, s.d.rcv i = none) ∧
      s.p.lastSn = none ∧ s.p.held = false ∧ s.d.snap.isSome

theorem RInv.maxKey {hb : List Block} {k g : Nat} {view : Kv} {stable : Nat} {cats : Cats} {d : Disk} {j : Nat}
    (h : RInv hb k g view stable cats d j) : d.blocks.maxKey = j := by
  refine BMap.maxKey_eq _ _ (fun i hi => h.blocks.above i (by rw [take_length h.jn]; exact hi)) ?_
  intro h0
  have hjn := h.jn
  have hlt : j - 1 < hb.length := by omega
  have hk := h.blocks.kept (j - 1) _ (by have := h.gk; have := h.kj; omega)
    (by rw [List.getElem?_take_of_lt (by omega)]; exact List.getElem?_eq_getElem hlt)
  have e : j - 1 + 1 = j := by omega
  rw [e] at hk
  rw [hk]
  rfl

theorem NInv.step {hb : List Block} {k g : Nat} {view : Kv} {stable : Nat} {cats : Cats} (hx : RCtx H hb k g view stable cats)
    {a b : Node} (h : NInv H hb k g view stable cats a) (hs : RStep H k a b) : NInv H hb k g view stable cats b := by
  cases hs with
  | scan hr =>
    obtain ⟨j, h1, h2⟩ := h
    obtain ⟨d', hr', h3, h4, _, _⟩ := h1.scan hx h2 _
    rw [hr'] at hr
    cases hr
    exact ⟨j, h3, h4⟩
  | scanned hr =>
    obtain ⟨j, h1, h2⟩ := h
    obtain ⟨d', hr', h3, _, h5, _⟩ := h1.scan hx h2 _
    rw [hr'] at hr
    cases hr
    exact ⟨j, h3, h5 (by rw [h1.maxKey]; omega)⟩
  | open_ hr =>
    obtain ⟨j, h1, h2⟩ := h
    obtain ⟨s, hr', h3, _⟩ := h1.open_ (H := H) h2 _
    rw [hr'] at hr
    cases hr
    exact h3
  | compact sel => exact OInv.compact hx h sel
  | del hlt hr =>
    obtain ⟨s', hr', h3, _⟩ := OInv.del hx h hlt
    rw [hr'] at hr
    cases hr
    exact h3
  | crash => exact ⟨_, h.disk, Or.inr h.full⟩
  | crashRO =>
    obtain ⟨j, h1, h2⟩ := h
    exact ⟨j, h1, Or.inr h2⟩
  | done hn =>
    have h : OInv hb k g view stable cats _ := h
    have hk := h.disk.kj
    exact ⟨h.finish hx (by omega), h.genesis, h.disk.dcats, fun i => rfl, h.fresh.1, h.fresh.2, by
      obtain ⟨v, hv⟩ := h.disk.snap
      show (Disk.snap _).isSome
      exact Option.isSome_iff_exists.2 ⟨_, hv⟩⟩

theorem NInv.steps {hb : List Block} {k g : Nat} {view : Kv} {stable : Nat} {cats : Cats} (hx : RCtx H hb k g view stable cats)
    {a b : Node} (h : NInv H hb k g view stable cats a) (hs : RSteps H k a b) : NInv H hb k g view stable cats b := by
  induction hs with
  | refl => exact h
  | tail _ hs ih => exact ih.step hx hs

end
end Verif.V4
