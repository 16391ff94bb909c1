import Verif.V4.Basic

/-!
# The invariant of a running process and the operations that keep it
-/
set_option linter.unusedSimpArgs false
set_option linter.unusedVariables false
namespace Verif.V4
open Verif.Bytes Spec

/-! ## The history -/

theorem latestAt_congr {hb hb' : List Block} {cat key : Str} {n : Nat} (h : ∀ i < n, hb[i]? = hb'[i]?) :
    latestAt hb cat key n = latestAt hb' cat key n := by
  induction n with
  | zero => rfl
  | succ n ih =>
    unfold latestAt
    rw [h n (by omega), ih fun i hi => h i (by omega)]

theorem latestAt_append {hb : List Block} {b : Block} {cat key : Str} {n : Nat} (h : n ≤ hb.length) :
    latestAt (hb ++ [b]) cat key n = latestAt hb cat key n :=
  latestAt_congr fun i hi => by rw [List.getElem?_append_left (by omega)]

theorem latestAt_take {hb : List Block} {cat key : Str} {n k : Nat} (h : n ≤ k) :
    latestAt (hb.take k) cat key n = latestAt hb cat key n :=
  latestAt_congr fun i hi => by rw [List.getElem?_take_of_lt (by omega)]

theorem latestAt_ver {hb : List Block} {cat key : Str} {n : Nat} {e : Entry} (h : latestAt hb cat key n = some e) :
    1 ≤ e.ver ∧ e.ver ≤ n ∧ ∃ b, hb[e.ver - 1]? = some b ∧ touch b.updates cat key = some (some (e.data, e.stale)) := by
  induction n with
  | zero => cases h
  | succ n ih =>
    unfold latestAt at h
    cases hg : hb[n]? with
    | none =>
      rw [hg] at h
      obtain ⟨h1, h2, h3⟩ := ih h
      exact ⟨h1, by omega, h3⟩
    | some b =>
      rw [hg] at h
      dsimp only at h
      cases ht : touch b.updates cat key with
      | none =>
        rw [ht] at h
        obtain ⟨h1, h2, h3⟩ := ih h
        exact ⟨h1, by omega, h3⟩
      | some o =>
        rw [ht] at h
        cases o with
        | none => cases h
        | some x =>
          obtain ⟨v, st⟩ := x
          cases h
          exact ⟨Nat.succ_le_succ (Nat.zero_le _), Nat.le_refl _, b, by simpa using hg, ht⟩

/-- the stored form of an entry -/
def encE (t : CatType) (e : Entry) : Str := encEntry t e.data e.stale e.ver

/-- The two latest-keys families hold the latest entries after `n` blocks; those of stale keys older than `g` may be
missing. -/
def KvOk (cats : Cats) (hb : List Block) (n g : Nat) (kv : Kv) : Prop :=
  ∀ cat t p, cats.get cat = some (t, p) → ∀ key,
    match latestAt hb cat key n with
    | none => kv (famOf t) (p :: key) = none
    | some e => kv (famOf t) (p :: key) = some (encE t e) ∨
        (e.stale = true ∧ e.ver < g ∧ kv (famOf t) (p :: key) = none)

theorem KvOk.mono {cats : Cats} {hb : List Block} {n g g' : Nat} {kv : Kv} (h : KvOk cats hb n g kv) (hg : g ≤ g') :
    KvOk cats hb n g' kv := by
  intro cat t p hc key
  have := h cat t p hc key
  cases hl : latestAt hb cat key n with
  | none => rw [hl] at this; exact this
  | some e =>
    rw [hl] at this
    rcases this with h | ⟨h1, h2, h3⟩
    · exact Or.inl h
    · exact Or.inr ⟨h1, by omega, h3⟩

theorem KvOk.congr {cats : Cats} {hb hb' : List Block} {n g : Nat} {kv : Kv} (h : KvOk cats hb n g kv)
    (he : ∀ i < n, hb[i]? = hb'[i]?) : KvOk cats hb' n g kv := by
  intro cat t p hc key
  rw [← latestAt_congr he]
  exact h cat t p hc key

/-- every block of the history has well formed updates -/
def HistOk (cats : Cats) (hb : List Block) : Prop :=
  (∀ b ∈ hb, UpdOk cats b.updates) ∧ ∀ b ∈ hb, ∀ c i, (c, i) ∈ b.updates → (cats.get c).isSome

/-- the touched entry of an immutable category is stale -/
theorem touch_immut {cats : Cats} {u : Updates} (hu : UpdOk cats u) {cat key : Str} {p : UInt8}
    (hc : cats.get cat = some (.immutable, p)) {v : Str} {st : Bool} (h : touch u cat key = some (some (v, st))) : st = true := by
  rw [touch_eq] at h
  cases hl : lookup u cat with
  | none => rw [hl] at h; cases h
  | some i =>
    rw [hl] at h
    have hm := lookup_some_mem hl
    have ht := hu.typed _ _ _ _ hm hc
    cases i with
    | merkle kv d => cases ht
    | versioned kv d => cases ht
    | immutable kv =>
      have h : (lookup kv key).map (fun v => some (v, true)) = some (some (v, st)) := h
      cases hl2 : lookup kv key with
      | none => rw [hl2] at h; cases h
      | some x => rw [hl2] at h; cases h; rfl

/-- The blocks column family holds the blocks of the history from the genesis on -/
structure BlocksOk (hb : List Block) (g : Nat) (m : BMap) : Prop where
  above : ∀ i, hb.length < i → m.get i = none
  zero : m.get 0 = none
  kept : ∀ i b, g ≤ i + 1 → hb[i]? = some b → m.get (i + 1) = some b
  /-- what is left of a pruned block is that block -/
  leaked : ∀ i b, m.get (i + 1) = some b → hb[i]? = some b

/-- The genesis block id and what is stored about it -/
structure GenOk (n g : Nat) (stored : Option Nat) : Prop where
  empty : n = 0 → g = 0 ∧ stored = none
  range : 0 < n → 1 ≤ g ∧ g ≤ n
  stored : 0 < n → stored = some g ∨ (stored = none ∧ g = 1)

/-- The invariant of a running process with history `hb` -/
structure Inv (H : Nat → Block → Digest) (hb : List Block) (s : Sys) : Prop where
  cats : CatsOk s.d.cats
  hist : HistOk s.d.cats hb
  chain : ChainOk H hb
  size : hb.length < 2 ^ 64
  last : s.p.last = hb.length
  gen : GenOk hb.length s.p.genesis s.d.genesis
  blocks : BlocksOk hb s.p.genesis s.d.blocks
  kv : KvOk s.d.cats hb hb.length s.p.genesis s.d.kv
  future : ∀ x, s.p.future = some x → x = digestOf H hb hb.length

section
variable {H : Nat → Block → Digest}

/-! ### The digest of the last block -/

theorem digestOf_succ (hb : List Block) (j : Nat) : digestOf H hb (j + 1) = match hb[j]? with
    | some a => H (j + 1) a
    | none => 0 := rfl

theorem Inv.parentFor {hb : List Block} {s : Sys} (h : Inv H hb s) : parentFor H s = .ok (digestOf H hb hb.length) := by
  unfold V4.parentFor
  cases hf : s.p.future with
  | some x => rw [h.future x hf]
  | none =>
    dsimp only
    unfold calcDigest
    rw [h.last]
    by_cases h0 : hb.length < 1
    · rw [if_pos h0]
      have : hb.length = 0 := by omega
      rw [this]
      rfl
    · rw [if_neg h0]
      have hlt : hb.length - 1 < hb.length := by omega
      have hg : hb[hb.length - 1]? = some hb[hb.length - 1] := List.getElem?_eq_getElem hlt
      have hr := h.gen.range (by omega)
      have hk := h.blocks.kept (hb.length - 1) _ (by omega) hg
      have e : hb.length - 1 + 1 = hb.length := by omega
      rw [e] at hk
      rw [hk]
      dsimp only
      conv => rhs; rw [← e]
      rw [digestOf_succ, hg]
      dsimp only
      rw [e]

/-! ### Adding a block -/

theorem KvOk.add {cats : Cats} (hc : CatsOk cats) {hb : List Block} {g : Nat} {kv : Kv}
    (h : KvOk cats hb hb.length g kv) {b : Block} (hu : UpdOk cats b.updates) {ops : List KvOp}
    (ho : latestOps cats (hb.length + 1) b.updates = .ok ops) :
    KvOk cats (hb ++ [b]) (hb.length + 1) g (applyKv kv ops) := by
  intro cat t p hcat key
  rw [applyKv_eq, latestOps_effect hc hu ho hcat]
  have hlast : (hb ++ [b])[hb.length]? = some b := by simp
  have hprev := h cat t p hcat key
  rw [latestAt, hlast]
  dsimp only
  cases ht : touch b.updates cat key with
  | none =>
    dsimp only
    rw [latestAt_append (Nat.le_refl _)]
    exact hprev
  | some o =>
    cases o with
    | none => rfl
    | some x =>
      obtain ⟨v, st⟩ := x
      exact Or.inl rfl

theorem latestOps_known {cats : Cats} {id : Nat} {u : Updates} {ops : List KvOp} (h : latestOps cats id u = .ok ops) :
    ∀ c i, (c, i) ∈ u → (cats.get c).isSome := by
  induction u generalizing ops with
  | nil => intro c i hm; cases hm
  | cons e u ih =>
    obtain ⟨c', i'⟩ := e
    unfold latestOps at h
    cases hg : cats.get c' with
    | none => rw [hg] at h; cases h
    | some tp =>
      rw [hg] at h
      obtain ⟨t, p⟩ := tp
      dsimp only at h
      cases ho : latestOps cats id u with
      | error e => rw [ho] at h; cases h
      | ok ops' =>
        intro c i hm
        rcases List.mem_cons.1 hm with hm | hm
        · cases hm; rw [hg]; rfl
        · exact ih ho c i hm

theorem latestOps_ok {cats : Cats} {id : Nat} {u : Updates} (h : ∀ c i, (c, i) ∈ u → (cats.get c).isSome) :
    ∃ ops, latestOps cats id u = .ok ops := by
  induction u with
  | nil => exact ⟨[], rfl⟩
  | cons e u ih =>
    obtain ⟨c', i'⟩ := e
    obtain ⟨tp, htp⟩ := Option.isSome_iff_exists.1 (h c' i' (List.mem_cons_self ..))
    obtain ⟨ops, ho⟩ := ih fun c i hm => h c i (List.mem_cons_of_mem _ hm)
    unfold latestOps
    rw [htp]
    obtain ⟨t, p⟩ := tp
    dsimp only
    rw [ho]
    exact ⟨_, rfl⟩

theorem revertOps_ok {cats : Cats} {view : Kv} {u : Updates} (h : ∀ c i, (c, i) ∈ u → (cats.get c).isSome) :
    ∃ ops, revertOps cats view u = .ok ops := by
  induction u with
  | nil => exact ⟨[], rfl⟩
  | cons e u ih =>
    obtain ⟨c', i'⟩ := e
    obtain ⟨tp, htp⟩ := Option.isSome_iff_exists.1 (h c' i' (List.mem_cons_self ..))
    obtain ⟨ops, ho⟩ := ih fun c i hm => h c i (List.mem_cons_of_mem _ hm)
    unfold revertOps
    rw [htp]
    obtain ⟨t, p⟩ := tp
    dsimp only
    rw [ho]
    exact ⟨_, rfl⟩

theorem digestOf_append {hb : List Block} {b : Block} {n : Nat} (h : n ≤ hb.length) :
    digestOf H (hb ++ [b]) n = digestOf H hb n := by
  cases n with
  | zero => rfl
  | succ n =>
    rw [digestOf_succ, digestOf_succ, List.getElem?_append_left (by omega)]

theorem digestOf_take {hb : List Block} {n k : Nat} (h : n ≤ k) : digestOf H (hb.take k) n = digestOf H hb n := by
  cases n with
  | zero => rfl
  | succ n =>
    rw [digestOf_succ, digestOf_succ, List.getElem?_take_of_lt (by omega)]

theorem chainOk_append {hb : List Block} (h : ChainOk H hb) {b : Block} (hp : b.parent = digestOf H hb hb.length) :
    ChainOk H (hb ++ [b]) := by
  intro i b' hi
  by_cases hlt : i < hb.length
  · rw [List.getElem?_append_left hlt] at hi
    rw [digestOf_append (by omega)]
    exact h i b' hi
  · have hlt2 : i < (hb ++ [b]).length := by
      rcases Nat.lt_or_ge i (hb ++ [b]).length with h | h
      · exact h
      · rw [List.getElem?_eq_none h] at hi; cases hi
    have : i = hb.length := by simp at hlt2; omega
    subst this
    rw [List.getElem?_append_right (Nat.le_refl _)] at hi
    simp at hi
    subst hi
    rw [digestOf_append (Nat.le_refl _)]
    exact hp

theorem chainOk_take {hb : List Block} (h : ChainOk H hb) (k : Nat) : ChainOk H (hb.take k) := by
  intro i b hi
  by_cases hlt : i < k
  · rw [List.getElem?_take_of_lt hlt] at hi
    rw [digestOf_take (by omega)]
    exact h i b hi
  · rw [List.getElem?_take] at hi
    rw [if_neg hlt] at hi
    cases hi

/-- what `mkBatch` computes -/
theorem Inv.mkBatch {hb : List Block} {s : Sys} (h : Inv H hb s) {u : Updates} {b : Block} {ops : List KvOp} {s' : Sys}
    (hm : mkBatch H s u = (.ok (b, ops), s')) :
    b = ⟨digestOf H hb hb.length, u⟩ ∧ latestOps s.d.cats (hb.length + 1) u = .ok ops ∧
      s' = { s with p := { s.p with future := some (H (hb.length + 1) b) } } := by
  unfold V4.mkBatch at hm
  rw [h.parentFor] at hm
  dsimp only at hm
  rw [h.last] at hm
  cases ho : latestOps s.d.cats (hb.length + 1) u with
  | error e => rw [ho] at hm; cases hm
  | ok ops' =>
    rw [ho] at hm
    cases hm
    refine ⟨rfl, rfl, ?_⟩
    rw [← h.last]

/-- the write of a block built on the last one -/
theorem Inv.writeBlock {hb : List Block} {s : Sys} (h : Inv H hb s) {b : Block} {ops : List KvOp} {delSt : Bool}
    (hp : b.parent = digestOf H hb hb.length) (hu : UpdOk s.d.cats b.updates)
    (ho : latestOps s.d.cats (hb.length + 1) b.updates = .ok ops) (hsz : hb.length + 1 < 2 ^ 64) :
    Inv H (hb ++ [b])
      (writeBlock { s with p := { s.p with future := some (H (hb.length + 1) b) } } b ops delSt) := by
  have hg : (setBlockId { s.p with future := some (H (hb.length + 1) b) } (s.p.last + 1)).genesis =
      if s.p.genesis = 0 then hb.length + 1 else s.p.genesis := by
    show (if s.p.genesis = 0 then s.p.last + 1 else s.p.genesis) = _
    rw [h.last]
  have hg0 : s.p.genesis = 0 ↔ hb.length = 0 := by
    constructor
    · intro h0
      by_cases hl : hb.length = 0
      · exact hl
      · have := h.gen.range (by omega); omega
    · intro h0; exact (h.gen.empty h0).1
  refine ⟨h.cats, ?_, chainOk_append h.chain hp, ?_, ?_, ?_, ?_, ?_, ?_⟩
  · constructor
    · intro b' hb'
      rcases List.mem_append.1 hb' with hb' | hb'
      · exact h.hist.1 b' hb'
      · simp at hb'; subst hb'; exact hu
    · intro b' hb'
      rcases List.mem_append.1 hb' with hb' | hb'
      · exact h.hist.2 b' hb'
      · simp at hb'; subst hb'; exact latestOps_known ho
  · simpa using hsz
  · show s.p.last + 1 = _
    rw [h.last]; simp
  · refine ⟨?_, ?_, ?_⟩
    · intro h0; simp at h0
    · intro _
      show 1 ≤ (setBlockId _ _).genesis ∧ (setBlockId _ _).genesis ≤ _
      rw [hg]
      by_cases h0 : s.p.genesis = 0
      · rw [if_pos h0]; simp
      · rw [if_neg h0]
        have := h.gen.range (by omega)
        simp; omega
    · intro _
      show s.d.genesis = some (setBlockId _ _).genesis ∨ (s.d.genesis = none ∧ (setBlockId _ _).genesis = 1)
      rw [hg]
      by_cases h0 : s.p.genesis = 0
      · rw [if_pos h0]
        have := hg0.1 h0
        exact Or.inr ⟨(h.gen.empty this).2, by omega⟩
      · rw [if_neg h0]
        exact h.gen.stored (by omega)
  · refine ⟨?_, ?_, ?_, ?_⟩
    · intro i hi
      show (s.d.blocks.put (s.p.last + 1) b).get i = none
      rw [BMap.get_put, if_neg (by rw [h.last]; simp at hi; omega)]
      exact h.blocks.above i (by simp at hi; omega)
    · show (s.d.blocks.put (s.p.last + 1) b).get 0 = none
      rw [BMap.get_put, if_neg (by omega)]
      exact h.blocks.zero
    · intro i b' hgi hi
      show (s.d.blocks.put (s.p.last + 1) b).get (i + 1) = some b'
      rw [BMap.get_put, h.last]
      have hgi : (setBlockId { s.p with future := some (H (hb.length + 1) b) } (s.p.last + 1)).genesis ≤ i + 1 := hgi
      rw [hg] at hgi
      by_cases he : i = hb.length
      · subst he
        rw [if_pos rfl]
        simp at hi
        rw [hi]
      · rw [if_neg (by omega)]
        have hlt : i < (hb ++ [b]).length := by
          rcases Nat.lt_or_ge i (hb ++ [b]).length with h | h
          · exact h
          · rw [List.getElem?_eq_none h] at hi; cases hi
        have hlt2 : i < hb.length := by simp at hlt; omega
        rw [List.getElem?_append_left hlt2] at hi
        rw [if_neg (by rw [hg0]; omega)] at hgi
        exact h.blocks.kept i b' hgi hi
    · intro i b' hi
      have hi : (s.d.blocks.put (s.p.last + 1) b).get (i + 1) = some b' := hi
      rw [BMap.get_put, h.last] at hi
      by_cases he : i = hb.length
      · subst he
        rw [if_pos rfl] at hi
        cases hi
        simp
      · rw [if_neg (by omega)] at hi
        have := h.blocks.leaked i b' hi
        have hlt : i < hb.length := by
          rcases Nat.lt_or_ge i hb.length with h | h
          · exact h
          · rw [List.getElem?_eq_none h] at this; cases this
        rw [List.getElem?_append_left hlt]
        exact this
  · show KvOk s.d.cats (hb ++ [b]) _ (setBlockId _ _).genesis (applyKv s.d.kv ops)
    rw [hg]
    have := h.kv.add h.cats hu ho
    have hl : (hb ++ [b]).length = hb.length + 1 := by simp
    rw [hl]
    refine this.mono ?_
    split <;> omega
  · intro x hx
    have hx : some (H (hb.length + 1) b) = some x := hx
    cases hx
    have hl : (hb ++ [b]).length = hb.length + 1 := by simp
    rw [hl, digestOf_succ]
    simp

/-- changes of the process and the disk the invariant does not look at -/
theorem Inv.frame {hb : List Block} {s s' : Sys} (h : Inv H hb s) (hc : s'.d.cats = s.d.cats)
    (hb' : s'.d.blocks = s.d.blocks) (hk : s'.d.kv = s.d.kv) (hg : s'.d.genesis = s.d.genesis)
    (hl : s'.p.last = s.p.last) (hgp : s'.p.genesis = s.p.genesis) (hf : s'.p.future = s.p.future) : Inv H hb s' := by
  refine ⟨?_, ?_, h.chain, h.size, ?_, ?_, ?_, ?_, ?_⟩
  · rw [hc]; exact h.cats
  · rw [hc]; exact h.hist
  · rw [hl]; exact h.last
  · rw [hgp, hg]; exact h.gen
  · rw [hgp, hb']; exact h.blocks
  · rw [hc, hgp, hk]; exact h.kv
  · rw [hf]; exact h.future

/-- `onNewBFTSequenceNumber` only touches the snapshot -/
theorem onNew_shape (s : Sys) (u : Updates) :
    (onNew s u).2 = s ∨ ∃ st, (onNew s u).2 =
      ⟨{ s.d with snap := some ⟨s.d.kv, st⟩ }, { s.p with held := true }⟩ := by
  unfold onNew
  cases seqNumOf u with
  | error e => exact Or.inl rfl
  | ok n =>
    dsimp only
    by_cases h0 : n = 0
    · rw [if_pos h0]; exact Or.inl rfl
    · rw [if_neg h0]
      cases s.p.lastSn with
      | some l =>
        dsimp only
        by_cases h1 : l = n
        · rw [if_pos h1]; exact Or.inl rfl
        · rw [if_neg h1]
          by_cases h2 : n < l
          · rw [if_pos h2]; exact Or.inl rfl
          · rw [if_neg h2]; exact Or.inr ⟨l, rfl⟩
      | none =>
        dsimp only
        by_cases h1 : s.d.snap.isSome
        · rw [if_pos h1]; exact Or.inl rfl
        · rw [if_neg h1]; exact Or.inr ⟨0, rfl⟩

theorem Inv.onNew {hb : List Block} {s : Sys} (h : Inv H hb s) (u : Updates) : Inv H hb (onNew s u).2 := by
  rcases onNew_shape s u with he | ⟨st, he⟩
  · rw [he]; exact h
  · rw [he]; exact h.frame rfl rfl rfl rfl rfl rfl rfl

theorem Inv.setSn {hb : List Block} {s : Sys} (h : Inv H hb s) (n : Nat) : Inv H hb { s with p := setSn s.p n } := by
  unfold V4.setSn
  split
  · exact h
  · exact h.frame rfl rfl rfl rfl rfl rfl rfl

theorem mem_upsert {β : Type} {l : List (Str × β)} {k : Str} {v : β} {e : Str × β} (h : e ∈ upsert l k v) :
    e = (k, v) ∨ e ∈ l := by
  unfold upsert at h
  rcases List.mem_cons.1 h with h | h
  · exact Or.inl h
  · exact Or.inr (List.mem_filter.1 h).1

theorem nodup_upsert {β : Type} {l : List (Str × β)} (hn : (l.map (·.1)).Nodup) (k : Str) (v : β) :
    ((upsert l k v).map (·.1)).Nodup := by
  unfold upsert
  rw [List.map_cons, List.nodup_cons]
  constructor
  · intro hm
    obtain ⟨e, he, hk⟩ := List.mem_map.1 hm
    have := (List.mem_filter.1 he).2
    simp [hk] at this
  · exact List.Nodup.sublist (List.Sublist.map _ List.filter_sublist) hn

/-- the updates of a new block: those given and the genesis key of the internal category -/
theorem addGenesisKey_ok {cats : Cats} {u u' : Updates} {g : Nat} (hu : UpdOk cats u)
    (hint : ∀ t p, cats.get internalCat = some (t, p) → t = .versioned) (h : addGenesisKey g u = .ok u') :
    UpdOk cats u' := by
  have build : ∀ kv dels, (kv.map (·.1)).Nodup → UpdOk cats (upsert u internalCat (.versioned kv dels)) := by
    intro kv dels hkv
    refine ⟨nodup_upsert hu.nodup _ _, ?_, ?_⟩
    · intro c i hm
      rcases mem_upsert hm with he | hm
      · cases he; exact hkv
      · exact hu.keys c i hm
    · intro c i t p hm hc
      rcases mem_upsert hm with he | hm
      · cases he; exact hint t p hc
      · exact hu.typed c i t p hm hc
  unfold addGenesisKey at h
  cases hl : lookup u internalCat with
  | none =>
    rw [hl] at h
    cases h
    exact build _ _ (by simp)
  | some i =>
    rw [hl] at h
    cases i with
    | merkle kv d => cases h
    | immutable kv => cases h
    | versioned kv d =>
      cases h
      exact build _ _ (nodup_upsert (hu.keys _ _ (lookup_some_mem hl)) _ _)

/-- **Adding a block** appends it to the history: the updates given, the genesis key, and the digest of the block
before. -/
theorem Inv.add {hb : List Block} {s : Sys} (h : Inv H hb s) {u : Updates} (hu : UpdOk s.d.cats u)
    (hint : ∀ t p, s.d.cats.get internalCat = some (t, p) → t = .versioned) (hsz : hb.length + 1 < 2 ^ 64)
    {id : Nat} {s' : Sys} (ha : add H s u = (.ok id, s')) :
    ∃ u', addGenesisKey s.p.genesis u = .ok u' ∧ id = hb.length + 1 ∧
      Inv H (hb ++ [⟨digestOf H hb hb.length, u'⟩]) s' := by
  have h1 := h.onNew u
  unfold V4.add at ha
  cases ho : V4.onNew s u with
  | mk rsn s1 =>
    rw [ho] at h1 ha
    dsimp only at h1 ha
    have hcats : s1.d.cats = s.d.cats := by
      rcases onNew_shape s u with he | ⟨st, he⟩
      · rw [ho] at he; dsimp only at he; rw [he]
      · rw [ho] at he; dsimp only at he; rw [he]
    cases hk : addGenesisKey s.p.genesis u with
    | error e => rw [hk] at ha; cases ha
    | ok u' =>
      rw [hk] at ha
      dsimp only at ha
      cases hm : V4.mkBatch H s1 u' with
      | mk r s2 =>
        rw [hm] at ha
        cases r with
        | error e => cases ha
        | ok x =>
          obtain ⟨b, ops⟩ := x
          dsimp only at ha
          cases rsn with
          | error e => cases ha
          | ok sn =>
            dsimp only at ha
            obtain ⟨hbq, hops, hs2⟩ := h1.mkBatch hm
            have hu' : UpdOk s1.d.cats u' := by
              rw [hcats]
              exact addGenesisKey_ok hu hint hk
            have hw := h1.writeBlock (delSt := false) (b := b) (ops := ops) (by rw [hbq]) (by rw [hbq]; exact hu')
              (by rw [hbq]; exact hops) hsz
            rw [← hs2] at hw
            cases ha
            refine ⟨u', rfl, ?_, ?_⟩
            · have := hw.last
              rw [this]; simp
            · have := hw.setSn sn
              rw [hbq] at this ⊢
              exact this

/-! ### Pruning -/

theorem Inv.deleteBlocksUntil {hb : List Block} {s : Sys} (h : Inv H hb s) {n : Nat} {files : Option (Nat → Bool)}
    {r : R Nat} {s' : Sys} (hd : deleteBlocksUntil s n files = (r, s')) : Inv H hb s' := by
  unfold V4.deleteBlocksUntil at hd
  by_cases h0 : s.p.genesis = 0
  · rw [if_pos h0] at hd; cases hd; exact h
  · rw [if_neg h0] at hd
    by_cases h1 : ¬ s.p.genesis < n
    · rw [if_pos h1] at hd; cases hd; exact h
    · rw [if_neg h1] at hd
      by_cases h2 : s.p.last = s.p.genesis
      · rw [if_pos h2] at hd; cases hd; exact h
      · rw [if_neg h2] at hd
        cases hd
        have hn0 : 0 < hb.length := by
          by_cases hz : hb.length = 0
          · exact absurd (h.gen.empty hz).1 h0
          · omega
        have hr := h.gen.range hn0
        have hlast := h.last
        have hle : s.p.genesis ≤ min (s.p.last - 1) (n - 1) := by omega
        refine ⟨h.cats, h.hist, h.chain, h.size, h.last, ?_, ?_, h.kv.mono (show s.p.genesis ≤ min (s.p.last - 1) (n - 1) + 1 by omega), h.future⟩
        · refine ⟨by omega, ?_, ?_⟩
          · intro _
            show 1 ≤ min (s.p.last - 1) (n - 1) + 1 ∧ min (s.p.last - 1) (n - 1) + 1 ≤ hb.length
            omega
          · intro _; exact Or.inl rfl
        · refine ⟨?_, ?_, ?_, ?_⟩
          · intro i hi
            show (s.d.blocks.delRange _ _ _).get i = none
            rw [BMap.get_delRange]
            split
            · rfl
            · exact h.blocks.above i hi
          · show (s.d.blocks.delRange _ _ _).get 0 = none
            rw [BMap.get_delRange]
            split
            · rfl
            · exact h.blocks.zero
          · intro i b hi hb'
            have hi : min (s.p.last - 1) (n - 1) + 1 ≤ i + 1 := hi
            show (s.d.blocks.delRange _ _ _).get (i + 1) = _
            rw [BMap.get_delRange, if_neg (by omega)]
            exact h.blocks.kept i b (by omega) hb'
          · intro i b hi
            have hi : (s.d.blocks.delRange _ _ _).get (i + 1) = _ := hi
            rw [BMap.get_delRange] at hi
            split at hi
            · cases hi
            · exact h.blocks.leaked i b hi

theorem Inv.deleteGenesis {hb : List Block} {s : Sys} (h : Inv H hb s) : Inv H hb (deleteGenesis s).2 := by
  unfold V4.deleteGenesis
  by_cases h0 : s.p.genesis = 0
  · rw [if_pos h0]; exact h
  · rw [if_neg h0]
    by_cases h1 : ¬ s.p.genesis < s.p.last
    · rw [if_pos h1]; exact h
    · rw [if_neg h1]
      have hlast := h.last
      refine ⟨h.cats, h.hist, h.chain, h.size, h.last, ?_, ?_, h.kv.mono (Nat.le_succ _), h.future⟩
      · refine ⟨by omega, ?_, ?_⟩
        · intro _
          show 1 ≤ s.p.genesis + 1 ∧ s.p.genesis + 1 ≤ hb.length
          omega
        · intro _; exact Or.inl rfl
      · refine ⟨?_, ?_, ?_, ?_⟩
        · intro i hi
          show (s.d.blocks.del _).get i = none
          rw [BMap.get_del]
          split
          · rfl
          · exact h.blocks.above i hi
        · show (s.d.blocks.del _).get 0 = none
          rw [BMap.get_del]
          split
          · rfl
          · exact h.blocks.zero
        · intro i b hi hb'
          have hi : s.p.genesis + 1 ≤ i + 1 := hi
          show (s.d.blocks.del _).get (i + 1) = _
          rw [BMap.get_del, if_neg (by omega)]
          exact h.blocks.kept i b (by omega) hb'
        · intro i b hi
          have hi : (s.d.blocks.del _).get (i + 1) = _ := hi
          rw [BMap.get_del] at hi
          split at hi
          · cases hi
          · exact h.blocks.leaked i b hi

/-! ### Compaction -/

theorem encE_ver (t : CatType) (e : Entry) (h : e.ver < 2 ^ 64) :
    unbe64 ((encE t e).drop ((encE t e).length - 8)) = e.ver := by
  unfold encE encEntry
  cases t <;> (dsimp only; rw [encVal_ver, unbe64_be64 _ h])

/-- the filter drops only stale entries of pruned blocks -/
theorem filterOut_entry {t : CatType} {e : Entry} {g : Nat} (hv : e.ver < 2 ^ 64) (hi : t = .immutable → e.stale = true)
    (h : filterOut g (encE t e) = true) : e.stale = true ∧ e.ver < g := by
  unfold encE encEntry at h
  cases t with
  | merkle =>
    dsimp only at h
    rw [filterOut_enc _ _ _ _ hv] at h
    simpa using h
  | versioned =>
    dsimp only at h
    rw [filterOut_enc _ _ _ _ hv] at h
    simpa using h
  | immutable =>
    dsimp only at h
    rw [filterOut_enc _ _ _ _ hv] at h
    have : e.ver < g := by simpa using h
    exact ⟨hi rfl, this⟩

/-- the entries of the history of an immutable category are stale -/
theorem latestAt_immut {cats : Cats} {hb : List Block} (hh : HistOk cats hb) {cat key : Str} {p : UInt8}
    (hc : cats.get cat = some (.immutable, p)) {n : Nat} {e : Entry} (h : latestAt hb cat key n = some e) :
    e.stale = true := by
  obtain ⟨_, _, b, hb', ht⟩ := latestAt_ver h
  exact touch_immut (hh.1 b (List.mem_of_getElem? hb')) hc ht

/-- a map from which stale entries of pruned blocks were dropped -/
theorem KvOk.drop {cats : Cats} {hb : List Block} (hh : HistOk cats hb) {n g : Nat} (hn : n < 2 ^ 64) {kv kv' : Kv}
    (h : KvOk cats hb n g kv)
    (hd : ∀ f k, kv' f k = kv f k ∨ (kv' f k = none ∧ ∃ v, kv f k = some v ∧ filterOut g v = true)) :
    KvOk cats hb n g kv' := by
  intro cat t p hc key
  have h1 := h cat t p hc key
  have h2 := hd (famOf t) (p :: key)
  cases hl : latestAt hb cat key n with
  | none =>
    rw [hl] at h1
    dsimp only at h1 ⊢
    rcases h2 with h2 | ⟨h2, _⟩
    · rw [h2]; exact h1
    · exact h2
  | some e =>
    rw [hl] at h1
    dsimp only at h1 ⊢
    rcases h2 with h2 | ⟨h2, v, hv, hf⟩
    · rw [h2]; exact h1
    · rcases h1 with h1 | ⟨_, _, h1⟩
      · rw [h1] at hv
        cases hv
        obtain ⟨_, hle, _⟩ := latestAt_ver hl
        obtain ⟨hs, hlt⟩ := filterOut_entry (by omega)
          (fun ht => by subst ht; exact latestAt_immut hh hc hl) hf
        exact Or.inr ⟨hs, hlt, h2⟩
      · rw [h1] at hv; cases hv

theorem compact_drop (s : Sys) (sel : Fam → Str → Bool) (f : Fam) (k : Str) :
    (compact s sel).d.kv f k = s.d.kv f k ∨
      ((compact s sel).d.kv f k = none ∧ ∃ v, s.d.kv f k = some v ∧ filterOut s.p.genesis v = true) := by
  show (match s.d.kv f k with
      | some v => if sel f k && filterOut s.p.genesis v then none else some v
      | none => none) = _ ∨ ((match s.d.kv f k with
      | some v => if sel f k && filterOut s.p.genesis v then none else some v
      | none => none) = none ∧ _)
  cases s.d.kv f k with
  | none => exact Or.inl rfl
  | some v =>
    dsimp only
    by_cases hf : (sel f k && filterOut s.p.genesis v) = true
    · rw [if_pos hf]
      rw [Bool.and_eq_true] at hf
      exact Or.inr ⟨rfl, v, rfl, hf.2⟩
    · rw [if_neg hf]; exact Or.inl rfl

theorem Inv.compact {hb : List Block} {s : Sys} (h : Inv H hb s) (sel : Fam → Str → Bool) : Inv H hb (compact s sel) :=
  ⟨h.cats, h.hist, h.chain, h.size, h.last, h.gen, h.blocks, h.kv.drop h.hist h.size (compact_drop s sel), h.future⟩

/-! ### Restart -/

theorem openProc_eq {d : Disk} {hb : List Block} {g : Nat} (hg : GenOk hb.length g d.genesis)
    (hbk : BlocksOk hb g d.blocks) : openProc d = .ok { last := hb.length, genesis := g, stLast := d.st.maxKey } := by
  have hmax : d.blocks.maxKey = hb.length := by
    refine BMap.maxKey_eq _ _ hbk.above ?_
    intro h0
    have hlt : hb.length - 1 < hb.length := by omega
    have hk := hbk.kept (hb.length - 1) _ (by have := hg.range (by omega); omega) (List.getElem?_eq_getElem hlt)
    have e : hb.length - 1 + 1 = hb.length := by omega
    rw [e] at hk
    rw [hk]
    rfl
  unfold openProc
  rw [hmax]
  dsimp only
  by_cases h0 : hb.length = 0
  · obtain ⟨h1, h2⟩ := hg.empty h0
    rw [h2]
    dsimp only
    have hm : d.blocks.minKey = none := by
      apply BMap.minKey_none
      intro i
      cases i with
      | zero => exact hbk.zero
      | succ i => exact hbk.above _ (by omega)
    rw [hm, h0, h1]
  · have hr := hg.range (by omega)
    rcases hg.stored (by omega) with hs | ⟨hs, h1⟩
    · rw [hs]
      dsimp only
      rw [if_pos (by omega)]
    · rw [hs]
      dsimp only
      have hlt : 0 < hb.length := by omega
      have hk := hbk.kept 0 _ (by omega) (List.getElem?_eq_getElem hlt)
      have hm := BMap.minKey_eq_one d.blocks (by rw [show (1 : Nat) = 0 + 1 by rfl, hk]; rfl)
      rw [hm]
      dsimp only
      rw [if_pos (by omega), h1]

/-- **Restart**: whatever the process remembered, a new one sees the same history -/
theorem Inv.reopen {hb : List Block} {s : Sys} (h : Inv H hb s) :
    ∃ p, openProc s.d = .ok p ∧ p.stLast = s.d.st.maxKey ∧ p.lastSn = none ∧ p.held = false ∧
      Inv H hb ⟨s.d, p⟩ := by
  refine ⟨_, openProc_eq h.gen h.blocks, rfl, rfl, rfl, ?_⟩
  exact ⟨h.cats, h.hist, h.chain, h.size, rfl, h.gen, h.blocks, h.kv, by intro x hx; cases hx⟩

end
end Verif.V4
