import Verif.Rp.Install
set_option linter.unusedVariables false
set_option linter.unusedSimpArgs false
/-!
# Serving pages (C41)
-/
namespace Verif.Rp
open Verif.Bytes Verif.St

variable {c : Cfg}

theorem updated_spec {m : Mem} {k known : Nat} {sn : Snap} (hk : k ≤ m.last) (hi : Inc pageLt m.pages) (hrel : ∀ p, (store m.pages).rel p k = (sn p).map (full c p)) (hwf : Snap.Wf c k sn) : ∀ ps : List Nat,
    updated m k known ps = .ok (ps.filter (fun p => (Snap.newer sn known p).isSome)) := by
  intro ps
  induction ps with
  | nil => rfl
  | cons p ps ih =>
    rw [updated, getResPage_eq hi p k hk, hrel]
    simp only [bind, R.bind]
    rw [List.filter_cons]
    cases hs : sn p with
    | none =>
      have hnw : Snap.newer sn known p = none := by unfold Snap.newer; rw [hs]
      simp only [Option.map_none]
      rw [ih, if_neg (by rw [hnw]; simp)]
    | some x =>
      have hnw : Snap.newer sn known p = if known < x.1 then some (p, x) else none := by unfold Snap.newer; rw [hs]
      have := hwf p x.1 x.2 hs
      simp only [Option.map_some, full]
      rw [require, if_pos this.2.2.1]
      simp only
      rw [ih]
      simp only
      by_cases h : known < x.1
      · rw [if_pos h] at hnw ⊢
        rw [if_pos (by rw [hnw]; rfl)]
      · rw [if_neg h] at hnw ⊢
        rw [if_neg (by rw [hnw]; simp)]

theorem elements_spec {m : Mem} {k known : Nat} {sn : Snap} (ok : CfgOk c) (hk : k ≤ m.last) (hi : Inc pageLt m.pages) (hrel : ∀ p, (store m.pages).rel p k = (sn p).map (full c p)) (hwf : Snap.Wf c k sn) : ∀ ps : List Nat,
    (∀ p ∈ ps, (Snap.newer sn known p).isSome = true) → elements c m k known ps = .ok ((ps.filterMap (Snap.newer sn known)).map (wire c)).flatten := by
  intro ps
  induction ps with
  | nil => intro _; rfl
  | cons p ps ih =>
    intro hps
    have hp := hps p List.mem_cons_self
    rw [elements, ih (fun q hq => hps q (List.mem_cons_of_mem _ hq)), List.filterMap_cons]
    unfold Snap.newer at hp
    cases hs : sn p with
    | none => rw [hs] at hp; cases hp
    | some x =>
      rw [hs] at hp
      have hw := hwf p x.1 x.2 hs
      have hkn : known < x.1 := by
        by_cases h : known < x.1
        · exact h
        · simp [if_neg h] at hp
      have hnew : Snap.newer sn known p = some (p, x) := by
        unfold Snap.newer
        rw [hs]
        simp only
        rw [if_pos hkn]
      rw [hnew]
      simp only
      have he : element c m k known p = .ok (wire c (p, x)) := by
        unfold element
        rw [getResPage_eq hi p k hk, hrel, hs]
        simp only [bind, R.bind, Option.map_some, full]
        rw [require, if_pos hw.2.2.1]
        simp only
        rw [require, if_pos hkn]
        simp only
        rw [require, if_pos (ok.pageNz _ _ _)]
        simp only
        rw [List.take_of_length_le (by omega)]
        rfl
      rw [he]
      simp only [bind, R.bind]
      rw [List.map_cons, List.flatten_cons]

theorem filterMap_filter_isSome {α β : Type} (f : α → Option β) (l : List α) : (l.filter (fun x => (f x).isSome)).filterMap f = l.filterMap f ∧ (l.filter (fun x => (f x).isSome)).length = (l.filterMap f).length := by
  induction l with
  | nil => exact ⟨rfl, rfl⟩
  | cons a l ih =>
    rw [List.filter_cons, List.filterMap_cons]
    cases h : f a with
    | none => rw [if_neg (by simp)]; exact ih
    | some b =>
      rw [if_pos (by rfl), List.filterMap_cons, h]
      simp only [List.length_cons]
      exact ⟨by rw [ih.1], by rw [ih.2]⟩

theorem createV_eq (ok : CfgOk c) {m : Mem} {k known : Nat} {sn : Snap} (hk : k ≤ m.last) (hi : Inc pageLt m.pages) (hrel : ∀ p, (store m.pages).rel p k = (sn p).map (full c p)) (hwf : Snap.Wf c k sn) :
    createV c m k known = .ok (Snap.block c sn known) := by
  unfold createV
  rw [updated_spec hk hi hrel hwf]
  simp only [bind, R.bind]
  rw [elements_spec ok hk hi hrel hwf _ (fun p hp => by have := (List.mem_filter.1 hp).2; exact this)]
  simp only
  obtain ⟨e1, e2⟩ := filterMap_filter_isSome (Snap.newer sn known) (List.range c.pages)
  rw [e1, e2]
  rfl

/-! ## The block on the wire -/

/-- a page as an element -/
def toElem (c : Cfg) (x : Nat × Nat × Bytes) : Elem := ⟨x.1, x.2.1, c.pageH x.1 x.2.1 x.2.2, x.2.2⟩

theorem wire_length (ok : CfgOk c) {x : Nat × Nat × Bytes} (h : x.2.2.length = c.pageSize) : (wire c x).length = 44 + c.pageSize := by
  unfold wire
  simp only [List.length_append, leEncode_length, ok.pageLen, h]
  omega

theorem flatten_length {w : Nat} {l : List Bytes} (h : ∀ x ∈ l, x.length = w) : l.flatten.length = l.length * w := by
  induction l with
  | nil => simp
  | cons x l ih =>
    rw [List.flatten_cons, List.length_append, ih (fun y hy => h y (List.mem_cons_of_mem _ hy)), h x List.mem_cons_self, List.length_cons, Nat.add_mul]
    omega

/-- from item `i` on -/
theorem flatten_drop {w : Nat} : ∀ {l : List Bytes} {i : Nat} {x : Bytes}, (∀ x ∈ l, x.length = w) → l[i]? = some x → l.flatten.drop (i * w) = x ++ (l.drop (i + 1)).flatten := by
  intro l
  induction l with
  | nil => intro i x _ h; simp at h
  | cons y l ih =>
    intro i x hl hx
    have hy := hl y List.mem_cons_self
    cases i with
    | zero =>
      simp only [List.getElem?_cons_zero, Option.some.injEq] at hx
      rw [hx, Nat.zero_mul]
      rfl
    | succ i =>
      rw [List.getElem?_cons_succ] at hx
      rw [List.flatten_cons, Nat.add_mul, Nat.one_mul, Nat.add_comm, ← List.drop_drop, ← hy, List.drop_left, hy]
      rw [ih (fun z hz => hl z (List.mem_cons_of_mem _ hz)) hx]
      rfl

theorem elem_block (ok : CfgOk c) {h l : Bytes} {xs : List (Nat × Nat × Bytes)} (hh : h.length = 12) (hxs : ∀ x ∈ xs, x.1 < 2 ^ 32 ∧ x.2.1 < 2 ^ 64 ∧ x.2.2.length = c.pageSize) {i : Nat} {x : Nat × Nat × Bytes} (hx : xs[i]? = some x) :
    elem c.pageSize (h ++ (xs.map (wire c)).flatten) i = toElem c x := by
  have hin := hxs x (List.mem_of_getElem? hx)
  have hw : ∀ y ∈ xs.map (wire c), y.length = 44 + c.pageSize := by
    intro y hy
    obtain ⟨z, hz, rfl⟩ := List.mem_map.1 hy
    exact wire_length ok (hxs z hz).2.2
  have hd : (h ++ (xs.map (wire c)).flatten).drop (12 + i * (44 + c.pageSize)) = wire c x ++ ((xs.map (wire c)).drop (i + 1)).flatten := by
    rw [← List.drop_drop, ← hh, List.drop_left]
    exact flatten_drop hw (by rw [List.getElem?_map, hx]; rfl)
  generalize ((xs.map (wire c)).drop (i + 1)).flatten = rest at hd
  unfold elem toElem
  simp only
  have h1 : ∀ n, (h ++ (xs.map (wire c)).flatten).drop (12 + i * (44 + c.pageSize) + n) = (wire c x ++ rest).drop n := by
    intro n
    rw [← List.drop_drop, hd]
  rw [h1 4, h1 12, h1 44, hd]
  unfold wire
  have l4 : (leEncode 4 x.1).length = 4 := leEncode_length _ _
  have l8 : (leEncode 8 x.2.1).length = 8 := leEncode_length _ _
  have l32 := ok.pageLen x.1 x.2.1 x.2.2
  have e1 : ((leEncode 4 x.1 ++ (leEncode 8 x.2.1 ++ (c.pageH x.1 x.2.1 x.2.2 ++ x.2.2)) ++ rest).take 4) = leEncode 4 x.1 := by
    rw [List.append_assoc, List.take_append_of_le_length (by omega), List.take_of_length_le (by omega)]
  have e2 : ((leEncode 4 x.1 ++ (leEncode 8 x.2.1 ++ (c.pageH x.1 x.2.1 x.2.2 ++ x.2.2)) ++ rest).drop 4) = leEncode 8 x.2.1 ++ (c.pageH x.1 x.2.1 x.2.2 ++ (x.2.2 ++ rest)) := by
    simp only [List.append_assoc]
    exact List.drop_left' l4
  have e3 : ((leEncode 4 x.1 ++ (leEncode 8 x.2.1 ++ (c.pageH x.1 x.2.1 x.2.2 ++ x.2.2)) ++ rest).drop 12) = c.pageH x.1 x.2.1 x.2.2 ++ (x.2.2 ++ rest) := by
    rw [show 12 = 4 + 8 from rfl, ← List.drop_drop, e2]
    exact List.drop_left' l8
  have e4 : ((leEncode 4 x.1 ++ (leEncode 8 x.2.1 ++ (c.pageH x.1 x.2.1 x.2.2 ++ x.2.2)) ++ rest).drop 44) = x.2.2 ++ rest := by
    rw [show 44 = 12 + 32 from rfl, ← List.drop_drop, e3]
    exact List.drop_left' l32
  rw [e1, e2, e3, e4]
  rw [List.take_left' l8, List.take_left' l32, List.take_left' hin.2.2, leDecode_leEncode _ _ (by omega), leDecode_leEncode _ _ (by omega)]

/-- every block is understood: its elements are the newer pages -/
theorem elemsOk_of (ok : CfgOk c) {known : Nat} : ∀ (xs : List (Nat × Nat × Bytes)) (l : Option Nat), xs.Pairwise (fun a b => a.1 < b.1) → (∀ x ∈ xs, known ≤ x.2.1) → (∀ p, l = some p → ∀ x ∈ xs, p < x.1) →
    elemsOk known l (xs.map (toElem c)) = true := by
  intro xs
  induction xs with
  | nil => intro l _ _ _; rfl
  | cons x xs ih =>
    intro l hp hk hl
    rw [List.pairwise_cons] at hp
    rw [List.map_cons]
    unfold elemsOk
    rw [Bool.and_eq_true, Bool.and_eq_true, Bool.and_eq_true]
    refine ⟨⟨⟨?_, ?_⟩, ?_⟩, ?_⟩
    · rw [decide_eq_true_eq]; exact hk x List.mem_cons_self
    · exact bne_iff_ne.2 (ok.pageNz _ _ _)
    · cases l with
      | none => rfl
      | some p =>
        rw [decide_eq_true_eq]
        exact hl p rfl x List.mem_cons_self
    · exact ih (some x.1) hp.2 (fun y hy => hk y (List.mem_cons_of_mem _ hy)) (fun p e y hy => by cases e; exact hp.1 y hy)

theorem since_mem {sn : Snap} {known : Nat} {x : Nat × Nat × Bytes} : x ∈ Snap.since c sn known ↔ x.1 < c.pages ∧ sn x.1 = some x.2 ∧ known < x.2.1 := by
  unfold Snap.since
  rw [List.mem_filterMap]
  constructor
  · rintro ⟨p, hp, hx⟩
    unfold Snap.newer at hx
    cases hs : sn p with
    | none => rw [hs] at hx; cases hx
    | some y =>
      rw [hs] at hx
      simp only at hx
      split at hx
      · rename_i hk
        injection hx with hx
        subst hx
        exact ⟨List.mem_range.1 hp, hs, hk⟩
      · cases hx
  · rintro ⟨h1, h2, h3⟩
    refine ⟨x.1, List.mem_range.2 h1, ?_⟩
    unfold Snap.newer
    rw [h2]
    simp only
    rw [if_pos h3]

theorem since_sorted {sn : Snap} {known : Nat} : (Snap.since c sn known).Pairwise (fun a b => a.1 < b.1) := by
  unfold Snap.since
  rw [List.pairwise_filterMap]
  refine List.Pairwise.imp (fun {a b} hab x hx y hy => ?_) List.pairwise_lt_range
  have e1 : x.1 = a := by
    unfold Snap.newer at hx
    cases hs : sn a with
    | none => rw [hs] at hx; cases hx
    | some z =>
      rw [hs] at hx
      simp only at hx
      split at hx
      · injection hx with hx; rw [← hx]
      · cases hx
  have e2 : y.1 = b := by
    unfold Snap.newer at hy
    cases hs : sn b with
    | none => rw [hs] at hy; cases hy
    | some z =>
      rw [hs] at hy
      simp only at hy
      split at hy
      · injection hy with hy; rw [← hy]
      · cases hy
  omega

theorem since_length (sn : Snap) (known : Nat) : (Snap.since c sn known).length ≤ c.pages := by
  unfold Snap.since
  have := List.length_filterMap_le (Snap.newer sn known) (List.range c.pages)
  rwa [List.length_range] at this

theorem parse_block (ok : CfgOk c) {k : Nat} {sn : Snap} (hwf : Snap.Wf c k sn) (hk : k < 2 ^ 64) {known : Nat} (hkn : known < 2 ^ 64) :
    parseV c.pageSize (Snap.block c sn known) = some ((Snap.since c sn known).map (toElem c), known) := by
  have hxs : ∀ x ∈ Snap.since c sn known, x.1 < 2 ^ 32 ∧ x.2.1 < 2 ^ 64 ∧ x.2.2.length = c.pageSize := by
    intro x hx
    obtain ⟨h1, h2, h3⟩ := since_mem.1 hx
    have := hwf x.1 x.2.1 x.2.2 h2
    have := ok.pages
    exact ⟨by omega, by omega, by omega⟩
  have hlen := since_length (c := c) sn known
  have hp := ok.pages
  have hso := since_sorted (c := c) (sn := sn) (known := known)
  have hkn2 : ∀ x ∈ Snap.since c sn known, known ≤ x.2.1 := fun x hx => Nat.le_of_lt (since_mem.1 hx).2.2
  unfold Snap.block
  generalize Snap.since c sn known = xs at *
  rw [← List.append_assoc]
  have hh : (leEncode 4 xs.length ++ leEncode 8 known).length = 12 := by rw [List.length_append, leEncode_length, leEncode_length]
  have hfl : ((xs.map (wire c)).flatten).length = xs.length * (44 + c.pageSize) := by
    rw [flatten_length (w := 44 + c.pageSize), List.length_map]
    intro y hy
    obtain ⟨z, hz, rfl⟩ := List.mem_map.1 hy
    exact wire_length ok (hxs z hz).2.2
  have hl : (leEncode 4 xs.length ++ leEncode 8 known ++ (xs.map (wire c)).flatten).length = 12 + xs.length * (44 + c.pageSize) := by
    rw [List.length_append, hh, hfl]
  unfold parseV
  have hsub : 12 + xs.length * (44 + c.pageSize) - 12 = xs.length * (44 + c.pageSize) := by omega
  rw [hl, if_neg (by omega), hsub, Nat.mul_mod_left, if_neg (by simp), Nat.mul_div_cancel _ (by omega)]
  have hes : (List.range xs.length).map (elem c.pageSize (leEncode 4 xs.length ++ leEncode 8 known ++ (xs.map (wire c)).flatten)) = xs.map (toElem c) := by
    refine List.ext_getElem? fun i => ?_
    rw [List.getElem?_map, List.getElem?_map]
    by_cases hi : i < xs.length
    · rw [List.getElem?_range hi, List.getElem?_eq_getElem hi, Option.map_some, Option.map_some]
      rw [elem_block ok (l := []) hh hxs (List.getElem?_eq_getElem hi)]
    · rw [List.getElem?_eq_none (by simp; omega), List.getElem?_eq_none (by omega)]
      rfl
  simp only
  rw [hes]
  have e1 : (leEncode 4 xs.length ++ leEncode 8 known ++ (xs.map (wire c)).flatten).take 4 = leEncode 4 xs.length := by
    rw [List.append_assoc]
    exact List.take_left' (leEncode_length _ _)
  have e2 : ((leEncode 4 xs.length ++ leEncode 8 known ++ (xs.map (wire c)).flatten).drop 4).take 8 = leEncode 8 known := by
    rw [List.append_assoc, List.drop_left' (leEncode_length _ _)]
    exact List.take_left' (leEncode_length _ _)
  rw [e1, e2, leDecode_leEncode _ _ (by omega), leDecode_leEncode _ _ (by omega), List.length_map, if_pos ⟨rfl, elemsOk_of ok xs none hso hkn2 (fun p e => by cases e)⟩]

/-! ## Answering -/

theorem vblock_ok (ok : CfgOk c) {s : S} {a : A} (h : Inv c s a) {k known : Nat} {sn : Snap × Info} (hs : a.snap k = some sn) (hf : s.mem.first ≤ k) :
    ∃ s', s.vblock c k known = .ok (Snap.block c sn.1 known, s') ∧ Inv c s' a := by
  have hm := h.m
  have hwf := hm.snapOk k sn hs
  unfold S.vblock
  cases hg : get (k, known) s.cache with
  | some v =>
    obtain ⟨x, h1, h2⟩ := h.cache _ (mem_of_get hg)
    simp only at h1 h2
    rw [hs] at h1
    cases h1
    rw [← h2]
    exact ⟨s, rfl, h⟩
  | none =>
    simp only
    rw [createV_eq ok (by rw [hm.last]; exact hwf.2.1) hm.pg.inc (hm.rel k sn hs hf).2 hwf.2.2]
    refine ⟨_, rfl, h.m, h.sync, h.first, h.last, h.fetching, fun e he => ?_⟩
    have he : e ∈ cacheSet s.cache (k, known) (Snap.block c sn.1 known) := he
    unfold cacheSet at he
    rcases mem_put' he with rfl | he
    · exact ⟨sn, hs, rfl⟩
    · refine h.cache e ?_
      split at he
      · exact List.mem_of_mem_drop he
      · exact he

theorem fetch_inv (ok : CfgOk c) {s : S} {a : A} (h : Inv c s a) {mc : Nat} {f : Fetch} {r : S × Answer} (hr : s.fetch c mc f = .ok r) (hk : f.required < 2 ^ 64) : Inv c r.1 a := by
  unfold S.fetch at hr
  split at hr
  · cases hr; exact h
  · split at hr
    · cases hr; exact h
    · rw [hasDesc_eq (fun hn => by rw [h.sync.desc _ hk, hn]; rfl)] at hr
      simp only [bind, R.bind] at hr
      cases hg : get f.required s.mem.descs with
      | none =>
        rw [hg, Option.isSome_none, if_neg (by simp)] at hr
        cases hr
        exact h
      | some d =>
        rw [hg, Option.isSome_some, if_pos rfl] at hr
        obtain ⟨_, _, a3, sn, a4, _⟩ := h.m.dOk _ _ hg
        obtain ⟨s', g1, g2⟩ := vblock_ok ok h (known := f.known) a4 a3
        have e0 : ({ s with mem := s.mem } : S) = s := rfl
        rw [e0, g1] at hr
        simp only at hr
        cases hq : (require ((parseV c.pageSize (Snap.block c sn.1 f.known)).isSome = true)) with
        | abort => rw [hq] at hr; cases hr
        | fault => rw [hq] at hr; cases hr
        | ok u =>
          rw [hq] at hr
          simp only at hr
          cases hq2 : sendV c mc f.seq (Snap.block c sn.1 f.known) f.lastKnown with
          | abort => rw [hq2] at hr; cases hr
          | fault => rw [hq2] at hr; cases hr
          | ok l => rw [hq2] at hr; cases hr; exact g2

end Verif.Rp
