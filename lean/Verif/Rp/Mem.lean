import Verif.Rp.Model
import Verif.St.Pages
import Verif.Util.ListLemmas
set_option linter.unusedVariables false
set_option linter.unusedSimpArgs false
/-!
# The maps in memory (C41)

The loops over the map of the pages compute what the store of C35 says.
-/
namespace Verif.Rp
open Verif.Bytes Verif.St

variable {c : Cfg}

/-- what is true of the pages: numbers of pages, of checkpoints up to `top`, and digests -/
structure PagesInv (c : Cfg) (m : Pages) (top : Nat) : Prop where
  inc : Inc pageLt m
  ok : ∀ e ∈ m, e.1.1 < c.pages ∧ 0 < e.1.2 ∧ e.1.2 ≤ top ∧ e.2.1 = c.pageH e.1.1 e.1.2 e.2.2 ∧ e.2.2.length = c.pageSize

theorem store_mem {m : Pages} (h : Inc pageLt m) {p k : Nat} {x : Bytes × Bytes} : store m p k = some x ↔ ((p, k), x) ∈ m := h.get_mem pageLt_strict

theorem PagesInv.store {m : Pages} {top : Nat} (h : PagesInv c m top) {p k : Nat} {x : Bytes × Bytes} (hx : store m p k = some x) :
    p < c.pages ∧ 0 < k ∧ k ≤ top ∧ x.1 = c.pageH p k x.2 ∧ x.2.length = c.pageSize := h.ok _ ((store_mem h.inc).1 hx)

theorem PagesInv.rel {m : Pages} {top : Nat} (h : PagesInv c m top) {p n k : Nat} {x : Bytes × Bytes} (hx : (Rp.store m).rel p n = some (k, x)) :
    Rp.store m p k = some x ∧ k ≤ n ∧ p < c.pages ∧ 0 < k ∧ k ≤ top ∧ x.1 = c.pageH p k x.2 ∧ x.2.length = c.pageSize := by
  rcases rel_cases (Rp.store m) p n with ⟨k', x', q1, q2, q3, q4⟩ | ⟨q1, q2⟩
  · rw [q4] at hx
    cases hx
    exact ⟨q2, q1, h.store q2⟩
  · rw [q2] at hx; cases hx

/-- the first entry of the page up to the checkpoint is the newest -/
theorem find_rel {m : Pages} (h : Inc pageLt m) (p k : Nat) :
    (m.find? (fun e => decide (e.1.1 = p ∧ e.1.2 ≤ k))).map (fun e => (e.1.2, e.2)) = (store m).rel p k := by
  cases hf : m.find? (fun e => decide (e.1.1 = p ∧ e.1.2 ≤ k)) with
  | none =>
    rw [List.find?_eq_none] at hf
    symm
    refine rel_none fun k' hk' => ?_
    cases hx : store m p k' with
    | none => rfl
    | some x =>
      have := hf _ ((store_mem h).1 hx)
      simp only [decide_eq_true_eq, true_and] at this
      exact absurd hk' this
  | some e =>
    rw [List.find?_eq_some_iff_append] at hf
    obtain ⟨he, as, bs, hm, hno⟩ := hf
    simp only [decide_eq_true_eq] at he
    obtain ⟨e1, e2⟩ := he
    have hin : ((p, e.1.2), e.2) ∈ m := by rw [hm, ← e1]; simp
    rw [Option.map_some]
    symm
    refine rel_some e2 ((store_mem h).2 hin) fun k' q1 q2 => ?_
    cases hx : store m p k' with
    | none => rfl
    | some x =>
      have hx := (store_mem h).1 hx
      rw [hm] at hx h
      rcases List.mem_append.1 hx with g | g
      · have := hno _ g
        simp [q2] at this
      · rcases List.mem_cons.1 g with g | g
        · have : k' = e.1.2 := by rw [← g]
          omega
        · have := List.pairwise_append.1 h
          have := (List.pairwise_cons.1 this.2.1).1 _ g
          rw [pageLt_iff] at this
          simp only at this
          omega

theorem getResPage_eq {m : Mem} (h : Inc pageLt m.pages) (p k : Nat) (hk : k ≤ m.last) : m.getResPage p k = .ok ((store m.pages).rel p k) := by
  have e0 : m.getResPage p k = (match lower pageLt (p, k) m.pages with
    | [] => R.ok none
    | e :: _ => if p < e.1.1 then .ok none else (do require (e.1.2 ≤ k); .ok (some (e.1.2, e.2)))) := by
    unfold Mem.getResPage
    rw [require, if_pos hk]; rfl
  rw [e0]
  have hl := fun x => mem_lower pageLt_strict h (k := (p, k)) (x := x)
  have hi := h.lower (p, k)
  cases hlo : lower pageLt (p, k) m.pages with
  | nil =>
    rw [hlo] at hl
    simp only
    rw [rel_none]
    intro k' hk'
    cases hx : store m.pages p k' with
    | none => rfl
    | some x =>
      have := (hl _).2 ⟨(store_mem h).1 hx, ?_⟩
      · cases this
      · cases hc : pageLt (p, k') (p, k) with
        | false => rfl
        | true => rw [pageLt_iff] at hc; simp only at hc; omega
  | cons e es =>
    rw [hlo] at hl hi
    obtain ⟨h1, h2⟩ := (hl e).1 List.mem_cons_self
    have hge : p < e.1.1 ∨ (e.1.1 = p ∧ e.1.2 ≤ k) := by
      have : ¬ pageLt e.1 (p, k) = true := by rw [h2]; simp
      rw [pageLt_iff] at this
      simp only at this
      omega
    simp only
    split
    · rename_i hp
      rw [rel_none]
      intro k' hk'
      cases hx : store m.pages p k' with
      | none => rfl
      | some x =>
        have := (hl _).2 ⟨(store_mem h).1 hx, ?_⟩
        · rcases List.mem_cons.1 this with g | g
          · rw [← g] at hp; simp at hp
          · have := (List.pairwise_cons.1 hi).1 _ g
            rw [pageLt_iff] at this
            simp only at this
            omega
        · cases hc : pageLt (p, k') (p, k) with
          | false => rfl
          | true => rw [pageLt_iff] at hc; simp only at hc; omega
    · rename_i hp
      have he : e.1.1 = p ∧ e.1.2 ≤ k := by omega
      rw [require, if_pos he.2]
      show R.ok (some (e.1.2, e.2)) = _
      rw [rel_some (m := store m.pages) (k := e.1.2) (x := e.2) he.2 ?_ ?_]
      · refine (store_mem h).2 ?_
        rw [← he.1]
        exact h1
      · intro k' q1 q2
        cases hx : store m.pages p k' with
        | none => rfl
        | some x =>
          have := (hl _).2 ⟨(store_mem h).1 hx, ?_⟩
          · rcases List.mem_cons.1 this with g | g
            · have : k' = e.1.2 := by rw [← g]
              omega
            · have := (List.pairwise_cons.1 hi).1 _ g
              rw [pageLt_iff] at this
              simp only at this
              omega
          · cases hc : pageLt (p, k') (p, k) with
            | false => rfl
            | true => rw [pageLt_iff] at hc; simp only at hc; omega

/-! ## The descriptor -/

theorem descLoop_spec (k n : Nat) : ∀ (es : Pages) (D : List (Nat × Nat × Bytes)), Inc pageLt es → (∀ e ∈ es, e.1.1 < n ∧ 0 < e.1.2) → D.length = n →
    (∀ e ∈ es, ∀ x, D[e.1.1]? = some x → 0 < x.2.1 → e.1.2 < x.2.1) →
    ∃ D', descLoop k es D = .ok D' ∧ D'.length = n ∧ ∀ p x, D[p]? = some x →
      D'[p]? = some (if 0 < x.2.1 then x else match es.find? (fun e => decide (e.1.1 = p ∧ e.1.2 ≤ k)) with
        | some e => (p, e.1.2, e.2.1)
        | none => x) := by
  intro es
  induction es with
  | nil =>
    intro D _ _ hl _
    refine ⟨D, rfl, hl, fun p x hx => ?_⟩
    rw [hx]
    simp
  | cons e es ih =>
    intro D hi hok hl hD
    have hi0 := hi
    rw [Inc, List.pairwise_cons] at hi
    have hok' : ∀ e ∈ es, e.1.1 < n ∧ 0 < e.1.2 := fun x hx => hok x (List.mem_cons_of_mem _ hx)
    have hlt := hok e List.mem_cons_self
    rw [descLoop]
    by_cases hk : e.1.2 ≤ k
    · rw [if_pos hk]
      have hs : D[e.1.1]? = some (D[e.1.1]'(by omega)) := List.getElem?_eq_getElem _
      generalize D[e.1.1]'(by omega) = x0 at hs
      rw [hs]
      simp only
      by_cases hx : 0 < x0.2.1
      · rw [if_pos hx]
        have hr := hD e List.mem_cons_self x0 hs hx
        rw [require, if_pos hr]
        obtain ⟨D', g1, g2, g3⟩ := ih D hi.2 hok' hl (fun x hx => hD x (List.mem_cons_of_mem _ hx))
        refine ⟨D', g1, g2, fun p x hpx => ?_⟩
        rw [g3 p x hpx]
        by_cases hp : e.1.1 = p
        · subst hp
          rw [hs] at hpx
          cases hpx
          rw [if_pos hx, if_pos hx]
        · congr 1
          rw [List.find?_cons, show decide (e.1.1 = p ∧ e.1.2 ≤ k) = false by simp [hp]]
      · rw [if_neg hx]
        obtain ⟨D', g1, g2, g3⟩ := ih (D.set e.1.1 (e.1.1, e.1.2, e.2.1)) hi.2 hok' (by simp [hl]) (fun f hf y hy hy0 => by
          by_cases hp : f.1.1 = e.1.1
          · rw [hp, List.getElem?_set_self (by omega)] at hy
            cases hy
            have := hi.1 _ hf
            rw [pageLt_iff] at this
            simp only
            omega
          · rw [List.getElem?_set_ne (fun h => hp h.symm)] at hy
            exact hD f (List.mem_cons_of_mem _ hf) y hy hy0)
        refine ⟨D', g1, g2, fun p x hpx => ?_⟩
        by_cases hp : e.1.1 = p
        · subst hp
          rw [hs] at hpx
          cases hpx
          rw [g3 e.1.1 (e.1.1, e.1.2, e.2.1) (List.getElem?_set_self (by omega))]
          rw [if_pos (show 0 < (e.1.1, e.1.2, e.2.1).2.1 from hlt.2), if_neg hx]
          rw [List.find?_cons, show decide (e.1.1 = e.1.1 ∧ e.1.2 ≤ k) = true by simp [hk]]
        · rw [g3 p x (by rw [List.getElem?_set_ne hp]; exact hpx)]
          rw [List.find?_cons, show decide (e.1.1 = p ∧ e.1.2 ≤ k) = false by simp [hp]]
    · rw [if_neg hk]
      obtain ⟨D', g1, g2, g3⟩ := ih D hi.2 hok' hl (fun x hx => hD x (List.mem_cons_of_mem _ hx))
      refine ⟨D', g1, g2, fun p x hpx => ?_⟩
      rw [g3 p x hpx]
      rw [List.find?_cons, show decide (e.1.1 = p ∧ e.1.2 ≤ k) = false by simp [hk]]

/-- the descriptor is the one of C35 -/
theorem descriptor_eq {m : Mem} {top : Nat} (h : PagesInv c m.pages top) (k : Nat) : m.descriptor c k = .ok ((store m.pages).desc c.pages k) := by
  obtain ⟨D, g1, g2, g3⟩ := descLoop_spec k c.pages m.pages (List.replicate c.pages (0, 0, zero)) h.inc (fun e he => ⟨(h.ok e he).1, (h.ok e he).2.1⟩) (by simp)
    (fun e he x hx h0 => by
      rw [List.getElem?_replicate] at hx
      split at hx
      · cases hx; simp at h0
      · cases hx)
  rw [Mem.descriptor, g1]
  congr 1
  refine List.ext_getElem? fun p => ?_
  unfold Store.desc
  rw [List.getElem?_map]
  by_cases hp : p < c.pages
  · rw [g3 p (0, 0, zero) (by rw [List.getElem?_replicate, if_pos hp]), List.getElem?_range hp]
    rw [if_neg (by simp), Option.map_some]
    congr 1
    unfold Store.line
    rw [← find_rel h.inc]
    cases m.pages.find? (fun e => decide (e.1.1 = p ∧ e.1.2 ≤ k)) with
    | none => rfl
    | some e => rfl
  · rw [List.getElem?_eq_none (by omega), List.getElem?_eq_none (by simp; omega)]
    rfl

/-! ## Deletion -/

/-- a newer entry of the same page, not above `min` -/
def coveredBy (min : Nat) (m : Pages) (e : (Nat × Nat) × (Bytes × Bytes)) : Prop := ∃ f ∈ m, f.1.1 = e.1.1 ∧ e.1.2 < f.1.2 ∧ f.1.2 ≤ min

theorem coverLoop_mem (min : Nat) : ∀ (es : Pages) (pp pk : Nat), (∀ e ∈ es, pageLt (pp, pk) e.1 = true) → Inc pageLt es →
    ∀ x, x ∈ coverLoop min pp (decide (pk ≤ min)) es ↔ x ∈ es ∧ ¬ (x.1.1 = pp ∧ pk ≤ min) ∧ ¬ coveredBy min es x := by
  intro es
  induction es with
  | nil => intro pp pk _ _ x; rw [coverLoop]; exact ⟨fun h => (by cases h), fun h => (by cases h.1)⟩
  | cons e es ih =>
    intro pp pk hlt hi x
    have hi0 := hi
    rw [Inc, List.pairwise_cons] at hi
    have hlt' : ∀ e ∈ es, pageLt (pp, pk) e.1 = true := fun x hx => hlt x (List.mem_cons_of_mem _ hx)
    have he := hlt e List.mem_cons_self
    rw [pageLt_iff] at he
    simp only at he
    rw [coverLoop]
    by_cases hc : e.1.1 = pp ∧ pk ≤ min
    · rw [if_pos ⟨hc.1, by simp [hc.2]⟩, ih pp pk hlt' hi.2 x]
      constructor
      · rintro ⟨h1, h2, h3⟩
        refine ⟨List.mem_cons_of_mem _ h1, h2, ?_⟩
        rintro ⟨f, hf, g1, g2, g3⟩
        rcases List.mem_cons.1 hf with rfl | hf
        · exact h2 ⟨by rw [← g1]; exact hc.1, hc.2⟩
        · exact h3 ⟨f, hf, g1, g2, g3⟩
      · rintro ⟨h1, h2, h3⟩
        rcases List.mem_cons.1 h1 with rfl | h1
        · exact absurd hc h2
        · exact ⟨h1, h2, fun ⟨f, hf, g⟩ => h3 ⟨f, List.mem_cons_of_mem _ hf, g⟩⟩
    · rw [if_neg (by simpa using hc), List.mem_cons, ih e.1.1 e.1.2 (fun y hy => hi.1 _ hy) hi.2 x]
      constructor
      · rintro (rfl | ⟨h1, h2, h3⟩)
        · refine ⟨List.mem_cons_self, hc, ?_⟩
          rintro ⟨f, hf, g1, g2, g3⟩
          rcases List.mem_cons.1 hf with rfl | hf
          · omega
          · have := hi.1 _ hf
            rw [pageLt_iff] at this
            omega
        · refine ⟨List.mem_cons_of_mem _ h1, ?_, ?_⟩
          · intro hx
            have := hi.1 _ h1
            rw [pageLt_iff] at this
            omega
          · rintro ⟨f, hf, g1, g2, g3⟩
            rcases List.mem_cons.1 hf with rfl | hf
            · exact h2 ⟨g1.symm, g3⟩
            · exact h3 ⟨f, hf, g1, g2, g3⟩
      · rintro ⟨h1, h2, h3⟩
        rcases List.mem_cons.1 h1 with rfl | h1
        · exact .inl rfl
        · refine .inr ⟨h1, ?_, fun ⟨f, hf, g⟩ => h3 ⟨f, List.mem_cons_of_mem _ hf, g⟩⟩
          intro hx
          have := hi.1 _ h1
          rw [pageLt_iff] at this
          exact h3 ⟨e, List.mem_cons_self, hx.1.symm, by omega, hx.2⟩

theorem coverLoop_sub (min : Nat) : ∀ (es : Pages) (pp : Nat) (pr : Bool), (coverLoop min pp pr es).Sublist es := by
  intro es
  induction es with
  | nil => intro pp pr; rw [coverLoop]
  | cons e es ih =>
    intro pp pr
    rw [coverLoop]
    split
    · exact (ih _ _).cons _
    · exact (ih _ _).cons_cons _

theorem coverKeys_mem (min : Nat) : ∀ (es : Pages) (pp pk : Nat), (∀ e ∈ es, pageLt (pp, pk) e.1 = true) → Inc pageLt es →
    ∀ w, w ∈ coverKeys min pp (decide (pk ≤ min)) es ↔ ∃ x ∈ es, ((x.1.1 = pp ∧ pk ≤ min) ∨ coveredBy min es x) ∧ w = .del (kPage x.1.1 x.1.2) := by
  intro es
  induction es with
  | nil => intro pp pk _ _ x; rw [coverKeys]; exact ⟨fun h => (by cases h), fun ⟨_, h, _⟩ => (by cases h)⟩
  | cons e es ih =>
    intro pp pk hlt hi w
    have hi0 := hi
    rw [Inc, List.pairwise_cons] at hi
    have hlt' : ∀ e ∈ es, pageLt (pp, pk) e.1 = true := fun x hx => hlt x (List.mem_cons_of_mem _ hx)
    rw [coverKeys]
    by_cases hc : e.1.1 = pp ∧ pk ≤ min
    · rw [if_pos ⟨hc.1, by simp [hc.2]⟩, List.mem_cons, ih pp pk hlt' hi.2 w]
      constructor
      · rintro (rfl | ⟨x, h1, h2, h3⟩)
        · exact ⟨e, List.mem_cons_self, .inl hc, rfl⟩
        · refine ⟨x, List.mem_cons_of_mem _ h1, ?_, h3⟩
          rcases h2 with h2 | ⟨f, hf, g⟩
          · exact .inl h2
          · exact .inr ⟨f, List.mem_cons_of_mem _ hf, g⟩
      · rintro ⟨x, h1, h2, h3⟩
        rcases List.mem_cons.1 h1 with rfl | h1
        · exact .inl h3
        · refine .inr ⟨x, h1, ?_, h3⟩
          rcases h2 with h2 | ⟨f, hf, g1, g2, g3⟩
          · exact .inl h2
          · rcases List.mem_cons.1 hf with rfl | hf
            · exact .inl ⟨by rw [← g1]; exact hc.1, hc.2⟩
            · exact .inr ⟨f, hf, g1, g2, g3⟩
    · rw [if_neg (by simpa using hc), ih e.1.1 e.1.2 (fun y hy => hi.1 _ hy) hi.2 w]
      constructor
      · rintro ⟨x, h1, h2, h3⟩
        refine ⟨x, List.mem_cons_of_mem _ h1, ?_, h3⟩
        rcases h2 with h2 | ⟨f, hf, g⟩
        · refine .inr ⟨e, List.mem_cons_self, h2.1.symm, ?_, h2.2⟩
          have := hi.1 _ h1
          rw [pageLt_iff] at this
          omega
        · exact .inr ⟨f, List.mem_cons_of_mem _ hf, g⟩
      · rintro ⟨x, h1, h2, h3⟩
        rcases List.mem_cons.1 h1 with rfl | h1
        · exfalso
          rcases h2 with h2 | ⟨f, hf, g1, g2, g3⟩
          · exact hc h2
          · rcases List.mem_cons.1 hf with rfl | hf
            · omega
            · have := hi.1 _ hf
              rw [pageLt_iff] at this
              omega
        · refine ⟨x, h1, ?_, h3⟩
          rcases h2 with h2 | ⟨f, hf, g1, g2, g3⟩
          · exfalso
            have h4 := hi.1 _ h1
            have h5 := hlt e List.mem_cons_self
            rw [pageLt_iff] at h4 h5
            simp only at h5
            omega
          · rcases List.mem_cons.1 hf with rfl | hf
            · exact .inl ⟨g1.symm, g3⟩
            · exact .inr ⟨f, hf, g1, g2, g3⟩

/-- the pages after the deletion, whatever is asserted about their number -/
def cover (min : Nat) : Pages → Pages
  | [] => []
  | e :: es => e :: coverLoop min e.1.1 (decide (e.1.2 ≤ min)) es

theorem cover_mem (min : Nat) {m : Pages} (h : Inc pageLt m) {x : (Nat × Nat) × (Bytes × Bytes)} : x ∈ cover min m ↔ x ∈ m ∧ ¬ coveredBy min m x := by
  cases m with
  | nil => exact ⟨fun h => (by cases h), fun h => (by cases h.1)⟩
  | cons e es =>
    have h0 := h
    rw [Inc, List.pairwise_cons] at h
    rw [cover, List.mem_cons, coverLoop_mem min es e.1.1 e.1.2 (fun y hy => h.1 _ hy) h.2]
    constructor
    · rintro (rfl | ⟨h1, h2, h3⟩)
      · refine ⟨List.mem_cons_self, ?_⟩
        rintro ⟨f, hf, g1, g2, g3⟩
        rcases List.mem_cons.1 hf with rfl | hf
        · omega
        · have := h.1 _ hf
          rw [pageLt_iff] at this
          omega
      · refine ⟨List.mem_cons_of_mem _ h1, ?_⟩
        rintro ⟨f, hf, g1, g2, g3⟩
        rcases List.mem_cons.1 hf with rfl | hf
        · exact h2 ⟨g1.symm, g3⟩
        · exact h3 ⟨f, hf, g1, g2, g3⟩
    · rintro ⟨h1, h3⟩
      rcases List.mem_cons.1 h1 with rfl | h1
      · exact .inl rfl
      · refine .inr ⟨h1, ?_, fun ⟨f, hf, g⟩ => h3 ⟨f, List.mem_cons_of_mem _ hf, g⟩⟩
        intro hx
        have := h.1 _ h1
        rw [pageLt_iff] at this
        exact h3 ⟨e, List.mem_cons_self, hx.1.symm, by omega, hx.2⟩

theorem cover_inc (min : Nat) {m : Pages} (h : Inc pageLt m) : Inc pageLt (cover min m) := by
  cases m with
  | nil => exact h
  | cons e es => exact h.sublist ((coverLoop_sub min es _ _).cons_cons e)

theorem coverKeys_keys (min : Nat) {m : Mem} (h : Inc pageLt m.pages) (w : W) : w ∈ m.coverKeys min ↔ ∃ x ∈ m.pages, coveredBy min m.pages x ∧ w = .del (kPage x.1.1 x.1.2) := by
  unfold Mem.coverKeys
  cases hm : m.pages with
  | nil => exact ⟨fun h => (by cases h), fun ⟨_, h, _⟩ => (by cases h)⟩
  | cons e es =>
    rw [hm] at h
    have h0 := h
    rw [Inc, List.pairwise_cons] at h
    show w ∈ coverKeys min e.1.1 (decide (e.1.2 ≤ min)) es ↔ _
    rw [coverKeys_mem min es e.1.1 e.1.2 (fun y hy => h.1 _ hy) h.2]
    constructor
    · rintro ⟨x, h1, h2, h3⟩
      refine ⟨x, List.mem_cons_of_mem _ h1, ?_, h3⟩
      rcases h2 with h2 | ⟨f, hf, g⟩
      · refine ⟨e, List.mem_cons_self, h2.1.symm, ?_, h2.2⟩
        have := h.1 _ h1
        rw [pageLt_iff] at this
        omega
      · exact ⟨f, List.mem_cons_of_mem _ hf, g⟩
    · rintro ⟨x, h1, ⟨f, hf, g1, g2, g3⟩, h3⟩
      rcases List.mem_cons.1 h1 with rfl | h1
      · exfalso
        rcases List.mem_cons.1 hf with rfl | hf
        · omega
        · have := h.1 _ hf
          rw [pageLt_iff] at this
          omega
      · refine ⟨x, h1, ?_, h3⟩
        rcases List.mem_cons.1 hf with rfl | hf
        · exact .inl ⟨g1.symm, g3⟩
        · exact .inr ⟨f, hf, g1, g2, g3⟩

/-- what remains up to a checkpoint from `min` on is as before -/
theorem cover_rel (min : Nat) {m : Pages} (h : Inc pageLt m) (p n : Nat) (hn : min ≤ n) : (store (cover min m)).rel p n = (store m).rel p n := by
  have hc := cover_inc min h
  rcases rel_cases (store m) p n with ⟨k, x, q1, q2, q3, q4⟩ | ⟨q1, q2⟩
  · rw [q4]
    refine rel_some q1 ?_ fun k' g1 g2 => ?_
    · rw [store_mem hc, cover_mem min h]
      refine ⟨(store_mem h).1 q2, ?_⟩
      rintro ⟨f, hf, g1, g2, g3⟩
      simp only at g1 g2
      have : store m p f.1.2 = some f.2 := by
        rw [store_mem h, ← g1]; exact hf
      rw [q3 _ g2 (by omega)] at this
      cases this
    · cases hx : store (cover min m) p k' with
      | none => rfl
      | some y =>
        rw [store_mem hc, cover_mem min h] at hx
        rw [← store_mem h, q3 _ g1 g2] at hx
        cases hx.1
  · rw [q2]
    refine rel_none fun k hk => ?_
    cases hx : store (cover min m) p k with
    | none => rfl
    | some y =>
      rw [store_mem hc, cover_mem min h, ← store_mem h, q1 _ hk] at hx
      cases hx.1

theorem PagesInv.cover {m : Pages} {top : Nat} (h : PagesInv c m top) (min : Nat) : PagesInv c (cover min m) top :=
  ⟨cover_inc min h.inc, fun e he => h.ok e ((cover_mem min h.inc).1 he).1⟩

/-- the number of entries that remain -/
theorem cover_length {m : Pages} {top : Nat} (h : PagesInv c m top) (min : Nat) (hm : min ≤ top) : (cover min m).length ≤ c.pages * (top - min + 1) := by
  have hc := cover_inc min h.inc
  -- every entry has a place of its own
  have hnd : ((cover min m).map (fun e => e.1.1 * (top - min + 1) + (e.1.2 - min))).Nodup := by
    rw [List.Nodup, List.pairwise_map]
    refine List.Pairwise.imp_of_mem (fun {a b} ha hb hab => ?_) hc
    rw [cover_mem min h.inc] at ha hb
    have ha' := h.ok a ha.1
    have hb' := h.ok b hb.1
    rw [pageLt_iff] at hab
    intro e
    rcases hab with hab | ⟨h1, h2⟩
    · have := Nat.mul_le_mul_right (top - min + 1) (show a.1.1 + 1 ≤ b.1.1 from hab)
      rw [Nat.add_mul] at this
      omega
    · rw [h1] at e
      by_cases hmin : a.1.2 ≤ min
      · exact hb.2 ⟨a, ha.1, h1, h2, hmin⟩
      · omega
  have := ListU.nodup_subset_length hnd (l' := List.range (c.pages * (top - min + 1))) (fun x hx => by
    obtain ⟨e, he, rfl⟩ := List.mem_map.1 hx
    rw [cover_mem min h.inc] at he
    have := h.ok e he.1
    rw [List.mem_range]
    have := Nat.mul_le_mul_right (top - min + 1) (show e.1.1 + 1 ≤ c.pages by omega)
    rw [Nat.add_mul] at this
    omega)
  simpa using this

theorem deleteCovered_eq {m : Mem} {top : Nat} (h : PagesInv c m.pages top) {min : Nat} (h2 : 2 ≤ min) (hm : min ≤ top) (hk : top - min + 1 ≤ c.maxStored) :
    m.deleteCovered c min = .ok { m with pages := cover min m.pages } := by
  unfold Mem.deleteCovered
  rw [if_neg (by omega)]
  have hl := cover_length h min hm
  cases hp : m.pages with
  | nil => cases m; simp only at hp; rw [hp]; rfl
  | cons e es =>
    rw [hp] at hl
    have hl' : (e :: coverLoop min e.1.1 (decide (e.1.2 ≤ min)) es).length ≤ c.pages * (c.maxStored + 1) :=
      Nat.le_trans hl (Nat.mul_le_mul_left _ (by omega))
    show (do require ((e :: coverLoop min e.1.1 (decide (e.1.2 ≤ min)) es).length ≤ c.pages * (c.maxStored + 1)); _) = _
    rw [require, if_pos hl']
    rfl

end Verif.Rp
