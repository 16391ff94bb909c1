import Verif.Rvt.RemoveAll
import Verif.Rvt.Spec
set_option linter.unusedVariables false
set_option linter.unusedSimpArgs false
/-!
# Range validation tree: histories of calls (C29)
-/
namespace Verif.Rvt
open Verif.Bytes

variable {P : Par} {A A' B : Nat → Nat}

theorem S_congr (P : Par) {val val' : Nat → Int} (h : ∀ j, A 0 ≤ j → j ≤ B 0 → val j = val' j) : ∀ l p, A l ≤ p → p ≤ B l → P.S val A B l p = P.S val' A B l p := by
  intro l
  induction l with
  | zero => intro p h1 h2; exact h p h1 h2
  | succ l ih =>
    intro p h1 h2
    rw [S_succ, S_succ]
    congr 1
    apply sumR_congr
    intro q g1 g2
    refine ih q ?_ ?_
    · simp only [Par.lo] at g1; omega
    · simp only [Par.lo, Par.hi] at g1 g2; omega

theorem cn_congr (P : Par) {val val' : Nat → Int} (h : ∀ j, A 0 ≤ j → j ≤ B 0 → val j = val' j) (T : Nat) : P.cn val A B T = P.cn val' A B T := by
  funext l p
  cases l with
  | zero => rfl
  | succ k =>
    by_cases c : A (k + 1) ≤ p ∧ p ≤ B (k + 1) ∧ k + 1 ≤ T
    · rw [cn_some c.1 c.2.1 c.2.2, cn_some c.1 c.2.1 c.2.2, S_congr P h _ _ c.1 c.2.1]
    · rw [cn_none c, cn_none c]

theorem removeUp_last (h : P.Ok) {f : Nat → Nat → Option Node} {R : Rest} {p : Nat} {n : Node} (hr : R.root = some (1, p)) (hn : f 1 p = some n) (hk : n.kids = []) (v : Int) :
    (P.tree f R).removeUp P (P.pos 1 p) v = some .empty := by
  have hr' := (root_tree h f R 1 p).2 hr
  rw [Tree.removeUp, hr']
  simp only [Option.bind_eq_bind, Option.bind_some]
  rw [trim, if_pos hr']
  simp only [Option.bind_some]
  rw [subValue_tree h hn]
  simp only [Option.bind_some]
  rw [node_tree h, upd_same]
  simp only [Option.bind_some]
  rw [if_pos hk, guard_yes (show (P.pos 1 p).lvl = 1 from rfl)]
  rfl

/-- the last leaf -/
theorem removeLeaf_last (h : P.Ok) (hA : Path P A) (val : Nat → Int) (mn mx : Nat) (v : Int) :
    (P.tree (P.cn val A A 1) (rest A A 1 (A 1) mn mx [])).removeLeaf P (A 0 + 1) v = some .empty := by
  have d := (div_iff h.K0).1 (show A 0 / P.K = A 1 from (hA.up 0).symm)
  have hlo : P.lo A 0 (A 1) = A 0 := by simp only [Par.lo]; omega
  have hhi : P.hi A 0 (A 1) = A 0 + 1 := by have := h.K0; simp only [Par.hi]; omega
  have hn : P.cn val A A 1 1 (A 1) = some (P.nd 0 (A 1) (decide (1 < 1)) (A 0) (A 0 + 1) (P.S val A A 1 (A 1) % P.M)) := by
    rw [cn_some (Nat.le_refl _) (Nat.le_refl _) (Nat.le_refl _), hlo, hhi]
  have hl : (P.tree (P.cn val A A 1) (rest A A 1 (A 1) mn mx [])).left 1 = some (P.pos 1 (A 1)) := by
    rw [left_tree]; simp only [rest]; rw [if_pos (by omega)]; rfl
  rw [Tree.removeLeaf, hl]
  simp only [Option.bind_eq_bind, Option.bind_some]
  rw [node_tree h, hn]
  simp only [Option.bind_some]
  rw [if_pos (by rw [nd_kids_len]; omega), Tree.dropBottom,
    checkRemove_tree h (p := A 1) (r := A 1) (by simp only [rest]; rw [if_pos (by omega)]) (by simp only [rest]; rw [if_pos (by omega)])]
  simp only [Option.bind_eq_bind, Option.bind_some]
  rw [tree_erase, parentOf_root h rfl]
  simp only [Option.bind_some]
  unfold Tree.addUp
  simp only [Option.bind_some]
  rw [← pos_zero P, pop_tree h (l := 0) hn (nd_kids_cons _ _ _ _ _ _ _ (by omega)), nd_kids_set]
  simp only [Option.bind_some]
  exact removeUp_last h rfl (upd_same _ _ _ _) (by rw [← List.length_eq_zero_iff, nd_kids_len]; omega) v

/-! ## The calls -/

/-- the values of the leaves of a window -/
def valOf (P : Par) (w : Win) : Nat → Int := fun j => P.leaf (j + 1) (w.data.getD (j + 1 - w.first) [])

/-- the tree of a window -/
def Is (P : Par) (w : Win) (t : Tree) : Prop :=
  (w.data = [] ∧ t = .empty) ∨ (w.data ≠ [] ∧ 1 ≤ w.first ∧ ∃ T, Top (P.dv (w.first - 1)) (P.dv (w.last - 1)) T ∧
    t = P.tree (P.cn (valOf P w) (P.dv (w.first - 1)) (P.dv (w.last - 1)) T) (rest (P.dv (w.first - 1)) (P.dv (w.last - 1)) T (P.dv (w.first - 1) T) w.first w.last []))

theorem dv_zero (P : Par) (a : Nat) : P.dv a 0 = a := by simp [Par.dv]

theorem valid_of (h : 0 < P.fetch) {id : Nat} (h1 : 0 < id) (h2 : P.fetch ∣ id) : P.valid id = true := by
  have h3 : id % P.fetch = 0 := Nat.mod_eq_zero_of_dvd h2
  have h4 : id ≠ 0 := by omega
  have h5 : P.fetch ≠ 0 := by omega
  simp only [Par.valid, decide_eq_true_eq]
  exact ⟨h4, h5, h3⟩

theorem last_cons {w : Win} (h : w.data ≠ []) : w.first ≤ w.last ∧ w.last + 1 = w.first + w.data.length := by
  have : 0 < w.data.length := List.length_pos_iff.2 h
  simp only [Win.last]; omega

theorem min_tree (P : Par) (f : Nat → Nat → Option Node) (R : Rest) : (P.tree f R).min = R.min := rfl
theorem max_tree (P : Par) (f : Nat → Nat → Option Node) (R : Rest) : (P.tree f R).max = R.max := rfl

theorem is_add (h : P.Ok) (hf : 0 < P.fetch) {w w' : Win} {t : Tree} {id : Nat} {d : Bytes} (hI : Is P w t) (hw : w.step P.fetch (.add id d) = some w') :
    ∃ t', t.addRightNode P id d = some t' ∧ Is P w' t' := by
  rcases hI with ⟨hd, rfl⟩ | ⟨hd, hF, T, hT, rfl⟩
  · simp only [Win.step, hd, if_true] at hw
    by_cases c : 0 < id ∧ P.fetch ∣ id
    · rw [if_pos c] at hw
      obtain rfl := Option.some.inj hw
      have hi : 1 ≤ id / P.fetch := Nat.div_pos (Nat.le_of_dvd c.1 c.2) hf
      have key := addLeaf_first h (dv_path P (id / P.fetch - 1)) (fun _ => 0) (leaf_mod h (id / P.fetch) d)
      rw [dv_zero, show id / P.fetch - 1 + 1 = id / P.fetch by omega] at key
      refine ⟨_, ?_, .inr ⟨by simp, hi, 1, ⟨Nat.le_refl _, rfl, by omega⟩, rfl⟩⟩
      rw [Tree.addRightNode, guard_yes (valid_of hf c.1 c.2)]
      simp only [Option.bind_eq_bind, Option.bind_some]
      rw [guard_yes (show Tree.empty.max > 0 → Tree.empty.max + 1 = id / P.fetch from fun g => absurd g (Nat.lt_irrefl 0))]
      simp only [Option.bind_some]
      rw [key]
      simp only [Option.bind_some, Option.some.injEq]
      have hlast : (⟨id / P.fetch, [d]⟩ : Win).last = id / P.fetch := by simp [Win.last]
      rw [hlast]
      have hcn := cn_congr (A := P.dv (id / P.fetch - 1)) (B := P.dv (id / P.fetch - 1)) P
        (val := fun j => if j = id / P.fetch - 1 then P.leaf (id / P.fetch) d else 0) (val' := valOf P ⟨id / P.fetch, [d]⟩) (by
          intro j g1 g2
          rw [dv_zero] at g1 g2
          obtain rfl : j = id / P.fetch - 1 := by omega
          simp only [if_true, valOf]
          rw [show id / P.fetch - 1 + 1 = id / P.fetch by omega, Nat.sub_self]
          rfl) 1
      rw [hcn]
      rfl
    · rw [if_neg c] at hw; cases hw
  · simp only [Win.step, if_neg hd] at hw
    by_cases c : id = (w.first + w.data.length) * P.fetch
    · rw [if_pos c] at hw
      obtain rfl := Option.some.inj hw
      obtain ⟨l1, l2⟩ := last_cons hd
      have hi : id / P.fetch = w.last + 1 := by rw [c, Nat.mul_div_cancel _ hf, l2]
      have hpos : 0 < id := by rw [c]; exact Nat.mul_pos (by omega) hf
      have ctx : AddCtx P (P.dv (w.first - 1)) (P.dv (w.last - 1)) (P.dv w.last) :=
        ⟨h, dv_path _ _, dv_path _ _, dv_path _ _, by rw [dv_zero, dv_zero]; omega, by rw [dv_zero, dv_zero]; omega⟩
      obtain ⟨T', t1, t2⟩ := addLeaf_canon ctx (valOf P w) hT w.first w.last [] (leaf_mod h (w.last + 1) d)
      rw [dv_zero] at t2
      have hlast : (⟨w.first, w.data ++ [d]⟩ : Win).last = w.last + 1 := by simp [Win.last]; omega
      refine ⟨_, ?_, .inr ⟨by simp, hF, T', by rw [hlast]; exact t1, rfl⟩⟩
      rw [Tree.addRightNode, guard_yes (valid_of hf hpos (c ▸ Nat.dvd_mul_left _ _))]
      simp only [Option.bind_eq_bind, Option.bind_some]
      rw [guard_yes (by rw [max_tree, hi]; intro _; rfl)]
      simp only [Option.bind_some]
      rw [hi, t2]
      simp only [Option.bind_some, Option.some.injEq]
      rw [hlast, min_tree, show (rest (P.dv (w.first - 1)) (P.dv w.last) T' (P.dv (w.first - 1) T') w.first w.last []).min = w.first from rfl, if_neg (by omega)]
      have hcn := cn_congr (A := P.dv (w.first - 1)) (B := P.dv w.last) P
        (val := fun j => if j = w.last then P.leaf (w.last + 1) d else valOf P w j) (val' := valOf P ⟨w.first, w.data ++ [d]⟩) (by
          intro j g1 g2
          rw [dv_zero] at g1 g2
          by_cases e : j = w.last
          · subst e
            simp only [if_true, valOf]
            rw [List.getD_eq_getElem?_getD, List.getElem?_append_right (by omega), show w.last + 1 - w.first - w.data.length = 0 by omega]
            rfl
          · simp only [if_neg e, valOf]
            rw [List.getD_eq_getElem?_getD, List.getD_eq_getElem?_getD, List.getElem?_append_left (by omega)]) T'
      rw [hcn]
      rfl
    · rw [if_neg c] at hw; cases hw

theorem fin_flush (h : P.Ok) {val : Nat → Int} {T : Nat} {f : Nat → Nat → Option Node} {er : List Id} (F : Fin P val A B T f er) (x : Id) :
    (if x ∈ er then none else P.lift f x) = P.lift (P.cn val A B T) x := by
  by_cases hx : x ∈ er
  · rw [if_pos hx]
    obtain ⟨l, p, h1, rfl, h2⟩ := F.er x hx
    rw [lift_pos h, cn_none (by omega)]
  · rw [if_neg hx]
    simp only [Par.lift]
    by_cases hy : x.idx = (x.idx - 1) / P.K ^ x.lvl * P.K ^ x.lvl + 1
    · rw [if_pos hy, if_pos hy]
      apply F.node
      rw [Par.pos, ← hy]
      exact hx
    · rw [if_neg hy, if_neg hy]

theorem is_remove (h : P.Ok) (hf : 0 < P.fetch) {w w' : Win} {t : Tree} {id : Nat} {d : Bytes} (hI : Is P w t) (hw : w.step P.fetch (.remove id d) = some w') :
    ∃ t', t.removeLeftNode P id d = some t' ∧ Is P w' t' := by
  rcases hI with ⟨hd, rfl⟩ | ⟨hd, hF, T, hT, rfl⟩
  · rw [Win.step] at hw
    split at hw
    · cases hw
    · rename_i e; rw [hd] at e; cases e
  · obtain ⟨first, data⟩ := w
    obtain ⟨d0, ds, rfl⟩ : ∃ d0 ds, data = d0 :: ds := by
      cases data with
      | nil => exact absurd rfl hd
      | cons d0 ds => exact ⟨d0, ds, rfl⟩
    simp only [Win.step] at hw
    by_cases c : id = first * P.fetch ∧ d = d0
    · rw [if_pos c] at hw
      obtain ⟨rfl, rfl⟩ := c
      dsimp only at hF
      have hi : first * P.fetch / P.fetch = first := Nat.mul_div_cancel _ hf
      have hpos : 0 < first * P.fetch := Nat.mul_pos (by omega) hf
      have hv := valid_of hf hpos (Nat.dvd_mul_left _ _)
      have hval : P.leaf first d = valOf P ⟨first, d :: ds⟩ (P.dv (first - 1) 0) := by
        rw [dv_zero, valOf]
        dsimp only
        rw [show first - 1 + 1 = first by omega, Nat.sub_self]
        rfl
      have hf1 : first = P.dv (first - 1) 0 + 1 := by rw [dv_zero]; omega
      obtain ⟨l1, l2⟩ := last_cons hd
      rw [Tree.removeLeftNode, guard_yes (show (P.tree _ (rest _ _ T _ _ _ [])).root ≠ none by simp [Par.tree, rest]), guard_yes hv]
      simp only [Option.bind_eq_bind, Option.bind_some]
      rw [guard_yes (by rw [min_tree, hi]; rfl)]
      simp only [Option.bind_some]
      rw [hi]
      by_cases hds : ds = []
      · subst hds
        rw [if_pos rfl] at hw
        obtain rfl := Option.some.inj hw
        have hlast : (⟨first, [d]⟩ : Win).last = first := by simp [Win.last]
        have hT1 : T = 1 := by
          by_cases e : T = 1
          · exact e
          · exact absurd (by rw [hlast]) (hT.first 1 (Nat.le_refl _) (by have := hT.pos; omega))
        subst hT1
        have key := removeLeaf_last h (dv_path P (first - 1)) (valOf P ⟨first, [d]⟩) first first (P.leaf first d)
        rw [← hf1] at key
        rw [hlast, key]
        refine ⟨_, rfl, .inl ⟨rfl, ?_⟩⟩
        simp [Tree.empty]
      · rw [if_neg hds] at hw
        obtain rfl := Option.some.inj hw
        have hlen : 0 < ds.length := List.length_pos_iff.2 hds
        have hlast : (⟨first + 1, ds⟩ : Win).last = (⟨first, d :: ds⟩ : Win).last := by simp only [Win.last, List.length_cons]; omega
        have hl3 : first + 1 ≤ (⟨first, d :: ds⟩ : Win).last := by simp [Win.last]; omega
        have ctx : RemCtx P (P.dv (first - 1)) (P.dv first) (P.dv ((⟨first, d :: ds⟩ : Win).last - 1)) :=
          ⟨h, dv_path _ _, dv_path _ _, dv_path _ _, by rw [dv_zero, dv_zero]; omega, by rw [dv_zero, dv_zero]; omega⟩
        obtain ⟨T', f, er, t1, t2, t3⟩ := removeLeaf_more ctx (valOf P ⟨first, d :: ds⟩) hT first (⟨first, d :: ds⟩ : Win).last
        rw [← hf1, ← hval] at t2
        rw [t2]
        refine ⟨_, rfl, .inr ⟨hds, (by show 1 ≤ first + 1; omega), T', ?_, ?_⟩⟩
        · rw [hlast]; exact t1
        · have hroot : (P.tree f (rest (P.dv first) (P.dv ((⟨first, d :: ds⟩ : Win).last - 1)) T' (P.dv first T') first (⟨first, d :: ds⟩ : Win).last er)).root ≠ none := by simp [Par.tree, rest]
          simp only []
          rw [if_neg hroot, hlast]
          have hcn := cn_congr (A := P.dv first) (B := P.dv ((⟨first, d :: ds⟩ : Win).last - 1)) P
            (val := valOf P ⟨first, d :: ds⟩) (val' := valOf P ⟨first + 1, ds⟩) (by
              intro j g1 g2
              rw [dv_zero] at g1 g2
              simp only [valOf]
              rw [show j + 1 - first = (j + 1 - (first + 1)) + 1 by omega]
              rfl) T'
          rw [show (⟨first + 1, ds⟩ : Win).first - 1 = first from rfl, ← hcn]
          have hnode : (fun x => if x ∈ er then none else P.lift f x) = P.lift (P.cn (valOf P ⟨first, d :: ds⟩) (P.dv first) (P.dv ((⟨first, d :: ds⟩ : Win).last - 1)) T') :=
            funext (fin_flush h t3)
          simp only [Par.tree, rest, Tree.mk.injEq, true_and, and_true]
          exact hnode
    · rw [if_neg c] at hw; cases hw

theorem is_step (h : P.Ok) (hf : 0 < P.fetch) {w w' : Win} {t : Tree} {o : Op} (hI : Is P w t) (hw : w.step P.fetch o = some w') :
    ∃ t', t.step P o = some t' ∧ Is P w' t' := by
  cases o with
  | add id d => exact is_add h hf hI hw
  | remove id d => exact is_remove h hf hI hw

theorem is_run (h : P.Ok) (hf : 0 < P.fetch) : ∀ (os : List Op) {w w' : Win} {t : Tree}, Is P w t → w.run P.fetch os = some w' → ∃ t', t.run P os = some t' ∧ Is P w' t' := by
  intro os
  induction os with
  | nil =>
    intro w w' t hI hw
    obtain rfl := Option.some.inj hw
    exact ⟨t, rfl, hI⟩
  | cons o os ih =>
    intro w w' t hI hw
    rw [Win.run] at hw
    cases h1 : w.step P.fetch o with
    | none => rw [h1] at hw; cases hw
    | some w1 =>
      rw [h1] at hw
      obtain ⟨t1, e1, I1⟩ := is_step h hf hI h1
      obtain ⟨t2, e2, I2⟩ := ih I1 hw
      exact ⟨t2, by rw [Tree.run, e1]; exact e2, I2⟩

theorem top_unique {A B : Nat → Nat} {T T' : Nat} (h : Top A B T) (h' : Top A B T') : T = T' := by
  rcases Nat.lt_trichotomy T T' with g | g | g
  · exact absurd h.one (h'.first T h.pos g)
  · exact g
  · exact absurd h'.one (h.first T' h'.pos g)

theorem is_unique {w : Win} {t t' : Tree} (h : Is P w t) (h' : Is P w t') : t = t' := by
  rcases h with ⟨hd, rfl⟩ | ⟨hd, _, T, hT, rfl⟩
  · rcases h' with ⟨_, rfl⟩ | ⟨hd', _⟩
    · rfl
    · exact absurd hd hd'
  · rcases h' with ⟨hd', _⟩ | ⟨_, _, T', hT', rfl⟩
    · exact absurd hd' hd
    · obtain rfl := top_unique hT hT'
      rfl

theorem is_nil : Is P .nil .empty := .inl ⟨rfl, rfl⟩

end Verif.Rvt
