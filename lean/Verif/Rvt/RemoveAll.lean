import Verif.Rvt.Shrink
set_option linter.unusedVariables false
set_option linter.unusedSimpArgs false
/-!
# Range validation tree: `removeRVBNode` as a whole (C29)
-/
namespace Verif.Rvt
open Verif.Bytes

variable {P : Par} {A A' B : Nat → Nat}

theorem rest_pick0 (A A' B : Nat → Nat) (T r mn mx : Nat) (er : List Id) : rest (pick A A' 0) B T r mn mx er = rest A B T r mn mx er := by
  simp only [rest, Rest.mk.injEq, true_and, and_true]
  funext l
  by_cases h : 1 ≤ l ∧ l ≤ T
  · rw [if_pos h, if_pos h, pick, if_neg (by omega)]
  · rw [if_neg h, if_neg h]

theorem rest_picked (c : RemCtx P A A' B) {T : Nat} (hT : 1 ≤ T) (e : A' T = A T) (mn mx : Nat) (er : List Id) :
    rest (pick A A' (T - 1)) B T (A T) mn mx er = rest A' B T (A' T) mn mx er := by
  rw [e]
  simp only [rest, Rest.mk.injEq, true_and, and_true]
  funext l
  by_cases h : 1 ≤ l ∧ l ≤ T
  · rw [if_pos h, if_pos h, pick]
    by_cases g : l ≤ T - 1
    · rw [if_pos g]
    · rw [if_neg g]
      obtain rfl : l = T := by omega
      rw [e]
  · rw [if_neg h, if_neg h]

theorem Top.stay (c : RemCtx P A A' B) {T : Nat} (hT : Top A B T) : A' T = A T := by
  have h1 := c.le' T
  have h2 := c.step T
  have h3 := hT.one
  omega

/-- the nodes before the removal -/
theorem cn_path (c : RemCtx P A A' B) (val : Nat → Int) {T j : Nat} (hj : j + 1 ≤ T) :
    P.cn val A B T (j + 1) (A (j + 1)) = some (P.nd j (A (j + 1)) (decide (j + 1 < T)) (A j) (P.hi B j (A (j + 1))) (P.S val A B (j + 1) (A (j + 1)) % P.M)) := by
  rw [cn_some (Nat.le_refl _) (c.ab _) hj, c.lo_first]

/-- the bottom node keeps a child -/
theorem start_stay (c : RemCtx P A A' B) (val : Nat → Int) {T : Nat} (hT : 1 ≤ T) (hg : A' 1 = A 1) {w : Int} (hw : w = P.S val A B 1 (A 1) % P.M) :
    Stage P val A A' B T 0 (upd (P.cn val A B T) 1 (A 1) (P.nd 0 (A 1) (decide (1 < T)) (A 0 + 1) (P.hi B 0 (A 1)) w)) [] := by
  constructor
  · intro l p hp
    rw [upd_ne _ _ (fun e => by obtain ⟨rfl, rfl⟩ := e; omega)]
  · intro p
    rw [upd_ne _ _ (by omega)]; rfl
  · intro l h1 h2; omega
  · intro l h1 h2; omega
  · intro x hx; cases hx
  · refine ⟨w, ?_, ?_⟩
    · rw [upd_same, ← c.next]
    · rw [hw, Int.emod_emod_of_dvd _ (Int.dvd_refl _), Par.E, Int.sub_zero]
  · intro j h1 h2
    refine ⟨P.S val A B (j + 1) (A (j + 1)) % P.M, ?_, ?_⟩
    · rw [upd_ne _ _ (by omega), cn_path c val h2, if_neg (by omega)]
    · rw [Int.emod_emod_of_dvd _ (Int.dvd_refl _), Par.E, Int.sub_zero]

/-- the bottom node goes: what is there after its parent was told -/
theorem start_gone (c : RemCtx P A A' B) (val : Nat → Int) {T : Nat} (hT : 2 ≤ T) (hg : A' 1 ≠ A 1) (mn mx : Nat) :
    ∃ f f2 er, ((P.tree (P.cn val A B T) (rest A B T (A T) mn mx [])).dropBottom P (P.pos 1 (A 1)) (P.iv (P.pos 1 (A 1)))).bind (fun t => t.pop (P.pos 1 (A 1)) (P.pos 0 (A 0))) =
        some (P.tree f (rest (pick A A' 1) B T (A T) mn mx er)) ∧
      (∃ w, f 1 (A 1) = some (P.nd 0 (A 1) (decide (1 < T)) (A' 0) (P.hi B 0 (A 1)) w)) ∧ (∃ n, f 2 (A 2) = some n) ∧
      (P.tree f (rest (pick A A' 1) B T (A T) mn mx er)).dropNode P (P.pos 1 (A 1)) (P.pos 2 (A 2)) (P.pos 1 (A 1)) (P.iv (P.pos 1 (A 1))) =
        some (P.tree f2 (rest (pick A A' 1) B T (A T) mn mx er)) ∧
      Mid P val A A' B T 0 f2 er := by
  have h := c.ok
  have hs := (c.step 1).resolve_left hg
  have hle := c.le' 1
  have hcheck := checkRemove_rest c (T := T) (k := 0) (f := P.cn val A B T) (r := A T) (mn := mn) (mx := mx) (er := []) (by omega) hg
    (by rw [cn_some (show A 1 ≤ A 1 + 1 by omega) (show A 1 + 1 ≤ B 1 by omega) (by omega)]; rfl)
  rw [rest_pick0] at hcheck
  have hn1 := cn_path c val (T := T) (j := 0) (by omega)
  have hn2 : P.cn val A B T 2 (A 2) = some (P.nd 1 (A 2) (decide (2 < T)) (A 1) (P.hi B 1 (A 2)) (P.S val A B 2 (A 2) % P.M)) := cn_path c val (T := T) (j := 1) (by omega)
  have hroot : (rest (pick A A' 1) B T (A T) mn mx [P.pos 1 (A 1)]).root ≠ some (1, A 1) := by
    simp only [rest]; simp; omega
  have hadd := addUp_chain h (R := rest (pick A A' 1) B T (A T) mn mx [P.pos 1 (A 1)]) (q := A) (s := 2) (T := T) (v := -P.iv (P.pos 1 (A 1))) rfl (by omega) (f := P.cn val A B T)
    (by
      intro l g1 g2
      obtain ⟨j, rfl⟩ : ∃ j, l = j + 1 := ⟨l - 1, by omega⟩
      exact ⟨_, cn_path c val g2, nd_path_parent c _ _ _⟩)
  have hdrop : (P.tree (P.cn val A B T) (rest A B T (A T) mn mx [])).dropBottom P (P.pos 1 (A 1)) (P.iv (P.pos 1 (A 1))) =
      some (P.tree (bump P (P.cn val A B T) A 2 T (-P.iv (P.pos 1 (A 1)))) (rest (pick A A' 1) B T (A T) mn mx [P.pos 1 (A 1)])) := by
    rw [Tree.dropBottom, hcheck]
    simp only [Option.bind_eq_bind, Option.bind_some]
    change ((P.tree (P.cn val A B T) (rest (pick A A' 1) B T (A T) mn mx [P.pos 1 (A 1)])).parentOf (P.pos 1 (A 1))).bind (fun p =>
      (P.tree (P.cn val A B T) (rest (pick A A' 1) B T (A T) mn mx [P.pos 1 (A 1)])).addUp P p (-P.iv (P.pos 1 (A 1)))) = _
    rw [parentOf_tree h hroot hn1 (by rw [nd_path_parent c, if_pos (by omega)]) hn2]
    simp only [Option.bind_some]
    exact hadd
  have hb1 : bump P (P.cn val A B T) A 2 T (-P.iv (P.pos 1 (A 1))) 1 (A 1) = P.cn val A B T 1 (A 1) := by
    simp only [bump]; rw [if_neg (by omega)]
  have hgt := c.hi_gt 0
  have hb2 : bump P (P.cn val A B T) A 2 T (-P.iv (P.pos 1 (A 1))) 2 (A 2) =
      some (P.nd 1 (A 2) (decide (2 < T)) (A 1) (P.hi B 1 (A 2)) (P.add (P.S val A B 2 (A 2) % P.M) (-P.iv (P.pos 1 (A 1))))) := by
    simp only [bump]; rw [if_pos ⟨by omega, hT, trivial⟩, hn2]; rfl
  have hgt1 : A 1 < P.hi B 1 (A 2) := c.hi_gt 1
  refine ⟨upd (bump P (P.cn val A B T) A 2 T (-P.iv (P.pos 1 (A 1)))) 1 (A 1) (P.nd 0 (A 1) (decide (1 < T)) (A 0 + 1) (P.hi B 0 (A 1)) (P.S val A B 1 (A 1) % P.M)),
    upd (upd (bump P (P.cn val A B T) A 2 T (-P.iv (P.pos 1 (A 1)))) 1 (A 1) (P.nd 0 (A 1) (decide (1 < T)) (A 0 + 1) (P.hi B 0 (A 1)) (P.S val A B 1 (A 1) % P.M)))
      2 (A 2) (P.nd 1 (A 2) (decide (2 < T)) (A 1 + 1) (P.hi B 1 (A 2)) (P.add (P.S val A B 2 (A 2) % P.M) (-P.iv (P.pos 1 (A 1))))),
    [P.pos 1 (A 1)], ?_, ?_, ?_, ?_, ?_⟩
  · rw [hdrop]
    simp only [Option.bind_some]
    rw [pop_tree h (l := 0) (by rw [hb1]; exact hn1) (nd_kids_cons _ _ _ _ _ _ _ hgt), nd_kids_set]
  · exact ⟨_, by rw [upd_same, c.next]⟩
  · exact ⟨_, by rw [upd_ne _ _ (by omega)]; exact hb2⟩
  · rw [Tree.dropNode, pop_tree h (l := 1) (by rw [upd_ne _ _ (by omega)]; exact hb2) (nd_kids_cons _ _ _ _ _ _ _ hgt1), nd_kids_set]
    simp only [Option.bind_eq_bind, Option.bind_some]
    rw [if_pos trivial]
  · have hE : P.E A A' (0 + 1) = P.iv (P.pos 1 (A 1)) := by rw [Par.E, if_neg hg, Par.E, Int.zero_add]
    constructor
    · intro l p hp
      rw [upd_ne _ _ (fun e => by obtain ⟨rfl, rfl⟩ := e; omega), upd_ne _ _ (fun e => by obtain ⟨rfl, rfl⟩ := e; omega)]
      simp only [bump]
      rw [if_neg (by omega)]
    · intro p
      rw [upd_ne _ _ (by omega), upd_ne _ _ (by omega)]
      simp only [bump]
      rw [if_neg (by omega)]; rfl
    · intro l g1 g2; omega
    · intro l g1 g2 g3
      obtain rfl : l = 1 := by omega
      exact List.mem_cons_self
    · intro x hx
      exact ⟨1, by omega, by omega, hg, List.mem_singleton.1 hx⟩
    · refine ⟨P.S val A B 1 (A 1) % P.M, ?_, ?_⟩
      · rw [upd_ne _ _ (by omega), upd_same, c.next]
      · rw [Int.emod_emod_of_dvd _ (Int.dvd_refl _), Par.E, Int.sub_zero]
    · intro j g1 g2
      rw [hE]
      have hm : (P.S val A B (j + 1) (A (j + 1)) % P.M) % P.M = P.S val A B (j + 1) (A (j + 1)) % P.M := Int.emod_emod_of_dvd _ (Int.dvd_refl _)
      refine ⟨P.add (P.S val A B (j + 1) (A (j + 1)) % P.M) (-P.iv (P.pos 1 (A 1))), ?_, add_neg h hm⟩
      by_cases e : j = 1
      · subst e
        rw [upd_same, if_pos rfl, hs]
      · rw [upd_ne _ _ (by omega), upd_ne _ _ (by omega), if_neg (by omega)]
        simp only [bump]
        rw [if_pos ⟨by omega, g2, trivial⟩, cn_path c val g2]
        rfl

/-- up to the end of the first loop -/
theorem removeLeaf_trim (c : RemCtx P A A' B) (val : Nat → Int) {T : Nat} (hT : Top A B T) (mn mx : Nat) :
    ∃ t f er, (P.tree (P.cn val A B T) (rest A B T (A T) mn mx [])).removeLeaf P (A 0 + 1) (val (A 0)) = t.removeUp P (P.pos 1 (A 1)) (val (A 0)) ∧
      t.root = some (P.pos T (A T)) ∧
      trim P (P.pos 1 (A 1)) (val (A 0)) (T + 1) t (P.pos 1 (A 1)) = some (P.tree f (rest (pick A A' (T - 1)) B T (A T) mn mx er)) ∧
      Stage P val A A' B T (T - 1) f er := by
  have h := c.ok
  have hT1 := hT.pos
  have hn1 := cn_path c val (T := T) (j := 0) hT1
  have hl : (P.tree (P.cn val A B T) (rest A B T (A T) mn mx [])).left 1 = some (P.pos 1 (A 1)) := by
    rw [left_tree]; simp only [rest]; rw [if_pos (by omega)]; rfl
  have hgt := c.hi_gt 0
  by_cases hg : A' 1 = A 1
  · have hst := c.hi_stay hg
    have hnx := c.next
    have s0 := start_stay c val hT1 hg rfl
    have hrem : (P.tree (P.cn val A B T) (rest A B T (A T) mn mx [])).removeLeaf P (A 0 + 1) (val (A 0)) =
        (P.tree (upd (P.cn val A B T) 1 (A 1) (P.nd 0 (A 1) (decide (1 < T)) (A 0 + 1) (P.hi B 0 (A 1)) (P.S val A B 1 (A 1) % P.M))) (rest A B T (A T) mn mx [])).removeUp P (P.pos 1 (A 1)) (val (A 0)) := by
      rw [Tree.removeLeaf, hl]
      simp only [Option.bind_eq_bind, Option.bind_some]
      rw [node_tree h, hn1]
      simp only [Option.bind_some]
      rw [if_neg (by rw [nd_kids_len]; omega), ← pos_zero P, pop_tree h (l := 0) hn1 (nd_kids_cons _ _ _ _ _ _ _ hgt), nd_kids_set]
      rfl
    by_cases hT2 : T = 1
    · subst hT2
      refine ⟨_, upd (P.cn val A B 1) 1 (A 1) (P.nd 0 (A 1) (decide (1 < 1)) (A 0 + 1) (P.hi B 0 (A 1)) (P.S val A B 1 (A 1) % P.M)), [], hrem, rfl, ?_, ?_⟩
      · rw [trim, if_pos ((root_tree h _ _ _ _).2 rfl), rest_pick0]
      · exact s0
    · obtain ⟨f', t1, t2⟩ := trim_round c (k := 0) (T := T) (by omega) (val := val) (rvt := P.pos 1 (A 1)) (fuel := T) (mn := mn) (mx := mx) (er := []) (R := rest A B T (A T) mn mx []) rfl
        (by obtain ⟨w, g, _⟩ := s0.here; exact ⟨w, g⟩)
        (by obtain ⟨w, g, _⟩ := s0.path 1 (by omega) (by omega); exact ⟨_, g⟩)
        (fun _ => ⟨rfl, by rw [← pick_stay hg, rest_pick0]⟩) (fun e => absurd hg e) (stage_mid_stay c s0 hg)
      obtain ⟨f, er, u1, u2⟩ := trim_all c mn mx T 1 f' [] (Nat.le_refl _) (by omega) (by omega) t2
      exact ⟨_, f, er, hrem, rfl, t1.trans u1, u2⟩
  · have hT2 : 2 ≤ T := by
      by_cases e : T = 1
      · exact absurd (e ▸ hT.stay c) hg
      · omega
    obtain ⟨hg1, hg2⟩ := c.hi_gone hg
    obtain ⟨f, f2, er, d1, d2, d3, d4, d5⟩ := start_gone c val hT2 hg mn mx
    obtain ⟨f', t1, t2⟩ := trim_round c (k := 0) (T := T) (by omega) (val := val) (rvt := P.pos 1 (A 1)) (fuel := T) (mn := mn) (mx := mx) (er := er)
      (R := rest (pick A A' 1) B T (A T) mn mx er) rfl d2 d3 (f2 := f2) (fun e => absurd e hg) (fun _ => d4) d5
    obtain ⟨f3, er3, u1, u2⟩ := trim_all c mn mx T 1 f' er (Nat.le_refl _) (by omega) (by omega) t2
    refine ⟨_, f3, er3, ?_, rfl, t1.trans u1, u2⟩
    rw [Tree.removeLeaf, hl]
    simp only [Option.bind_eq_bind, Option.bind_some]
    rw [node_tree h, hn1]
    simp only [Option.bind_some]
    rw [if_pos (by rw [nd_kids_len]; omega), ← Option.bind_assoc, ← pos_zero P]
    have e : (P.nd 0 (A (0 + 1)) (decide (0 + 1 < T)) (A 0) (P.hi B 0 (A (0 + 1))) (P.S val A B (0 + 1) (A (0 + 1)) % P.M)).iv = P.iv (P.pos 1 (A 1)) := rfl
    rw [e, d1]
    rfl

/-- not the last leaf -/
theorem removeLeaf_more (c : RemCtx P A A' B) (val : Nat → Int) {T : Nat} (hT : Top A B T) (mn mx : Nat) :
    ∃ T' f er, Top A' B T' ∧ (P.tree (P.cn val A B T) (rest A B T (A T) mn mx [])).removeLeaf P (A 0 + 1) (val (A 0)) =
      some (P.tree f (rest A' B T' (A' T') mn mx er)) ∧ Fin P val A' B T' f er := by
  have h := c.ok
  have hT1 := hT.pos
  have hst := hT.stay c
  obtain ⟨t, f, er, r1, r2, r3, s⟩ := removeLeaf_trim c val hT mn mx
  obtain ⟨k, rfl⟩ : ∃ k, T = k + 1 := ⟨T - 1, by omega⟩
  have s' : Stage P val A A' B (k + 1) k f er := s
  obtain ⟨w, w1, w2⟩ := s'.here
  rw [r1, Tree.removeUp, r2]
  simp only [Option.bind_eq_bind, Option.bind_some]
  rw [show (P.pos (k + 1) (A (k + 1))).lvl + 1 = k + 1 + 1 from rfl, r3]
  simp only [Option.bind_some]
  rw [rest_picked c hT1 hst, subValue_tree h w1, nd_cv]
  simp only [Option.bind_some]
  rw [node_tree h, upd_same]
  simp only [Option.bind_some]
  have hhi := c.hi_stay hst
  rw [if_neg (by intro e; have := congrArg List.length e; rw [nd_kids_len] at this; simp at this; omega)]
  have F : Fin P val A' B (k + 1) (upd f (k + 1) (A (k + 1)) (P.nd k (A (k + 1)) (decide (k + 1 < k + 1)) (A' k) (P.hi B k (A (k + 1))) (P.sub (P.nd k (A (k + 1)) (decide (k + 1 < k + 1)) (A' k) (P.hi B k (A (k + 1))) w).cv (val (A 0))))) er := by
    constructor
    · intro l p hp
      by_cases e : l = k + 1 ∧ p = A (k + 1)
      · obtain ⟨rfl, rfl⟩ := e
        rw [upd_same, cn_some (by omega) (c.ab _) (Nat.le_refl _), c.S_stay val _ hst, c.lo_first']
        rw [show (P.nd k (A (k + 1)) (decide (k + 1 < k + 1)) (A' k) (P.hi B k (A (k + 1))) w).cv = w from rfl, sub_any h w2, Par.E, if_pos hst, Int.add_zero]
      · rw [upd_ne _ _ e]
        by_cases e2 : p = A l
        · subst e2
          by_cases e3 : l = 0
          · subst e3; rw [s'.zero]; rfl
          · by_cases e4 : l ≤ k
            · by_cases e5 : A' l = A l
              · exact s'.done l (by omega) e4 e5
              · exact absurd (s'.gone l (by omega) e4 e5) hp
            · have e6 : k + 1 < l := by
                by_cases e7 : l = k + 1
                · subst e7; exact absurd ⟨rfl, rfl⟩ e
                · omega
              rw [s'.other _ _ (.inr e6), cn_none (by omega), cn_none (by omega)]
        · rw [s'.other l p (.inl e2), c.cn_other val _ e2]
    · intro x hx
      obtain ⟨l, g1, g2, g3, g4⟩ := s'.only x hx
      have := c.step l
      exact ⟨l, A l, g1, g4, .inl (by omega)⟩
  exact shrink_all h c.hA' c.hB c.le _ _ _ _ (by omega) (by omega) (by rw [hst]; exact hT.one) F

end Verif.Rvt
