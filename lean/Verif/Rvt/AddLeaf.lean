import Verif.Rvt.Add
set_option linter.unusedVariables false
set_option linter.unusedSimpArgs false
/-!
# Range validation tree: `addRVBNode` on the tree of an interval (C29)
-/
namespace Verif.Rvt
open Verif.Bytes

variable {P : Par} {A B B' : Nat → Nat}

/-- the level of the root: the first one with a single node -/
structure Top (A B : Nat → Nat) (T : Nat) : Prop where
  pos : 1 ≤ T
  one : A T = B T
  first : ∀ l, 1 ≤ l → l < T → A l ≠ B l

theorem sumR_bump (g : Nat → Int) (x : Nat) (v : Int) (s n : Nat) :
    sumR (fun q => g q + if q = x then v else 0) s n = sumR g s n + if s ≤ x ∧ x < s + n then v else 0 := by
  induction n with
  | zero => simp [sumR]; intro h1 h2; omega
  | succ n ih =>
    rw [sumR, sumR, ih]
    by_cases h1 : s ≤ x ∧ x < s + n
    · rw [if_pos h1, if_neg (show ¬ (s + n = x) by omega), if_pos (show s ≤ x ∧ x < s + (n + 1) by omega)]; omega
    · rw [if_neg h1]
      by_cases h2 : s + n = x
      · rw [if_pos h2, if_pos (show s ≤ x ∧ x < s + (n + 1) by omega)]; omega
      · rw [if_neg h2, if_neg (show ¬ (s ≤ x ∧ x < s + (n + 1)) by omega)]; omega

/-- changing one leaf by `v` changes the sums on its path by `v`, and no other -/
theorem S_leaf (h : P.Ok) {Q : Nat → Nat} (hA : Path P A) (hB : Path P B) (hQ : Path P Q) (h1 : A 0 ≤ Q 0) (h2 : Q 0 ≤ B 0) {val val' : Nat → Int} {v : Int}
    (hv : ∀ j, val' j = val j + if j = Q 0 then v else 0) (l : Nat) : ∀ p, P.S val' A B l p = P.S val A B l p + if p = Q l then v else 0 := by
  induction l with
  | zero => intro p; exact hv p
  | succ l ih =>
    intro p
    rw [S_succ, S_succ, show P.S val' A B l = fun q => P.S val A B l q + if q = Q l then v else 0 from funext ih, sumR_bump]
    have g1 := hA.mono' hQ h1 l
    have g2 := hQ.mono' hB h2 l
    have hd := div_iff (p := p) (q := Q l) h.K0
    rw [← hQ.up l] at hd
    by_cases e : p = Q (l + 1)
    · have := hd.1 e.symm
      rw [if_pos e, if_pos (by simp only [Par.lo, Par.hi]; omega)]; omega
    · rw [if_neg e, if_neg]
      · omega
      · intro hh
        apply e
        symm
        rw [hd]
        simp only [Par.lo, Par.hi] at hh
        omega

theorem cn_parent (hB : Path P B) {val : Nat → Int} {T l : Nat} (hab : A l ≤ B l) (h1 : 1 ≤ l) (h2 : l ≤ T) :
    ∃ n, P.cn val A B T l (B l) = some n ∧ n.parent = if l < T then some (P.pos (l + 1) (B (l + 1))) else none := by
  obtain ⟨k, rfl⟩ : ∃ k, l = k + 1 := ⟨l - 1, by omega⟩
  refine ⟨_, cn_some hab (Nat.le_refl _) h2, ?_⟩
  simp only [Par.nd, hB.up (k + 1)]
  by_cases e : k + 1 < T
  · simp [e]
  · simp [e]

/-- the value of the new leaf goes up to the root -/
theorem addUp_leaf (h : P.Ok) (hA : Path P A) (hB : Path P B) (h0 : A 0 ≤ B 0) (val : Nat → Int) {T : Nat} (hT : 1 ≤ T) (hroot : A T = B T) (mn mx : Nat) (er : List Id) {v : Int} (hv : v % P.M = v) :
    (P.tree (P.cn (zeroed val (B 0)) A B T) (rest A B T (A T) mn mx er)).addUp P (some (P.pos 1 (B 1))) v =
      some (P.tree (P.cn (fun j => if j = B 0 then v else val j) A B T) (rest A B T (A T) mn mx er)) := by
  have hab := hA.mono' hB h0
  have hS := S_leaf (v := v) h hA hB hB h0 (Nat.le_refl _) (val := zeroed val (B 0)) (val' := fun j => if j = B 0 then v else val j) (by
    intro j
    simp only [zeroed]
    by_cases e : j = B 0
    · rw [if_pos e, if_pos e, if_pos e]; omega
    · rw [if_neg e, if_neg e, if_neg e]; omega)
  rw [addUp_chain h (q := B) (by simp only [rest, hroot]) hT (fun l g1 g2 => cn_parent hB (hab l) g1 g2)]
  refine congrArg (fun g => some (P.tree g _)) ?_
  funext l p
  simp only [bump]
  cases l with
  | zero => rw [if_neg (by omega)]; rfl
  | succ k =>
    by_cases e : 1 ≤ k + 1 ∧ k + 1 ≤ T ∧ p = B (k + 1)
    · rw [if_pos e, e.2.2, cn_some (hab _) (Nat.le_refl _) e.2.1, cn_some (hab _) (Nat.le_refl _) e.2.1, hS, if_pos rfl]
      simp only [Option.map_some, Option.some.injEq]
      rw [nd_cv]
      congr 1
      show P.add (_ % _) v = _
      rw [← hv, add_mod h, hv]
    · rw [if_neg e]
      by_cases e2 : A (k + 1) ≤ p ∧ p ≤ B (k + 1) ∧ k + 1 ≤ T
      · rw [cn_some e2.1 e2.2.1 e2.2.2, cn_some e2.1 e2.2.1 e2.2.2, hS, if_neg (by omega), Int.add_zero]
      · rw [cn_none e2, cn_none e2]

theorem D_zero (c : AddCtx P A B B') (h1 : B' 1 = B 1) (l : Nat) : P.D B B' l = 0 := by
  induction l with
  | zero => rfl
  | succ l ih => rw [Par.D, ih, if_pos (c.hB'.eq_ups c.hB h1 (by omega))]; rfl

theorem pos_zero (P : Par) (p : Nat) : P.pos 0 p = ⟨0, p + 1⟩ := by simp [Par.pos]

theorem addLeaf_canon (c : AddCtx P A B B') (val : Nat → Int) {T : Nat} (hT : Top A B T) (mn mx : Nat) (er : List Id) {v : Int} (hv : v % P.M = v) :
    ∃ T', Top A B' T' ∧ (P.tree (P.cn val A B T) (rest A B T (A T) mn mx er)).addLeaf P (B' 0 + 1) v =
      some (P.tree (P.cn (fun j => if j = B' 0 then v else val j) A B' T') (rest A B' T' (A T') mn mx er)) := by
  have h := c.ok
  have hK := h.K
  have hab' : A 0 ≤ B' 0 := by have := c.le; have := c.next; omega
  have hab := c.ab
  have hT1 := hT.pos
  have h10 := c.next
  have d1 : B 1 * P.K ≤ B 0 ∧ B 0 < B 1 * P.K + P.K := (div_iff h.K0).1 (c.hB.up 0).symm
  have d1' : B' 1 * P.K ≤ B' 0 ∧ B' 0 < B' 1 * P.K + P.K := (div_iff h.K0).1 (c.hB'.up 0).symm
  have hright : (rest A B T (A T) mn mx er).right 1 = some (B 1) := by simp only [rest]; rw [if_pos (by omega)]
  have hnode : P.cn val A B T 1 (B 1) = some (P.nd 0 (B 1) (decide (1 < T)) (P.lo A 0 (B 1)) (P.hi B 0 (B 1)) (P.S val A B 1 (B 1) % P.M)) :=
    cn_some (hab 1) (Nat.le_refl _) hT1
  have hlo : P.lo A 0 (B 1) ≤ B' 0 := by have := hab 0; simp only [Par.lo]; omega
  unfold Tree.addLeaf
  rw [← pos_zero P (B' 0), openIns_tree h hright hnode rfl]
  by_cases e : B' 1 = B 1
  · have ho : B 1 * P.K ≤ B 0 ∧ B' 0 < B 1 * P.K + P.K := c.old e
    have hhi : P.hi B 0 (B 1) = B' 0 := by simp only [Par.hi]; omega
    have hhi' : P.hi B' 0 (B 1) = B' 0 + 1 := by simp only [Par.hi]; omega
    rw [if_pos (by rw [hhi]; omega)]
    dsimp only
    rw [hhi] at hnode
    rw [push_tree h (l := 0) (c := B' 0) hnode (nd_last_lt h _ _ _ _ _ _) (by show B' 0 - B 1 * P.K < P.K; omega)]
    simp only [Option.bind_eq_bind, Option.bind_some]
    rw [nd_push _ _ _ _ _ _ _ hlo (by omega), node_tree h, upd_same]
    simp only [Option.bind_some]
    rw [guard_yes (by rw [nd_kids_len]; simp only [Par.lo]; omega)]
    simp only [Option.bind_some]
    have hup : ∀ l, 1 ≤ l → B' l = B l := fun l hl => c.hB'.eq_ups c.hB e hl
    have hf : upd (P.cn val A B T) 1 (B 1) (P.nd 0 (B 1) (decide (1 < T)) (P.lo A 0 (B 1)) (B' 0 + 1) (P.S val A B 1 (B 1) % P.M)) =
        P.cn (zeroed val (B' 0)) A B' T := by
      funext l p
      by_cases c1 : l = 1 ∧ p = B 1
      · rw [c1.1, c1.2, upd_same, cn_some (k := 0) (hab 1) (by rw [hup 1 (by omega)]; exact Nat.le_refl _) hT1]
        have hs := c.S_path val 1
        rw [if_pos e, D_zero c e, e] at hs
        rw [show 0 + 1 = 1 from rfl, hs, hhi', Int.add_zero]
      · rw [upd_ne _ _ c1]
        by_cases c2 : p = B' l
        · subst c2
          cases l with
          | zero => rfl
          | succ k =>
            by_cases c3 : k + 1 ≤ T
            · have hk : k ≠ 0 := by
                rintro rfl
                exact c1 ⟨rfl, e⟩
              have hs := c.S_path val (k + 1)
              rw [if_pos (hup _ (by omega)), D_zero c e, Int.add_zero] at hs
              rw [cn_some (by rw [hup _ (by omega)]; exact hab _) (by rw [hup _ (by omega)]; exact Nat.le_refl _) c3,
                cn_some (by rw [hup _ (by omega)]; exact hab _) (Nat.le_refl _) c3, hs, hup (k + 1) (by omega)]
              simp only [Par.hi, hup k (by omega)]
            · rw [cn_none (by omega), cn_none (by omega)]
        · exact (c.cn_other val T c2).symm
    have hR : rest A B T (A T) mn mx er = rest A B' T (A T) mn mx er := by
      simp only [rest, Rest.mk.injEq, true_and, and_true]
      funext l
      by_cases hl : 1 ≤ l ∧ l ≤ T
      · rw [if_pos hl, if_pos hl, hup l hl.1]
      · rw [if_neg hl, if_neg hl]
    refine ⟨T, ⟨hT1, by rw [hup T hT1]; exact hT.one, fun l h1 h2 => by rw [hup l h1]; exact hT.first l h1 h2⟩, ?_⟩
    rw [show 0 + 1 = 1 from rfl, hf, hR, ← hup 1 (by omega)]
    exact addUp_leaf h c.hA c.hB' hab' val hT1 (by rw [hup T hT1]; exact hT.one) mn mx er hv
  · obtain ⟨n1, n2, n3⟩ : B' 0 = B 0 + 1 ∧ B' 0 = B' 1 * P.K ∧ B' 1 = B 1 + 1 := c.new e
    have hmul : B' 1 * P.K = B 1 * P.K + P.K := by rw [n3, Nat.add_mul]; omega
    have hhi : P.hi B 0 (B 1) = B 1 * P.K + P.K := by simp only [Par.hi]; omega
    have hup' : B' 0 / P.K = B' 1 := (c.hB'.up 0).symm
    have hab1 := hab 1
    have hab0 := hab 0
    rw [if_neg (by rw [hhi]; omega)]
    dsimp only
    rw [make_tree h (by rw [hup']; exact cn_none (show ¬ (A 1 ≤ B' 1 ∧ B' 1 ≤ B 1 ∧ 1 ≤ T) by omega))]
    simp only [Option.bind_eq_bind, Option.bind_some]
    rw [hup', push_tree h (l := 0) (c := B' 0) (upd_same _ _ _ _) (by simp) (Nat.mod_lt _ h.K0)]
    simp only [Option.bind_some]
    have hf1 := nd_fresh P h 0 (B' 0) (B' 1) (P.iv (P.pos 1 (B' 1))) hup'
    dsimp only at hf1
    rw [show 0 + 1 = 1 from rfl] at hf1 ⊢
    rw [hf1, upd_upd, addRight_tree h (rest_both _ _ _ _ _ _ _ _)]
    simp only [Option.bind_some]
    rw [if_neg (by simp [Par.tree, rest])]
    have hD1 : P.D B B' 1 = P.iv (P.pos 1 (B' 1)) := by
      show P.D B B' 0 + (if B' 1 = B 1 then 0 else P.iv (P.pos 1 (B' 1))) = _
      rw [if_neg e]; show (0 : Int) + _ = _; omega
    have hmix : upd (P.cn val A B T) 1 (B' 1) (P.nd 0 (B' 1) false (B' 0) (B' 0 + 1) (P.iv (P.pos 1 (B' 1)))) = P.mix val A B B' T 1 := by
      funext l p
      by_cases c1 : l = 1 ∧ p = B' 1
      · have hm := mix_cur c val (T := T) (k := 0) hT1
        have hs := c.S_path val 1
        rw [if_neg e, Int.zero_add, hD1] at hs
        rw [show 0 + 1 = 1 from rfl, hs, iv_mod h] at hm
        rw [c1.1, c1.2, upd_same, hm]
        have e1 : P.lo A 0 (B' 1) = B' 0 := by simp only [Par.lo]; omega
        have e2 : P.hi B' 0 (B' 1) = B' 0 + 1 := by simp only [Par.hi]; omega
        rw [e1, e2]; simp [e]
      · rw [upd_ne _ _ c1]
        simp only [Par.mix]
        by_cases c2 : l ≤ 1
        · rw [if_pos c2, if_neg (fun hh => c1 ⟨hh.1, hh.2.1⟩)]
          cases l with
          | zero => rfl
          | succ k =>
            obtain rfl : k = 0 := by omega
            exact (c.cn_other val T (fun hp => c1 ⟨rfl, hp⟩)).symm
        · rw [if_neg c2]
    have hR : ({ rest A B T (A T) mn mx er with
        right := fun j => if j = 1 then some (B' 1) else (rest A B T (A T) mn mx er).right j
        left := fun j => if j = 1 then some (((rest A B T (A T) mn mx er).left 1).getD (B' 1)) else (rest A B T (A T) mn mx er).left j } : Rest) =
        rest A (pick B B' 1) T (A T) mn mx er := by
      simp only [rest, Rest.mk.injEq, true_and, and_true]
      constructor
      · funext j
        by_cases ej : j = 1
        · subst ej; rw [if_pos rfl, if_pos (by omega)]; rfl
        · rw [if_neg ej]
      · funext j
        by_cases ej : j = 1
        · subst ej; rw [if_pos rfl, if_pos (by omega)]; simp [pick]
        · rw [if_neg ej]
          by_cases ej2 : 1 ≤ j ∧ j ≤ T
          · rw [if_pos ej2, if_pos ej2, pick, if_neg (by omega)]
          · rw [if_neg ej2, if_neg ej2]
    rw [hmix, hR]
    have hcur := mix_cur c val (T := T) (k := 0) hT1
    rw [Tree.addInternal, node_tree h, hcur]
    simp only [Option.bind_eq_bind, Option.bind_some]
    rw [guard_yes (nd_noparent _ _ _ _ _ _ (by simp [e]))]
    simp only [Option.bind_some]
    have hrt : (P.tree (P.mix val A B B' T 1) (rest A (pick B B' 1) T (A T) mn mx er)).root = some (P.pos T (A T)) := rfl
    rw [hrt]
    simp only [Option.bind_some]
    rw [show (P.nd 0 (B' (0 + 1)) (decide (0 + 1 < T ∧ B' (0 + 1) = B (0 + 1))) (P.lo A 0 (B' (0 + 1))) (P.hi B' 0 (B' (0 + 1)))
      (P.S (zeroed val (B' 0)) A B' (0 + 1) (B' (0 + 1)) % P.M)).iv = P.D B B' (0 + 1) % P.M from by
        show P.iv (P.pos 1 (B' 1)) = P.D B B' 1 % P.M
        rw [hD1, iv_mod h]]
    rw [climb_all c val mn mx er (A T) _ 0 hT1 (by rw [pos_lvl]; omega)]
    simp only [Option.bind_some]
    by_cases e3 : B' T = B T
    · rw [if_pos ((root_tree h _ _ _ _).2 (by simp only [rest]; rw [hT.one, e3]))]
      simp only [Option.bind_some]
      refine ⟨T, ⟨hT1, by rw [hT.one, e3], ?_⟩, addUp_leaf h c.hA c.hB' hab' val hT1 (by rw [hT.one, e3]) mn mx er hv⟩
      intro l h1 h2
      have := hT.first l h1 h2
      have := hab l
      have := c.step l
      omega
    · have hs := (c.step T).resolve_left e3
      rw [if_neg (fun hh => by
        have := (root_tree h _ _ _ _).1 hh
        simp only [rest, Option.some.injEq, Prod.mk.injEq] at this
        have h1 := hT.one
        omega)]
      obtain ⟨k, rfl⟩ : ∃ k, T = k + 1 := ⟨T - 1, by omega⟩
      obtain ⟨T', t1, t2, t3, t4⟩ := newRoots_all h c.hA c.hB' (zeroed val (B' 0)) mn mx er ((P.pos (k + 1) (B' (k + 1))).idx + 1) k
        (by have := hT.one; omega) (by
          rw [pos_idx]
          have : B' (k + 1) * 1 ≤ B' (k + 1) * P.K ^ (k + 1) := Nat.mul_le_mul_left _ (h.pow _)
          omega)
      rw [t4]
      simp only [Option.bind_some]
      refine ⟨T', ⟨by omega, t2, ?_⟩, addUp_leaf h c.hA c.hB' hab' val (by omega) t2 mn mx er hv⟩
      intro l h1 h2
      by_cases h3 : k + 1 ≤ l
      · exact t3 l h3 h2
      · have := hT.first l h1 (by omega)
        have := hab l
        have := c.step l
        omega

/-- the first leaf -/
theorem addLeaf_first (h : P.Ok) (hA : Path P A) (val : Nat → Int) {v : Int} (hv : v % P.M = v) :
    Tree.empty.addLeaf P (A 0 + 1) v = some (P.tree (P.cn (fun j => if j = A 0 then v else val j) A A 1) (rest A A 1 (A 1) 0 0 [])) := by
  have hE : Tree.empty = P.tree (fun _ _ => none) ⟨none, fun _ => none, fun _ => none, 0, 0, []⟩ := by
    simp only [Tree.empty, Par.tree, Tree.mk.injEq, Option.map_none, and_true]
    funext x
    simp [Par.lift]
  have hup : A 0 / P.K = A 1 := (hA.up 0).symm
  have d := (div_iff h.K0).1 hup
  rw [hE]
  unfold Tree.addLeaf
  rw [openIns_none rfl]
  dsimp only
  rw [← pos_zero P (A 0), make_tree h rfl]
  simp only [Option.bind_eq_bind, Option.bind_some]
  rw [hup, push_tree h (l := 0) (c := A 0) (upd_same _ _ _ _) (by simp) (Nat.mod_lt _ h.K0)]
  simp only [Option.bind_some]
  have hf1 := nd_fresh P h 0 (A 0) (A 1) (P.iv (P.pos 1 (A 1))) hup
  dsimp only at hf1
  rw [show 0 + 1 = 1 from rfl] at hf1 ⊢
  rw [hf1, upd_upd, addRight_tree h (by simp [Rest.both])]
  simp only [Option.bind_some]
  rw [if_pos (by simp [Par.tree])]
  have hset : (P.tree (upd (fun _ _ => none) 1 (A 1) (P.nd 0 (A 1) false (A 0) (A 0 + 1) (P.iv (P.pos 1 (A 1)))))
      ⟨none, fun k => if k = 1 then some ((none : Option Nat).getD (A 1)) else none, fun k => if k = 1 then some (A 1) else none, 0, 0, []⟩).setRoot P (P.pos 1 (A 1)) =
      some (P.tree (P.cn (zeroed val (A 0)) A A 1) (rest A A 1 (A 1) 0 0 [])) := by
    rw [Tree.setRoot]
    have ho : (P.tree (upd (fun _ _ => none) 1 (A 1) (P.nd 0 (A 1) false (A 0) (A 0 + 1) (P.iv (P.pos 1 (A 1)))))
      ⟨none, fun k => if k = 1 then some ((none : Option Nat).getD (A 1)) else none, fun k => if k = 1 then some (A 1) else none, 0, 0, []⟩).oldRoot P (P.pos 1 (A 1)) =
      some (P.tree (upd (fun _ _ => none) 1 (A 1) (P.nd 0 (A 1) false (A 0) (A 0 + 1) (P.iv (P.pos 1 (A 1)))))
      ⟨none, fun k => if k = 1 then some ((none : Option Nat).getD (A 1)) else none, fun k => if k = 1 then some (A 1) else none, 0, 0, []⟩) := rfl
    rw [ho]
    simp only [Option.bind_eq_bind, Option.bind_some]
    have e : ∀ (f : Nat → Nat → Option Node) (R : Rest), ({ P.tree f R with root := some (P.pos 1 (A 1)) } : Tree) = P.tree f { R with root := some (1, A 1) } := fun f R => rfl
    rw [e, setParent_tree h (upd_same _ _ _ _)]
    simp only [Option.bind_some]
    rw [upd_upd, addRight_tree h (by simp only [Rest.both]; rfl)]
    congr 2
    · funext l p
      by_cases c1 : l = 1 ∧ p = A 1
      · rw [c1.1, c1.2, upd_same, cn_some (k := 0) (Nat.le_refl _) (Nat.le_refl _) (Nat.le_refl _)]
        have hS : P.S (zeroed val (A 0)) A A 1 (A 1) = P.iv (P.pos 1 (A 1)) := by
          have e1 : P.lo A 0 (A 1) = A 0 := by simp only [Par.lo]; omega
          have e2 : P.hi A 0 (A 1) = A 0 + 1 := by simp only [Par.hi]; omega
          show P.iv (P.pos 1 (A 1)) + sumR (P.S (zeroed val (A 0)) A A 0) (P.lo A 0 (A 1)) (P.hi A 0 (A 1) - P.lo A 0 (A 1)) = _
          rw [e1, e2, show A 0 + 1 - A 0 = 1 by omega]
          simp [sumR, Par.S, zeroed]
        have e1 : P.lo A 0 (A 1) = A 0 := by simp only [Par.lo]; omega
        have e2 : P.hi A 0 (A 1) = A 0 + 1 := by simp only [Par.hi]; omega
        rw [show 0 + 1 = 1 from rfl, hS, iv_mod h, e1, e2]
        simp [Par.nd]
      · rw [upd_ne _ _ c1]
        cases l with
        | zero => rfl
        | succ k =>
          rw [cn_none]
          intro hh
          obtain rfl : k = 0 := by omega
          exact c1 ⟨rfl, Nat.le_antisymm hh.2.1 hh.1⟩
    · simp only [rest, Rest.mk.injEq, true_and, and_true]
      constructor
      · funext j
        by_cases ej : j = 1
        · subst ej; simp
        · rw [if_neg ej, if_neg ej, if_neg (by omega)]
      · funext j
        by_cases ej : j = 1
        · subst ej; simp
        · rw [if_neg ej, if_neg ej, if_neg (by omega)]
  rw [hset]
  simp only [Option.bind_some]
  have hnode := cn_some (P := P) (val := zeroed val (A 0)) (A := A) (B := A) (T := 1) (k := 0) (p := A 1) (Nat.le_refl _) (Nat.le_refl _) (Nat.le_refl _)
  rw [Tree.addInternal, node_tree h]
  rw [show P.cn (zeroed val (A 0)) A A 1 1 (A 1) = _ from hnode]
  simp only [Option.bind_eq_bind, Option.bind_some]
  rw [guard_yes (nd_noparent _ _ _ _ _ _ (by simp))]
  simp only [Option.bind_some]
  have hrt : (P.tree (P.cn (zeroed val (A 0)) A A 1) (rest A A 1 (A 1) 0 0 [])).root = some (P.pos 1 (A 1)) := rfl
  rw [hrt]
  simp only [Option.bind_some]
  rw [climb, hrt]
  simp only [Option.bind_eq_bind, Option.bind_some]
  rw [if_pos trivial]
  simp only [Option.bind_some]
  rw [if_pos hrt]
  simp only [Option.bind_some]
  exact addUp_leaf h hA hA (Nat.le_refl _) val (Nat.le_refl _) rfl 0 0 [] hv

end Verif.Rvt
