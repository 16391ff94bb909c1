import Verif.Rvt.RemoveLeaf
set_option linter.unusedVariables false
set_option linter.unusedSimpArgs false
/-!
# Range validation tree: the root moves down (C29)
-/
namespace Verif.Rvt
open Verif.Bytes

variable {P : Par} {A A' B : Nat → Nat}

/-- the tree of the interval, but for the nodes that will be erased -/
structure Fin (P : Par) (val : Nat → Int) (A B : Nat → Nat) (L : Nat) (f : Nat → Nat → Option Node) (er : List Id) : Prop where
  node : ∀ l p, P.pos l p ∉ er → f l p = P.cn val A B L l p
  er : ∀ x ∈ er, ∃ l p, 1 ≤ l ∧ x = P.pos l p ∧ (p < A l ∨ L < l)

theorem Fin.here (h : P.Ok) {val : Nat → Int} {L l p : Nat} {f : Nat → Nat → Option Node} {er : List Id} (F : Fin P val A B L f er) (h1 : A l ≤ p) (h2 : l ≤ L) :
    f l p = P.cn val A B L l p := by
  apply F.node
  intro hm
  obtain ⟨l', p', g1, g2, g3⟩ := F.er _ hm
  obtain ⟨rfl, rfl⟩ := (pos_inj h).1 g2
  omega

theorem top_lo (h : P.Ok) (hA : Path P A) (hB : Path P B) {k : Nat} (hab : A k ≤ B k) (e : A (k + 1) = B (k + 1)) :
    P.lo A k (A (k + 1)) = A k ∧ P.hi B k (A (k + 1)) = B k + 1 := by
  have h1 := (div_iff h.K0).1 (hA.up k).symm
  have h2 := (div_iff h.K0).1 (hB.up k).symm
  rw [← e] at h2
  simp only [Par.lo, Par.hi]; omega

theorem shrink_step (h : P.Ok) (hA : Path P A) (hB : Path P B) (h0 : A 0 ≤ B 0) {val : Nat → Int} {j mn mx fuel : Nat} {f : Nat → Nat → Option Node} {er : List Id}
    (F : Fin P val A B (j + 2) f er) (e : A (j + 1) = B (j + 1)) :
    ∃ f' er', shrink P (fuel + 1) (P.tree f (rest A B (j + 2) (A (j + 2)) mn mx er)) = shrink P fuel (P.tree f' (rest A B (j + 1) (A (j + 1)) mn mx er')) ∧
      Fin P val A B (j + 1) f' er' := by
  have e2 : A (j + 2) = B (j + 2) := hA.eq_up hB e
  have hr : (P.tree f (rest A B (j + 2) (A (j + 2)) mn mx er)).root = some (P.pos (j + 2) (A (j + 2))) := rfl
  have hn := F.here h (Nat.le_refl (A (j + 2))) (Nat.le_refl (j + 2))
  rw [cn_some2 (Nat.le_refl _) (by omega) (Nat.le_refl _)] at hn
  obtain ⟨t1, t2⟩ : P.lo A (j + 1) (A (j + 2)) = A (j + 1) ∧ P.hi B (j + 1) (A (j + 2)) = B (j + 1) + 1 := top_lo h hA hB (k := j + 1) (by omega) e2
  have hm := F.here h (l := j + 1) (p := A (j + 1)) (Nat.le_refl _) (by omega)
  rw [cn_some (Nat.le_refl _) (by omega) (by omega)] at hm
  have hnone : f (j + 2) (A (j + 2) + 1) = none := by
    rw [F.here h (by omega) (Nat.le_refl _), cn_none (by omega)]
  refine ⟨upd f (j + 1) (A (j + 1)) { P.nd j (A (j + 1)) (decide (j + 1 < j + 2)) (P.lo A j (A (j + 1))) (P.hi B j (A (j + 1))) (P.S val A B (j + 1) (A (j + 1)) % P.M) with parent := none },
    P.pos (j + 2) (A (j + 2)) :: er, ?_, ?_⟩
  · rw [shrink, hr]
    simp only [Option.bind_eq_bind, Option.bind_some]
    rw [node_tree h, hn]
    simp only [Option.bind_some]
    rw [if_pos ⟨by rw [nd_kids_len, t1, t2]; omega, by show j + 2 > 1; omega⟩]
    change ((guard ((P.tree f (rest A B (j + 2) (A (j + 2)) mn mx (P.pos (j + 2) (A (j + 2)) :: er))).right ((P.pos (j + 2) (A (j + 2))).lvl - 1) =
        (P.tree f (rest A B (j + 2) (A (j + 2)) mn mx (P.pos (j + 2) (A (j + 2)) :: er))).left ((P.pos (j + 2) (A (j + 2))).lvl - 1)) : Option Unit).bind fun _ =>
      (Tree.checkRemove P (P.tree f (rest A B (j + 2) (A (j + 2)) mn mx (P.pos (j + 2) (A (j + 2)) :: er))) (P.pos (j + 2) (A (j + 2)))).bind fun t =>
        (t.right ((P.pos (j + 2) (A (j + 2))).lvl - 1)).bind fun y => (Tree.setRoot P t y).bind fun t => shrink P fuel t) = _
    have hl1 : (P.tree f (rest A B (j + 2) (A (j + 2)) mn mx (P.pos (j + 2) (A (j + 2)) :: er))).left ((P.pos (j + 2) (A (j + 2))).lvl - 1) = some (P.pos (j + 1) (A (j + 1))) := by
      show ((rest A B (j + 2) (A (j + 2)) mn mx []).left (j + 1)).map _ = _
      simp only [rest]; rw [if_pos (by omega)]; rfl
    have hr1 : (P.tree f (rest A B (j + 2) (A (j + 2)) mn mx (P.pos (j + 2) (A (j + 2)) :: er))).right ((P.pos (j + 2) (A (j + 2))).lvl - 1) = some (P.pos (j + 1) (A (j + 1))) := by
      show ((rest A B (j + 2) (A (j + 2)) mn mx []).right (j + 1)).map _ = _
      simp only [rest]; rw [if_pos (by omega), e]; rfl
    rw [guard_yes (by rw [hl1, hr1])]
    simp only [Option.bind_some]
    rw [checkRemove_tree h (p := A (j + 2)) (r := B (j + 2)) (by simp only [rest]; rw [if_pos (by omega)]) (by simp only [rest]; rw [if_pos (by omega)])]
    simp only [Option.bind_some, hnone]
    have hrs : ({ rest A B (j + 2) (A (j + 2)) mn mx (P.pos (j + 2) (A (j + 2)) :: er) with
        left := fun k => if k = j + 2 then (if (none : Option Node).isSome then some (A (j + 2) + 1) else none) else (rest A B (j + 2) (A (j + 2)) mn mx (P.pos (j + 2) (A (j + 2)) :: er)).left k
        right := fun k => if k = j + 2 then (if B (j + 2) = A (j + 2) then none else some (B (j + 2))) else (rest A B (j + 2) (A (j + 2)) mn mx (P.pos (j + 2) (A (j + 2)) :: er)).right k } : Rest) =
        { rest A B (j + 1) (A (j + 1)) mn mx (P.pos (j + 2) (A (j + 2)) :: er) with root := some (j + 2, A (j + 2)) } := by
      simp only [rest, Rest.mk.injEq, true_and, and_true]
      constructor
      · funext k
        by_cases g : k = j + 2
        · rw [if_pos g, if_neg (by decide), if_neg (by omega)]
        · rw [if_neg g]
          by_cases g2 : 1 ≤ k ∧ k ≤ j + 1
          · rw [if_pos g2, if_pos (by omega)]
          · rw [if_neg g2, if_neg (by omega)]
      · funext k
        by_cases g : k = j + 2
        · rw [if_pos g, if_pos e2.symm, if_neg (by omega)]
        · rw [if_neg g]
          by_cases g2 : 1 ≤ k ∧ k ≤ j + 1
          · rw [if_pos g2, if_pos (by omega)]
          · rw [if_neg g2, if_neg (by omega)]
    rw [hrs]
    have hy : (P.tree f { rest A B (j + 1) (A (j + 1)) mn mx (P.pos (j + 2) (A (j + 2)) :: er) with root := some (j + 2, A (j + 2)) }).right ((P.pos (j + 2) (A (j + 2))).lvl - 1) = some (P.pos (j + 1) (A (j + 1))) := by
      show ((rest A B (j + 1) (A (j + 1)) mn mx []).right (j + 1)).map _ = _
      simp only [rest]; rw [if_pos (by omega), e]; rfl
    rw [hy]
    simp only [Option.bind_some]
    have hs : (P.tree f { rest A B (j + 1) (A (j + 1)) mn mx (P.pos (j + 2) (A (j + 2)) :: er) with root := some (j + 2, A (j + 2)) }).setRoot P (P.pos (j + 1) (A (j + 1))) =
        some (P.tree (upd f (j + 1) (A (j + 1)) { P.nd j (A (j + 1)) (decide (j + 1 < j + 2)) (P.lo A j (A (j + 1))) (P.hi B j (A (j + 1))) (P.S val A B (j + 1) (A (j + 1)) % P.M) with parent := none })
          (rest A B (j + 1) (A (j + 1)) mn mx (P.pos (j + 2) (A (j + 2)) :: er))) := by
      have ho : (P.tree f { rest A B (j + 1) (A (j + 1)) mn mx (P.pos (j + 2) (A (j + 2)) :: er) with root := some (j + 2, A (j + 2)) }).oldRoot P (P.pos (j + 1) (A (j + 1))) =
          some (P.tree f { rest A B (j + 1) (A (j + 1)) mn mx (P.pos (j + 2) (A (j + 2)) :: er) with root := some (j + 2, A (j + 2)) }) := by
        unfold Tree.oldRoot
        rw [show (P.tree f { rest A B (j + 1) (A (j + 1)) mn mx (P.pos (j + 2) (A (j + 2)) :: er) with root := some (j + 2, A (j + 2)) }).root = some (P.pos (j + 2) (A (j + 2))) from rfl]
        dsimp only
        rw [if_neg (show ¬ ((P.pos (j + 1) (A (j + 1))).lvl = 0) by show ¬ (j + 1 = 0); omega),
          if_neg (show ¬ ((P.pos (j + 1) (A (j + 1))).lvl = (P.pos (j + 2) (A (j + 2))).lvl + 1) by show ¬ (j + 1 = j + 2 + 1); omega),
          if_pos (show (P.pos (j + 2) (A (j + 2))).lvl = (P.pos (j + 1) (A (j + 1))).lvl + 1 from rfl),
          checkRemove_absent h (by simp only [rest]; rw [if_neg (by omega)]) (by simp only [rest]; rw [if_neg (by omega)])]
      rw [Tree.setRoot, ho]
      simp only [Option.bind_eq_bind, Option.bind_some]
      rw [show ({ P.tree f { rest A B (j + 1) (A (j + 1)) mn mx (P.pos (j + 2) (A (j + 2)) :: er) with root := some (j + 2, A (j + 2)) } with root := some (P.pos (j + 1) (A (j + 1))) } : Tree) =
        P.tree f (rest A B (j + 1) (A (j + 1)) mn mx (P.pos (j + 2) (A (j + 2)) :: er)) from rfl, setParent_tree h hm]
      simp only [Option.bind_some]
      rw [addRight_tree h (rest_both _ _ _ _ _ _ _ _)]
      congr 2
      simp only [rest, Rest.mk.injEq, true_and, and_true]
      constructor
      · funext k
        by_cases g : k = j + 1
        · rw [if_pos g, if_pos (by omega), if_pos (by omega), g]; rfl
        · rw [if_neg g]
      · funext k
        by_cases g : k = j + 1
        · rw [if_pos g, if_pos (by omega), g, e]
        · rw [if_neg g]
    rw [hs]
    rfl
  · constructor
    · intro l p hm'
      have hm1 : P.pos l p ∉ er := fun g => hm' (List.mem_cons_of_mem _ g)
      by_cases c1 : l = j + 1 ∧ p = A (j + 1)
      · obtain ⟨rfl, rfl⟩ := c1
        rw [upd_same, cn_some (Nat.le_refl _) (by omega) (Nat.le_refl _)]
        simp [Par.nd]
      · rw [upd_ne _ _ c1, F.node l p hm1]
        by_cases c2 : l < j + 1
        · exact (cn_up P val A B (j + 1) l p c2).symm
        · by_cases c3 : l = j + 1
          · subst c3
            rw [cn_none (by omega), cn_none (by omega)]
          · by_cases c4 : l = j + 2
            · subst c4
              have : p ≠ A (j + 2) := by
                rintro rfl
                exact hm' List.mem_cons_self
              rw [cn_none (by omega), cn_none (by omega)]
            · rw [cn_none (by omega), cn_none (by omega)]
    · intro x hx
      rcases List.mem_cons.1 hx with rfl | hx
      · exact ⟨j + 2, _, by omega, rfl, .inr (by omega)⟩
      · obtain ⟨l, p, g1, g2, g3⟩ := F.er x hx
        exact ⟨l, p, g1, g2, by omega⟩

theorem shrink_all (h : P.Ok) (hA : Path P A) (hB : Path P B) (h0 : A 0 ≤ B 0) {val : Nat → Int} {mn mx : Nat} : ∀ (fuel L : Nat) (f : Nat → Nat → Option Node) (er : List Id), 1 ≤ L → L < fuel → A L = B L →
    Fin P val A B L f er →
    ∃ T f' er', Top A B T ∧ shrink P fuel (P.tree f (rest A B L (A L) mn mx er)) = some (P.tree f' (rest A B T (A T) mn mx er')) ∧ Fin P val A B T f' er' := by
  intro fuel
  induction fuel with
  | zero => intro L f er h1 h2; omega
  | succ fuel ih =>
    intro L f er h1 h2 h3 F
    by_cases c : 1 < L ∧ A (L - 1) = B (L - 1)
    · obtain ⟨j, rfl⟩ : ∃ j, L = j + 2 := ⟨L - 2, by omega⟩
      have c2 : A (j + 1) = B (j + 1) := c.2
      obtain ⟨f', er', s1, s2⟩ := shrink_step h hA hB h0 (mn := mn) (mx := mx) (fuel := fuel) F c2
      rw [s1]
      exact ih (j + 1) f' er' (by omega) (by omega) c2 s2
    · obtain ⟨k, rfl⟩ : ∃ k, L = k + 1 := ⟨L - 1, by omega⟩
      refine ⟨k + 1, f, er, ⟨h1, h3, ?_⟩, ?_, F⟩
      · intro l g1 g2 g3
        exact c ⟨by omega, hA.eq_ups hB g3 (by omega)⟩
      · have hab : A k ≤ B k := hA.mono' hB h0 k
        have hn := F.here h (Nat.le_refl (A (k + 1))) (Nat.le_refl (k + 1))
        rw [cn_some (Nat.le_refl _) (by omega) (Nat.le_refl _)] at hn
        obtain ⟨t1, t2⟩ := top_lo h hA hB hab h3
        rw [shrink, show (P.tree f (rest A B (k + 1) (A (k + 1)) mn mx er)).root = some (P.pos (k + 1) (A (k + 1))) from rfl]
        simp only [Option.bind_eq_bind, Option.bind_some]
        rw [node_tree h, hn]
        simp only [Option.bind_some]
        rw [if_neg]
        rintro ⟨g1, g2⟩
        rw [nd_kids_len, t1, t2] at g1
        have g3 : k + 1 > 1 := g2
        have g4 : A k = B k := by omega
        exact c ⟨g3, g4⟩

end Verif.Rvt
