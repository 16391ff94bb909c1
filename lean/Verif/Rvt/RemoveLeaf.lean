import Verif.Rvt.Remove
set_option linter.unusedVariables false
set_option linter.unusedSimpArgs false
/-!
# Range validation tree: `removeRVBNode` on the tree of an interval (C29)
-/
namespace Verif.Rvt
open Verif.Bytes

variable {P : Par} {A A' B : Nat → Nat}

theorem RemCtx.hi_gt (c : RemCtx P A A' B) (l : Nat) : A l < P.hi B l (A (l + 1)) := by
  have := c.range l
  have := c.ab l
  simp only [Par.hi]; omega

theorem nd_kids_cons (P : Par) (k p s e : Nat) (w : Int) (b : Bool) (h : s < e) : (P.nd k p b s e w).kids = P.pos k s :: (P.nd k p b (s + 1) e w).kids := by
  simp only [Par.nd]
  rw [show e - s = (e - (s + 1)) + 1 by omega, List.range'_succ, List.map_cons]

theorem nd_kids_set (P : Par) (k p s s' e : Nat) (w : Int) (b : Bool) : ({ P.nd k p b s e w with kids := (P.nd k p b s' e w).kids } : Node) = P.nd k p b s' e w := rfl

theorem add_neg (h : P.Ok) {w s iv : Int} (hw : w % P.M = s % P.M) : P.add w (-iv) % P.M = (s - iv) % P.M := by
  rw [(add_any h w (-iv)).2.2, Int.add_emod, hw, ← Int.add_emod]; rfl

theorem tree_erase (P : Par) (f : Nat → Nat → Option Node) (R : Rest) (er : List Id) : ({ P.tree f R with erase := er } : Tree) = P.tree f { R with erase := er } := rfl

/-- telling the parent, above level 1 -/
theorem stage_mid_gone (c : RemCtx P A A' B) {val : Nat → Int} {T k : Nat} {f : Nat → Nat → Option Node} {er : List Id} (hk : k + 1 < T) (s : Stage P val A A' B T k f er)
    (hg : A' (k + 1) ≠ A (k + 1)) {rvt : Id} (hr : rvt ≠ P.pos (k + 1) (A (k + 1))) (mn mx : Nat) :
    ∃ f' er', (P.tree f (rest (pick A A' k) B T (A T) mn mx er)).dropNode P rvt (P.pos (k + 2) (A (k + 2))) (P.pos (k + 1) (A (k + 1))) (P.iv (P.pos (k + 1) (A (k + 1)))) =
      some (P.tree f' (rest (pick A A' (k + 1)) B T (A T) mn mx er')) ∧ Mid P val A A' B T k f' er' := by
  have h := c.ok
  have hs := (c.step (k + 1)).resolve_left hg
  obtain ⟨w0, p1, p2⟩ := s.path (k + 1) (Nat.le_refl _) (by omega)
  rw [if_neg (by omega)] at p1
  have hgt := c.hi_gt (k + 1)
  have hle := c.le' (k + 1)
  have hnx : f (k + 1) (A (k + 1) + 1) = P.cn val A B T (k + 1) (A (k + 1) + 1) := s.other _ _ (.inl (by omega))
  rw [Tree.dropNode, pop_tree h (l := k + 1) p1 (nd_kids_cons _ _ _ _ _ _ _ hgt)]
  simp only [Option.bind_eq_bind, Option.bind_some]
  rw [if_neg (fun e => hr e.symm), nd_kids_set, tree_erase]
  have hrest : ({ rest (pick A A' k) B T (A T) mn mx er with erase := P.pos (k + 1) (A (k + 1)) :: (rest (pick A A' k) B T (A T) mn mx er).erase } : Rest) =
      rest (pick A A' k) B T (A T) mn mx (P.pos (k + 1) (A (k + 1)) :: er) := rfl
  have hers : (P.tree (upd f (k + 1 + 1) (A (k + 2)) (P.nd (k + 1) (A (k + 1 + 1)) (decide (k + 1 + 1 < T)) (A (k + 1) + 1) (P.hi B (k + 1) (A (k + 1 + 1))) w0)) (rest (pick A A' k) B T (A T) mn mx er)).erase =
    (rest (pick A A' k) B T (A T) mn mx er).erase := rfl
  rw [hers, hrest, checkRemove_rest c hk hg (by rw [upd_ne _ _ (by omega), hnx, cn_some (by omega) (by omega) (by omega)]; rfl)]
  simp only [Option.bind_some]
  rw [addUp_chain h (q := A) (s := k + 2) (T := T) rfl (by omega)]
  · refine ⟨_, _, rfl, ?_⟩
    have hE : P.E A A' (k + 1) = P.E A A' k + P.iv (P.pos (k + 1) (A (k + 1))) := by rw [Par.E, if_neg hg]
    constructor
    · intro l p hp
      simp only [bump]
      rw [if_neg (by omega), upd_ne _ _ (fun e => by obtain ⟨rfl, rfl⟩ := e; omega)]
      exact s.other l p hp
    · intro p
      simp only [bump]
      rw [if_neg (by omega), upd_ne _ _ (by omega)]
      exact s.zero p
    · intro l g1 g2 g3
      simp only [bump]
      rw [if_neg (by omega), upd_ne _ _ (by omega)]
      exact s.done l g1 g2 g3
    · intro l g1 g2 g3
      by_cases e : l = k + 1
      · subst e; exact List.mem_cons_self
      · exact List.mem_cons_of_mem _ (s.gone l g1 (by omega) g3)
    · intro x hx
      rcases List.mem_cons.1 hx with rfl | hx
      · exact ⟨k + 1, by omega, Nat.le_refl _, hg, rfl⟩
      · obtain ⟨l, g1, g2, g3, g4⟩ := s.only x hx
        exact ⟨l, g1, by omega, g3, g4⟩
    · obtain ⟨w, g1, g2⟩ := s.here
      refine ⟨w, ?_, g2⟩
      simp only [bump]
      rw [if_neg (by omega), upd_ne _ _ (by omega)]
      exact g1
    · intro j g1 g2
      rw [hE]
      by_cases e : j = k + 1
      · subst e
        refine ⟨P.add w0 (-P.iv (P.pos (k + 1) (A (k + 1)))), ?_, ?_⟩
        · simp only [bump]
          rw [if_pos ⟨by omega, g2, trivial⟩, upd_same, if_pos trivial, hs]
          rfl
        · rw [add_neg h p2, Int.sub_sub]
      · obtain ⟨w, g3, g4⟩ := s.path j g1 g2
        rw [if_neg (by omega)] at g3
        refine ⟨P.add w (-P.iv (P.pos (k + 1) (A (k + 1)))), ?_, ?_⟩
        · simp only [bump]
          rw [if_pos ⟨by omega, g2, trivial⟩, upd_ne _ _ (by omega), g3, if_neg e]
          rfl
        · rw [add_neg h g4, Int.sub_sub]
  · intro l g1 g2
    by_cases e : l = k + 2
    · subst e
      exact ⟨_, upd_same _ _ _ _, nd_path_parent c _ _ _⟩
    · obtain ⟨j, rfl⟩ : ∃ j, l = j + 1 := ⟨l - 1, by omega⟩
      obtain ⟨w, g3, g4⟩ := s.path j (by omega) g2
      exact ⟨_, by rw [upd_ne _ _ (by omega)]; exact g3, nd_path_parent c _ _ _⟩

/-- one round of the loop, when the rest of the round reaches `Mid` -/
theorem trim_round (c : RemCtx P A A' B) {val : Nat → Int} {T k : Nat} (hk : k + 1 < T) {rvt : Id} {mn mx fuel : Nat} {f : Nat → Nat → Option Node} {er : List Id} {R : Rest} (hR : R.root = some (T, A T))
    (hhere : ∃ w, f (k + 1) (A (k + 1)) = some (P.nd k (A (k + 1)) (decide (k + 1 < T)) (A' k) (P.hi B k (A (k + 1))) w))
    (hpar : ∃ n, f (k + 2) (A (k + 2)) = some n)
    {f2 : Nat → Nat → Option Node} (hstay : A' (k + 1) = A (k + 1) → f2 = f ∧ R = rest (pick A A' (k + 1)) B T (A T) mn mx er)
    (hgone : A' (k + 1) ≠ A (k + 1) → (P.tree f R).dropNode P rvt (P.pos (k + 2) (A (k + 2))) (P.pos (k + 1) (A (k + 1))) (P.iv (P.pos (k + 1) (A (k + 1)))) =
      some (P.tree f2 (rest (pick A A' (k + 1)) B T (A T) mn mx er)))
    (hmid : Mid P val A A' B T k f2 er) :
    ∃ f', trim P rvt (val (A 0)) (fuel + 1) (P.tree f R) (P.pos (k + 1) (A (k + 1))) =
      trim P rvt (val (A 0)) fuel (P.tree f' (rest (pick A A' (k + 1)) B T (A T) mn mx er)) (P.pos (k + 2) (A (k + 2))) ∧ Stage P val A A' B T (k + 1) f' er := by
  have h := c.ok
  obtain ⟨w, h1⟩ := hhere
  obtain ⟨n, h2⟩ := hpar
  obtain ⟨f', m1, m2⟩ := mid_stage c hk hmid (rest (pick A A' (k + 1)) B T (A T) mn mx er)
  refine ⟨f', ?_, m2⟩
  have hrt : R.root ≠ some (k + 1, A (k + 1)) := by rw [hR]; simp; omega
  rw [trim, if_neg (fun e => hrt ((root_tree h _ _ _ _).1 e)), parentOf_tree h hrt h1 (by rw [nd_path_parent c, if_pos hk]) h2]
  simp only [Option.bind_eq_bind, Option.bind_some]
  rw [node_tree h, h1]
  simp only [Option.bind_some]
  have hk2 : (P.nd k (A (k + 1)) (decide (k + 1 < T)) (A' k) (P.hi B k (A (k + 1))) w).kids = [] ↔ A' (k + 1) ≠ A (k + 1) := by
    rw [← List.length_eq_zero_iff, nd_kids_len]
    constructor
    · intro e e2
      have := c.hi_stay e2
      omega
    · intro e
      have := c.hi_gone e
      omega
  by_cases e : A' (k + 1) = A (k + 1)
  · rw [if_neg (fun hh => hk2.1 hh e)]
    obtain ⟨e1, e2⟩ := hstay e
    rw [← e1, e2, m1]
    rfl
  · rw [if_pos (hk2.2 e)]
    rw [show (P.nd k (A (k + 1)) (decide (k + 1 < T)) (A' k) (P.hi B k (A (k + 1))) w).iv = P.iv (P.pos (k + 1) (A (k + 1))) from rfl, hgone e]
    simp only [Option.bind_some]
    rw [m1]
    rfl

theorem pick_stay {k : Nat} (e : A' (k + 1) = A (k + 1)) : pick A A' k = pick A A' (k + 1) := by
  funext l
  simp only [pick]
  by_cases h1 : l ≤ k
  · rw [if_pos h1, if_pos (by omega)]
  · rw [if_neg h1]
    by_cases h2 : l ≤ k + 1
    · rw [if_pos h2]
      obtain rfl : l = k + 1 := by omega
      exact e.symm
    · rw [if_neg h2]

theorem trim_all (c : RemCtx P A A' B) {val : Nat → Int} {T : Nat} (mn mx : Nat) : ∀ (fuel k : Nat) (f : Nat → Nat → Option Node) (er : List Id), 1 ≤ k → k + 1 ≤ T → T < k + 1 + fuel →
    Stage P val A A' B T k f er →
    ∃ f' er', trim P (P.pos 1 (A 1)) (val (A 0)) fuel (P.tree f (rest (pick A A' k) B T (A T) mn mx er)) (P.pos (k + 1) (A (k + 1))) =
      some (P.tree f' (rest (pick A A' (T - 1)) B T (A T) mn mx er')) ∧ Stage P val A A' B T (T - 1) f' er' := by
  have h := c.ok
  intro fuel
  induction fuel with
  | zero => intro k f er h1 h2 h3; omega
  | succ fuel ih =>
    intro k f er h1 h2 h3 s
    by_cases e : k + 1 = T
    · subst e
      rw [trim, if_pos ((root_tree h _ _ _ _).2 rfl)]
      exact ⟨f, er, rfl, s⟩
    · have hk : k + 1 < T := by omega
      have hpar : ∃ n, f (k + 2) (A (k + 2)) = some n := by
        obtain ⟨w, g, _⟩ := s.path (k + 1) (Nat.le_refl _) (by omega)
        exact ⟨_, g⟩
      have hhere : ∃ w, f (k + 1) (A (k + 1)) = some (P.nd k (A (k + 1)) (decide (k + 1 < T)) (A' k) (P.hi B k (A (k + 1))) w) := by
        obtain ⟨w, g, _⟩ := s.here
        exact ⟨w, g⟩
      by_cases hg : A' (k + 1) = A (k + 1)
      · obtain ⟨f', t1, t2⟩ := trim_round c hk (val := val) (rvt := P.pos 1 (A 1)) (fuel := fuel) (mn := mn) (mx := mx) (er := er) (R := rest (pick A A' k) B T (A T) mn mx er) rfl hhere hpar (f2 := f)
          (fun _ => ⟨rfl, by rw [pick_stay hg]⟩) (fun e => absurd hg e) (stage_mid_stay c s hg)
        rw [t1]
        exact ih (k + 1) f' er (by omega) (by omega) (by omega) t2
      · obtain ⟨f2, er', d1, d2⟩ := stage_mid_gone c hk s hg (rvt := P.pos 1 (A 1)) (fun e => by have := ((pos_inj h).1 e).1; omega) mn mx
        obtain ⟨f', t1, t2⟩ := trim_round c hk (val := val) (rvt := P.pos 1 (A 1)) (fuel := fuel) (mn := mn) (mx := mx) (er := er') (R := rest (pick A A' k) B T (A T) mn mx er) rfl hhere hpar (f2 := f2)
          (fun e => absurd e hg) (fun _ => d1) d2
        rw [t1]
        exact ih (k + 1) f' er' (by omega) (by omega) (by omega) t2

end Verif.Rvt
