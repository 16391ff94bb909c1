import Verif.Rvt.AddLeaf
set_option linter.unusedVariables false
set_option linter.unusedSimpArgs false
/-!
# Range validation tree: removing the leftmost leaf (C29)
-/
namespace Verif.Rvt
open Verif.Bytes

structure RemCtx (P : Par) (A A' B : Nat → Nat) : Prop where
  ok : P.Ok
  hA : Path P A
  hA' : Path P A'
  hB : Path P B
  next : A' 0 = A 0 + 1
  le : A' 0 ≤ B 0

variable {P : Par} {A A' B : Nat → Nat}

theorem RemCtx.add (c : RemCtx P A A' B) : AddCtx P A A A' := ⟨c.ok, c.hA, c.hA, c.hA', Nat.le_refl _, c.next⟩
theorem RemCtx.step (c : RemCtx P A A' B) (l : Nat) : A' l = A l ∨ A' l = A l + 1 := c.add.step l
theorem RemCtx.le' (c : RemCtx P A A' B) (l : Nat) : A' l ≤ B l := c.hA'.mono' c.hB c.le l
theorem RemCtx.ab (c : RemCtx P A A' B) (l : Nat) : A l ≤ B l := by have := c.step l; have := c.le' l; omega

/-- the initial values of the nodes that go, up to level `l` -/
def Par.E (P : Par) (A A' : Nat → Nat) : Nat → Int
  | 0 => 0
  | l + 1 => P.E A A' l + if A' (l + 1) = A (l + 1) then 0 else P.iv (P.pos (l + 1) (A (l + 1)))

theorem RemCtx.range (c : RemCtx P A A' B) (l : Nat) : A (l + 1) * P.K ≤ A l ∧ A l < A (l + 1) * P.K + P.K := (div_iff c.ok.K0).1 (c.hA.up l).symm

theorem RemCtx.lo_first (c : RemCtx P A A' B) (l : Nat) : P.lo A l (A (l + 1)) = A l := by
  have := c.range l
  simp only [Par.lo]; omega

theorem RemCtx.lo_first' (c : RemCtx P A A' B) (l : Nat) : P.lo A' l (A (l + 1)) = A' l := by
  have := c.range l
  have := c.step l
  simp only [Par.lo]; omega

theorem RemCtx.hi_gone (c : RemCtx P A A' B) {l : Nat} (hg : A' (l + 1) ≠ A (l + 1)) : A' l = A l + 1 ∧ P.hi B l (A (l + 1)) = A l + 1 := by
  obtain ⟨n1, n2, n3⟩ := c.add.new hg
  rw [n3, Nat.add_mul] at n2
  have := c.le' l
  simp only [Par.hi]; omega

theorem RemCtx.hi_stay (c : RemCtx P A A' B) {l : Nat} (hg : A' (l + 1) = A (l + 1)) : A' l < P.hi B l (A (l + 1)) := by
  have := (c.add.old hg).2
  have := c.le' l
  simp only [Par.hi]; omega

theorem RemCtx.S_gone (c : RemCtx P A A' B) (val : Nat → Int) (l : Nat) (hg : A' l ≠ A l) : P.S val A B l (A l) = P.E A A' l + val (A 0) := by
  induction l with
  | zero => show val (A 0) = 0 + val (A 0); omega
  | succ l ih =>
    obtain ⟨g1, g2⟩ := c.hi_gone hg
    rw [S_succ, c.lo_first, g2, show A l + 1 - A l = 1 by omega, sumR, sumR, Nat.add_zero (A l), ih (by omega), Par.E, if_neg hg]
    omega

theorem RemCtx.lo_right (c : RemCtx P A A' B) {l p : Nat} (hp : A (l + 1) < p) : P.lo A l p = p * P.K ∧ P.lo A' l p = p * P.K ∧ A l < p * P.K := by
  have h1 := c.range l
  have h2 := c.step l
  have h3 : (A (l + 1) + 1) * P.K ≤ p * P.K := Nat.mul_le_mul_right _ hp
  rw [Nat.add_mul] at h3
  simp only [Par.lo]; omega

theorem RemCtx.S_right (c : RemCtx P A A' B) (val : Nat → Int) (l : Nat) : ∀ p, A l < p → P.S val A' B l p = P.S val A B l p := by
  induction l with
  | zero => intro p hp; rfl
  | succ l ih =>
    intro p hp
    obtain ⟨h1, h2, h3⟩ := c.lo_right hp
    rw [S_succ, S_succ, h1, h2]
    congr 1
    exact sumR_congr (fun q g1 g2 => ih q (by omega))

theorem RemCtx.S_stay (c : RemCtx P A A' B) (val : Nat → Int) (l : Nat) (hg : A' l = A l) : P.S val A' B l (A l) = P.S val A B l (A l) - P.E A A' l - val (A 0) := by
  induction l with
  | zero => have := c.next; omega
  | succ l ih =>
    have hh := c.hi_stay hg
    have hs := c.step l
    rw [S_succ, S_succ, c.lo_first, c.lo_first', Par.E, if_pos hg]
    have e : P.hi B l (A (l + 1)) - A l = (P.hi B l (A (l + 1)) - (A l + 1)) + 1 := by omega
    by_cases g : A' l = A l
    · rw [g, e, sumR_front, sumR_front, ih g, sumR_congr (g' := P.S val A B l) (fun q g1 g2 => c.S_right val l q (by omega))]
      omega
    · have g' := hs.resolve_left g
      rw [e, sumR_front, c.S_gone val l g, g', sumR_congr (g' := P.S val A B l) (fun q g1 g2 => c.S_right val l q (by omega))]
      omega

theorem RemCtx.cn_other (c : RemCtx P A A' B) (val : Nat → Int) (T : Nat) {l p : Nat} (hp : p ≠ A l) : P.cn val A' B T l p = P.cn val A B T l p := by
  cases l with
  | zero => rfl
  | succ k =>
    have hs := c.step (k + 1)
    by_cases h : A (k + 1) ≤ p ∧ p ≤ B (k + 1) ∧ k + 1 ≤ T
    · have hlt : A (k + 1) < p := by omega
      obtain ⟨h1, h2, h3⟩ := c.lo_right hlt
      rw [cn_some h.1 h.2.1 h.2.2, cn_some (by omega) h.2.1 h.2.2, h1, h2, c.S_right val _ _ hlt]
    · rw [cn_none h, cn_none (by omega)]

/-! ## First loop -/

/-- levels below `k + 1` are done; the node on the path at level `k + 1` has lost its child if that went -/
structure Stage (P : Par) (val : Nat → Int) (A A' B : Nat → Nat) (T k : Nat) (f : Nat → Nat → Option Node) (er : List Id) : Prop where
  other : ∀ l p, p ≠ A l ∨ T < l → f l p = P.cn val A B T l p
  zero : ∀ p, f 0 p = none
  done : ∀ l, 1 ≤ l → l ≤ k → A' l = A l → f l (A l) = P.cn val A' B T l (A l)
  gone : ∀ l, 1 ≤ l → l ≤ k → A' l ≠ A l → P.pos l (A l) ∈ er
  only : ∀ x ∈ er, ∃ l, 1 ≤ l ∧ l ≤ k ∧ A' l ≠ A l ∧ x = P.pos l (A l)
  here : ∃ w, f (k + 1) (A (k + 1)) = some (P.nd k (A (k + 1)) (decide (k + 1 < T)) (A' k) (P.hi B k (A (k + 1))) w) ∧
    w % P.M = (P.S val A B (k + 1) (A (k + 1)) - P.E A A' k) % P.M
  path : ∀ j, k + 1 ≤ j → j + 1 ≤ T → ∃ w, f (j + 1) (A (j + 1)) = some (P.nd j (A (j + 1)) (decide (j + 1 < T)) (if j = k then A' j else A j) (P.hi B j (A (j + 1))) w) ∧
    w % P.M = (P.S val A B (j + 1) (A (j + 1)) - P.E A A' k) % P.M

/-- the same after the parent of the path node of level `k + 1` was told, before the subtraction there -/
structure Mid (P : Par) (val : Nat → Int) (A A' B : Nat → Nat) (T k : Nat) (f : Nat → Nat → Option Node) (er : List Id) : Prop where
  other : ∀ l p, p ≠ A l ∨ T < l → f l p = P.cn val A B T l p
  zero : ∀ p, f 0 p = none
  done : ∀ l, 1 ≤ l → l ≤ k → A' l = A l → f l (A l) = P.cn val A' B T l (A l)
  gone : ∀ l, 1 ≤ l → l ≤ k + 1 → A' l ≠ A l → P.pos l (A l) ∈ er
  only : ∀ x ∈ er, ∃ l, 1 ≤ l ∧ l ≤ k + 1 ∧ A' l ≠ A l ∧ x = P.pos l (A l)
  here : ∃ w, f (k + 1) (A (k + 1)) = some (P.nd k (A (k + 1)) (decide (k + 1 < T)) (A' k) (P.hi B k (A (k + 1))) w) ∧
    w % P.M = (P.S val A B (k + 1) (A (k + 1)) - P.E A A' k) % P.M
  path : ∀ j, k + 1 ≤ j → j + 1 ≤ T → ∃ w, f (j + 1) (A (j + 1)) = some (P.nd j (A (j + 1)) (decide (j + 1 < T)) (if j = k + 1 then A' j else A j) (P.hi B j (A (j + 1))) w) ∧
    w % P.M = (P.S val A B (j + 1) (A (j + 1)) - P.E A A' (k + 1)) % P.M

/-- the subtraction -/
theorem mid_stage (c : RemCtx P A A' B) {val : Nat → Int} {T k : Nat} {f : Nat → Nat → Option Node} {er : List Id} (hk : k + 1 < T) (m : Mid P val A A' B T k f er)
    (R : Rest) : ∃ f', (P.tree f R).subValue P (P.pos (k + 1) (A (k + 1))) (val (A 0)) = some (P.tree f' R) ∧ Stage P val A A' B T (k + 1) f' er := by
  obtain ⟨w, h1, h2⟩ := m.here
  refine ⟨_, subValue_tree c.ok h1 _, ?_⟩
  rw [nd_cv]
  constructor
  · intro l p hp
    rw [upd_ne _ _ (fun e => by obtain ⟨rfl, rfl⟩ := e; omega)]
    exact m.other l p hp
  · intro p
    rw [upd_ne _ _ (by omega)]; exact m.zero p
  · intro l g1 g2 g3
    by_cases e : l = k + 1
    · subst e
      have hab := c.ab (k + 1)
      rw [upd_same, cn_some (by omega) hab (by omega), c.S_stay val _ g3, c.lo_first']
      show some (P.nd k _ _ _ _ (P.sub w _)) = _
      rw [sub_any c.ok h2, Par.E, if_pos g3, Int.add_zero]
    · rw [upd_ne _ _ (by omega)]
      exact m.done l g1 (by omega) g3
  · exact m.gone
  · exact m.only
  · obtain ⟨w', g1, g2⟩ := m.path (k + 1) (Nat.le_refl _) (by omega)
    rw [if_pos rfl] at g1
    exact ⟨w', by rw [upd_ne _ _ (by omega)]; exact g1, g2⟩
  · intro j g1 g2
    obtain ⟨w', g3, g4⟩ := m.path j (by omega) g2
    exact ⟨w', by rw [upd_ne _ _ (by omega)]; exact g3, g4⟩

/-- nothing to tell -/
theorem stage_mid_stay (c : RemCtx P A A' B) {val : Nat → Int} {T k : Nat} {f : Nat → Nat → Option Node} {er : List Id} (s : Stage P val A A' B T k f er)
    (hg : A' (k + 1) = A (k + 1)) : Mid P val A A' B T k f er := by
  have hE : P.E A A' (k + 1) = P.E A A' k := by rw [Par.E, if_pos hg]; omega
  constructor
  · exact s.other
  · exact s.zero
  · exact s.done
  · intro l g1 g2 g3
    by_cases e : l = k + 1
    · exact absurd hg (e ▸ g3)
    · exact s.gone l g1 (by omega) g3
  · intro x hx
    obtain ⟨l, g1, g2, g3, g4⟩ := s.only x hx
    exact ⟨l, g1, by omega, g3, g4⟩
  · exact s.here
  · intro j g1 g2
    obtain ⟨w, g3, g4⟩ := s.path j g1 g2
    rw [hE]
    refine ⟨w, ?_, g4⟩
    rw [if_neg (by omega)] at g3
    rw [g3]
    by_cases e : j = k + 1
    · subst e; rw [if_pos rfl, hg]
    · rw [if_neg e]

/-- the arrays: levels up to `k` are done -/
theorem checkRemove_rest (c : RemCtx P A A' B) {T k : Nat} (hk : k + 1 < T) {f : Nat → Nat → Option Node} {r mn mx : Nat} {er : List Id} (hg : A' (k + 1) ≠ A (k + 1))
    (hf : (f (k + 1) (A (k + 1) + 1)).isSome) :
    (P.tree f (rest (pick A A' k) B T r mn mx er)).checkRemove P (P.pos (k + 1) (A (k + 1))) = some (P.tree f (rest (pick A A' (k + 1)) B T r mn mx er)) := by
  have hs := (c.step (k + 1)).resolve_left hg
  have hle := c.le' (k + 1)
  rw [checkRemove_tree c.ok (p := A (k + 1)) (r := B (k + 1)) (by simp only [rest, pick]; rw [if_pos (by omega), if_neg (by omega)])
    (by simp only [rest]; rw [if_pos (by omega)])]
  refine congrArg (fun R => some (P.tree f R)) ?_
  simp only [rest, Rest.mk.injEq, true_and, and_true]
  constructor
  · funext j
    by_cases e : j = k + 1
    · subst e; rw [if_pos rfl, if_pos hf, if_pos (by omega), pick, if_pos (Nat.le_refl _), hs]
    · rw [if_neg e]
      by_cases e2 : 1 ≤ j ∧ j ≤ T
      · rw [if_pos e2, if_pos e2]
        simp only [pick]
        by_cases e3 : j ≤ k
        · rw [if_pos e3, if_pos (by omega)]
        · rw [if_neg e3, if_neg (by omega)]
      · rw [if_neg e2, if_neg e2]
  · funext j
    by_cases e : j = k + 1
    · subst e; rw [if_pos rfl, if_neg (by omega), if_pos (by omega)]
    · rw [if_neg e]

theorem nd_path_parent (c : RemCtx P A A' B) {T j : Nat} (s e : Nat) (w : Int) :
    (P.nd j (A (j + 1)) (decide (j + 1 < T)) s e w).parent = if j + 1 < T then some (P.pos (j + 1 + 1) (A (j + 1 + 1))) else none := by
  simp only [Par.nd, c.hA.up (j + 1)]
  by_cases h : j + 1 < T <;> simp [h]

end Verif.Rvt
