import Verif.Rvt.Canon
set_option linter.unusedVariables false
set_option linter.unusedSimpArgs false
/-!
# Range validation tree: adding a leaf on the right (C29)
-/
namespace Verif.Rvt
open Verif.Bytes

structure AddCtx (P : Par) (A B B' : Nat → Nat) : Prop where
  ok : P.Ok
  hA : Path P A
  hB : Path P B
  hB' : Path P B'
  le : A 0 ≤ B 0
  next : B' 0 = B 0 + 1

variable {P : Par} {A B B' : Nat → Nat}

theorem AddCtx.ab (c : AddCtx P A B B') (l : Nat) : A l ≤ B l := c.hA.mono' c.hB c.le l

theorem AddCtx.step (c : AddCtx P A B B') (l : Nat) : B' l = B l ∨ B' l = B l + 1 := by
  induction l with
  | zero => exact .inr c.next
  | succ l ih =>
    rcases ih with ih | ih
    · exact .inl (c.hB'.eq_up c.hB ih)
    · have h1 := (div_iff c.ok.K0).1 (c.hB.up l).symm
      by_cases e : B l + 1 < B (l + 1) * P.K + P.K
      · left
        rw [c.hB'.up, ih, div_iff c.ok.K0]; omega
      · right
        rw [c.hB'.up, ih, div_iff c.ok.K0]
        have := c.ok.K0
        rw [Nat.add_mul]; omega

theorem AddCtx.new (c : AddCtx P A B B') {l : Nat} (h : B' (l + 1) ≠ B (l + 1)) : B' l = B l + 1 ∧ B' l = B' (l + 1) * P.K ∧ B' (l + 1) = B (l + 1) + 1 := by
  have e1 : B' (l + 1) = B (l + 1) + 1 := (c.step (l + 1)).resolve_left h
  have e2 : B' l = B l + 1 := (c.step l).resolve_left (fun e => h (c.hB'.eq_up c.hB e))
  have h1 := (div_iff c.ok.K0).1 (c.hB.up l).symm
  have h2 := (div_iff c.ok.K0).1 (c.hB'.up l).symm
  rw [e1, Nat.add_mul] at h2
  refine ⟨e2, ?_, e1⟩
  rw [e1, Nat.add_mul]; omega

theorem AddCtx.old (c : AddCtx P A B B') {l : Nat} (h : B' (l + 1) = B (l + 1)) : B (l + 1) * P.K ≤ B l ∧ B' l < B (l + 1) * P.K + P.K := by
  have h1 := (div_iff c.ok.K0).1 (c.hB.up l).symm
  have h2 := (div_iff c.ok.K0).1 (c.hB'.up l).symm
  rw [h] at h2
  omega

/-- below the path nothing changes -/
theorem AddCtx.hi_other (c : AddCtx P A B B') {l p : Nat} (hp : p < B' (l + 1)) : P.hi B' l p = p * P.K + P.K ∧ P.hi B l p = p * P.K + P.K ∧ p * P.K + P.K ≤ B' l := by
  have h2 := (div_iff c.ok.K0).1 (c.hB'.up l).symm
  have h3 : (p + 1) * P.K ≤ B' (l + 1) * P.K := Nat.mul_le_mul_right _ hp
  rw [Nat.add_mul] at h3
  have := c.step l
  simp only [Par.hi]
  omega

/-- the leaf values while the new leaf counts as 0 -/
def zeroed (val : Nat → Int) (i : Nat) : Nat → Int := fun j => if j = i then 0 else val j

theorem AddCtx.S_other (c : AddCtx P A B B') (val : Nat → Int) (l : Nat) : ∀ p, p < B' l →
    P.S (zeroed val (B' 0)) A B' l p = P.S val A B l p := by
  induction l with
  | zero => intro p hp; simp only [Par.S, zeroed, if_neg (Nat.ne_of_lt hp)]
  | succ l ih =>
    intro p hp
    obtain ⟨h1, h2, h3⟩ := c.hi_other hp
    rw [Par.S, Par.S, h1, h2]
    congr 1
    apply sumR_congr
    intro q hq1 hq2
    apply ih
    by_cases e : P.lo A l p ≤ p * P.K + P.K <;> omega

/-- the initial values of the new nodes up to level `l` -/
def Par.D (P : Par) (B B' : Nat → Nat) : Nat → Int
  | 0 => 0
  | l + 1 => P.D B B' l + if B' (l + 1) = B (l + 1) then 0 else P.iv (P.pos (l + 1) (B' (l + 1)))

theorem AddCtx.S_path (c : AddCtx P A B B') (val : Nat → Int) (l : Nat) :
    P.S (zeroed val (B' 0)) A B' l (B' l) = (if B' l = B l then P.S val A B l (B l) else 0) + P.D B B' l := by
  induction l with
  | zero =>
    have := c.next
    rw [if_neg (by omega)]; simp [Par.S, zeroed, Par.D]
  | succ l ih =>
    have hab := c.ab l
    by_cases hn : B' (l + 1) = B (l + 1)
    · obtain ⟨o1, o2⟩ := c.old hn
      rw [if_pos hn, Par.S, Par.S, Par.D, if_pos hn, hn]
      have hlo : P.lo A l (B (l + 1)) ≤ B l := by simp only [Par.lo]; omega
      by_cases hn2 : B' l = B l
      · rw [if_pos hn2] at ih
        have e1 : P.hi B' l (B (l + 1)) - P.lo A l (B (l + 1)) = (B l - P.lo A l (B (l + 1))) + 1 := by simp only [Par.hi]; omega
        have e2 : P.hi B l (B (l + 1)) - P.lo A l (B (l + 1)) = (B l - P.lo A l (B (l + 1))) + 1 := by simp only [Par.hi]; omega
        rw [e1, e2, sumR, sumR]
        have e3 : P.lo A l (B (l + 1)) + (B l - P.lo A l (B (l + 1))) = B l := by omega
        rw [e3]
        rw [hn2] at ih
        rw [ih, sumR_congr (g' := P.S val A B l) (fun q h1 h2 => c.S_other val l q (by omega))]
        omega
      · have hn3 := (c.step l).resolve_left hn2
        rw [if_neg hn2] at ih
        have e1 : P.hi B' l (B (l + 1)) - P.lo A l (B (l + 1)) = (P.hi B l (B (l + 1)) - P.lo A l (B (l + 1))) + 1 := by simp only [Par.hi]; omega
        rw [e1, sumR]
        have e3 : P.lo A l (B (l + 1)) + (P.hi B l (B (l + 1)) - P.lo A l (B (l + 1))) = B' l := by simp only [Par.hi]; omega
        rw [e3, ih, sumR_congr (g' := P.S val A B l) (fun q h1 h2 => c.S_other val l q (by omega))]
        omega
    · obtain ⟨n1, n2, n3⟩ := c.new hn
      have e1 : P.lo A l (B' (l + 1)) = B' l := by simp only [Par.lo]; omega
      have e2 : P.hi B' l (B' (l + 1)) = B' l + 1 := by
        have := c.ok.K
        simp only [Par.hi]; omega
      rw [if_neg hn, Par.S, e1, e2, Nat.add_sub_cancel_left, sumR, sumR, Nat.add_zero (B' l), ih, if_neg (by omega), Par.D, if_neg hn]
      omega

theorem AddCtx.cn_other (c : AddCtx P A B B') (val : Nat → Int) (T : Nat) {l p : Nat} (hp : p ≠ B' l) :
    P.cn (zeroed val (B' 0)) A B' T l p = P.cn val A B T l p := by
  cases l with
  | zero => rfl
  | succ k =>
    have hs := c.step (k + 1)
    by_cases h : A (k + 1) ≤ p ∧ p ≤ B (k + 1) ∧ k + 1 ≤ T
    · have hlt : p < B' (k + 1) := by omega
      obtain ⟨h1, h2, h3⟩ := c.hi_other hlt
      rw [cn_some h.1 h.2.1 h.2.2, cn_some h.1 (by omega) h.2.2, h1, h2, c.S_other val _ _ hlt]
    · rw [cn_none h, cn_none (by omega)]

/-! ## First loop: up to the level of the root -/

/-- levels up to `k` are those of the new tree, except that a new node of level `k` has no parent yet -/
def Par.mix (P : Par) (val : Nat → Int) (A B B' : Nat → Nat) (T k : Nat) : Nat → Nat → Option Node := fun l p =>
  if l ≤ k then
    (if l = k ∧ p = B' k ∧ B' k ≠ B k then (P.cn (zeroed val (B' 0)) A B' T l p).map (fun n => { n with parent := none })
      else P.cn (zeroed val (B' 0)) A B' T l p)
  else P.cn val A B T l p

def pick (B B' : Nat → Nat) (k : Nat) : Nat → Nat := fun l => if l ≤ k then B' l else B l

theorem eq_of_agree {f g : Nat → Nat → Option Node} {l1 p1 l2 p2 : Nat} {n1 n2 : Node} (h12 : ¬ (l1 = l2 ∧ p1 = p2)) (h1 : g l1 p1 = some n1) (h2 : g l2 p2 = some n2)
    (h : ∀ l p, ¬ (l = l1 ∧ p = p1) → ¬ (l = l2 ∧ p = p2) → f l p = g l p) : upd (upd f l1 p1 n1) l2 p2 n2 = g := by
  funext l p
  by_cases c2 : l = l2 ∧ p = p2
  · rw [c2.1, c2.2, upd_same, h2]
  · rw [upd_ne _ _ c2]
    by_cases c1 : l = l1 ∧ p = p1
    · rw [c1.1, c1.2, upd_same, h1]
    · rw [upd_ne _ _ c1, h l p c1 c2]

theorem upd_upd (f : Nat → Nat → Option Node) (l p : Nat) (n n' : Node) : upd (upd f l p n) l p n' = upd f l p n' := by
  funext a b
  simp only [upd]
  split <;> rfl

theorem upd_comm (f : Nat → Nat → Option Node) {l p l' p' : Nat} (n n' : Node) (h : l ≠ l') : upd (upd f l p n) l' p' n' = upd (upd f l' p' n') l p n := by
  funext a b
  simp only [upd]
  by_cases h1 : a = l' ∧ b = p'
  · rw [if_pos h1, if_neg (by omega), if_pos h1]
  · rw [if_neg h1, if_neg h1]

theorem upd_self {f : Nat → Nat → Option Node} {l p : Nat} {n : Node} (h : f l p = some n) : upd f l p n = f := by
  funext a b
  simp only [upd]
  split
  · rename_i e; rw [e.1, e.2, h]
  · rfl

theorem mix_agree (c : AddCtx P A B B') (val : Nat → Int) (T k l p : Nat) (h1 : ¬ (l = k ∧ p = B' k)) (h2 : ¬ (l = k + 1 ∧ p = B' (k + 1))) :
    P.mix val A B B' T k l p = P.mix val A B B' T (k + 1) l p := by
  simp only [Par.mix]
  rw [if_neg (show ¬ (l = k + 1 ∧ p = B' (k + 1) ∧ _) from fun e => h2 ⟨e.1, e.2.1⟩), if_neg (show ¬ (l = k ∧ p = B' k ∧ _) from fun e => h1 ⟨e.1, e.2.1⟩)]
  by_cases c1 : l ≤ k
  · rw [if_pos c1, if_pos (by omega)]
  · rw [if_neg c1]
    by_cases c2 : l ≤ k + 1
    · rw [if_pos c2]
      obtain rfl : l = k + 1 := by omega
      rw [c.cn_other val T (fun e => h2 ⟨rfl, e⟩)]
    · rw [if_neg c2]

/-- the path node of level `k + 1` in the first mix -/
theorem mix_cur (c : AddCtx P A B B') (val : Nat → Int) {T k : Nat} (hT : k + 1 ≤ T) :
    P.mix val A B B' T (k + 1) (k + 1) (B' (k + 1)) = some (P.nd k (B' (k + 1)) (decide (k + 1 < T ∧ B' (k + 1) = B (k + 1))) (P.lo A k (B' (k + 1)))
      (P.hi B' k (B' (k + 1))) (P.S (zeroed val (B' 0)) A B' (k + 1) (B' (k + 1)) % P.M)) := by
  have h1 : A (k + 1) ≤ B' (k + 1) := by have := c.ab (k + 1); have := c.step (k + 1); omega
  simp only [Par.mix, Nat.le_refl, if_pos, true_and]
  rw [cn_some h1 (Nat.le_refl _) hT]
  by_cases e : B' (k + 1) = B (k + 1)
  · rw [if_neg (fun h => h e)]; simp [e]
  · rw [if_pos e]; simp [e, Par.nd]

theorem mix_done (c : AddCtx P A B B') (val : Nat → Int) {T k : Nat} (hT : k + 1 < T) :
    P.mix val A B B' T (k + 2) (k + 1) (B' (k + 1)) = some (P.nd k (B' (k + 1)) true (P.lo A k (B' (k + 1)))
      (P.hi B' k (B' (k + 1))) (P.S (zeroed val (B' 0)) A B' (k + 1) (B' (k + 1)) % P.M)) := by
  have h1 : A (k + 1) ≤ B' (k + 1) := by have := c.ab (k + 1); have := c.step (k + 1); omega
  simp only [Par.mix]
  rw [if_pos (by omega), if_neg (by omega), cn_some h1 (Nat.le_refl _) (by omega)]
  simp [hT]

/-- the path node above, while it is still that of the old tree -/
theorem mix_above (c : AddCtx P A B B') (val : Nat → Int) {T k : Nat} (hT : k + 2 ≤ T) (e : B' (k + 2) = B (k + 2)) :
    P.mix val A B B' T (k + 1) (k + 2) (B' (k + 2)) = some (P.nd (k + 1) (B (k + 2)) (decide (k + 2 < T)) (P.lo A (k + 1) (B (k + 2)))
      (P.hi B (k + 1) (B (k + 2))) (P.S val A B (k + 2) (B (k + 2)) % P.M)) := by
  simp only [Par.mix]
  rw [if_neg (by omega), e, cn_some (c.ab _) (Nat.le_refl _) hT]

theorem mix_above_none (c : AddCtx P A B B') (val : Nat → Int) {T k : Nat} (e : B' (k + 2) ≠ B (k + 2)) :
    P.mix val A B B' T (k + 1) (k + 2) (B' (k + 2)) = none := by
  have := c.step (k + 2)
  simp only [Par.mix]
  rw [if_neg (by omega), cn_none (by omega)]

theorem nd_parent (P : Par) (k p s e : Nat) (w : Int) {b : Bool} (h : b = true) : (P.nd k p b s e w).parent = some (P.pos (k + 2) (p / P.K)) := by
  simp [Par.nd, h]
theorem nd_noparent (P : Par) (k p s e : Nat) (w : Int) {b : Bool} (h : b = false) : (P.nd k p b s e w).parent = none := by
  simp [Par.nd, h]

/-- pushing the next child -/
theorem nd_push (P : Par) (k p s e : Nat) (w : Int) (b : Bool) (hs : s ≤ e) (he : p * P.K ≤ e) :
    ({ P.nd k p b s e w with
      kids := (P.nd k p b s e w).kids ++ [P.pos k e]
      cnt := some (((P.nd k p b s e w).cnt).getD (e % P.K) + 1) } : Node) = P.nd k p b s (e + 1) w := by
  simp only [Par.nd, Option.getD_some, Node.mk.injEq, true_and, and_true, Option.some.injEq]
  constructor
  · have : e + 1 - s = (e - s) + 1 := by omega
    rw [this, List.range'_1_concat, List.map_append]
    simp
    rw [show s + (e - s) = e by omega]
  · omega

/-- a fresh node with its first child -/
theorem nd_fresh (P : Par) (h : P.Ok) (k c p : Nat) (w : Int) (hp : c / P.K = p) :
    ({ (⟨none, [], none, P.iv (P.pos (k + 1) p), w⟩ : Node) with
      kids := [] ++ [P.pos k c]
      cnt := some ((none : Option Nat).getD (c % P.K) + 1) } : Node) = P.nd k p false c (c + 1) w := by
  have h1 := (div_iff h.K0).1 hp
  have h2 := Nat.div_add_mod c P.K
  rw [hp, Nat.mul_comm] at h2
  simp only [Par.nd, Node.mk.injEq, Option.some.injEq, Option.getD_none]
  refine ⟨by simp, ?_, ?_, by simp⟩
  · rw [show c + 1 - c = 1 by omega]; simp
  · omega

theorem nd_last_lt (h : P.Ok) (k p s e : Nat) (w : Int) (b : Bool) : ∀ x ∈ (P.nd k p b s e w).kids.getLast?, x.lt (P.pos k e) := by
  intro x hx
  have hm : x ∈ (P.nd k p b s e w).kids := List.mem_of_getLast? hx
  simp only [Par.nd, List.mem_map, List.mem_range'_1] at hm
  obtain ⟨q, ⟨h1, h2⟩, rfl⟩ := hm
  right
  refine ⟨rfl, ?_⟩
  simp only [pos_idx]
  have : q * P.K ^ k < e * P.K ^ k := Nat.mul_lt_mul_of_pos_right (by omega) (h.pow k)
  omega

theorem nd_kids_len (P : Par) (k p s e : Nat) (w : Int) (b : Bool) : (P.nd k p b s e w).kids.length = e - s := by simp [Par.nd]

theorem nd_cv (P : Par) (k p s e : Nat) (w w' : Int) (b : Bool) : ({ P.nd k p b s e w with cv := w' } : Node) = P.nd k p b s e w' := rfl
theorem nd_par (P : Par) (k p s e : Nat) (w : Int) (b : Bool) : ({ P.nd k p b s e w with parent := some (P.pos (k + 2) (p / P.K)) } : Node) = P.nd k p true s e w := by
  simp [Par.nd]

theorem rest_both (A B : Nat → Nat) (T r mn mx : Nat) (er : List Id) (l : Nat) : (rest A B T r mn mx er).both l := by
  simp only [Rest.both, rest]
  split <;> rfl

theorem pick_old (c : AddCtx P A B B') {k : Nat} (e : B' (k + 1) = B (k + 1)) : pick B B' k = pick B B' (k + 1) := by
  funext l
  simp only [pick]
  by_cases h1 : l ≤ k
  · rw [if_pos h1, if_pos (by omega)]
  · rw [if_neg h1]
    by_cases h2 : l ≤ k + 1
    · rw [if_pos h2]
      obtain rfl : l = k + 1 := by omega
      exact e.symm
    · rw [if_neg h2]

theorem climb_step (c : AddCtx P A B B') (val : Nat → Int) {T k : Nat} (hT : k + 1 < T) (mn mx : Nat) (er : List Id) (r fuel : Nat) :
    climb P (fuel + 1) (P.tree (P.mix val A B B' T (k + 1)) (rest A (pick B B' (k + 1)) T r mn mx er)) (P.pos (k + 1) (B' (k + 1))) (P.D B B' (k + 1) % P.M) =
    climb P fuel (P.tree (P.mix val A B B' T (k + 2)) (rest A (pick B B' (k + 2)) T r mn mx er)) (P.pos (k + 2) (B' (k + 2))) (P.D B B' (k + 2) % P.M) := by
  have h := c.ok
  have hr : (P.tree (P.mix val A B B' T (k + 1)) (rest A (pick B B' (k + 1)) T r mn mx er)).root = some (P.pos T r) := rfl
  have hcur := mix_cur c val (k := k) (T := T) (by omega)
  have hup := c.hB'.up (k + 1)
  have hup' : B' (k + 1) / P.K = B' (k + 2) := hup.symm
  have hST := c.S_path val (k + 2)
  have hne : ¬ (k + 1 = k + 2 ∧ B' (k + 1) = B' (k + 2)) := by omega
  have hdone := mix_done c val hT
  have hnext := mix_cur c val (k := k + 1) (T := T) (by omega)
  have hag := mix_agree c val T (k + 1)
  rw [climb, hr]
  simp only [Option.bind_eq_bind, Option.bind_some]
  rw [if_neg (show ¬ ((P.pos (k + 1) (B' (k + 1))).lvl = (P.pos T r).lvl) by show ¬ (k + 1 = T); omega), node_tree h, hcur]
  simp only [Option.bind_some]
  by_cases e1 : B' (k + 1) = B (k + 1)
  · -- no new node here
    have e2 : B' (k + 2) = B (k + 2) := c.hB'.eq_up c.hB e1
    rw [nd_parent _ _ _ _ _ _ (by simp [hT, e1])]
    dsimp only
    rw [parentOf_tree h (l' := k + 2) (p' := B' (k + 2)) (by simp [rest]; omega) hcur (by rw [nd_parent _ _ _ _ _ _ (by simp [hT, e1]), hup']) (mix_above c val (by omega) e2)]
    simp only [Option.bind_some]
    rw [addValue_tree h (mix_above c val (by omega) e2)]
    simp only [Option.bind_some]
    have hD : P.D B B' (k + 2) = P.D B B' (k + 1) := by
      show P.D B B' (k + 1) + (if B' (k + 2) = B (k + 2) then 0 else P.iv (P.pos (k + 2) (B' (k + 2)))) = _
      rw [if_pos e2]; omega
    rw [hD, pick_old c e2]
    congr 2
    have e3 : P.nd (k + 1) (B (k + 2)) (decide (k + 2 < T)) (P.lo A (k + 1) (B (k + 2))) (P.hi B (k + 1) (B (k + 2)))
        (P.add (P.S val A B (k + 2) (B (k + 2)) % P.M) (P.D B B' (k + 1) % P.M)) =
        P.nd (k + 1) (B' (k + 2)) (decide (k + 2 < T ∧ B' (k + 2) = B (k + 2))) (P.lo A (k + 1) (B' (k + 2))) (P.hi B' (k + 1) (B' (k + 2)))
          (P.S (zeroed val (B' 0)) A B' (k + 2) (B' (k + 2)) % P.M) := by
      rw [hST, if_pos e2, hD, add_mod h, e2]
      simp [Par.hi, e1]
    refine Eq.trans ?_ (eq_of_agree hne hdone (hnext.trans (congrArg some e3.symm)) hag)
    rw [upd_self (n := P.nd k _ true _ _ _)]
    · rfl
    · rw [hcur]; simp [hT, e1]
  · rw [nd_noparent _ _ _ _ _ _ (by simp [e1])]
    dsimp only
    have e1' := (c.step (k + 1)).resolve_left e1
    by_cases e2 : B' (k + 2) = B (k + 2)
    · -- the node above has room
      obtain ⟨o1, o2⟩ : B (k + 2) * P.K ≤ B (k + 1) ∧ B' (k + 1) < B (k + 2) * P.K + P.K := c.old e2
      have hab := c.ab (k + 1)
      have hright : (rest A (pick B B' (k + 1)) T r mn mx er).right (k + 2) = some (B' (k + 2)) := by
        simp only [rest, pick]
        rw [if_pos (by omega), if_neg (by omega), e2]
      have hhi : P.hi B (k + 1) (B (k + 2)) = B' (k + 1) := by simp only [Par.hi]; omega
      have hhi' : P.hi B' (k + 1) (B (k + 2)) = B' (k + 1) + 1 := by simp only [Par.hi]; omega
      have habove := mix_above c val (k := k) (T := T) (by omega) e2
      rw [show (P.pos (k + 1) (B' (k + 1))).lvl + 1 = k + 2 from rfl, openIns_tree h hright habove rfl, if_pos (by rw [hhi]; omega)]
      dsimp only
      rw [setParent_tree h hcur]
      simp only [Option.bind_some]
      rw [hhi] at habove
      rw [push_tree h (l := k + 1) (p := B' (k + 2)) (c := B' (k + 1)) (by rw [upd_ne _ _ (by omega)]; exact habove) (nd_last_lt h _ _ _ _ _ _)
        (by show B' (k + 1) - B (k + 2) * P.K < P.K; omega)]
      have hlo : P.lo A (k + 1) (B (k + 2)) ≤ B' (k + 1) := by simp only [Par.lo]; omega
      simp only [Option.bind_some]
      rw [nd_push _ _ _ _ _ _ _ hlo (by omega), node_tree h, upd_same]
      simp only [Option.bind_some]
      rw [guard_yes (by rw [nd_kids_len]; simp only [Par.lo]; omega)]
      simp only [Option.bind_some]
      rw [addValue_tree h (upd_same _ _ _ _)]
      simp only [Option.bind_some]
      have hD : P.D B B' (k + 2) = P.D B B' (k + 1) := by
        show P.D B B' (k + 1) + (if B' (k + 2) = B (k + 2) then 0 else P.iv (P.pos (k + 2) (B' (k + 2)))) = _
        rw [if_pos e2]; omega
      rw [hD, pick_old c e2, upd_upd, nd_cv]
      have e3 : P.nd (k + 1) (B (k + 2)) (decide (k + 2 < T)) (P.lo A (k + 1) (B (k + 2))) (B' (k + 1) + 1)
          (P.add (P.S val A B (k + 2) (B (k + 2)) % P.M) (P.D B B' (k + 1) % P.M)) =
          P.nd (k + 1) (B' (k + 2)) (decide (k + 2 < T ∧ B' (k + 2) = B (k + 2))) (P.lo A (k + 1) (B' (k + 2))) (P.hi B' (k + 1) (B' (k + 2)))
            (P.S (zeroed val (B' 0)) A B' (k + 2) (B' (k + 2)) % P.M) := by
        rw [hST, if_pos e2, hD, add_mod h, e2, hhi']
        simp
      rw [← hup', nd_par, hup', show P.nd k _ true _ _ _ = P.nd k _ true _ _ _ from rfl]
      exact congrArg (fun g => climb P fuel (P.tree g _) _ _) (eq_of_agree hne hdone (hnext.trans (congrArg some e3.symm)) hag)
    · -- a new node above
      obtain ⟨n1, n2, n3⟩ : B' (k + 1) = B (k + 1) + 1 ∧ B' (k + 1) = B' (k + 2) * P.K ∧ B' (k + 2) = B (k + 2) + 1 := c.new e2
      have hab := c.ab (k + 1)
      have hab2 := c.ab (k + 2)
      have hK := h.K
      have hright : (rest A (pick B B' (k + 1)) T r mn mx er).right (k + 2) = some (B (k + 2)) := by
        simp only [rest, pick]
        rw [if_pos (by omega), if_neg (by omega)]
      have hold : P.mix val A B B' T (k + 1) (k + 2) (B (k + 2)) = some (P.nd (k + 1) (B (k + 2)) (decide (k + 2 < T)) (P.lo A (k + 1) (B (k + 2)))
          (P.hi B (k + 1) (B (k + 2))) (P.S val A B (k + 2) (B (k + 2)) % P.M)) := by
        simp only [Par.mix]
        rw [if_neg (by omega), cn_some (c.ab _) (Nat.le_refl _) (by omega)]
      have hmul : B' (k + 2) * P.K = B (k + 2) * P.K + P.K := by rw [n3, Nat.add_mul]; omega
      have hhi : P.hi B (k + 1) (B (k + 2)) = B (k + 2) * P.K + P.K := by simp only [Par.hi]; omega
      rw [show (P.pos (k + 1) (B' (k + 1))).lvl + 1 = k + 2 from rfl, openIns_tree h hright hold rfl, if_neg (by rw [hhi]; omega)]
      dsimp only
      have hnone := mix_above_none c val (k := k) (T := T) e2
      rw [make_tree h (by rw [hup']; exact hnone)]
      simp only [Option.bind_some]
      rw [hup', show k + 1 + 1 = k + 2 from rfl]
      rw [push_tree h (l := k + 1) (p := B' (k + 2)) (c := B' (k + 1)) (upd_same _ _ _ _) (by simp) (Nat.mod_lt _ h.K0)]
      simp only [Option.bind_some]
      have hf := nd_fresh P h (k + 1) (B' (k + 1)) (B' (k + 2)) (P.iv (P.pos (k + 2) (B' (k + 2)))) hup'
      dsimp only at hf
      rw [hf, addValue_tree h (upd_same _ _ _ _)]
      simp only [Option.bind_some]
      rw [addRight_tree h (rest_both _ _ _ _ _ _ _ _)]
      simp only [Option.bind_some]
      rw [upd_upd, upd_upd, setParent_tree h (by rw [upd_ne _ _ (by omega)]; exact hcur)]
      simp only [Option.bind_some]
      have hD : P.D B B' (k + 2) = P.D B B' (k + 1) + P.iv (P.pos (k + 2) (B' (k + 2))) := by
        show P.D B B' (k + 1) + (if B' (k + 2) = B (k + 2) then 0 else P.iv (P.pos (k + 2) (B' (k + 2)))) = _
        rw [if_neg e2]
      have hv : P.add (P.D B B' (k + 1) % P.M) (P.iv (P.pos (k + 2) (B' (k + 2)))) = P.D B B' (k + 2) % P.M := by
        rw [← iv_mod h, add_mod h, hD]
      have hv2 : P.add (P.iv (P.pos (k + 2) (B' (k + 2)))) (P.D B B' (k + 1) % P.M) = P.D B B' (k + 2) % P.M := by
        rw [← iv_mod h, add_mod h, hD, Int.add_comm]
      rw [hv, upd_comm _ _ _ (by omega)]
      have hlo : P.lo A (k + 1) (B' (k + 2)) = B' (k + 1) := by simp only [Par.lo]; omega
      have hhi2 : P.hi B' (k + 1) (B' (k + 2)) = B' (k + 1) + 1 := by simp only [Par.hi]; omega
      have e3 : P.nd (k + 1) (B' (k + 2)) false (B' (k + 1)) (B' (k + 1) + 1) (P.D B B' (k + 2) % P.M) =
          P.nd (k + 1) (B' (k + 2)) (decide (k + 2 < T ∧ B' (k + 2) = B (k + 2))) (P.lo A (k + 1) (B' (k + 2))) (P.hi B' (k + 1) (B' (k + 2)))
            (P.S (zeroed val (B' 0)) A B' (k + 2) (B' (k + 2)) % P.M) := by
        rw [hST, if_neg e2, hlo, hhi2]
        simp [e2]
      have hg := eq_of_agree hne hdone (hnext.trans (congrArg some e3.symm)) hag
      have hR : ({ rest A (pick B B' (k + 1)) T r mn mx er with
          right := fun j => if j = k + 2 then some (B' (k + 2)) else (rest A (pick B B' (k + 1)) T r mn mx er).right j
          left := fun j => if j = k + 2 then some (((rest A (pick B B' (k + 1)) T r mn mx er).left (k + 2)).getD (B' (k + 2))) else (rest A (pick B B' (k + 1)) T r mn mx er).left j } : Rest) =
          rest A (pick B B' (k + 2)) T r mn mx er := by
        simp only [rest, Rest.mk.injEq, true_and, and_true]
        constructor
        · funext j
          by_cases ej : j = k + 2
          · subst ej; rw [if_pos rfl, if_pos (by omega)]; rfl
          · rw [if_neg ej]
        · funext j
          by_cases ej : j = k + 2
          · subst ej; rw [if_pos rfl, if_pos (by omega)]; simp [pick]
          · rw [if_neg ej]
            by_cases ej2 : 1 ≤ j ∧ j ≤ T
            · rw [if_pos ej2, if_pos ej2]
              simp only [pick]
              by_cases e5 : j ≤ k + 1
              · rw [if_pos e5, if_pos (by omega)]
              · rw [if_neg e5, if_neg (by omega)]
            · rw [if_neg ej2, if_neg ej2]
      rw [hR, ← hup', nd_par, hup', ← hg, nd_cv, show (P.nd (k + 1) (B' (k + 2)) false (B' (k + 1)) (B' (k + 1) + 1) (P.iv (P.pos (k + 2) (B' (k + 2))))).cv = P.iv (P.pos (k + 2) (B' (k + 2))) from rfl, hv2]

theorem mix_top (c : AddCtx P A B B') (val : Nat → Int) (T : Nat) : P.mix val A B B' T T = P.cn (zeroed val (B' 0)) A B' T := by
  funext l p
  simp only [Par.mix]
  by_cases h1 : l ≤ T
  · rw [if_pos h1]
    by_cases h2 : l = T ∧ p = B' T ∧ B' T ≠ B T
    · rw [if_pos h2]
      obtain ⟨rfl, rfl, _⟩ := h2
      cases l with
      | zero => rfl
      | succ k =>
        simp only [Par.cn]
        split
        · simp [Par.nd]
        · rfl
    · rw [if_neg h2]
  · rw [if_neg h1, cn_none (by omega), cn_none (by omega)]

theorem rest_pick (A B B' : Nat → Nat) (T r mn mx : Nat) (er : List Id) : rest A (pick B B' T) T r mn mx er = rest A B' T r mn mx er := by
  simp only [rest, Rest.mk.injEq, true_and, and_true]
  funext l
  by_cases h : 1 ≤ l ∧ l ≤ T
  · rw [if_pos h, if_pos h, pick, if_pos h.2]
  · rw [if_neg h, if_neg h]

theorem climb_all (c : AddCtx P A B B') (val : Nat → Int) (mn mx : Nat) (er : List Id) (r : Nat) {T : Nat} : ∀ (fuel k : Nat), k + 1 ≤ T → T < k + 1 + fuel →
    climb P fuel (P.tree (P.mix val A B B' T (k + 1)) (rest A (pick B B' (k + 1)) T r mn mx er)) (P.pos (k + 1) (B' (k + 1))) (P.D B B' (k + 1) % P.M) =
      some (P.tree (P.cn (zeroed val (B' 0)) A B' T) (rest A B' T r mn mx er), P.pos T (B' T)) := by
  intro fuel
  induction fuel with
  | zero => intro k h1 h2; omega
  | succ fuel ih =>
    intro k h1 h2
    by_cases e : k + 1 = T
    · subst e
      have hr : (P.tree (P.mix val A B B' (k + 1) (k + 1)) (rest A (pick B B' (k + 1)) (k + 1) r mn mx er)).root = some (P.pos (k + 1) r) := rfl
      rw [climb, hr]
      simp only [Option.bind_eq_bind, Option.bind_some]
      rw [if_pos (show (P.pos (k + 1) (B' (k + 1))).lvl = (P.pos (k + 1) r).lvl from rfl), mix_top c, rest_pick]
    · rw [climb_step c val (by omega)]
      exact ih (k + 1) (by omega) (by omega)

/-! ## Second loop: new roots -/

/-- nodes of a higher tree that do not change when the top moves up -/
theorem cn_up (P : Par) (val : Nat → Int) (A B : Nat → Nat) (T l p : Nat) (h : l < T) : P.cn val A B T l p = P.cn val A B (T + 1) l p := by
  cases l with
  | zero => rfl
  | succ k =>
    by_cases hc : A (k + 1) ≤ p ∧ p ≤ B (k + 1) ∧ k + 1 ≤ T
    · rw [cn_some hc.1 hc.2.1 hc.2.2, cn_some hc.1 hc.2.1 (by omega)]
      rw [show decide (k + 1 < T) = decide (k + 1 < T + 1) by simp; omega]
    · rw [cn_none hc, cn_none (by omega)]

theorem S_succ (P : Par) (val : Nat → Int) (A B : Nat → Nat) (l p : Nat) :
    P.S val A B (l + 1) p = P.iv (P.pos (l + 1) p) + sumR (P.S val A B l) (P.lo A l p) (P.hi B l p - P.lo A l p) := rfl

theorem S_succ2 (P : Par) (val : Nat → Int) (A B : Nat → Nat) (l p : Nat) :
    P.S val A B (l + 2) p = P.iv (P.pos (l + 2) p) + sumR (P.S val A B (l + 1)) (P.lo A (l + 1) p) (P.hi B (l + 1) p - P.lo A (l + 1) p) := rfl
theorem cn_some2 {P : Par} {val : Nat → Int} {A B : Nat → Nat} {T k p : Nat} (h1 : A (k + 2) ≤ p) (h2 : p ≤ B (k + 2)) (h3 : k + 2 ≤ T) :
    P.cn val A B T (k + 2) p = some (P.nd (k + 1) p (decide (k + 2 < T)) (P.lo A (k + 1) p) (P.hi B (k + 1) p) (P.S val A B (k + 2) p % P.M)) := cn_some h1 h2 h3

theorem setRoot_grow (h : P.Ok) {f : Nat → Nat → Option Node} {R : Rest} {l r y : Nat} {n m : Node} (hr : R.root = some (l, r)) (hn : f l r = some n)
    (hm : f (l + 1) y = some m) (hb : R.both (l + 1)) :
    (P.tree f R).setRoot P (P.pos (l + 1) y) = some (P.tree (upd (upd f l r { n with parent := some (P.pos (l + 1) y) }) (l + 1) y { m with parent := none })
      { R with
        root := some (l + 1, y)
        right := fun k => if k = l + 1 then some y else R.right k
        left := fun k => if k = l + 1 then some ((R.left (l + 1)).getD y) else R.left k }) := by
  have hr' : (P.tree f R).root = some (P.pos l r) := (root_tree h _ _ _ _).2 hr
  have ho : (P.tree f R).oldRoot P (P.pos (l + 1) y) = some (P.tree (upd f l r { n with parent := some (P.pos (l + 1) y) }) R) := by
    unfold Tree.oldRoot
    rw [hr']
    dsimp only
    rw [if_neg (show ¬ ((P.pos (l + 1) y).lvl = 0) by show ¬ (l + 1 = 0); omega), if_pos (show (P.pos (l + 1) y).lvl = (P.pos l r).lvl + 1 from rfl), setParent_tree h hn]
  rw [Tree.setRoot, ho]
  simp only [Option.bind_eq_bind, Option.bind_some]
  have e : ({ P.tree (upd f l r { n with parent := some (P.pos (l + 1) y) }) R with root := some (P.pos (l + 1) y) } : Tree) =
      P.tree (upd f l r { n with parent := some (P.pos (l + 1) y) }) { R with root := some (l + 1, y) } := rfl
  rw [e, setParent_tree h (n := m) (by rw [upd_ne _ _ (by omega)]; exact hm)]
  simp only [Option.bind_some]
  rw [addRight_tree h (by exact hb)]

/-- the tree with a second node beside the root becomes the tree one level higher -/
theorem newRoots_all (h : P.Ok) (hA : Path P A) (hB : Path P B) (val : Nat → Int) (mn mx : Nat) (er : List Id) : ∀ (fuel k : Nat),
    B (k + 1) = A (k + 1) + 1 → B (k + 1) < fuel →
    ∃ T, k + 1 < T ∧ A T = B T ∧ (∀ l, k + 1 ≤ l → l < T → A l ≠ B l) ∧
      newRoots P fuel (P.tree (P.cn val A B (k + 1)) (rest A B (k + 1) (A (k + 1)) mn mx er)) (P.pos (k + 1) (B (k + 1))) =
        some (P.tree (P.cn val A B T) (rest A B T (A T) mn mx er)) := by
  intro fuel
  induction fuel with
  | zero => intro k h1 h2; omega
  | succ fuel ih =>
    intro k hb hf
    have hK := h.K
    have hupA : A (k + 1) / P.K = A (k + 2) := (hA.up (k + 1)).symm
    have hupB : B (k + 1) / P.K = B (k + 2) := (hB.up (k + 1)).symm
    have hroot : P.cn val A B (k + 1) (k + 1) (A (k + 1)) = some (P.nd k (A (k + 1)) false (P.lo A k (A (k + 1))) (P.hi B k (A (k + 1))) (P.S val A B (k + 1) (A (k + 1)) % P.M)) := by
      rw [cn_some (Nat.le_refl _) (by omega) (Nat.le_refl _)]; simp
    have hx : P.cn val A B (k + 1) (k + 1) (B (k + 1)) = some (P.nd k (B (k + 1)) false (P.lo A k (B (k + 1))) (P.hi B k (B (k + 1))) (P.S val A B (k + 1) (B (k + 1)) % P.M)) := by
      rw [cn_some (by omega) (Nat.le_refl _) (Nat.le_refl _)]; simp
    have hnone : ∀ p, P.cn val A B (k + 1) (k + 2) p = none := fun p => cn_none (by omega)
    have hr : (P.tree (P.cn val A B (k + 1)) (rest A B (k + 1) (A (k + 1)) mn mx er)).root = some (P.pos (k + 1) (A (k + 1))) := rfl
    rw [newRoots, hr]
    simp only [Option.bind_eq_bind, Option.bind_some]
    rw [node_tree h, hroot]
    simp only [Option.bind_some]
    rw [make_tree h (hnone _)]
    simp only [Option.bind_some]
    rw [hupA, show k + 1 + 1 = k + 2 from rfl, push_tree h (l := k + 1) (c := A (k + 1)) (upd_same _ _ _ _) (by simp) (Nat.mod_lt _ h.K0)]
    simp only [Option.bind_some]
    have hf1 := nd_fresh P h (k + 1) (A (k + 1)) (A (k + 2)) (P.iv (P.pos (k + 2) (A (k + 2)))) hupA
    dsimp only at hf1
    rw [hf1, addValue_tree h (upd_same _ _ _ _)]
    simp only [Option.bind_some]
    rw [upd_upd, upd_upd]
    rw [setRoot_grow h (l := k + 1) (r := A (k + 1)) rfl (by rw [upd_ne _ _ (by omega)]; exact hroot) (upd_same _ _ _ _) (rest_both _ _ _ _ _ _ _ _)]
    simp only [Option.bind_some]
    rw [upd_comm _ _ _ (by omega), upd_upd, upd_comm _ _ _ (by omega), node_tree h, upd_ne _ _ (by omega), upd_ne _ _ (by omega), hx]
    simp only [Option.bind_some]
    have hg1 : ({ P.nd k (A (k + 1)) false (P.lo A k (A (k + 1))) (P.hi B k (A (k + 1))) (P.S val A B (k + 1) (A (k + 1)) % P.M) with
        parent := some (P.pos (k + 1 + 1) (A (k + 2))) } : Node) =
        P.nd k (A (k + 1)) true (P.lo A k (A (k + 1))) (P.hi B k (A (k + 1))) (P.S val A B (k + 1) (A (k + 1)) % P.M) := by
      rw [← nd_par, hupA]
    have hg2 : ({ P.nd k (B (k + 1)) false (P.lo A k (B (k + 1))) (P.hi B k (B (k + 1))) (P.S val A B (k + 1) (B (k + 1)) % P.M) with
        parent := some (P.pos (k + 2) (B (k + 2))) } : Node) =
        P.nd k (B (k + 1)) true (P.lo A k (B (k + 1))) (P.hi B k (B (k + 1))) (P.S val A B (k + 1) (B (k + 1)) % P.M) := by
      rw [← nd_par, hupB]
    have hR : ({ rest A B (k + 1) (A (k + 1)) mn mx er with
        root := some (k + 1 + 1, A (k + 2))
        right := fun j => if j = k + 1 + 1 then some (A (k + 2)) else (rest A B (k + 1) (A (k + 1)) mn mx er).right j
        left := fun j => if j = k + 1 + 1 then some (((rest A B (k + 1) (A (k + 1)) mn mx er).left (k + 1 + 1)).getD (A (k + 2))) else (rest A B (k + 1) (A (k + 1)) mn mx er).left j } : Rest) =
        rest A (fun j => if j = k + 2 then A (k + 2) else B j) (k + 2) (A (k + 2)) mn mx er := by
      simp only [rest, Rest.mk.injEq, true_and, and_true]
      constructor
      · funext j
        by_cases ej : j = k + 2
        · subst ej
          rw [if_pos rfl, if_pos (show 1 ≤ k + 2 ∧ k + 2 ≤ k + 2 by omega), if_neg (show ¬ (1 ≤ k + 1 + 1 ∧ k + 1 + 1 ≤ k + 1) by omega)]
          rfl
        · rw [if_neg ej]
          by_cases ej2 : 1 ≤ j ∧ j ≤ k + 1
          · rw [if_pos ej2, if_pos (by omega)]
          · rw [if_neg ej2, if_neg (by omega)]
      · funext j
        by_cases ej : j = k + 2
        · subst ej; simp
        · rw [if_neg ej]
          by_cases ej2 : 1 ≤ j ∧ j ≤ k + 1
          · rw [if_pos ej2, if_pos (by omega), if_neg ej]
          · rw [if_neg ej2, if_neg (by omega)]
    rw [hg1, hR]
    have hcvA : P.add (P.iv (P.pos (k + 2) (A (k + 2)))) (P.S val A B (k + 1) (A (k + 1)) % P.M) = (P.iv (P.pos (k + 2) (A (k + 2))) + P.S val A B (k + 1) (A (k + 1))) % P.M := by
      rw [← iv_mod h, add_mod h, iv_mod h]
    have hcvB : P.add (P.iv (P.pos (k + 2) (B (k + 2)))) (P.S val A B (k + 1) (B (k + 1)) % P.M) = (P.iv (P.pos (k + 2) (B (k + 2))) + P.S val A B (k + 1) (B (k + 1))) % P.M := by
      rw [← iv_mod h, add_mod h, iv_mod h]
    have hg3 : (⟨none, (P.nd (k + 1) (A (k + 2)) false (A (k + 1)) (A (k + 1) + 1) (P.iv (P.pos (k + 2) (A (k + 2))))).kids,
        (P.nd (k + 1) (A (k + 2)) false (A (k + 1)) (A (k + 1) + 1) (P.iv (P.pos (k + 2) (A (k + 2))))).cnt,
        (P.nd (k + 1) (A (k + 2)) false (A (k + 1)) (A (k + 1) + 1) (P.iv (P.pos (k + 2) (A (k + 2))))).iv,
        P.add (P.nd (k + 1) (A (k + 2)) false (A (k + 1)) (A (k + 1) + 1) (P.iv (P.pos (k + 2) (A (k + 2))))).cv
          (P.nd k (A (k + 1)) false (P.lo A k (A (k + 1))) (P.hi B k (A (k + 1))) (P.S val A B (k + 1) (A (k + 1)) % P.M)).cv⟩ : Node) =
        P.nd (k + 1) (A (k + 2)) false (A (k + 1)) (A (k + 1) + 1) ((P.iv (P.pos (k + 2) (A (k + 2))) + P.S val A B (k + 1) (A (k + 1))) % P.M) := by
      rw [← hcvA]; rfl
    rw [hg3]
    have tA : P.cn val A B (k + 2) (k + 1) (A (k + 1)) = some (P.nd k (A (k + 1)) true (P.lo A k (A (k + 1))) (P.hi B k (A (k + 1))) (P.S val A B (k + 1) (A (k + 1)) % P.M)) := by
      rw [cn_some (Nat.le_refl _) (by omega) (by omega)]; simp
    have tB : P.cn val A B (k + 2) (k + 1) (B (k + 1)) = some (P.nd k (B (k + 1)) true (P.lo A k (B (k + 1))) (P.hi B k (B (k + 1))) (P.S val A B (k + 1) (B (k + 1)) % P.M)) := by
      rw [cn_some (by omega) (Nat.le_refl _) (by omega)]; simp
    have dA := (div_iff h.K0).1 hupA
    have dB := (div_iff h.K0).1 hupB
    have hcond : (P.up (P.pos (k + 1) (A (k + 1))).lvl (P.pos (k + 1) (A (k + 1))).idx ≠ P.up (P.pos (k + 1) (B (k + 1))).lvl (P.pos (k + 1) (B (k + 1))).idx) ↔ A (k + 2) ≠ B (k + 2) := by
      rw [pos_lvl, pos_lvl, up_pos h, up_pos h, hupA, hupB]
      constructor
      · intro hh e; exact hh (by rw [e])
      · intro hh e
        apply hh
        rw [pos_idx, pos_idx] at e
        exact Nat.eq_of_mul_eq_mul_right (h.pow (k + 1 + 1)) (by omega)
    by_cases e : A (k + 2) = B (k + 2)
    · -- common parent
      rw [if_neg (fun hh => hcond.1 hh e)]
      rw [setParent_tree h (n := P.nd k (B (k + 1)) false (P.lo A k (B (k + 1))) (P.hi B k (B (k + 1))) (P.S val A B (k + 1) (B (k + 1)) % P.M))
        (by rw [upd_ne _ _ (by omega), upd_ne _ _ (by omega)]; exact hx)]
      simp only [Option.bind_some]
      rw [push_tree h (l := k + 1) (c := B (k + 1)) (by rw [upd_ne _ _ (by omega)]; exact upd_same _ _ _ _) (by rw [hb]; exact nd_last_lt h _ _ _ _ _ _)
        (by show A (k + 1) + 1 - A (k + 2) * P.K < P.K; rw [← e] at dB; omega)]
      simp only [Option.bind_some]
      rw [hb, nd_push _ _ _ _ _ _ _ (by omega) (by omega), ← hb, addValue_tree h (upd_same _ _ _ _), upd_upd, nd_cv, e, hg2, ← e]
      have hv : P.add ((P.iv (P.pos (k + 2) (A (k + 2))) + P.S val A B (k + 1) (A (k + 1))) % P.M) (P.S val A B (k + 1) (B (k + 1)) % P.M) = P.S val A B (k + 2) (A (k + 2)) % P.M := by
        rw [add_mod h, S_succ2 P val A B k]
        congr 1
        have e1 : P.lo A (k + 1) (A (k + 2)) = A (k + 1) := by simp only [Par.lo]; omega
        have e2 : P.hi B (k + 1) (A (k + 2)) = B (k + 1) + 1 := by simp only [Par.hi]; rw [← e] at dB; omega
        rw [e1, e2, hb, show A (k + 1) + 1 + 1 - A (k + 1) = 2 by omega, sumR, sumR, sumR, Nat.add_zero (A (k + 1))]
        omega
      refine ⟨k + 2, by omega, e, ?_, ?_⟩
      · intro l h1 h2
        obtain rfl : l = k + 1 := by omega
        omega
      · have hRR : rest A (fun j => if j = k + 2 then A (k + 2) else B j) (k + 2) (A (k + 2)) mn mx er = rest A B (k + 2) (A (k + 2)) mn mx er := by
          rw [show (fun j => if j = k + 2 then A (k + 2) else B j) = B from by
            funext j
            by_cases ej : j = k + 2
            · rw [if_pos ej, ej, e]
            · rw [if_neg ej]]
        have tC : P.cn val A B (k + 2) (k + 2) (A (k + 2)) = some (P.nd (k + 1) (A (k + 2)) false (A (k + 1)) (B (k + 1) + 1) (P.S val A B (k + 2) (A (k + 2)) % P.M)) := by
          rw [cn_some2 (Nat.le_refl _) (by omega) (by omega)]
          have e1 : P.lo A (k + 1) (A (k + 2)) = A (k + 1) := by simp only [Par.lo]; omega
          have e2 : P.hi B (k + 1) (A (k + 2)) = B (k + 1) + 1 := by simp only [Par.hi]; rw [← e] at dB; omega
          rw [e1, e2]; simp
        rw [hRR, upd_comm (upd _ _ _ _) _ _ (by omega), upd_upd]
        refine congrArg (fun g => some (P.tree g _)) ?_
        rw [show (P.nd (k + 1) (A (k + 2)) false (A (k + 1)) (B (k + 1) + 1) ((P.iv (P.pos (k + 2) (A (k + 2))) + P.S val A B (k + 1) (A (k + 1))) % P.M)).cv =
          (P.iv (P.pos (k + 2) (A (k + 2))) + P.S val A B (k + 1) (A (k + 1))) % P.M from rfl]
        rw [show (P.nd k (B (k + 1)) false (P.lo A k (B (k + 1))) (P.hi B k (B (k + 1))) (P.S val A B (k + 1) (B (k + 1)) % P.M)).cv = P.S val A B (k + 1) (B (k + 1)) % P.M from rfl]
        rw [hv]
        refine eq_of_agree (by omega) tC tB ?_
        intro l p h1 h2
        by_cases c1 : l = k + 1 ∧ p = A (k + 1)
        · rw [c1.1, c1.2, upd_same, tA]
        · rw [upd_ne _ _ c1]
          by_cases c2 : l < k + 1
          · exact cn_up P val A B (k + 1) l p c2
          · by_cases c3 : l = k + 1
            · subst c3
              rw [cn_none (by omega), cn_none (by omega)]
            · rw [cn_none (by omega), cn_none]
              by_cases c4 : l = k + 2
              · subst c4; omega
              · omega
    · -- another new node
      have hb2 : B (k + 2) = A (k + 2) + 1 := by
        have hle : A (k + 2) ≤ B (k + 2) := hA.mono hB (by omega)
        have h3 : (A (k + 2) + 1) * P.K ≤ B (k + 2) * P.K := Nat.mul_le_mul_right _ (by omega)
        have h4 : B (k + 1) < (A (k + 2) + 1) * P.K + P.K := by rw [Nat.add_mul]; omega
        by_cases h5 : B (k + 2) = A (k + 2) + 1
        · exact h5
        · have h6 : (A (k + 2) + 1 + 1) * P.K ≤ B (k + 2) * P.K := Nat.mul_le_mul_right _ (by omega)
          rw [Nat.add_mul] at h6
          omega
      have hmul : B (k + 2) * P.K = A (k + 2) * P.K + P.K := by rw [hb2, Nat.add_mul]; omega
      rw [if_pos (hcond.2 e)]
      rw [make_tree h (by rw [hupB, show k + 1 + 1 = k + 2 from rfl, upd_ne _ _ (by omega), upd_ne _ _ (by omega)]; exact hnone _)]
      simp only [Option.bind_some]
      rw [hupB, setParent_tree h (n := P.nd k (B (k + 1)) false (P.lo A k (B (k + 1))) (P.hi B k (B (k + 1))) (P.S val A B (k + 1) (B (k + 1)) % P.M))
        (by rw [upd_ne _ _ (by omega), upd_ne _ _ (by omega), upd_ne _ _ (by omega)]; exact hx)]
      simp only [Option.bind_some]
      rw [push_tree h (l := k + 1) (p := B (k + 2)) (c := B (k + 1)) (by rw [upd_ne _ _ (by omega)]; exact upd_same _ _ _ _) (by simp) (Nat.mod_lt _ h.K0)]
      simp only [Option.bind_some]
      have hf2 := nd_fresh P h (k + 1) (B (k + 1)) (B (k + 2)) (P.iv (P.pos (k + 2) (B (k + 2)))) hupB
      dsimp only at hf2
      rw [show k + 1 + 1 = k + 2 from rfl] at hf2 ⊢
      rw [hf2, addValue_tree h (upd_same _ _ _ _)]
      simp only [Option.bind_some]
      rw [addRight_tree h (rest_both _ _ _ _ _ _ _ _)]
      simp only [Option.bind_some]
      rw [upd_upd, nd_cv, hg2]
      rw [show (P.nd k (B (k + 1)) false (P.lo A k (B (k + 1))) (P.hi B k (B (k + 1))) (P.S val A B (k + 1) (B (k + 1)) % P.M)).cv = P.S val A B (k + 1) (B (k + 1)) % P.M from rfl]
      rw [show (P.nd (k + 1) (B (k + 2)) false (B (k + 1)) (B (k + 1) + 1) (P.iv (P.pos (k + 2) (B (k + 2))))).cv = P.iv (P.pos (k + 2) (B (k + 2))) from rfl, hcvB]
      have hRR : ({ rest A (fun j => if j = k + 2 then A (k + 2) else B j) (k + 2) (A (k + 2)) mn mx er with
          right := fun j => if j = k + 2 then some (B (k + 2)) else (rest A (fun j => if j = k + 2 then A (k + 2) else B j) (k + 2) (A (k + 2)) mn mx er).right j
          left := fun j => if j = k + 2 then some (((rest A (fun j => if j = k + 2 then A (k + 2) else B j) (k + 2) (A (k + 2)) mn mx er).left (k + 2)).getD (B (k + 2)))
            else (rest A (fun j => if j = k + 2 then A (k + 2) else B j) (k + 2) (A (k + 2)) mn mx er).left j } : Rest) = rest A B (k + 2) (A (k + 2)) mn mx er := by
        simp only [rest, Rest.mk.injEq, true_and, and_true]
        constructor
        · funext j
          by_cases ej : j = k + 2
          · subst ej; simp
          · rw [if_neg ej]
        · funext j
          by_cases ej : j = k + 2
          · subst ej; simp
          · rw [if_neg ej, if_neg ej]
      have e1 : P.lo A (k + 1) (A (k + 2)) = A (k + 1) := by simp only [Par.lo]; omega
      have e2 : P.hi B (k + 1) (A (k + 2)) = A (k + 1) + 1 := by simp only [Par.hi]; omega
      have e3 : P.lo A (k + 1) (B (k + 2)) = B (k + 1) := by simp only [Par.lo]; omega
      have e4 : P.hi B (k + 1) (B (k + 2)) = B (k + 1) + 1 := by simp only [Par.hi]; omega
      have tC : P.cn val A B (k + 2) (k + 2) (A (k + 2)) = some (P.nd (k + 1) (A (k + 2)) false (A (k + 1)) (A (k + 1) + 1) ((P.iv (P.pos (k + 2) (A (k + 2))) + P.S val A B (k + 1) (A (k + 1))) % P.M)) := by
        rw [cn_some2 (Nat.le_refl _) (by omega) (by omega), S_succ2 P val A B k, e1, e2, show A (k + 1) + 1 - A (k + 1) = 1 by omega, sumR, sumR, Nat.add_zero (A (k + 1)), Int.zero_add]
        simp
      have tD : P.cn val A B (k + 2) (k + 2) (B (k + 2)) = some (P.nd (k + 1) (B (k + 2)) false (B (k + 1)) (B (k + 1) + 1) ((P.iv (P.pos (k + 2) (B (k + 2))) + P.S val A B (k + 1) (B (k + 1))) % P.M)) := by
        rw [cn_some2 (by omega) (Nat.le_refl _) (by omega), S_succ2 P val A B k, e3, e4, show B (k + 1) + 1 - B (k + 1) = 1 by omega, sumR, sumR, Nat.add_zero (B (k + 1)), Int.zero_add]
        simp
      have hB2 : B (k + 2) < fuel := by
        have h5 : B (k + 2) * 2 ≤ B (k + 2) * P.K := Nat.mul_le_mul_left _ hK
        omega
      obtain ⟨T, i1, i2, i3, i4⟩ := ih (k + 1) hb2 hB2
      refine ⟨T, by omega, i2, ?_, ?_⟩
      · intro l h1 h2
        by_cases el : l = k + 1
        · subst el; omega
        · exact i3 l (by omega) h2
      · rw [← i4, hRR, upd_comm (upd _ _ _ _) _ _ (by omega), upd_upd]
        refine congrArg (fun g => newRoots P fuel (P.tree g _) _) ?_
        refine eq_of_agree (by omega) tD tB ?_
        intro l p h1 h2
        by_cases c2 : l = k + 2 ∧ p = A (k + 2)
        · rw [c2.1, c2.2, upd_same]; exact tC.symm
        · rw [upd_ne _ _ c2]
          by_cases c1 : l = k + 1 ∧ p = A (k + 1)
          · rw [c1.1, c1.2, upd_same]; exact tA.symm
          · rw [upd_ne _ _ c1]
            by_cases c3 : l < k + 1
            · exact cn_up P val A B (k + 1) l p c3
            · by_cases c3 : l = k + 1
              · subst c3
                rw [cn_none (by omega), cn_none (by omega)]
              · rw [cn_none (by omega), cn_none]
                by_cases c4 : l = k + 2
                · subst c4; show ¬ (A (k + 2) ≤ p ∧ p ≤ B (k + 2) ∧ k + 2 ≤ k + 2); omega
                · omega

end Verif.Rvt
