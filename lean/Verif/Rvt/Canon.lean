import Verif.Rvt.Ops
set_option linter.unusedVariables false
set_option linter.unusedSimpArgs false
/-!
# Range validation tree: the tree of an interval (C29)

The tree above the leaves `a .. b` (counted from 0) with top level `T`: at level `l` the nodes `a / K^l .. b / K^l`.
-/
namespace Verif.Rvt
open Verif.Bytes

/-- `g s + g (s+1) + … + g (s+n-1)` -/
def sumR (g : Nat → Int) (s : Nat) : Nat → Int
  | 0 => 0
  | n + 1 => sumR g s n + g (s + n)

theorem sumR_front (g : Nat → Int) (s n : Nat) : sumR g s (n + 1) = g s + sumR g (s + 1) n := by
  induction n with
  | zero => simp [sumR]
  | succ n ih =>
    rw [sumR, ih, sumR]
    have : s + 1 + n = s + (n + 1) := by omega
    rw [this]; omega

theorem sumR_congr {g g' : Nat → Int} {s n : Nat} (h : ∀ q, s ≤ q → q < s + n → g q = g' q) : sumR g s n = sumR g' s n := by
  induction n with
  | zero => rfl
  | succ n ih =>
    rw [sumR, sumR, ih (fun q h1 h2 => h q h1 (by omega)), h (s + n) (by omega) (by omega)]

/-- the path above a leaf -/
structure Path (P : Par) (A : Nat → Nat) : Prop where
  up : ∀ l, A (l + 1) = A l / P.K

def Par.dv (P : Par) (a : Nat) (l : Nat) : Nat := a / P.K ^ l

theorem dv_path (P : Par) (a : Nat) : Path P (P.dv a) := by
  constructor
  intro l
  rw [Par.dv, Par.dv, Nat.pow_succ, ← Nat.div_div_eq_div_mul]

theorem Path.mono {P : Par} {A B : Nat → Nat} (hA : Path P A) (hB : Path P B) {l : Nat} (h : A l ≤ B l) : A (l + 1) ≤ B (l + 1) := by
  rw [hA.up, hB.up]; exact Nat.div_le_div_right h

theorem Path.mono' {P : Par} {A B : Nat → Nat} (hA : Path P A) (hB : Path P B) (h : A 0 ≤ B 0) (l : Nat) : A l ≤ B l := by
  induction l with
  | zero => exact h
  | succ l ih => exact hA.mono hB ih

theorem Path.eq_up {P : Par} {A B : Nat → Nat} (hA : Path P A) (hB : Path P B) {l : Nat} (h : A l = B l) : A (l + 1) = B (l + 1) := by
  rw [hA.up, hB.up, h]

theorem Path.eq_ups {P : Par} {A B : Nat → Nat} (hA : Path P A) (hB : Path P B) {l : Nat} (h : A l = B l) {m : Nat} (hm : l ≤ m) : A m = B m := by
  induction m with
  | zero => obtain rfl : l = 0 := by omega
            exact h
  | succ m ih =>
    by_cases e : l = m + 1
    · exact e ▸ h
    · exact hA.eq_up hB (ih (by omega))

/-- `p * K ≤ q < p * K + K` iff `q / K = p` -/
theorem div_iff {K p q : Nat} (hK : 0 < K) : q / K = p ↔ p * K ≤ q ∧ q < p * K + K := by
  constructor
  · rintro rfl
    have := Nat.div_add_mod q K
    have h2 := Nat.mod_lt q hK
    rw [Nat.mul_comm] at this
    omega
  · rintro ⟨h1, h2⟩
    have : q = K * p + (q - p * K) := by rw [Nat.mul_comm]; omega
    rw [this, Nat.mul_add_div hK, Nat.div_eq_of_lt (by omega)]
    rfl

/-- children of `(l + 1, p)`: from `lo` to before `hi` -/
def Par.lo (P : Par) (A : Nat → Nat) (l p : Nat) : Nat := max (p * P.K) (A l)
def Par.hi (P : Par) (B : Nat → Nat) (l p : Nat) : Nat := min (p * P.K + P.K) (B l + 1)

/-- the sum of a node: its initial value and the sums of its children -/
def Par.S (P : Par) (val : Nat → Int) (A B : Nat → Nat) : Nat → Nat → Int
  | 0, p => val p
  | l + 1, p => P.iv (P.pos (l + 1) p) + sumR (P.S val A B l) (P.lo A l p) (P.hi B l p - P.lo A l p)

/-- a node of level `k + 1` -/
def Par.nd (P : Par) (k p : Nat) (par : Bool) (s e : Nat) (w : Int) : Node where
  parent := if par then some (P.pos (k + 2) (p / P.K)) else none
  kids := (List.range' s (e - s)).map (P.pos k)
  cnt := some (e - p * P.K)
  iv := P.iv (P.pos (k + 1) p)
  cv := w

/-- the nodes of the tree -/
def Par.cn (P : Par) (val : Nat → Int) (A B : Nat → Nat) (T : Nat) : Nat → Nat → Option Node
  | 0, _ => none
  | k + 1, p =>
    if A (k + 1) ≤ p ∧ p ≤ B (k + 1) ∧ k + 1 ≤ T then
      some (P.nd k p (decide (k + 1 < T)) (P.lo A k p) (P.hi B k p) (P.S val A B (k + 1) p % P.M))
    else none

theorem cn_some {P : Par} {val : Nat → Int} {A B : Nat → Nat} {T k p : Nat} (h1 : A (k + 1) ≤ p) (h2 : p ≤ B (k + 1)) (h3 : k + 1 ≤ T) :
    P.cn val A B T (k + 1) p = some (P.nd k p (decide (k + 1 < T)) (P.lo A k p) (P.hi B k p) (P.S val A B (k + 1) p % P.M)) := by
  rw [Par.cn, if_pos ⟨h1, h2, h3⟩]

theorem cn_none {P : Par} {val : Nat → Int} {A B : Nat → Nat} {T l p : Nat} (h : ¬ (A l ≤ p ∧ p ≤ B l ∧ l ≤ T)) : P.cn val A B T l p = none := by
  cases l with
  | zero => rfl
  | succ k => rw [Par.cn, if_neg h]

/-- the arrays, and the rest -/
def rest (A B : Nat → Nat) (T : Nat) (r : Nat) (mn mx : Nat) (er : List Id) : Rest where
  root := some (T, r)
  left := fun l => if 1 ≤ l ∧ l ≤ T then some (A l) else none
  right := fun l => if 1 ≤ l ∧ l ≤ T then some (B l) else none
  min := mn
  max := mx
  erase := er

/-! ## The chain lemma -/

/-- `v` added along the path `q` from level `s` to level `T` -/
def bump (P : Par) (f : Nat → Nat → Option Node) (q : Nat → Nat) (s T : Nat) (v : Int) : Nat → Nat → Option Node := fun l p =>
  if s ≤ l ∧ l ≤ T ∧ p = q l then (f l p).map (fun n => { n with cv := P.add n.cv v }) else f l p

theorem addUpLoop_chain {P : Par} (h : P.Ok) {R : Rest} {q : Nat → Nat} {T : Nat} {v : Int} {bottom : Id} (hroot : R.root = some (T, q T)) :
    ∀ (fuel s : Nat) (f : Nat → Nat → Option Node), s ≤ T → T < s + fuel →
      (∀ l, s ≤ l → l ≤ T → ∃ n, f l (q l) = some n ∧ n.parent = if l < T then some (P.pos (l + 1) (q (l + 1))) else none) →
      (s < T ∧ bottom.lvl ≤ s) ∨ (s = T ∧ bottom = P.pos s (q s)) →
      addUpLoop P v bottom fuel (P.tree f R) (P.pos s (q s)) = some (P.tree (bump P f q s T v) R) := by
  intro fuel
  induction fuel with
  | zero => intro s f h1 h2; omega
  | succ fuel ih =>
    intro s f hs hf hn hb
    obtain ⟨⟨par, ks, cnt, iv, cv⟩, e1, e2⟩ := hn s (Nat.le_refl _) hs
    dsimp only at e2
    subst e2
    rw [addUpLoop, addValue_tree h e1]
    simp only [Option.bind_eq_bind, Option.bind_some]
    rw [node_tree h, upd_same]
    simp only [Option.bind_some]
    by_cases hT : s < T
    · simp only [if_pos hT]
      obtain ⟨n', e3, e4⟩ := hn (s + 1) (by omega) (by omega)
      have hne : ¬ (s + 1 = s ∧ q (s + 1) = q s) := by omega
      have hrs : R.root ≠ some (s, q s) := by rw [hroot]; simp; omega
      rw [guard_yes (mt (root_tree h _ _ _ _).1 hrs)]
      simp only [Option.bind_some]
      rw [parentOf_tree h hrs (upd_same _ _ _ _) rfl (by rw [upd_ne _ _ hne]; exact e3)]
      simp only [Option.bind_some]
      have hbneq : P.pos (s + 1) (q (s + 1)) ≠ bottom := by
        rintro rfl
        rcases hb with hb | hb
        · have := hb.2; rw [pos_lvl] at this; omega
        · omega
      by_cases hT2 : s + 1 = T
      · have hr2 : R.root = some (s + 1, q (s + 1)) := by rw [hroot, hT2]
        rw [if_pos ((root_tree h _ _ _ _).2 hr2), if_pos hbneq, addValue_tree h (n := n') (by rw [upd_ne _ _ hne]; exact e3)]
        congr 2
        funext l p
        simp only [upd, bump]
        by_cases c1 : l = s + 1 ∧ p = q (s + 1)
        · rw [if_pos c1, if_pos (by obtain ⟨rfl, rfl⟩ := c1; exact ⟨by omega, by omega, rfl⟩), c1.1, c1.2, e3]; rfl
        · rw [if_neg c1]
          by_cases c2 : l = s ∧ p = q s
          · rw [if_pos c2, if_pos (by obtain ⟨rfl, rfl⟩ := c2; exact ⟨by omega, by omega, rfl⟩), c2.1, c2.2, e1]; simp [*]
          · rw [if_neg c2, if_neg]
            rintro ⟨d1, d2, d3⟩
            have : l = s ∨ l = s + 1 := by omega
            rcases this with rfl | rfl
            · exact c2 ⟨rfl, d3⟩
            · exact c1 ⟨rfl, d3⟩
      · have hr2 : R.root ≠ some (s + 1, q (s + 1)) := by rw [hroot]; simp; omega
        rw [if_neg (fun e => hr2 ((root_tree h _ _ _ _).1 e)), ih (s + 1) _ (by omega) (by omega) _ (.inl ⟨by omega, by
          rcases hb with hb | hb
          · omega
          · omega⟩)]
        · congr 2
          funext l p
          simp only [upd, bump]
          by_cases c2 : l = s ∧ p = q s
          · obtain ⟨rfl, rfl⟩ := c2
            rw [if_neg (by omega), if_pos ⟨rfl, rfl⟩, if_pos ⟨by omega, by omega, rfl⟩, e1]; simp [*]
          · by_cases c3 : s + 1 ≤ l ∧ l ≤ T ∧ p = q l
            · rw [if_pos c3, if_neg c2, if_pos ⟨by omega, c3.2⟩]
            · rw [if_neg c3, if_neg c2, if_neg]
              rintro ⟨d1, d2, d3⟩
              by_cases e : l = s
              · subst e; exact c2 ⟨rfl, d3⟩
              · exact c3 ⟨by omega, d2, d3⟩
        · intro l h1 h2
          rw [upd_ne _ _ (by omega)]
          exact hn l (by omega) h2
    · obtain rfl : s = T := by omega
      simp only [if_neg (Nat.lt_irrefl s)]
      rw [guard_yes ((root_tree h _ _ _ _).2 hroot)]
      simp only [Option.bind_some]
      rw [if_neg (by
        rcases hb with hb | hb
        · omega
        · exact fun hh => hh hb.2.symm)]
      congr 2
      funext l p
      simp only [upd, bump]
      by_cases c2 : l = s ∧ p = q s
      · obtain ⟨rfl, rfl⟩ := c2
        rw [if_pos ⟨rfl, rfl⟩, if_pos ⟨by omega, by omega, rfl⟩, e1]; simp [*]
      · rw [if_neg c2, if_neg]
        rintro ⟨d1, d2, d3⟩
        obtain rfl : l = s := by omega
        exact c2 ⟨rfl, d3⟩

theorem addUp_chain {P : Par} (h : P.Ok) {R : Rest} {q : Nat → Nat} {T s : Nat} {v : Int} (hroot : R.root = some (T, q T))
    {f : Nat → Nat → Option Node} (hs : s ≤ T)
    (hn : ∀ l, s ≤ l → l ≤ T → ∃ n, f l (q l) = some n ∧ n.parent = if l < T then some (P.pos (l + 1) (q (l + 1))) else none) :
    (P.tree f R).addUp P (some (P.pos s (q s))) v = some (P.tree (bump P f q s T v) R) := by
  have hr : (P.tree f R).root = some (P.pos T (q T)) := by simp only [Par.tree, hroot]; rfl
  unfold Tree.addUp
  rw [hr]
  dsimp only
  rw [pos_lvl, addUpLoop_chain h hroot _ _ _ hs (by omega) hn]
  by_cases e : s = T
  · exact .inr ⟨e, rfl⟩
  · exact .inl ⟨by omega, Nat.le_refl _⟩

end Verif.Rvt
