import Verif.Leave.Spec
import Verif.Util.ListLemmas
/-! the order statistics of `computeCorrectRelevantViewNumbers` -/
set_option linter.unusedSimpArgs false
set_option linter.unusedVariables false
namespace Concord.Leave

theorem insertDesc_length (x : Nat) : ∀ l, (insertDesc x l).length = l.length + 1
  | [] => rfl
  | y :: ys => by
    unfold insertDesc; split
    · rfl
    · simp only [List.length_cons, insertDesc_length x ys]

theorem sortDesc_length : ∀ l, (sortDesc l).length = l.length
  | [] => rfl
  | x :: xs => by rw [sortDesc, insertDesc_length, sortDesc_length xs]; rfl

theorem insertDesc_count (p : Nat → Bool) (x : Nat) : ∀ l, (insertDesc x l).countP p = (x :: l).countP p
  | [] => rfl
  | y :: ys => by
    unfold insertDesc; split
    · rfl
    · rw [List.countP_cons, insertDesc_count p x ys, List.countP_cons, List.countP_cons, List.countP_cons]; omega

theorem sortDesc_count (p : Nat → Bool) : ∀ l, (sortDesc l).countP p = l.countP p
  | [] => rfl
  | x :: xs => by rw [sortDesc, insertDesc_count, List.countP_cons, List.countP_cons, sortDesc_count p xs]

theorem insertDesc_mem {x y : Nat} : ∀ {l}, y ∈ insertDesc x l → y = x ∨ y ∈ l
  | [], h => by simpa [insertDesc] using h
  | z :: zs, h => by
    unfold insertDesc at h; split at h
    · simpa using h
    · rcases List.mem_cons.1 h with h1 | h1
      · exact Or.inr (by simp [h1])
      · rcases insertDesc_mem h1 with h2 | h2
        · exact Or.inl h2
        · exact Or.inr (by simp [h2])

theorem insertDesc_sorted (x : Nat) : ∀ {l : List Nat}, l.Pairwise (· ≥ ·) → (insertDesc x l).Pairwise (· ≥ ·)
  | [], _ => by simp [insertDesc]
  | y :: ys, h => by
    obtain ⟨h1, h2⟩ := List.pairwise_cons.1 h
    unfold insertDesc; split
    · next hx =>
      refine List.pairwise_cons.2 ⟨?_, h⟩
      intro z hz
      rcases List.mem_cons.1 hz with rfl | hz
      · exact hx
      · have := h1 z hz; omega
    · next hx =>
      refine List.pairwise_cons.2 ⟨?_, insertDesc_sorted x h2⟩
      intro z hz
      rcases insertDesc_mem hz with rfl | hz
      · show y ≥ z; omega
      · exact h1 z hz

theorem sortDesc_sorted : ∀ l : List Nat, (sortDesc l).Pairwise (· ≥ ·)
  | [] => List.Pairwise.nil
  | x :: xs => insertDesc_sorted x (sortDesc_sorted xs)

/-- in a descending list, the `k`-th element is at least `w` exactly if more than `k` elements are -/
theorem getD_ge_iff (w d : Nat) : ∀ {l : List Nat} {k : Nat}, l.Pairwise (· ≥ ·) → k < l.length →
    (w ≤ l.getD k d ↔ k + 1 ≤ l.countP (fun v => decide (w ≤ v)))
  | [], k, _, hk => by simp at hk
  | y :: ys, 0, h, _ => by
    obtain ⟨h1, h2⟩ := List.pairwise_cons.1 h
    by_cases hw : w ≤ y
    · simp [hw]
    · have : ys.countP (fun v => decide (w ≤ v)) = 0 := by
        rw [List.countP_eq_zero]; intro z hz; have := h1 z hz; simp; omega
      simp [hw, List.countP_cons, this]
  | y :: ys, k + 1, h, hk => by
    obtain ⟨h1, h2⟩ := List.pairwise_cons.1 h
    have ih := getD_ge_iff w d h2 (k := k) (by simpa using hk)
    by_cases hw : w ≤ y
    · simp only [List.getD_cons_succ, List.countP_cons, hw, decide_true, if_true]
      rw [ih]; omega
    · have h0 : ys.countP (fun v => decide (w ≤ v)) = 0 := by
        rw [List.countP_eq_zero]; intro z hz; have := h1 z hz; simp; omega
      simp only [List.getD_cons_succ, List.countP_cons, hw, decide_false, Bool.false_eq_true, if_false]
      rw [ih, h0]; omega

/-- the replicas known to be at `w` or above (and above `pend`) -/
def ahead (cfg : Cfg) (i : Nat) (r : Rep) (w : Nat) : List Nat :=
  (List.range cfg.n).filter (fun j => (known i r j).any (fun v => decide (r.pend < v) && decide (w ≤ v)))

theorem count_filterMap (g : Nat → Option Nat) (p q : Nat → Bool) : ∀ L : List Nat,
    ((L.filterMap g).filter q).countP p = (L.filter (fun j => (g j).any (fun v => q v && p v))).length
  | [] => rfl
  | a :: L => by
    rw [List.filterMap_cons, List.filter_cons]
    cases hg : g a with
    | none => simp [hg, count_filterMap g p q L]
    | some v =>
      simp only [List.filter_cons, Option.any_some]
      have ih := count_filterMap g p q L
      by_cases hq : q v = true
      · by_cases hp : p v = true
        · rw [if_pos hq, if_pos (by rw [hq, hp]; rfl), List.countP_cons, if_pos hp, ih]; rfl
        · rw [if_pos hq, if_neg (by simp [hp]), List.countP_cons, if_neg hp, ih]; rfl
      · rw [if_neg hq, if_neg (by simp [hq]), ih]

theorem viewNumbers_count (cfg : Cfg) (i : Nat) (r : Rep) (w : Nat) :
    (viewNumbers cfg i r).countP (fun v => decide (w ≤ v)) = (ahead cfg i r w).length := by
  unfold viewNumbers ahead
  exact count_filterMap (known i r) (fun v => decide (w ≤ v)) (fun v => decide (r.pend < v)) _

theorem kth_iff {l : List Nat} {k w d : Nat} (hw : d < w) :
    (w ≤ (if (sortDesc l).length < k + 1 then d else (sortDesc l).getD k d)) ↔
      k + 1 ≤ l.countP (fun v => decide (w ≤ v)) := by
  rw [← sortDesc_count]
  split
  · next h =>
    have := List.countP_le_length (p := fun v => decide (w ≤ v)) (l := sortDesc l)
    constructor
    · intro h1; omega
    · intro h1; omega
  · next h => exact getD_ge_iff w d (sortDesc_sorted l) (by omega)

/-- `correctView` is the highest view that f+1 replicas are known to have reached -/
theorem le_correct_iff {cfg : Cfg} {i : Nat} {r : Rep} {w : Nat} (hw : r.pend < w) :
    w ≤ correctView cfg i r ↔ cfg.f + 1 ≤ (ahead cfg i r w).length := by
  rw [← viewNumbers_count]
  exact kth_iff hw

/-- `agreedView` is the highest view that 2f+2c+1 replicas are known to have reached -/
theorem le_agreed_iff {cfg : Cfg} {i : Nat} {r : Rep} {w : Nat} (hw : r.pend < w) :
    w ≤ agreedView cfg i r ↔ 2 * cfg.f + 2 * cfg.c + 1 ≤ (ahead cfg i r w).length := by
  rw [← viewNumbers_count, ← kth_iff hw]
  unfold agreedView
  generalize sortDesc (viewNumbers cfg i r) = l
  show (w ≤ if l.length < cfg.f + 1 then r.pend else _) ↔ _
  by_cases h1 : l.length < cfg.f + 1
  · rw [if_pos h1, if_pos (by omega)]
  · rw [if_neg h1]

theorem pend_le_correct (cfg : Cfg) (i : Nat) (r : Rep) : r.pend ≤ correctView cfg i r := by
  unfold correctView
  show r.pend ≤ if (sortDesc (viewNumbers cfg i r)).length < cfg.f + 1 then r.pend else _
  split
  · exact Nat.le_refl _
  · next h =>
    refine (getD_ge_iff _ _ (sortDesc_sorted _) (by omega)).2 ?_
    have : (sortDesc (viewNumbers cfg i r)).countP (fun v => decide (r.pend ≤ v)) =
        (sortDesc (viewNumbers cfg i r)).length := by
      rw [sortDesc_count, sortDesc_length, List.countP_eq_length]
      intro v hv
      unfold viewNumbers at hv
      have := (List.mem_filter.1 hv).2
      simp only [decide_eq_true_eq] at this ⊢; omega
    rw [this]; omega

/-- the other replicas whose stored message is for view `w` or above -/
def later (cfg : Cfg) (i : Nat) (r : Rep) (w : Nat) : List Nat :=
  (List.range cfg.n).filter (fun j => decide (j ≠ i) && (r.vcs j).any (fun v => decide (w ≤ v)))

theorem ahead_eq_later {cfg : Cfg} {i : Nat} {r : Rep} {w : Nat} (hp : r.pend < w) (hv : r.view < w) :
    ahead cfg i r w = later cfg i r w := by
  unfold ahead later
  apply List.filter_congr
  intro j _
  unfold known
  by_cases hj : j = i
  · subst hj
    cases r.active
    · have h1 : ¬ w ≤ r.view := by omega
      simp [h1]
    · simp
  · simp only [hj, if_false, ne_eq, not_false_eq_true, decide_true, Bool.true_and]
    cases r.vcs j with
    | none => rfl
    | some v =>
      simp only [Option.any_some]
      by_cases h : w ≤ v
      · have : r.pend < v := by omega
        simp [h, this]
      · simp [h]

theorem filter_len_mono {p q : Nat → Bool} (h : ∀ x, p x = true → q x = true) : ∀ l : List Nat,
    (l.filter p).length ≤ (l.filter q).length
  | [] => Nat.le_refl _
  | a :: l => by
    have ih := filter_len_mono h l
    rw [List.filter_cons, List.filter_cons]
    cases hp : p a with
    | true => rw [h a hp]; simpa using ih
    | false =>
      cases q a
      · simpa using ih
      · simp only [Bool.false_eq_true, if_false, if_true, List.length_cons]; omega

theorem later_anti {cfg : Cfg} {i : Nat} {r r' : Rep} {w w' : Nat} (hv : r'.vcs = r.vcs) (hw : w ≤ w') :
    (later cfg i r' w').length ≤ (later cfg i r w).length := by
  unfold later
  refine filter_len_mono ?_ _
  intro j hj
  rw [hv] at hj
  simp only [Bool.and_eq_true] at hj ⊢
  refine ⟨hj.1, ?_⟩
  cases hx : r.vcs j with
  | none => rw [hx] at hj; simp at hj
  | some v =>
    rw [hx] at hj
    simp only [Option.any_some, decide_eq_true_eq] at hj ⊢
    omega

end Concord.Leave
