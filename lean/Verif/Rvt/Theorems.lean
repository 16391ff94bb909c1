import Verif.Rvt.Api
set_option linter.unusedVariables false
set_option linter.unusedSimpArgs false
/-!
# Range validation tree: theorems (C29)
-/
namespace Verif.Rvt
open Verif.Bytes

variable {P : Par} {A A' B : Nat → Nat}

/-! ## Sums -/

theorem sumR_append (g : Nat → Int) (s m n : Nat) : sumR g s (m + n) = sumR g s m + sumR g (s + m) n := by
  induction n with
  | zero => simp [sumR]
  | succ n ih =>
    rw [← Nat.add_assoc, sumR, ih, sumR, Int.add_assoc, Nat.add_assoc]

theorem sumR_add (g k : Nat → Int) (s n : Nat) : sumR (fun q => g q + k q) s n = sumR g s n + sumR k s n := by
  induction n with
  | zero => rfl
  | succ n ih => simp only [sumR]; omega

theorem sumR_shift (g : Nat → Int) (s n : Nat) : sumR g s n = sumR (fun k => g (s + k)) 0 n := by
  induction n with
  | zero => rfl
  | succ n ih => simp only [sumR]; rw [ih, Nat.zero_add]

theorem sumR_range (g : Nat → Int) (s n : Nat) : ((List.range' s n).map g).sum = sumR g s n := by
  induction n with
  | zero => rfl
  | succ n ih => rw [List.range'_concat, List.map_append, List.sum_append, ih, sumR]; simp

theorem sumR_list (f : Nat → Bytes → Int) (l : List Bytes) : (l.mapIdx f).sum = sumR (fun k => f k (l.getD k [])) 0 l.length := by
  rw [← sumR_range]
  congr 1
  apply List.ext_getElem
  · simp
  · intro k h1 h2
    have hk : k < l.length := by simpa using h1
    simp [hk]

theorem sumR_cut (g : Nat → Int) (c e s n : Nat) : sumR (fun j => if c ≤ j ∧ j < e then g j else 0) s n = sumR g (max s c) (min (s + n) e - max s c) := by
  induction n with
  | zero => rw [show min (s + 0) e - max s c = 0 by omega]; rfl
  | succ n ih =>
    rw [sumR, ih]
    by_cases h : c ≤ s + n ∧ s + n < e
    · rw [if_pos h, show min (s + (n + 1)) e - max s c = (min (s + n) e - max s c) + 1 by omega, sumR, show max s c + (min (s + n) e - max s c) = s + n by omega]
    · rw [if_neg h, show min (s + (n + 1)) e - max s c = min (s + n) e - max s c by omega, Int.add_zero]

theorem filter_cut (c e s n : Nat) : (List.range' s n).filter (fun j => decide (c ≤ j ∧ j < e)) = List.range' (max s c) (min (s + n) e - max s c) := by
  induction n with
  | zero => rw [show min (s + 0) e - max s c = 0 by omega]; rfl
  | succ n ih =>
    rw [List.range'_concat, List.filter_append, ih, Nat.one_mul]
    by_cases h : c ≤ s + n ∧ s + n < e
    · rw [show min (s + (n + 1)) e - max s c = (min (s + n) e - max s c) + 1 by omega, List.range'_concat, show max s c + 1 * (min (s + n) e - max s c) = s + n by omega]
      simp [h]
    · rw [show min (s + (n + 1)) e - max s c = min (s + n) e - max s c by omega]
      simp [h]

/-- the children of neighbours follow each other -/
theorem blocks (h : P.Ok) (hA : Path P A) (hB : Path P B) (g : Nat → Int) {l : Nat} (hab : A l ≤ B l) : ∀ n, A (l + 1) + n ≤ B (l + 1) →
    sumR (fun p => sumR g (P.lo A l p) (P.hi B l p - P.lo A l p)) (A (l + 1)) (n + 1) = sumR g (A l) (P.hi B l (A (l + 1) + n) - A l) := by
  have hK := h.K0
  have hl := (div_iff hK).1 (hA.up l).symm
  have hh := (div_iff hK).1 (hB.up l).symm
  intro n
  induction n with
  | zero =>
    intro hn
    rw [sumR, sumR, Nat.add_zero, Int.zero_add]
    have : P.lo A l (A (l + 1)) = A l := by simp only [Par.lo]; omega
    rw [this]
  | succ n ih =>
    intro hn
    rw [sumR, ih (by omega)]
    have e1 : (A (l + 1) + n + 1) * P.K = (A (l + 1) + n) * P.K + P.K := by rw [Nat.add_mul, Nat.one_mul]
    have e2 : (A (l + 1) + n + 1) * P.K ≤ B (l + 1) * P.K := Nat.mul_le_mul_right _ (by omega)
    have e3 : A (l + 1) * P.K ≤ (A (l + 1) + n) * P.K := Nat.mul_le_mul_right _ (by omega)
    rw [show A (l + 1) + (n + 1) = A (l + 1) + n + 1 by omega]
    have f1 : P.hi B l (A (l + 1) + n) = (A (l + 1) + n + 1) * P.K := by simp only [Par.hi]; omega
    have f2 : P.lo A l (A (l + 1) + n + 1) = (A (l + 1) + n + 1) * P.K := by simp only [Par.lo]; omega
    have f3 : (A (l + 1) + n + 1) * P.K ≤ P.hi B l (A (l + 1) + n + 1) := by simp only [Par.hi]; omega
    rw [f1, f2]
    rw [show P.hi B l (A (l + 1) + n + 1) - A l = ((A (l + 1) + n + 1) * P.K - A l) + (P.hi B l (A (l + 1) + n + 1) - (A (l + 1) + n + 1) * P.K) by omega, sumR_append,
      show A l + ((A (l + 1) + n + 1) * P.K - A l) = (A (l + 1) + n + 1) * P.K by omega]

/-- the sum of a level -/
theorem level_sum (h : P.Ok) (hA : Path P A) (hB : Path P B) (h0 : A 0 ≤ B 0) (val : Nat → Int) (l : Nat) :
    sumR (P.S val A B (l + 1)) (A (l + 1)) (B (l + 1) + 1 - A (l + 1)) =
      sumR (fun p => P.iv (P.pos (l + 1) p)) (A (l + 1)) (B (l + 1) + 1 - A (l + 1)) + sumR (P.S val A B l) (A l) (B l + 1 - A l) := by
  have hab := hA.mono' hB h0 l
  have hab1 := hA.mono' hB h0 (l + 1)
  have e : P.S val A B (l + 1) = fun p => P.iv (P.pos (l + 1) p) + sumR (P.S val A B l) (P.lo A l p) (P.hi B l p - P.lo A l p) := by
    funext p; rfl
  have hh := (div_iff h.K0).1 (hB.up l).symm
  rw [e, sumR_add]
  congr 1
  have b := blocks h hA hB (P.S val A B l) hab (B (l + 1) - A (l + 1)) (by omega)
  rw [show B (l + 1) - A (l + 1) + 1 = B (l + 1) + 1 - A (l + 1) by omega, show A (l + 1) + (B (l + 1) - A (l + 1)) = B (l + 1) by omega] at b
  rw [b]
  congr 1
  simp only [Par.hi]; omega

/-- the sum of the tree -/
theorem total_sum (h : P.Ok) {i j : Nat} (hi : i ≤ j) (val : Nat → Int) (T : Nat) :
    sumR (P.S val (P.dv (i - 1)) (P.dv (j - 1)) T) (P.dv (i - 1) T) (P.dv (j - 1) T + 1 - P.dv (i - 1) T) =
      ((allNodes P.K i j T).map P.iv).sum + sumR val (i - 1) (j - 1 + 1 - (i - 1)) := by
  induction T with
  | zero => simp only [allNodes, dv_zero]; show sumR val _ _ = _; simp
  | succ l ih =>
    rw [level_sum h (dv_path _ _) (dv_path _ _) (by rw [dv_zero, dv_zero]; omega), ih]
    have e : allNodes P.K i j (l + 1) = allNodes P.K i j l ++ levelNodes P.K i j (l + 1) := by
      simp only [allNodes]
      rw [List.range'_concat, List.flatMap_append]
      simp [Nat.add_comm]
    have e2 : ((levelNodes P.K i j (l + 1)).map P.iv).sum = sumR (fun p => P.iv (P.pos (l + 1) p)) (P.dv (i - 1) (l + 1)) (P.dv (j - 1) (l + 1) + 1 - P.dv (i - 1) (l + 1)) := by
      rw [← sumR_range, levelNodes, List.map_map]
      rfl
    rw [e, List.map_append, List.sum_append, e2]
    omega

theorem leaves_sum {w : Win} (hF : 1 ≤ w.first) (hd : w.data ≠ []) : sumR (valOf P w) (w.first - 1) (w.last - 1 + 1 - (w.first - 1)) = w.leaves P := by
  obtain ⟨l1, l2⟩ := last_cons hd
  rw [Win.leaves, sumR_list, sumR_shift, show w.last - 1 + 1 - (w.first - 1) = w.data.length by omega]
  apply sumR_congr
  intro k h1 h2
  simp only [valOf]
  rw [show w.first - 1 + k + 1 = w.first + k by omega, Nat.add_sub_cancel_left]

/-! ## Histories -/

/-- calls that add the next block and remove the oldest one never fail an assertion -/
theorem never_aborts (h : P.Ok) (hf : 0 < P.fetch) {os : List Op} {w : Win} (hw : Win.nil.run P.fetch os = some w) : ∃ t, Tree.empty.run P os = some t := by
  obtain ⟨t, e, _⟩ := is_run h hf os is_nil hw
  exact ⟨t, e⟩

theorem run_is (h : P.Ok) (hf : 0 < P.fetch) {os : List Op} {w : Win} {t : Tree} (hw : Win.nil.run P.fetch os = some w) (ht : Tree.empty.run P os = some t) : Is P w t := by
  obtain ⟨t', e, I⟩ := is_run h hf os is_nil hw
  rw [ht] at e
  exact Option.some.inj e ▸ I

/-- the tree depends on the blocks that are in it, not on how they came there -/
theorem history_independent (h : P.Ok) (hf : 0 < P.fetch) {os os' : List Op} {w : Win} {t t' : Tree} (hw : Win.nil.run P.fetch os = some w) (hw' : Win.nil.run P.fetch os' = some w)
    (ht : Tree.empty.run P os = some t) (ht' : Tree.empty.run P os' = some t') : t = t' :=
  is_unique (run_is h hf hw ht) (run_is h hf hw' ht')

/-- the calls that build a window from nothing -/
def Win.build (fetch : Nat) (w : Win) : List Op := w.data.mapIdx (fun k d => .add ((w.first + k) * fetch) d)

theorem run_append (fetch : Nat) : ∀ (os os' : List Op) (w : Win), w.run fetch (os ++ os') = (w.run fetch os).bind (fun w => w.run fetch os') := by
  intro os
  induction os with
  | nil => intro os' w; rfl
  | cons o os ih =>
    intro os' w
    simp only [List.cons_append, Win.run]
    cases w.step fetch o with
    | none => rfl
    | some w1 => exact ih os' w1

theorem build_run {fetch : Nat} (hf : 0 < fetch) (first : Nat) (h1 : 1 ≤ first) : ∀ n (data : List Bytes), data.length = n + 1 → Win.nil.run fetch (Win.build fetch ⟨first, data⟩) = some ⟨first, data⟩ := by
  intro n
  induction n with
  | zero =>
    intro data hl
    obtain ⟨d, rfl⟩ := List.length_eq_one_iff.1 hl
    have h2 : 0 < first * fetch := Nat.mul_pos (by omega) hf
    simp [Win.build, Win.run, Win.step, Win.nil, h2, Nat.mul_div_cancel _ hf, Nat.dvd_mul_left]
  | succ n ih =>
    intro data hl
    obtain ⟨l, d, rfl⟩ : ∃ l d, data = l ++ [d] := by
      refine ⟨data.dropLast, data.getLast (by intro e; rw [e] at hl; simp at hl), ?_⟩
      rw [List.dropLast_concat_getLast]
    have hl' : l.length = n + 1 := by simp at hl; omega
    have e : Win.build fetch ⟨first, l ++ [d]⟩ = Win.build fetch ⟨first, l⟩ ++ [.add ((first + l.length) * fetch) d] := by
      simp only [Win.build]
      rw [List.mapIdx_append]
      simp
    rw [e, run_append, ih l hl']
    have hne : l ≠ [] := by intro e; rw [e] at hl'; simp at hl'
    simp [Win.run, Win.step, hne]

/-- after any history, the tree is the one built from nothing by adding the blocks that are left -/
theorem same_as_rebuilt (h : P.Ok) (hf : 0 < P.fetch) {os : List Op} {w : Win} {t : Tree} (hw : Win.nil.run P.fetch os = some w) (ht : Tree.empty.run P os = some t) (hd : w.data ≠ []) :
    Tree.empty.run P (w.build P.fetch) = some t := by
  have hI := run_is h hf hw ht
  have h1 : 1 ≤ w.first := by
    rcases hI with ⟨e, _⟩ | ⟨_, g, _⟩
    · exact absurd e hd
    · exact g
  have hb := build_run hf w.first h1 (w.data.length - 1) w.data (by have := List.length_pos_iff.2 hd; omega)
  obtain ⟨t', e⟩ := never_aborts h hf (os := w.build P.fetch) hb
  rw [e, history_independent h hf hb hw e ht]

/-- empty again -/
theorem empty_again (h : P.Ok) (hf : 0 < P.fetch) {os : List Op} {w : Win} {t : Tree} (hw : Win.nil.run P.fetch os = some w) (ht : Tree.empty.run P os = some t) (hd : w.data = []) : t = .empty := by
  rcases run_is h hf hw ht with ⟨_, e⟩ | ⟨g, _⟩
  · exact e
  · exact absurd hd g

theorem top_height {i j T : Nat} (h : Top (P.dv (i - 1)) (P.dv (j - 1)) T) : Height P.K i j T := ⟨h.pos, h.one, h.first⟩

/-- the value of the root: the initial values of all nodes and the values of the blocks, summed -/
theorem root_value (h : P.Ok) (hf : 0 < P.fetch) {os : List Op} {w : Win} {t : Tree} (hw : Win.nil.run P.fetch os = some w) (ht : Tree.empty.run P os = some t) (hd : w.data ≠ []) :
    ∃ T, Height P.K w.first w.last T ∧ t.root = some (above P.K T w.first) ∧ t.rootValue = some ((((allNodes P.K w.first w.last T).map P.iv).sum + w.leaves P) % P.M) := by
  rcases run_is h hf hw ht with ⟨e, _⟩ | ⟨_, hF, T, hT, rfl⟩
  · exact absurd e hd
  · obtain ⟨l1, l2⟩ := last_cons hd
    refine ⟨T, top_height hT, rfl, ?_⟩
    obtain ⟨k, rfl⟩ : ∃ k, T = k + 1 := ⟨T - 1, by have := hT.pos; omega⟩
    have hs := total_sum h l1 (valOf P w) (k + 1)
    have h1 := hT.one
    rw [leaves_sum hF hd, show P.dv (w.last - 1) (k + 1) + 1 - P.dv (w.first - 1) (k + 1) = 1 by omega, sumR, sumR, Nat.add_zero, Int.zero_add] at hs
    rw [Tree.rootValue]
    have hr : (P.tree (P.cn (valOf P w) (P.dv (w.first - 1)) (P.dv (w.last - 1)) (k + 1)) (rest (P.dv (w.first - 1)) (P.dv (w.last - 1)) (k + 1) (P.dv (w.first - 1) (k + 1)) w.first w.last [])).root =
      some (P.pos (k + 1) (P.dv (w.first - 1) (k + 1))) := rfl
    rw [hr]
    simp only [Option.bind_eq_bind, Option.bind_some]
    rw [node_tree h, cn_some (Nat.le_refl _) (by omega) (Nat.le_refl _), ← hs]
    rfl

/-- the nodes are the ancestors of the blocks up to the root, and nothing else -/
theorem nodes_exact (h : P.Ok) (hf : 0 < P.fetch) {os : List Op} {w : Win} {t : Tree} (hw : Win.nil.run P.fetch os = some w) (ht : Tree.empty.run P os = some t) (hd : w.data ≠ []) :
    ∃ T, Height P.K w.first w.last T ∧ ∀ x, (t.node x).isSome ↔ ∃ l, 1 ≤ l ∧ l ≤ T ∧ x ∈ levelNodes P.K w.first w.last l := by
  rcases run_is h hf hw ht with ⟨e, _⟩ | ⟨_, hF, T, hT, rfl⟩
  · exact absurd e hd
  · refine ⟨T, top_height hT, fun x => ?_⟩
    constructor
    · intro hx
      have hx' : (P.lift (P.cn (valOf P w) (P.dv (w.first - 1)) (P.dv (w.last - 1)) T) x).isSome := hx
      simp only [Par.lift] at hx'
      split at hx'
      · rename_i e
        by_cases c : P.dv (w.first - 1) x.lvl ≤ (x.idx - 1) / P.K ^ x.lvl ∧ (x.idx - 1) / P.K ^ x.lvl ≤ P.dv (w.last - 1) x.lvl ∧ x.lvl ≤ T
        · have hl : 1 ≤ x.lvl := by
            by_cases g : x.lvl = 0
            · rw [g] at hx'; cases hx'
            · omega
          refine ⟨x.lvl, hl, c.2.2, ?_⟩
          simp only [levelNodes, List.mem_map, List.mem_range'_1]
          refine ⟨(x.idx - 1) / P.K ^ x.lvl, ⟨c.1, ?_⟩, ?_⟩
          · have := c.2.1
            simp only [Par.dv] at this c
            omega
          · rw [← e]
        · rw [cn_none c] at hx'; cases hx'
      · cases hx'
    · rintro ⟨l, h1, h2, hx⟩
      simp only [levelNodes, List.mem_map, List.mem_range'_1] at hx
      obtain ⟨p, ⟨g1, g2⟩, rfl⟩ := hx
      have e : (⟨l, p * P.K ^ l + 1⟩ : Id) = P.pos l p := rfl
      rw [e, node_tree h]
      obtain ⟨k, rfl⟩ : ∃ k, l = k + 1 := ⟨l - 1, by omega⟩
      rw [cn_some (show P.dv (w.first - 1) (k + 1) ≤ p from g1) (by simp only [Par.dv]; omega) h2]
      rfl

/-- the reported range of blocks -/
theorem min_max_ids (h : P.Ok) (hf : 0 < P.fetch) {os : List Op} {w : Win} {t : Tree} (hw : Win.nil.run P.fetch os = some w) (ht : Tree.empty.run P os = some t) :
    (w.data = [] → t.minId P = 0 ∧ t.maxId P = 0) ∧ (w.data ≠ [] → t.minId P = w.first * P.fetch ∧ t.maxId P = w.last * P.fetch) := by
  rcases run_is h hf hw ht with ⟨e, rfl⟩ | ⟨hd, hF, T, hT, rfl⟩
  · exact ⟨fun _ => ⟨Nat.zero_mul _, Nat.zero_mul _⟩, fun g => absurd e g⟩
  · exact ⟨fun g => absurd g hd, fun _ => ⟨rfl, rfl⟩⟩

/-- calls outside the window fail: only the next block can be added, only the oldest one removed -/
theorem out_of_order_aborts (h : P.Ok) (hf : 0 < P.fetch) {os : List Op} {w : Win} {t : Tree} (hw : Win.nil.run P.fetch os = some w) (ht : Tree.empty.run P os = some t) (hd : w.data ≠ []) (id : Nat) (d : Bytes) :
    (id ≠ (w.last + 1) * P.fetch → t.addRightNode P id d = none) ∧ (id ≠ w.first * P.fetch → t.removeLeftNode P id d = none) := by
  rcases run_is h hf hw ht with ⟨e, _⟩ | ⟨_, hF, T, hT, rfl⟩
  · exact absurd e hd
  · obtain ⟨l1, l2⟩ := last_cons hd
    have hno : ∀ k, id ≠ k * P.fetch → P.valid id = true → id / P.fetch ≠ k := by
      intro k g1 g2 g3
      have : id % P.fetch = 0 := by
        simp only [Par.valid, decide_eq_true_eq] at g2
        exact g2.2.2
      have := Nat.div_add_mod id P.fetch
      rw [g3, Nat.mul_comm] at this
      omega
    have hgn : ∀ {p : Prop} [Decidable p], ¬ p → (guard p : Option Unit) = none := fun hp => if_neg hp
    constructor
    · intro g
      rw [Tree.addRightNode]
      by_cases hv : P.valid id = true
      · rw [guard_yes hv]
        simp only [Option.bind_eq_bind, Option.bind_some]
        rw [hgn]
        · rfl
        · rw [max_tree]
          intro hc
          exact hno _ g hv (hc (show w.last > 0 by omega)).symm
      · rw [hgn hv]; rfl
    · intro g
      rw [Tree.removeLeftNode, guard_yes (show (P.tree _ (rest _ _ T _ _ _ [])).root ≠ none by simp [Par.tree, rest])]
      simp only [Option.bind_eq_bind, Option.bind_some]
      by_cases hv : P.valid id = true
      · rw [guard_yes hv]
        simp only [Option.bind_eq_bind, Option.bind_some]
        rw [hgn]
        · rfl
        · rw [min_tree]
          intro hc
          exact hno w.first g hv hc.symm
      · rw [hgn hv]; rfl

/-! ## Groups -/

theorem group_idx (h : P.Ok) {i : Nat} (hi : 1 ≤ i) : (if i ≤ P.K then 1 else if i % P.K = 0 then i - P.K + 1 else i - i % P.K + 1) = (i - 1) / P.K * P.K + 1 := by
  have hK := h.K
  have hd := Nat.div_add_mod (i - 1) P.K
  have hm := Nat.mod_lt (i - 1) (show P.K > 0 by omega)
  rw [Nat.mul_comm] at hd
  by_cases c1 : i ≤ P.K
  · rw [if_pos c1, Nat.div_eq_of_lt (by omega)]; omega
  · rw [if_neg c1]
    have e : i % P.K = ((i - 1) % P.K + 1) % P.K := by
      conv => lhs; rw [show i = (i - 1) + 1 by omega, Nat.add_mod, Nat.mod_eq_of_lt (show 1 < P.K by omega)]
    by_cases c2 : (i - 1) % P.K + 1 = P.K
    · rw [if_pos (by rw [e, c2, Nat.mod_self])]; omega
    · have e5 : ((i - 1) % P.K + 1) % P.K = (i - 1) % P.K + 1 := Nat.mod_eq_of_lt (by omega)
      rw [e5] at e
      rw [if_neg (by omega), e]; omega

theorem same_group (h : P.Ok) {i m : Nat} (hi : 1 ≤ i) (hm : 1 ≤ m) : above P.K 1 m = above P.K 1 i ↔ (i - 1) / P.K * P.K ≤ m - 1 ∧ m - 1 < (i - 1) / P.K * P.K + P.K := by
  rw [← div_iff h.K0]
  simp only [above, Id.mk.injEq, true_and, Nat.pow_one]
  constructor
  · intro e
    exact Nat.eq_of_mul_eq_mul_right h.K0 (by omega)
  · intro e; rw [e]

theorem group_node (h : P.Ok) {w : Win} {T i : Nat} (hT : Top (P.dv (w.first - 1)) (P.dv (w.last - 1)) T) (h1 : w.first ≤ i) (h2 : i ≤ w.last) {R : Rest} :
    (P.tree (P.cn (valOf P w) (P.dv (w.first - 1)) (P.dv (w.last - 1)) T) R).node (above P.K 1 i) =
      some (P.nd 0 ((i - 1) / P.K) (decide (1 < T)) (P.lo (P.dv (w.first - 1)) 0 ((i - 1) / P.K)) (P.hi (P.dv (w.last - 1)) 0 ((i - 1) / P.K))
        (P.S (valOf P w) (P.dv (w.first - 1)) (P.dv (w.last - 1)) 1 ((i - 1) / P.K) % P.M)) := by
  have e : above P.K 1 i = P.pos 1 ((i - 1) / P.K) := by simp [above, Par.pos]
  rw [e, node_tree h, cn_some]
  · simp only [Par.dv, Nat.pow_one, Nat.zero_add]; exact Nat.div_le_div_right (by omega)
  · simp only [Par.dv, Nat.pow_one, Nat.zero_add]; exact Nat.div_le_div_right (by omega)
  · exact hT.pos

/-- the value of a group: its initial value and the values of its blocks in the tree -/
theorem group_value (h : P.Ok) (hf : 0 < P.fetch) {os : List Op} {w : Win} {t : Tree} (hw : Win.nil.run P.fetch os = some w) (ht : Tree.empty.run P os = some t) {i : Nat} (h1 : w.first ≤ i) (h2 : i ≤ w.last) (hd : w.data ≠ []) :
    t.groupValue P (i * P.fetch) = some ((P.iv (above P.K 1 i) +
      (w.data.mapIdx (fun k d => if above P.K 1 (w.first + k) = above P.K 1 i then P.leaf (w.first + k) d else 0)).sum) % P.M) := by
  rcases run_is h hf hw ht with ⟨e, _⟩ | ⟨_, hF, T, hT, rfl⟩
  · exact absurd e hd
  · obtain ⟨l1, l2⟩ := last_cons hd
    have hv : P.valid (i * P.fetch) = true := valid_of hf (Nat.mul_pos (by omega) hf) (Nat.dvd_mul_left _ _)
    rw [Tree.groupValue, if_pos hv, Nat.mul_div_cancel _ hf]
    simp only []
    rw [group_idx h (by omega)]
    have e : (⟨1, (i - 1) / P.K * P.K + 1⟩ : Id) = above P.K 1 i := by simp [above]
    rw [e, group_node h hT h1 h2]
    have hs : P.S (valOf P w) (P.dv (w.first - 1)) (P.dv (w.last - 1)) 1 ((i - 1) / P.K) = P.iv (above P.K 1 i) +
        (w.data.mapIdx (fun k d => if above P.K 1 (w.first + k) = above P.K 1 i then P.leaf (w.first + k) d else 0)).sum := by
      show P.iv (P.pos 1 ((i - 1) / P.K)) + sumR (valOf P w) _ _ = _
      have e2 : P.pos 1 ((i - 1) / P.K) = above P.K 1 i := by simp [above, Par.pos]
      rw [e2]
      congr 1
      have hc := sumR_cut (valOf P w) ((i - 1) / P.K * P.K) ((i - 1) / P.K * P.K + P.K) (w.first - 1) w.data.length
      have e3 : P.lo (P.dv (w.first - 1)) 0 ((i - 1) / P.K) = max (w.first - 1) ((i - 1) / P.K * P.K) := by simp only [Par.lo, dv_zero]; omega
      have e4 : P.hi (P.dv (w.last - 1)) 0 ((i - 1) / P.K) = min (w.first - 1 + w.data.length) ((i - 1) / P.K * P.K + P.K) := by simp only [Par.hi, dv_zero]; omega
      rw [e3, e4, ← hc, sumR_list, sumR_shift]
      apply sumR_congr
      intro k g1 g2
      have hg := same_group h (i := i) (m := w.first + k) (by omega) (by omega)
      rw [show w.first + k - 1 = w.first - 1 + k by omega] at hg
      simp only [valOf]
      rw [show w.first - 1 + k + 1 = w.first + k by omega, Nat.add_sub_cancel_left]
      by_cases c : above P.K 1 (w.first + k) = above P.K 1 i
      · rw [if_pos c, if_pos (hg.1 c)]
      · rw [if_neg c, if_neg (fun hh => c (hg.2 hh))]
    rw [hs]
    rfl

/-- the blocks of a group: those of the window that are below it -/
theorem group_members (h : P.Ok) (hf : 0 < P.fetch) {os : List Op} {w : Win} {t : Tree} (hw : Win.nil.run P.fetch os = some w) (ht : Tree.empty.run P os = some t) {i : Nat} (h1 : w.first ≤ i) (h2 : i ≤ w.last) (hd : w.data ≠ []) :
    t.rvbIds P (above P.K 1 i) = ((List.range' w.first w.data.length).filter (fun m => decide (above P.K 1 m = above P.K 1 i))).map (· * P.fetch) := by
  rcases run_is h hf hw ht with ⟨e, _⟩ | ⟨_, hF, T, hT, rfl⟩
  · exact absurd e hd
  · obtain ⟨l1, l2⟩ := last_cons hd
    have hK := h.K
    have hidx : (above P.K 1 i).idx % P.K = 1 := by
      show ((i - 1) / P.K ^ 1 * P.K ^ 1 + 1) % P.K = 1
      rw [Nat.pow_one, Nat.add_comm, Nat.add_mul_mod_self_right, Nat.mod_eq_of_lt (by omega)]
    rw [Tree.rvbIds, if_pos ⟨rfl, hidx⟩, group_node h hT h1 h2]
    simp only []
    have hm := (div_iff h.K0).1 (rfl : (i - 1) / P.K = (i - 1) / P.K)
    have hlo : P.lo (P.dv (w.first - 1)) 0 ((i - 1) / P.K) < P.hi (P.dv (w.last - 1)) 0 ((i - 1) / P.K) := by simp only [Par.lo, Par.hi, dv_zero]; omega
    generalize hs : P.lo (P.dv (w.first - 1)) 0 ((i - 1) / P.K) = s at hlo
    generalize he : P.hi (P.dv (w.last - 1)) 0 ((i - 1) / P.K) = e at hlo
    have hhead : ((P.nd 0 ((i - 1) / P.K) (decide (1 < T)) s e (P.S (valOf P w) (P.dv (w.first - 1)) (P.dv (w.last - 1)) 1 ((i - 1) / P.K) % P.M)).kids.head?.map (·.idx)).getD 0 = s + 1 := by
      rw [nd_kids_cons _ _ _ _ _ _ _ hlo, pos_zero]; rfl
    have hlast : ((P.nd 0 ((i - 1) / P.K) (decide (1 < T)) s e (P.S (valOf P w) (P.dv (w.first - 1)) (P.dv (w.last - 1)) 1 ((i - 1) / P.K) % P.M)).kids.getLast?.map (·.idx)).getD 0 = e := by
      simp only [Par.nd]
      rw [show e - s = (e - s - 1) + 1 by omega, List.range'_concat, List.map_append]
      simp [pos_zero]; omega
    rw [hhead, hlast]
    congr 1
    have hfil : (List.range' w.first w.data.length).filter (fun m => decide (above P.K 1 m = above P.K 1 i)) =
        (List.range' w.first w.data.length).filter (fun m => decide ((i - 1) / P.K * P.K + 1 ≤ m ∧ m < (i - 1) / P.K * P.K + P.K + 1)) := by
      apply List.filter_congr
      intro m hm
      have := (List.mem_range'_1.1 hm).1
      have hg := same_group h (i := i) (m := m) (by omega) (by omega)
      simp only [hg, decide_eq_decide]
      omega
    rw [hfil, filter_cut]
    simp only [Par.lo, Par.hi, dv_zero] at hs he
    rw [show max w.first ((i - 1) / P.K * P.K + 1) = s + 1 by omega, show min (w.first + w.data.length) ((i - 1) / P.K * P.K + P.K + 1) = e + 1 by omega]

theorem up_zero (P : Par) (i : Nat) : (⟨1, P.up 0 i⟩ : Id) = above P.K 1 i := rfl

theorem group_loop (h : P.Ok) {t : Tree} {must : Bool} {j : Nat} : ∀ (fuel i : Nat) (acc : List Id), 1 ≤ i → i ≤ j → j < i + fuel → (∀ x ∈ acc, x.idx < (above P.K 1 i).idx) →
    (must = true → ∀ m, i ≤ m → m ≤ j → (t.node (above P.K 1 m)).isSome) → t.groupLoop P must j fuel i acc = some (acc ++ levelNodes P.K i j 1) := by
  have hK := h.K
  intro fuel
  induction fuel with
  | zero => intro i acc h1 h2 h3; omega
  | succ fuel ih =>
    intro i acc h1 h2 h3 hacc hn
    have hm := (div_iff h.K0).1 (rfl : (i - 1) / P.K = (i - 1) / P.K)
    have hup : P.up 0 i = (i - 1) / P.K * P.K + 1 := by simp [Par.up]
    have hdj : (i - 1) / P.K ≤ (j - 1) / P.K := Nat.div_le_div_right (by omega)
    rw [Tree.groupLoop, if_pos h2, up_zero, if_neg (by
      intro e
      have := hacc _ (List.mem_of_getLast? e)
      omega), if_neg (by
      rintro ⟨g1, g2⟩
      have := hn g1 i (Nat.le_refl _) h2
      rw [g2] at this
      cases this)]
    have hnext : P.up 0 i + (P.K - 1) + 1 = ((i - 1) / P.K + 1) * P.K + 1 := by rw [hup, Nat.add_mul]; omega
    rw [hnext]
    by_cases c : ((i - 1) / P.K + 1) * P.K + 1 ≤ j
    · have hdiv : (((i - 1) / P.K + 1) * P.K + 1 - 1) / P.K = (i - 1) / P.K + 1 := by rw [Nat.add_sub_cancel, Nat.mul_div_cancel _ h.K0]
      have hd2 : (i - 1) / P.K + 1 ≤ (j - 1) / P.K := by rw [← hdiv]; exact Nat.div_le_div_right (by omega)
      rw [Nat.add_mul] at c
      rw [ih _ _ (by omega) (by rw [Nat.add_mul]; exact c) (by rw [Nat.add_mul]; omega)]
      · rw [List.append_assoc]
        congr 2
        simp only [levelNodes, Nat.pow_one, hdiv]
        rw [show (j - 1) / P.K + 1 - (i - 1) / P.K = ((j - 1) / P.K + 1 - ((i - 1) / P.K + 1)) + 1 by omega, List.range'_succ]
        simp [above]
      · intro x hx
        have e1 : (above P.K 1 (((i - 1) / P.K + 1) * P.K + 1)).idx = ((i - 1) / P.K + 1) * P.K + 1 := by
          simp only [above, Nat.pow_one, hdiv]
        have e2 : (above P.K 1 i).idx = (i - 1) / P.K * P.K + 1 := by simp only [above, Nat.pow_one]
        rw [e1, Nat.add_mul]
        rcases List.mem_append.1 hx with hx | hx
        · have := hacc x hx; omega
        · obtain rfl := List.mem_singleton.1 hx; omega
      · intro g m g1 g2
        exact hn g m (by rw [Nat.add_mul] at g1; omega) g2
    · have hd2 : (j - 1) / P.K = (i - 1) / P.K := by
        rw [div_iff h.K0]
        rw [Nat.add_mul] at c
        omega
      have hl : levelNodes P.K i j 1 = [above P.K 1 i] := by
        simp only [levelNodes, Nat.pow_one, hd2]
        rw [Nat.add_sub_cancel_left]
        simp [above]
      rw [hl]
      cases fuel with
      | zero => rfl
      | succ fuel => rw [Tree.groupLoop, if_neg c]

/-- the groups asked for are the level 1 nodes above the blocks, all of them in the tree -/
theorem group_ids (h : P.Ok) (hf : 0 < P.fetch) {os : List Op} {w : Win} {t : Tree} (hw : Win.nil.run P.fetch os = some w) (ht : Tree.empty.run P os = some t) {i j : Nat} (h1 : w.first ≤ i) (hij : i ≤ j) (h2 : j ≤ w.last) (hd : w.data ≠ [])
    (must : Bool) : t.groupIds P (i * P.fetch) (j * P.fetch) must = some (levelNodes P.K i j 1) := by
  rcases run_is h hf hw ht with ⟨e, _⟩ | ⟨_, hF, T, hT, rfl⟩
  · exact absurd e hd
  · have hv : ∀ m, 1 ≤ m → P.valid (m * P.fetch) = true := fun m hm => valid_of hf (Nat.mul_pos (by omega) hf) (Nat.dvd_mul_left _ _)
    rw [Tree.groupIds, guard_yes ⟨hv i (by omega), hv j (by omega)⟩]
    simp only [Option.bind_eq_bind, Option.bind_some]
    rw [if_neg (by have := Nat.mul_le_mul_right P.fetch hij; omega), Nat.mul_div_cancel _ hf, Nat.mul_div_cancel _ hf,
      group_loop h _ _ _ (by omega) hij (by omega) (fun x hx => absurd hx (by simp))]
    · rfl
    · intro _ m g1 g2
      rw [group_node h hT (by omega) (by omega)]
      rfl

/-- the same question about any blocks, in the tree or not -/
theorem group_ids_any (h : P.Ok) (hf : 0 < P.fetch) (t : Tree) {i j : Nat} (h1 : 1 ≤ i) (hij : i ≤ j) : t.groupIds P (i * P.fetch) (j * P.fetch) false = some (levelNodes P.K i j 1) := by
  have hv : ∀ m, 1 ≤ m → P.valid (m * P.fetch) = true := fun m hm => valid_of hf (Nat.mul_pos (by omega) hf) (Nat.dvd_mul_left _ _)
  rw [Tree.groupIds, guard_yes ⟨hv i (by omega), hv j (by omega)⟩]
  simp only [Option.bind_eq_bind, Option.bind_some]
  rw [if_neg (by have := Nat.mul_le_mul_right P.fetch hij; omega), Nat.mul_div_cancel _ hf, Nat.mul_div_cancel _ hf,
    group_loop h _ _ _ (by omega) hij (by omega) (fun x hx => absurd hx (by simp)) (fun e => absurd e (by simp))]
  rfl

/-! ## What the value says about the data -/

/-- same blocks, and the data of one of them differ: the root values differ, unless the digests of the two agree modulo the modulus -/
theorem one_change_detected (h : P.Ok) (hf : 0 < P.fetch) {os os' : List Op} {first : Nat} {pre post : List Bytes} {d d' : Bytes} {t t' : Tree}
    (hw : Win.nil.run P.fetch os = some ⟨first, pre ++ d :: post⟩) (hw' : Win.nil.run P.fetch os' = some ⟨first, pre ++ d' :: post⟩)
    (ht : Tree.empty.run P os = some t) (ht' : Tree.empty.run P os' = some t') :
    t.rootValue = t'.rootValue ↔ P.leaf (first + pre.length) d = P.leaf (first + pre.length) d' := by
  obtain ⟨T, h1, _, h3⟩ := root_value h hf hw ht (by simp)
  obtain ⟨T', h1', _, h3'⟩ := root_value h hf hw' ht' (by simp)
  have hlast : (⟨first, pre ++ d' :: post⟩ : Win).last = (⟨first, pre ++ d :: post⟩ : Win).last := by simp [Win.last]
  rw [hlast] at h1' h3'
  dsimp only at h1 h1' h3 h3'
  have hTT : T = T' := by
    rcases Nat.lt_trichotomy T T' with g | g | g
    · exact absurd h1.2.1 (h1'.2.2 T h1.1 g)
    · exact g
    · exact absurd h1'.2.1 (h1.2.2 T' h1'.1 g)
  subst hTT
  rw [h3, h3']
  have hl : (⟨first, pre ++ d :: post⟩ : Win).leaves P - P.leaf (first + pre.length) d = (⟨first, pre ++ d' :: post⟩ : Win).leaves P - P.leaf (first + pre.length) d' := by
    simp only [Win.leaves]
    rw [List.mapIdx_append, List.mapIdx_append, List.mapIdx_cons, List.mapIdx_cons]
    simp only [List.sum_append, List.sum_cons, Nat.zero_add]
    omega
  generalize (⟨first, pre ++ d :: post⟩ : Win).leaves P = X at hl ⊢
  generalize (⟨first, pre ++ d' :: post⟩ : Win).leaves P = Y at hl ⊢
  generalize ((allNodes P.K first _ T).map P.iv).sum = Z
  have hM : (P.M : Int) ≠ 0 := by have := h.M; omega
  constructor
  · intro e
    have e' := Int.emod_emod_of_dvd (P.leaf (first + pre.length) d) (Int.dvd_refl P.M)
    have e1 := (Int.emod_eq_emod_iff_emod_sub_eq_zero).1 (Option.some.inj e)
    rw [← leaf_mod h _ d, ← leaf_mod h _ d']
    rw [Int.emod_eq_emod_iff_emod_sub_eq_zero]
    rw [show P.leaf (first + pre.length) d - P.leaf (first + pre.length) d' = Z + X - (Z + Y) by omega]
    exact e1
  · intro e
    have : X = Y := by omega
    rw [this]

/-- the values are only added up: any other data with the same sum of digests (modulo the modulus) give the same root value, so two
changes can hide each other -/
theorem same_sum_undetected (h : P.Ok) (hf : 0 < P.fetch) {os os' : List Op} {w w' : Win} {t t' : Tree} (hw : Win.nil.run P.fetch os = some w) (hw' : Win.nil.run P.fetch os' = some w')
    (ht : Tree.empty.run P os = some t) (ht' : Tree.empty.run P os' = some t') (h1 : w.first = w'.first) (h2 : w.data.length = w'.data.length) (hs : w.leaves P % P.M = w'.leaves P % P.M) :
    t.rootValue = t'.rootValue := by
  by_cases hd : w.data = []
  · have hd' : w'.data = [] := by
      apply List.length_eq_zero_iff.1
      rw [← h2, hd]; rfl
    rw [empty_again h hf hw ht hd, empty_again h hf hw' ht' hd']
  · have hd' : w'.data ≠ [] := by
      intro e; apply hd; apply List.length_eq_zero_iff.1; rw [h2, e]; rfl
    obtain ⟨T, g1, _, g3⟩ := root_value h hf hw ht hd
    obtain ⟨T', g1', _, g3'⟩ := root_value h hf hw' ht' hd'
    have hlast : w'.last = w.last := by simp only [Win.last, h1, h2]
    rw [hlast, ← h1] at g1' g3'
    have hTT : T = T' := by
      rcases Nat.lt_trichotomy T T' with g | g | g
      · exact absurd g1.2.1 (g1'.2.2 T g1.1 g)
      · exact g
      · exact absurd g1'.2.1 (g1.2.2 T' g1'.1 g)
    subst hTT
    rw [g3, g3', Int.add_emod, hs, ← Int.add_emod]

end Verif.Rvt
