import Verif.Consensus.SafetyLemmas
/-! The iterator loop of `computeRestrictions` refines per-sequence-number look-up (helper lemmas). -/
namespace Concord.VC

/-- elements for sequence number `s` in a list -/
def at' (s : Nat) (l : List Elem) : List Elem := l.filter (fun e => decide (e.seq = s))

/-- strictly increasing sequence numbers -/
def Sorted (l : List Elem) : Prop := l.Pairwise (fun a b => a.seq < b.seq)

/-- iterators after the sequence numbers below `s` were processed -/
structure ItersOk (ub s : Nat) (its ls : List (List Elem)) : Prop where
  ne : ∀ it ∈ its, it ≠ []
  sorted : ∀ it ∈ its, Sorted it
  ge : ∀ it ∈ its, ∀ e ∈ it, s ≤ e.seq
  same : ∀ s', s ≤ s' → s' ≤ ub → (at' s' its.flatten).Perm (at' s' ls.flatten)

theorem at'_append (s : Nat) (a b : List Elem) : at' s (a ++ b) = at' s a ++ at' s b := by
  simp [at']

theorem at'_nil_of_gt {s : Nat} {l : List Elem} (h : ∀ e ∈ l, s < e.seq) : at' s l = [] := by
  unfold at'
  rw [List.filter_eq_nil_iff]
  intro e he; have := h e he; simp; omega

theorem at'_nil_of_lt {s : Nat} {l : List Elem} (h : ∀ e ∈ l, e.seq < s) : at' s l = [] := by
  unfold at'
  rw [List.filter_eq_nil_iff]
  intro e he; have := h e he; simp; omega

theorem heads_at (s : Nat) (its : List (List Elem)) (hs : ∀ it ∈ its, Sorted it)
    (hg : ∀ it ∈ its, ∀ e ∈ it, s ≤ e.seq) :
    at' s (its.filterMap List.head?) = at' s its.flatten := by
  induction its with
  | nil => rfl
  | cons it its ih =>
    have ih' := ih (fun i hi => hs i (List.mem_cons_of_mem _ hi)) (fun i hi => hg i (List.mem_cons_of_mem _ hi))
    cases it with
    | nil => rw [List.filterMap_cons]; simpa using ih'
    | cons e r =>
      have hsrt := hs (e :: r) (by simp)
      have hge := hg (e :: r) (by simp) e (by simp)
      have : at' s r = [] := by
        apply at'_nil_of_gt
        intro e' he'
        have := List.rel_of_pairwise_cons hsrt he'
        omega
      rw [List.filterMap_cons]
      simp only [List.head?_cons, List.flatten_cons]
      rw [show (e :: r) ++ its.flatten = [e] ++ (r ++ its.flatten) by simp,
          show e :: its.filterMap List.head? = [e] ++ its.filterMap List.head? by simp]
      rw [at'_append, at'_append, at'_append, this, ih']; rfl

theorem iterStep_at {s ub s' : Nat} {it : List Elem} (hsrt : Sorted it) (hge : ∀ e ∈ it, s ≤ e.seq)
    (h1 : s < s') (h2 : s' ≤ ub) : at' s' ((iterStep s ub it).getD []) = at' s' it := by
  cases it with
  | nil => rfl
  | cons e r =>
    have hes := hge e (by simp)
    unfold iterStep
    by_cases hgt : e.seq > s
    · simp only [if_pos hgt]; rfl
    · simp only [if_neg hgt]
      have he : at' s' (e :: r) = at' s' r := by
        unfold at'; rw [List.filter_cons_of_neg]; simp; omega
      rw [he]
      cases r with
      | nil => rfl
      | cons e' r' =>
        simp only
        by_cases hub : e'.seq > ub
        · rw [if_pos hub]
          simp only [Option.getD_none]
          symm
          rw [show at' s' [] = [] from rfl]
          apply at'_nil_of_gt
          intro x hx
          rcases List.mem_cons.1 hx with rfl | hx
          · omega
          · have hx' := List.rel_of_pairwise_cons hsrt.of_cons hx
            omega
        · rw [if_neg hub]; rfl

theorem flatten_filterMap_at {s' : Nat} {f : List Elem → Option (List Elem)} {its : List (List Elem)}
    (h : ∀ it ∈ its, at' s' ((f it).getD []) = at' s' it) :
    at' s' (its.filterMap f).flatten = at' s' its.flatten := by
  induction its with
  | nil => rfl
  | cons it its ih =>
    have ih' := ih (fun i hi => h i (List.mem_cons_of_mem _ hi))
    have h0 := h it (by simp)
    rw [List.filterMap_cons, List.flatten_cons, at'_append]
    cases hf : f it with
    | none => simp only [hf] at h0 ⊢; rw [ih', ← h0]; rfl
    | some r => simp only [hf, Option.getD_some] at h0 ⊢; rw [List.flatten_cons, at'_append, ih', h0]

theorem at'_flatten_perm {s' : Nat} {a b : List (List Elem)} (p : a.Perm b) :
    (at' s' a.flatten).Perm (at' s' b.flatten) := (p.flatten).filter _

theorem advance_ok {ub s : Nat} {its ls : List (List Elem)} (h : ItersOk ub s its ls) :
    ItersOk ub (s + 1) (advance s ub its) ls := by
  have hp := advance_perm s ub its.length its 0 (by omega) h.ne
  simp only [List.take_zero, List.nil_append, List.drop_zero] at hp
  rw [show advanceF s ub its.length its 0 = advance s ub its from rfl] at hp
  have hmem : ∀ it' ∈ advance s ub its, ∃ it ∈ its, iterStep s ub it = some it' := by
    intro it' hit
    exact List.mem_filterMap.1 (hp.mem_iff.1 hit)
  have hshape : ∀ it' ∈ advance s ub its, it' ≠ [] ∧ Sorted it' ∧ ∀ e ∈ it', s + 1 ≤ e.seq := by
    intro it' hit
    obtain ⟨it, hit0, hst⟩ := hmem it' hit
    have hsrt := h.sorted it hit0
    have hge := h.ge it hit0
    have hne := h.ne it hit0
    cases it with
    | nil => exact absurd rfl hne
    | cons e r =>
      unfold iterStep at hst
      by_cases hgt : e.seq > s
      · simp only [if_pos hgt, Option.some.injEq] at hst
        subst hst
        refine ⟨by simp, hsrt, ?_⟩
        intro x hx
        rcases List.mem_cons.1 hx with rfl | hx
        · omega
        · have := List.rel_of_pairwise_cons hsrt hx
          omega
      · simp only [if_neg hgt] at hst
        cases r with
        | nil => simp at hst
        | cons e' r' =>
          simp only at hst
          split at hst
          · simp at hst
          · simp only [Option.some.injEq] at hst
            subst hst
            refine ⟨by simp, hsrt.of_cons, ?_⟩
            intro x hx
            have := List.rel_of_pairwise_cons hsrt hx
            have := hge e (by simp)
            omega
  refine ⟨fun it hit => (hshape it hit).1, fun it hit => (hshape it hit).2.1, fun it hit => (hshape it hit).2.2, ?_⟩
  intro s' h1 h2
  refine (at'_flatten_perm hp).trans ?_
  rw [flatten_filterMap_at]
  · exact h.same s' (by omega) h2
  · intro it hit
    exact iterStep_at (h.sorted it hit) (h.ge it hit) (by omega) h2

theorem computeForSeq_ok {g : Cfg} {ub s : Nat} {its ls : List (List Elem)} (h : ItersOk ub s its ls)
    (hne : its ≠ []) (hub : s ≤ ub) :
    ∃ es, es.Perm (at' s ls.flatten) ∧ computeForSeq g s ub its = some (decideSeq g s es, advance s ub its) := by
  refine ⟨at' s its.flatten, h.same s (Nat.le_refl _) hub, ?_⟩
  unfold computeForSeq
  have h1 : (its.isEmpty || decide (s > ub)) = false := by
    cases its with
    | nil => exact absurd rfl hne
    | cons a b => simp; omega
  rw [h1]
  simp only [Bool.false_eq_true, if_false]
  have hlen : (its.filterMap List.head?).length = its.length := by
    clear h1 hne
    have hnil := h.ne
    clear h
    induction its with
    | nil => rfl
    | cons it its ih =>
      cases it with
      | nil => exact absurd rfl (hnil [] (by simp))
      | cons e r =>
        simp only [List.filterMap_cons, List.head?_cons, List.length_cons]
        rw [ih (fun i hi => hnil i (List.mem_cons_of_mem _ hi))]
  have hany : (its.filterMap List.head?).any (fun e => decide (e.seq < s)) = false := by
    rw [List.any_eq_false]
    intro e he
    obtain ⟨it, hit, hh⟩ := List.mem_filterMap.1 he
    have : e ∈ it := List.mem_of_head? hh
    have := h.ge it hit e this
    simp; omega
  rw [if_neg (by simp [hlen, hany]), checkSlow_collect]
  simp only [Bool.not_true, Bool.false_eq_true, if_false]
  rw [decideSeq_filter]
  have := heads_at s its h.sorted h.ge
  unfold at' at this ⊢
  rw [this]

theorem decideSeq_nil (g : Cfg) (s : Nat) : decideSeq g s [] = none := by
  simp [decideSeq, collectSlow, fastLoop]

theorem scan_ok (g : Cfg) (ub : Nat) (ls : List (List Elem)) : ∀ (k s : Nat) (its : List (List Elem)) (last : Nat),
    s + k = ub + 1 → ItersOk ub s its ls →
    ∃ rs l, scan g ub k s its last = some (rs, l) ∧ rs.length = k ∧
      (∀ i, i < k → ∃ es, es.Perm (at' (s + i) ls.flatten) ∧
        rs[i]? = some (nonNull g (decideSeq g (s + i) es))) ∧
      ((l = last ∧ ∀ (i d : Nat), rs[i]? ≠ some (some d)) ∨
       (∃ (i d : Nat), l = s + i ∧ rs[i]? = some (some d) ∧ ∀ (j d' : Nat), rs[j]? = some (some d') → j ≤ i)) := by
  intro k
  induction k with
  | zero =>
    intro s its last _ _
    exact ⟨[], last, rfl, rfl, by intro i hi; omega, Or.inl ⟨rfl, by intro i d; simp⟩⟩
  | succ k ih =>
    intro s its last hk hok
    unfold scan
    by_cases hemp : its = []
    · subst hemp
      refine ⟨List.replicate (k + 1) none, last, rfl, by simp, ?_, Or.inl ⟨rfl, ?_⟩⟩
      · intro i hi
        refine ⟨[], ?_, ?_⟩
        · have := hok.same (s + i) (by omega) (by omega)
          simpa [at'] using this
        · rw [decideSeq_nil]; simp [nonNull, hi]
      · intro i d
        rw [List.getElem?_replicate]; split <;> simp
    · have hne : its.isEmpty = false := by cases its with | nil => exact absurd rfl hemp | cons _ _ => rfl
      rw [hne]
      simp only [Bool.false_eq_true, if_false]
      obtain ⟨es, hes, hc⟩ := computeForSeq_ok (g := g) hok hemp (by omega)
      rw [hc]
      simp only
      obtain ⟨rs, l, h1, h2, h3, h4⟩ := ih (s + 1) (advance s ub its)
        (if (nonNull g (decideSeq g s es)).isSome then s else last) (by omega) (advance_ok hok)
      rw [h1]
      simp only
      refine ⟨_, l, rfl, by simp [h2], ?_, ?_⟩
      · intro i hi
        cases i with
        | zero => exact ⟨es, by simpa using hes, by simp⟩
        | succ i =>
          obtain ⟨es', p, q⟩ := h3 i (by omega)
          refine ⟨es', by rw [show s + (i + 1) = s + 1 + i by omega]; exact p, ?_⟩
          rw [show s + (i + 1) = s + 1 + i by omega]; simpa using q
      · rcases h4 with ⟨hl, hnone⟩ | ⟨i, d, hl, hi, hmax⟩
        · cases hd : nonNull g (decideSeq g s es) with
          | none =>
            left
            rw [hd] at hl
            refine ⟨by simpa using hl, ?_⟩
            intro i d
            cases i with
            | zero => simp
            | succ i => simpa using hnone i d
          | some d =>
            right
            rw [hd] at hl
            refine ⟨0, d, by simpa using hl, by simp, ?_⟩
            intro j d' hj
            cases j with
            | zero => omega
            | succ j => exact absurd (by simpa using hj) (hnone j d')
        · right
          refine ⟨i + 1, d, by omega, by simpa using hi, ?_⟩
          intro j d' hj
          cases j with
          | zero => omega
          | succ j => have := hmax j d' (by simpa using hj); omega

theorem goToAtLeast_sorted {lb : Nat} {l : List Elem} (h : Sorted l) : Sorted (goToAtLeast lb l) :=
  h.sublist (List.dropWhile_sublist _)

theorem goToAtLeast_ge {lb : Nat} {l : List Elem} (h : Sorted l) : ∀ e ∈ goToAtLeast lb l, lb ≤ e.seq := by
  induction l with
  | nil => simp [goToAtLeast]
  | cons a t ih =>
    intro e he
    unfold goToAtLeast at he
    rw [List.dropWhile_cons] at he
    split at he
    · exact ih h.of_cons e he
    · rename_i hn
      simp at hn
      rcases List.mem_cons.1 he with rfl | he
      · exact hn
      · have := List.rel_of_pairwise_cons h he
        omega

theorem goToAtLeast_at {lb s : Nat} {l : List Elem} (h : Sorted l) (hs : lb ≤ s) :
    at' s (goToAtLeast lb l) = at' s l := by
  induction l with
  | nil => rfl
  | cons a t ih =>
    unfold goToAtLeast
    rw [List.dropWhile_cons]
    split
    · rename_i hn
      simp at hn
      rw [show List.dropWhile (fun e => decide (e.seq < lb)) t = goToAtLeast lb t from rfl, ih h.of_cons]
      unfold at'; rw [List.filter_cons_of_neg]; simp; omega
    · rfl

theorem flatten_filter_nonempty (ls : List (List Elem)) :
    (ls.filter (fun it => !it.isEmpty)).flatten = ls.flatten := by
  induction ls with
  | nil => rfl
  | cons a t ih =>
    cases a with
    | nil => simpa using ih
    | cons b c => simp [ih]

theorem mkIters_ok {lb ub : Nat} {arr : List (Option VCMsg)}
    (hsort : ∀ m ∈ arr.filterMap id, Sorted m.elems) :
    ItersOk ub lb (mkIters lb arr) ((arr.filterMap id).map (·.elems)) := by
  unfold mkIters
  generalize arr.filterMap id = ms at *
  constructor
  · intro it hit h
    rw [List.mem_filter] at hit
    simp [h] at hit
  · intro it hit
    rw [List.mem_filter, List.mem_map] at hit
    obtain ⟨⟨m, hm, rfl⟩, _⟩ := hit
    exact goToAtLeast_sorted (hsort m hm)
  · intro it hit
    rw [List.mem_filter, List.mem_map] at hit
    obtain ⟨⟨m, hm, rfl⟩, _⟩ := hit
    exact goToAtLeast_ge (hsort m hm)
  · intro s' h1 _
    rw [flatten_filter_nonempty]
    have : at' s' (ms.map (fun m => goToAtLeast lb m.elems)).flatten = at' s' (ms.map (·.elems)).flatten := by
      induction ms with
      | nil => rfl
      | cons m ms ih =>
        simp only [List.map_cons, List.flatten_cons, at'_append]
        rw [ih (fun x hx => hsort x (List.mem_cons_of_mem _ hx)), goToAtLeast_at (hsort m (by simp)) h1]
    rw [this]

end Concord.VC
