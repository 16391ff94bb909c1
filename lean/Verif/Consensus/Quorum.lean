/-! Counting lemmas for quorums: sets of replicas are duplicate-free lists of ids below `n`. -/
namespace Concord.Quorum

theorem nodup_length_le : ∀ (n : Nat) (l : List Nat), l.Nodup → (∀ x ∈ l, x < n) → l.length ≤ n
  | 0, l, _, h => by
    cases l with
    | nil => simp
    | cons a t => exact absurd (h a (by simp)) (by omega)
  | n + 1, l, hn, h => by
    have h1 := nodup_length_le n (l.erase n) (hn.erase n) (by
      intro x hx
      have hx1 := h x (List.mem_of_mem_erase hx)
      have hx2 : x ≠ n := by rintro rfl; exact (List.Nodup.not_mem_erase hn) hx
      omega)
    have h2 : (l.erase n).length = if n ∈ l then l.length - 1 else l.length := by
      split
      · rename_i hm; exact List.length_erase_of_mem hm
      · rename_i hm; rw [List.erase_of_not_mem hm]
    split at h2 <;> omega

/-- a duplicate-free list included in another is not longer -/
theorem nodup_subset_length {l l' : List Nat} (hn : l.Nodup) (h : ∀ x ∈ l, x ∈ l') : l.length ≤ l'.length := by
  induction l generalizing l' with
  | nil => simp
  | cons a t ih =>
    rw [List.nodup_cons] at hn
    have := ih (l' := l'.erase a) hn.2 (by
      intro x hx
      have : x ≠ a := by rintro rfl; exact hn.1 hx
      exact (List.mem_erase_of_ne this).2 (h x (List.mem_cons_of_mem _ hx)))
    have ha := h a (by simp)
    rw [List.length_erase_of_mem ha] at this
    have := List.length_pos_of_mem ha
    simp only [List.length_cons]; omega

/-- Two sets of ids below `n` share at least `|A| + |B| - n` members. -/
theorem inter_length {n : Nat} {A B : List Nat} (hA : A.Nodup) (hB : B.Nodup)
    (hAn : ∀ x ∈ A, x < n) (hBn : ∀ x ∈ B, x < n) :
    A.length + B.length ≤ n + (A.filter (fun x => decide (x ∈ B))).length := by
  have h1 : ((A.filter (fun x => decide (x ∉ B))) ++ B).length ≤ n := by
    apply nodup_length_le
    · rw [List.nodup_append]
      refine ⟨hA.filter _, hB, ?_⟩
      intro a ha b hb hab
      subst hab
      rw [List.mem_filter] at ha
      simp at ha; exact ha.2 hb
    · intro x hx
      rcases List.mem_append.1 hx with hx | hx
      · exact hAn x (List.mem_filter.1 hx).1
      · exact hBn x hx
  have h2 : A.length = (A.filter (fun x => decide (x ∈ B))).length + (A.filter (fun x => decide (x ∉ B))).length := by
    clear h1 hA hAn
    induction A with
    | nil => rfl
    | cons a t ih =>
      by_cases h : a ∈ B
      · simp [h]; simp at ih; omega
      · simp [h]; simp at ih; omega
  rw [List.length_append] at h1
  omega

/-- number of members of `A` satisfying `p` when at most `k` ids below `n` violate `p` -/
theorem filter_length {n k : Nat} {A : List Nat} {p : Nat → Bool} (hA : A.Nodup) (hAn : ∀ x ∈ A, x < n)
    (hp : ((List.range n).filter (fun x => !p x)).length ≤ k) :
    A.length ≤ k + (A.filter p).length := by
  have h1 : (A.filter (fun x => !p x)).length ≤ ((List.range n).filter (fun x => !p x)).length := by
    apply nodup_subset_length (hA.filter _)
    intro x hx
    rw [List.mem_filter] at hx ⊢
    exact ⟨List.mem_range.2 (hAn x hx.1), hx.2⟩
  have h2 : A.length = (A.filter p).length + (A.filter (fun x => !p x)).length := by
    clear h1 hA hAn
    induction A with
    | nil => rfl
    | cons a t ih =>
      cases h : p a
      · simp [h]; omega
      · simp [h]; omega
  omega

/-- at least `n - k` honest ids below `n` -/
theorem range_filter_length {n : Nat} {p : Nat → Bool} :
    ((List.range n).filter p).length + ((List.range n).filter (fun x => !p x)).length = n := by
  have : ∀ A : List Nat, (A.filter p).length + (A.filter (fun x => !p x)).length = A.length := by
    intro A
    induction A with
    | nil => rfl
    | cons a t ih =>
      cases h : p a
      · simp [h]; omega
      · simp [h]; omega
  simpa using this (List.range n)

end Concord.Quorum
