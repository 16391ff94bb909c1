/-! # Small list facts used by several models -/
namespace Verif.ListU

/-- a duplicate-free list inside another one is not longer -/
theorem nodup_subset_length {α : Type} [DecidableEq α] : ∀ {l l' : List α}, l.Nodup → (∀ x ∈ l, x ∈ l') → l.length ≤ l'.length
  | [], _, _, _ => Nat.zero_le _
  | a :: l, l', hn, h => by
    obtain ⟨n1, n2⟩ := List.nodup_cons.1 hn
    have ha : a ∈ l' := h a (by simp)
    have : ∀ x ∈ l, x ∈ l'.erase a := by
      intro x hx
      have hne : x ≠ a := fun e => n1 (e ▸ hx)
      exact (List.mem_erase_of_ne hne).2 (h x (by simp [hx]))
    have ih := nodup_subset_length n2 this
    rw [List.length_erase_of_mem ha] at ih
    have := List.length_pos_of_mem ha
    simp only [List.length_cons]; omega

/-- more distinct members than faulty ones: one is not faulty -/
theorem exists_not_mem {α : Type} [DecidableEq α] {l bad : List α} (hn : l.Nodup) (h : bad.length < l.length) :
    ∃ x ∈ l, x ∉ bad := by
  apply Classical.byContradiction
  intro hc
  have : ∀ x ∈ l, x ∈ bad := fun x hx => Classical.byContradiction fun hb => hc ⟨x, hx, hb⟩
  have := nodup_subset_length hn this
  omega

/-- with distinct images, equal images come from the same member -/
theorem inj_of_nodup_map {α β : Type} {f : α → β} : ∀ {l : List α}, (l.map f).Nodup → ∀ {a b}, a ∈ l → b ∈ l → f a = f b → a = b
  | [], _, _, _, ha, _, _ => by simp at ha
  | x :: l, h, a, b, ha, hb, he => by
    rw [List.map_cons, List.nodup_cons] at h
    rcases List.mem_cons.1 ha with h1 | h1
    · rcases List.mem_cons.1 hb with h2 | h2
      · rw [h1, h2]
      · subst h1; exact absurd (he ▸ List.mem_map.2 ⟨b, h2, rfl⟩) h.1
    · rcases List.mem_cons.1 hb with h2 | h2
      · subst h2; exact absurd (he ▸ List.mem_map.2 ⟨a, h1, rfl⟩) h.1
      · exact inj_of_nodup_map h.2 h1 h2 he

/-- `eraseDups` has no duplicates -/
theorem nodup_eraseDups {α : Type} [DecidableEq α] : ∀ (n : Nat) (l : List α), l.length ≤ n → l.eraseDups.Nodup
  | _, [], _ => by simp
  | 0, a :: l, h => by simp at h
  | n + 1, a :: l, h => by
    rw [List.eraseDups_cons, List.nodup_cons]
    refine ⟨fun hm => ?_, nodup_eraseDups n _ ?_⟩
    · rw [List.mem_eraseDups, List.mem_filter] at hm
      simp at hm
    · have := List.length_filter_le (fun b => !b == a) l
      simp only [List.length_cons] at h
      omega

end Verif.ListU
