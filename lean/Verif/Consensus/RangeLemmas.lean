import Verif.Consensus.ProtocolPres2
/-!
The restricted range covers every restricted sequence number.
-/
namespace Concord.VC
open Spec

theorem goToAtLeast_mem {lb : Nat} {e : Elem} : ∀ {l : List Elem}, e ∈ l → lb ≤ e.seq → e ∈ goToAtLeast lb l ∨ goToAtLeast lb l ≠ []
  | [], h, _ => by cases h
  | a :: t, h, hs => by
    unfold goToAtLeast
    rw [List.dropWhile_cons]
    split
    · next hc =>
      rcases List.mem_cons.1 h with rfl | h
      · simp at hc; omega
      · exact goToAtLeast_mem h hs
    · exact Or.inl h

theorem mkIters_nonempty {lb s : Nat} {arr : List (Option VCMsg)} (hs : lb ≤ s) (h : reported s (msgs arr) ≠ []) :
    (mkIters lb arr).isEmpty = false := by
  obtain ⟨e, he⟩ := List.exists_mem_of_ne_nil _ h
  obtain ⟨m, hm, hem, hes⟩ := mem_reported.1 he
  cases hemp : (mkIters lb arr).isEmpty with
  | false => rfl
  | true =>
    exfalso
    have hne : goToAtLeast lb m.elems ≠ [] := by
      rcases goToAtLeast_mem (lb := lb) hem (by omega) with h1 | h1
      · exact List.ne_nil_of_mem h1
      · exact h1
    have hin : goToAtLeast lb m.elems ∈ mkIters lb arr := by
      unfold mkIters
      rw [List.mem_filter]
      refine ⟨List.mem_map.2 ⟨m, hm, rfl⟩, ?_⟩
      cases hg : goToAtLeast lb m.elems with
      | nil => exact absurd hg hne
      | cons _ _ => rfl
    rw [List.isEmpty_iff] at hemp
    rw [hemp] at hin; cases hin

/-- The output range starts right above the stable point when something is reported, and covers every
sequence number restricted to a real batch. -/
theorem computeRestrictions_range (g : Cfg) (arr : List (Option VCMsg)) (lb : Nat) (r : Restrictions)
    (hv : ∀ m ∈ msgs arr, ValidVC m) (hr : computeRestrictions g arr lb = some r) :
    (∀ s, lb < s → reported s (msgs arr) ≠ [] → r.min = lb + 1) ∧
    (∀ s d, lb < s → r.arr[s - (lb + 1)]? = some (some d) → reported s (msgs arr) ≠ [] → s ≤ r.max) := by
  obtain ⟨rs, l, h1, h2, h3, h4⟩ := scan_ok g (lb + 300) _ 300 (lb + 1) _ 0 (by omega)
    (mkIters_ok (lb := lb + 1) (ub := lb + 300) (fun m hm => (hv m hm).sorted))
  unfold computeRestrictions at hr
  simp only [kWorkWindowSize, h1, Option.some.injEq] at hr
  subst hr
  constructor
  · intro s hs hne
    simp only [restrictedRange, mkIters_nonempty (lb := lb + 1) hs hne]
    simp only [Bool.false_eq_true, if_false]
    split <;> rfl
  · intro s d hs he hne
    simp only [restrictedRange, mkIters_nonempty (lb := lb + 1) hs hne] at he ⊢
    simp only [Bool.false_eq_true, if_false]
    have hlt : s - (lb + 1) < 300 := by
      rcases Nat.lt_or_ge (s - (lb + 1)) 300 with h | h
      · exact h
      · rw [List.getElem?_eq_none (by omega)] at he; cases he
    rcases h4 with ⟨_, hb⟩ | ⟨i, d', hl, _, hmax⟩
    · exact absurd he (hb _ _)
    · have := hmax _ _ he
      split
      · next hc => simp only [checkpointWindowSize, hl] at hc ⊢; omega
      · simp only; omega

end Concord.VC
