import Verif.St.Spec
set_option linter.unusedVariables false
set_option linter.unusedSimpArgs false
/-!
# State transfer: accepted digests of a group have the sum of the true ones
-/
namespace Verif.St
open Verif.Bytes Verif.Rvt

variable {P : Par}

/-- the group of one block, if it is in the tree -/
theorem groupIds_one (h : P.Ok) {t : Tree} {id : Nat} {g : Id} (hg : t.groupIds P id id true = some [g]) :
    ∃ i, 1 ≤ i ∧ id = i * P.fetch ∧ g = above P.K 1 i ∧ (t.node g).isSome := by
  unfold Tree.groupIds at hg
  by_cases hv : P.valid id = true
  · rw [guard_yes ⟨hv, hv⟩] at hg
    simp only [Option.bind_eq_bind, Option.bind_some] at hg
    rw [if_neg (by omega)] at hg
    have hg := Option.some.inj hg
    have hv' := of_decide_eq_true hv
    obtain ⟨v1, v2, v3⟩ := hv'
    have e : id / P.fetch * P.fetch = id := Nat.div_mul_cancel (Nat.dvd_of_mod_eq_zero v3)
    have h1 : 1 ≤ id / P.fetch := by
      rcases Nat.eq_zero_or_pos (id / P.fetch) with z | z
      · rw [z, Nat.zero_mul] at e; exact absurd e.symm v1
      · exact z
    generalize id / P.fetch = i at *
    refine ⟨i, h1, e.symm, ?_⟩
    rw [Tree.groupLoop, if_pos (Nat.le_refl _), if_neg (by simp)] at hg
    by_cases hn : t.node ⟨1, P.up 0 i⟩ = none
    · rw [if_pos ⟨rfl, hn⟩] at hg; cases hg
    · rw [if_neg (fun z => hn z.2)] at hg
      have hlt : i < P.up 0 i + (P.K - 1) + 1 := by
        have hK := h.K
        have hm := Nat.mod_lt (i - 1) h.K0
        have := Nat.div_add_mod (i - 1) P.K
        simp only [Par.up, Nat.zero_add, Nat.pow_one]
        rw [Nat.mul_comm] at this
        omega
      cases i with
      | zero => omega
      | succ i =>
        rw [Tree.groupLoop, if_neg (by omega)] at hg
        simp only [List.nil_append, Option.getD_some, List.cons.injEq, and_true] at hg
        refine ⟨hg.symm, ?_⟩
        rw [← hg]
        exact Option.isSome_iff_ne_none.2 hn
  · have hno : guard (P.valid id = true ∧ P.valid id = true) = (none : Option Unit) := by simp [guard, hv]; rfl
    rw [hno] at hg; cases hg

theorem sum_filter (p : Nat → Bool) (g : Nat → Int) (l : List Nat) : (l.map (fun m => if p m = true then g m else 0)).sum = ((l.filter p).map g).sum := by
  induction l with
  | nil => rfl
  | cons x l ih =>
    by_cases hx : p x = true
    · rw [List.filter_cons_of_pos hx, List.map_cons, List.map_cons, List.sum_cons, List.sum_cons, ih, if_pos hx]
    · rw [List.filter_cons_of_neg hx, List.map_cons, List.sum_cons, ih, if_neg hx, Int.zero_add]

theorem mapIdx_range (first n : Nat) (dg : Nat → Bytes) (F : Nat → Bytes → Int) :
    ((List.range' first n).map dg).mapIdx (fun k d => F (first + k) d) = (List.range' first n).map (fun m => F m (dg m)) := by
  apply List.ext_getElem
  · simp
  · intro k h1 h2
    simp

/-- the digests of a group of the true tree, accepted: their sum is that of the true digests -/
theorem group_sum (h : P.Ok) (hf : 0 < P.fetch) {w : Win} {T : Tree} (hw : Win.nil.run P.fetch (Win.build P.fetch w) = some w) (hT : Tree.empty.run P (Win.build P.fetch w) = some T)
    (hd : w.data ≠ []) (dg : Nat → Bytes) (hdg : w.data = (List.range' w.first w.data.length).map dg) {ds : List (Nat × Bytes)} (hds : ds ≠ []) {g : Id} {t : Tree}
    (hg : ∀ e ∈ ds, T.groupIds P e.1 e.1 true = some [g]) (hids : ds.map (·.1) = T.rvbIds P g) (ht : Tree.empty.run P (ds.map (fun e => .add e.1 e.2)) = some t)
    (hv : t.rootValue = T.groupValue P ((ds.head?.map (·.1)).getD 0)) :
    (ds.map (fun e => P.leaf (e.1 / P.fetch) e.2)).sum % P.M = (ds.map (fun e => P.leaf (e.1 / P.fetch) (dg (e.1 / P.fetch)))).sum % P.M := by
  obtain ⟨e0, ds', rfl⟩ := List.exists_cons_of_ne_nil hds
  obtain ⟨i0, hi0, he0, rfl, hn⟩ := groupIds_one h (hg e0 (List.mem_cons_self ..))
  have hK := h.K
  -- a block of the window in the group
  have hF : 1 ≤ w.first := by
    rcases run_is h hf hw hT with ⟨e, _⟩ | ⟨_, g, _⟩
    · exact absurd e hd
    · exact g
  obtain ⟨Tt, hHt, hnodes⟩ := nodes_exact h hf hw hT hd
  obtain ⟨l, l1, l2, hl⟩ := (hnodes _).1 hn
  have hlen : 0 < w.data.length := List.length_pos_iff.2 hd
  have hlast : w.first ≤ w.last := by unfold Win.last; omega
  obtain ⟨m, m1, m2, hm⟩ := (mem_levelNodes hK hF hlast _).1 hl
  have hl1 : l = 1 := (congrArg Id.lvl hm).symm
  subst hl1
  have hmem := group_members h hf hw hT m1 m2 hd
  rw [← hm] at hmem
  rw [hmem] at hids
  have hm1 : 1 ≤ m := by omega
  -- the members are a range
  have hfil : (List.range' w.first w.data.length).filter (fun m' => decide (above P.K 1 m' = above P.K 1 i0)) =
      List.range' (max w.first ((i0 - 1) / P.K * P.K + 1)) (min (w.first + w.data.length) ((i0 - 1) / P.K * P.K + P.K + 1) - max w.first ((i0 - 1) / P.K * P.K + 1)) := by
    rw [← filter_cut]
    apply List.filter_congr
    intro m' hm'
    have := (List.mem_range'_1.1 hm').1
    have hg := same_group h (i := i0) (m := m') hi0 (by omega)
    simp only [hg, decide_eq_decide]
    omega
  rw [hfil] at hids
  generalize ha : max w.first ((i0 - 1) / P.K * P.K + 1) = a at hids hfil
  generalize hb : min (w.first + w.data.length) ((i0 - 1) / P.K * P.K + P.K + 1) - a = n at hids hfil
  have hn1 : n = ds'.length + 1 := by
    have := congrArg List.length hids
    simpa using this.symm
  have ha1 : 1 ≤ a := by omega
  have hget : ∀ k (hk : k < (e0 :: ds').length), ((e0 :: ds')[k]).1 = (a + k) * P.fetch := by
    intro k hk
    have h1 : ((e0 :: ds').map (·.1))[k]? = some ((e0 :: ds')[k]).1 := by rw [List.getElem?_map, List.getElem?_eq_getElem hk]; rfl
    rw [hids, List.getElem?_map, List.getElem?_range' (by simp at hk; omega)] at h1
    simp at h1
    exact h1.symm
  -- the tree of the digests received
  have hops : (e0 :: ds').map (fun e => Op.add e.1 e.2) = Win.build P.fetch ⟨a, (e0 :: ds').map (·.2)⟩ := by
    apply List.ext_getElem
    · simp [Win.build]
    · intro k h1 h2
      simp only [Win.build, List.getElem_map, List.getElem_mapIdx]
      rw [hget k (by simpa using h1)]
  have hw' := build_run hf a ha1 ds'.length ((e0 :: ds').map (·.2)) (by simp)
  rw [hops] at ht
  obtain ⟨T', hH, hroot, hval⟩ := root_value h hf hw' ht (by simp)
  have hlast' : (⟨a, (e0 :: ds').map (·.2)⟩ : Win).last = a + ds'.length := by unfold Win.last; simp
  rw [hlast'] at hH hval
  dsimp only at hH hval
  have hsame : (a - 1) / P.K = (a + ds'.length - 1) / P.K ∧ (a - 1) / P.K = (i0 - 1) / P.K := by
    have e1 : (a - 1) / P.K = (i0 - 1) / P.K := (div_iff h.K0).2 ⟨by omega, by omega⟩
    have e2 : (a + ds'.length - 1) / P.K = (i0 - 1) / P.K := (div_iff h.K0).2 ⟨by omega, by omega⟩
    exact ⟨by rw [e1, e2], e1⟩
  have hT1 : T' = 1 := by
    obtain ⟨q1, q2, q3⟩ := hH
    rcases Nat.lt_or_ge 1 T' with z | z
    · exact absurd (by rw [Nat.pow_one]; exact hsame.1) (q3 1 (Nat.le_refl _) z)
    · omega
  subst hT1
  have hall : allNodes P.K a (a + ds'.length) 1 = [above P.K 1 i0] := by
    simp only [allNodes, levelNodes, List.range'_one, List.flatMap_cons, List.flatMap_nil, List.append_nil, Nat.pow_one]
    rw [← hsame.1, Nat.add_sub_cancel_left, List.range'_one, List.map_singleton, hsame.2]
    simp [above]
  rw [hall] at hval
  have hleaves : Win.leaves P ⟨a, (e0 :: ds').map (·.2)⟩ = ((e0 :: ds').map (fun e => P.leaf (e.1 / P.fetch) e.2)).sum := by
    unfold Win.leaves
    congr 1
    apply List.ext_getElem
    · simp
    · intro k h1 h2
      simp only [List.getElem_mapIdx, List.getElem_map]
      rw [hget k (by simpa using h2), Nat.mul_div_cancel _ hf]
  rw [hleaves] at hval
  -- the value of the group
  have hi0w : w.first ≤ i0 ∧ i0 ≤ w.last := by
    have e := hget 0 (by simp)
    simp only [List.getElem_cons_zero, Nat.add_zero] at e
    have : i0 = a := Nat.eq_of_mul_eq_mul_right hf (by rw [← he0, e])
    unfold Win.last
    omega
  have hgv := group_value h hf hw hT hi0w.1 hi0w.2 hd
  have hhead : (((e0 :: ds').head?.map (·.1)).getD 0) = i0 * P.fetch := he0
  rw [hhead, hval, hgv] at hv
  have hsum : (w.data.mapIdx (fun k d => if above P.K 1 (w.first + k) = above P.K 1 i0 then P.leaf (w.first + k) d else 0)).sum =
      ((e0 :: ds').map (fun e => P.leaf (e.1 / P.fetch) (dg (e.1 / P.fetch)))).sum := by
    have e1 : w.data.mapIdx (fun k d => if above P.K 1 (w.first + k) = above P.K 1 i0 then P.leaf (w.first + k) d else 0) =
        (List.range' w.first w.data.length).map (fun m => if decide (above P.K 1 m = above P.K 1 i0) = true then P.leaf m (dg m) else 0) := by
      have := mapIdx_range w.first w.data.length dg (fun m d => if above P.K 1 m = above P.K 1 i0 then P.leaf m d else 0)
      rw [← hdg] at this
      rw [this]
      simp
    rw [e1, sum_filter, hfil]
    congr 1
    apply List.ext_getElem
    · simp [hn1]
    · intro k h1 h2
      simp only [List.getElem_map, List.getElem_range', Nat.one_mul]
      rw [hget k (by simpa using h2), Nat.mul_div_cancel _ hf]
  rw [hsum] at hv
  have hv := Option.some.inj hv
  simp only [List.map_cons, List.map_nil, List.sum_cons, List.sum_nil, Int.add_zero] at hv
  simp only [List.map_cons, List.sum_cons]
  generalize P.leaf (e0.1 / P.fetch) e0.2 + _ = x at hv ⊢
  generalize P.leaf (e0.1 / P.fetch) (dg (e0.1 / P.fetch)) + _ = y at hv ⊢
  have := Int.emod_eq_emod_iff_emod_sub_eq_zero.1 hv
  apply Int.emod_eq_emod_iff_emod_sub_eq_zero.2
  rw [← this]
  congr 1
  omega

end Verif.St
