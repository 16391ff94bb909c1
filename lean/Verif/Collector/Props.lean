import Verif.Collector.Proofs
import Mathlib.Data.Finset.Image
/-!
C10: property theorems about the threshold-signature collector.
-/
namespace Concord.Collector

variable {B D : Type} {v : Scheme B D} {req : Nat}

/-- **C10, safety of completion.** A collector is complete only with a combined signature that the verifier accepted
for the digest it currently expects. -/
theorem complete_is_verified {c : Col B D} (h : Reach v req c) {f : List (Share B)} (hf : c.combined = some f) :
    ∃ s w d, c.expected = some (s, w, d) ∧ v.verify d f = true := by
  obtain ⟨-, s, w, d, h1, h2, -⟩ := (reach_inv h).comb f hf
  exact ⟨s, w, d, h1, h2⟩

/-- A list of signatures accepted by the verifier, with pairwise different signers, has `threshold` distinct signers
with valid signatures. -/
theorem verify_distinct {d : D} {f : List (Share B)} (hv : v.verify d f = true) (hn : (f.map (·.id)).Nodup) :
    ∃ S : Finset Nat, v.threshold ≤ S.card ∧
      ∀ i ∈ S, 1 ≤ i ∧ i ≤ v.n ∧ ∃ s ∈ f, s.id = i ∧ v.ok i d s.bytes = true := by
  unfold Scheme.verify at hv
  simp only [Bool.and_eq_true, decide_eq_true_eq] at hv
  refine ⟨((f.filter (v.good d)).map (·.id)).toFinset, ?_, ?_⟩
  · rw [List.toFinset_card_of_nodup, List.length_map, ← List.countP_eq_length_filter]
    · exact hv.2
    · exact (List.filter_sublist.map _).nodup hn
  · intro i hi
    obtain ⟨s, hs, he⟩ := List.mem_map.1 (List.mem_toFinset.1 hi)
    rw [List.mem_filter] at hs
    have hg := hs.2
    unfold Scheme.good at hg
    simp only [Bool.and_eq_true, bne_iff_ne, ne_eq, decide_eq_true_eq] at hg
    subst he
    exact ⟨by omega, hg.1.2, s, hs.1, rfl, hg.2⟩

/-! shares used by jobs come from the partial messages held -/

structure ShareInv (c : Col B D) : Prop where
  job : ∀ s w d sh, Job.process s w d sh ∈ c.jobs → c.expects (.process s w d sh) →
    ∀ x ∈ sh, ∃ r ∈ c.reps, r.share = some x
  built : ∀ sh, c.builtFrom = some sh → ∀ x ∈ sh, ∃ r ∈ c.reps, r.share = some x

theorem trySend_share {c c' : Col B D} (ht : TrySend req c c') (h : ShareInv c) : ShareInv c' := by
  cases ht with
  | idle _ _ => exact h
  | few _ _ _ _ _ => exact h
  | cand h1 h2 h3 h4 =>
    refine ⟨?_, h.built⟩
    intro s w d sh hj hx
    rcases List.mem_append.1 hj with hj | hj
    · exact h.job s w d sh hj ((expects_congr rfl _).1 hx)
    · simp at hj
  | sigs sel h1 h2 h3 h4 h5 h6 h7 h8 =>
    refine ⟨?_, h.built⟩
    intro s w d sh hj hx
    rcases List.mem_append.1 hj with hj | hj
    · exact h.job s w d sh hj ((expects_congr rfl _).1 hx)
    · simp only [List.mem_singleton, Job.process.injEq] at hj
      obtain ⟨-, -, -, rfl⟩ := hj
      intro x hx'
      obtain ⟨r, hr, hrx⟩ := List.mem_filterMap.1 hx'
      refine ⟨r, ?_, hrx⟩
      have := h6 hr
      unfold live at this
      exact (List.mem_filter.1 this).1

theorem markBad_keeps {reps : List (Rep B)} (i : Nat) {x : Share B} (h : ∃ r ∈ reps, r.share = some x) :
    ∃ r ∈ markBad reps i, r.share = some x := by
  obtain ⟨r, hr, hx⟩ := h
  unfold markBad
  split
  · refine ⟨_, List.mem_map.2 ⟨r, hr, rfl⟩, ?_⟩
    split <;> exact hx
  · exact ⟨r, List.mem_append_left _ hr, hx⟩

theorem foldl_markBad_keeps {bad : List Nat} {reps : List (Rep B)} {x : Share B} (h : ∃ r ∈ reps, r.share = some x) :
    ∃ r ∈ bad.foldl markBad reps, r.share = some x := by
  induction bad generalizing reps with
  | nil => exact h
  | cons i bad ih => exact ih (markBad_keeps i h)

theorem share_step {c c' : Col B D} (h : ShareInv c) (hs : Step v req c c') : ShareInv c' := by
  have mono : ∀ (reps' : List (Rep B)), (∀ x, (∃ r ∈ c.reps, r.share = some x) → ∃ r ∈ reps', r.share = some x) →
      ∀ c1 : Col B D, c1.reps = reps' → c1.builtFrom = c.builtFrom → c1.expected = c.expected → c1.jobs ⊆ c.jobs →
        ShareInv c1 := by
    intro reps' hm c1 h1 h2 h3 h4
    refine ⟨?_, ?_⟩
    · intro s w d sh hj hx x hx'
      rw [h1]; exact hm x (h.job s w d sh (h4 hj) ((expects_congr h3 _).1 hx) x hx')
    · intro sh hsh x hx'
      rw [h2] at hsh; rw [h1]; exact hm x (h.built sh hsh x hx')
  have snoc : ∀ r0 : Rep B, ∀ x, (∃ r ∈ c.reps, r.share = some x) → ∃ r ∈ c.reps ++ [r0], r.share = some x := by
    rintro r0 x ⟨r, hr, hx⟩; exact ⟨r, List.mem_append_left _ hr, hx⟩
  cases hs with
  | addPartial id sh hc hid ht =>
    exact trySend_share ht (mono _ (snoc _) _ rfl rfl rfl (fun _ h => h))
  | addCombined f hc hca ht => exact trySend_share ht (mono _ (fun _ h => h) _ rfl rfl rfl (fun _ h => h))
  | setExpected s w d hs he hp hjobs ht =>
    refine trySend_share ht ⟨?_, h.built⟩
    rintro s' w' d' sh hj ⟨d'', hd''⟩
    simp only [Option.some.injEq, Prod.mk.injEq] at hd''
    exact absurd ⟨hd''.1.symm, hd''.2.1.symm⟩ (hjobs _ hj)
  | @verified _ s w d f pre post hj hx hp hc hres =>
    have hsub : pre ++ post ⊆ c.jobs := by
      intro y hy; rw [hj]; rcases List.mem_append.1 hy with h1 | h1 <;> simp [h1]
    rcases hres with ⟨hv, rfl⟩ | ⟨hv, ht⟩
    · exact mono _ (fun _ h => h) _ rfl rfl rfl hsub
    · exact trySend_share ht (mono _ (fun _ h => h) _ rfl rfl rfl hsub)
  | @built s w d shares f pre post hj hx hp hc hres =>
    have hsub : pre ++ post ⊆ c.jobs := by
      intro y hy; rw [hj]; rcases List.mem_append.1 hy with h1 | h1 <;> simp [h1]
    refine ⟨?_, ?_⟩
    · intro s' w' d' sh' hj' hx'
      exact h.job s' w' d' sh' (hsub hj') ((expects_congr rfl _).1 hx')
    · intro sh hsh
      simp only [Option.some.injEq] at hsh; subst hsh
      exact h.job s w d shares (by rw [hj]; simp) hx
  | @failed _ s w d shares bad pre post hj hx hp hc hres ht =>
    have hsub : pre ++ post ⊆ c.jobs := by
      intro y hy; rw [hj]; rcases List.mem_append.1 hy with h1 | h1 <;> simp [h1]
    exact trySend_share ht (mono _ (fun x hx => foldl_markBad_keeps hx) _ rfl rfl rfl hsub)
  | dropped j pre post hj hx =>
    have hsub : pre ++ post ⊆ c.jobs := by
      intro y hy; rw [hj]; rcases List.mem_append.1 hy with h1 | h1 <;> simp [h1]
    exact mono _ (fun _ h => h) _ rfl rfl rfl hsub
  | reset =>
    refine ⟨?_, by intro sh hsh; cases hsh⟩
    rintro s w d sh - ⟨d', hd'⟩; cases hd'
  | initExpected s w d hs he hp hc hca hr h0 hjobs =>
    refine ⟨?_, h.built⟩
    rintro s' w' d' sh hj ⟨d'', hd''⟩
    simp only [Option.some.injEq, Prod.mk.injEq] at hd''
    exact absurd ⟨hd''.1.symm, hd''.2.1.symm⟩ (hjobs _ hj)
  | initPartial id sh hp he hc hca hid hu hreq => exact mono _ (snoc _) _ rfl rfl rfl (fun _ h => h)
  | initCombined f hp he hc hca hv => exact mono _ (fun _ h => h) _ rfl rfl rfl (fun _ h => h)

theorem reach_share {c : Col B D} (h : Reach v req c) : ShareInv c := by
  induction h with
  | init => exact ⟨by simp, by simp⟩
  | step _ hs ih => exact share_step ih hs

/-- **C10 for signatures the collector combines itself**: there are `threshold` distinct signers, each with a valid
signature share for the expected digest, taken from the partial-signature messages the collector holds. -/
theorem built_from_quorum {c : Col B D} (h : Reach v req c) {sh : List (Share B)} (hb : c.builtFrom = some sh) :
    ∃ s w d, c.expected = some (s, w, d) ∧ ∃ S : Finset Nat, v.threshold ≤ S.card ∧
      ∀ i ∈ S, 1 ≤ i ∧ i ≤ v.n ∧ ∃ r ∈ c.reps, ∃ x, r.share = some x ∧ x.id = i ∧ v.ok i d x.bytes = true := by
  have hi := reach_inv h
  cases hc : c.combined with
  | none => rw [hi.built0 hc] at hb; cases hb
  | some f =>
    obtain ⟨-, s, w, d, h1, h2, h3⟩ := hi.comb f hc
    obtain ⟨h4, h5, h6⟩ := runJob_combined (h3 sh hb)
    obtain ⟨S, hS, hS2⟩ := verify_distinct h4 h5
    refine ⟨s, w, d, h1, S, hS, ?_⟩
    intro i hiS
    obtain ⟨a, b, x, hx, hxi, hok⟩ := hS2 i hiS
    obtain ⟨r, hr, hrx⟩ := (reach_share h).built sh hb x (h6 x hx)
    exact ⟨a, b, r, hr, x, hrx, hxi, hok⟩

/-- Partial: for a combined signature received from another replica the same holds if its records carry different
signers. Missing for the full property: the verifier does not check that, see `one_signer_forges`. -/
theorem received_quorum_partial {c : Col B D} (h : Reach v req c) {f : List (Share B)} (hf : c.combined = some f)
    (hn : (f.map (·.id)).Nodup) :
    ∃ s w d, c.expected = some (s, w, d) ∧ ∃ S : Finset Nat, v.threshold ≤ S.card ∧
      ∀ i ∈ S, 1 ≤ i ∧ i ≤ v.n ∧ ∃ x ∈ f, x.id = i ∧ v.ok i d x.bytes = true := by
  obtain ⟨s, w, d, h1, h2⟩ := complete_is_verified h hf
  exact ⟨s, w, d, h1, verify_distinct h2 hn⟩

/-- **The full property fails**: the verifier accepts one signer's signature repeated `threshold` times as a combined
signature. -/
theorem one_signer_forges (v : Scheme B D) (d : D) (s : Share B) (hs : v.good d s = true) :
    v.verify d (List.replicate v.threshold s) = true := by
  unfold Scheme.verify
  rw [List.countP_replicate, if_pos hs]
  simp

/-- ... and a collector completes on it: any single signer can make every replica accept a full certificate for any
digest the replica expects. -/
theorem collector_accepts_forgery (v : Scheme B D) (req : Nat) (hr : 0 < req) (sn w : Nat) (hsn : sn ≠ 0) (d : D)
    (s : Share B) (hs : v.good d s = true) :
    ∃ c : Col B D, Reach v req c ∧ c.expected = some (sn, w, d) ∧
      c.combined = some (List.replicate v.threshold s) ∧ c.reps = [] := by
  have h1 : Reach v req ({ expected := some (sn, w, d) } : Col B D) :=
    .step .init (.setExpected sn w d hsn rfl rfl (by simp) (.few rfl rfl rfl rfl hr))
  have h2 := Reach.step h1 (.addCombined (List.replicate v.threshold s) rfl rfl (.cand rfl rfl rfl rfl))
  have h3 := Reach.step h2 (.verified [] [] rfl ⟨d, rfl⟩ rfl rfl (Or.inl ⟨one_signer_forges v d s hs, rfl⟩))
  exact ⟨_, h3, rfl, rfl, rfl⟩

/-- The assertion `numOfPartSigsInJob == numOfRequiredSigs` (line 277) always holds: there are at least as many
usable shares as the counter says. -/
theorem enough_shares {c : Col B D} (h : Reach v req c) (hu : req ≤ c.unknown) :
    ∃ sel : List (Rep B), sel ⊆ live c.reps ∧ (sel.map (·.id)).Nodup ∧ sel.length = req := by
  have hi := reach_inv h
  refine ⟨(live c.reps).take req, List.take_subset _ _, ?_, ?_⟩
  · have : ((live c.reps).take req).Sublist c.reps := (List.take_sublist _ _).trans List.filter_sublist
    exact (this.map _).nodup hi.ids
  · rw [List.length_take]; have := hi.cnt; omega

/-- No completed work is forgotten: whenever the collector is neither complete nor waiting for a job, although it
knows what to expect, it has no unverified combined signature and fewer than `req` unchecked shares. -/
theorem no_missed_trigger {c : Col B D} (h : Reach v req c) (hc : c.combined = none) (hp : c.processing = false)
    (he : c.expected ≠ none) : c.cand = none ∧ c.unknown < req :=
  (reach_inv h).trigger hc hp he

/-- While the collector waits, a job for it is running. -/
theorem processing_has_job {c : Col B D} (h : Reach v req c) (hp : c.processing = true) :
    ∃ j ∈ c.jobs, c.expects j :=
  (reach_inv h).procJob hp

end Concord.Collector
