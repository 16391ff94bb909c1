import Verif.Collector.Props
/-!
C10, liveness side: when every share names its own sender, invalid shares cannot stop the collector; when a share may
name another signer, one faulty replica stops it for good.
-/
namespace Concord.Collector

variable {B D : Type} {v : Scheme B D} {req : Nat}

/-- every stored share carries the signer index of the replica that sent it -/
def OwnIds (v : Scheme B D) (c : Col B D) : Prop :=
  ∀ r ∈ c.reps, ∀ x, r.share = some x → x.id = r.id + 1 ∧ r.id < v.n

/-- states reachable when all shares ever added name their own sender -/
inductive ReachOwn (v : Scheme B D) (req : Nat) : Col B D → Prop
  | init : ReachOwn v req {}
  | step {c c'} : ReachOwn v req c → Step v req c c' → OwnIds v c' → ReachOwn v req c'

theorem ReachOwn.reach {c : Col B D} (h : ReachOwn v req c) : Reach v req c := by
  induction h with
  | init => exact .init
  | step _ hs _ ih => exact .step ih hs

theorem ReachOwn.own {c : Col B D} (h : ReachOwn v req c) : OwnIds v c := by
  cases h with
  | init => intro r hr; cases hr
  | step _ _ h => exact h

structure OwnInv (v : Scheme B D) (c : Col B D) : Prop where
  cntEq : c.unknown = (live c.reps).length
  badOk : ∀ r ∈ c.reps, r.invalid = true → ∃ s w d x, c.expected = some (s, w, d) ∧ r.share = some x ∧
    v.ok (r.id + 1) d x.bytes = false
  job : ∀ s w d sh, Job.process s w d sh ∈ c.jobs → c.expects (.process s w d sh) →
    ∀ x ∈ sh, ∃ r ∈ c.reps, r.share = some x ∧ r.invalid = false

theorem trySend_own {c c' : Col B D} (ht : TrySend req c c') (h : OwnInv v c) : OwnInv v c' := by
  cases ht with
  | idle _ _ => exact h
  | few _ _ _ _ _ => exact h
  | cand h1 h2 h3 h4 =>
    refine ⟨h.cntEq, h.badOk, ?_⟩
    intro s w d sh hj hx
    rcases List.mem_append.1 hj with hj | hj
    · exact h.job s w d sh hj ((expects_congr rfl _).1 hx)
    · simp at hj
  | sigs sel h1 h2 h3 h4 h5 h6 h7 h8 =>
    refine ⟨h.cntEq, h.badOk, ?_⟩
    intro s w d sh hj hx
    rcases List.mem_append.1 hj with hj | hj
    · exact h.job s w d sh hj ((expects_congr rfl _).1 hx)
    · simp only [List.mem_singleton, Job.process.injEq] at hj
      obtain ⟨-, -, -, rfl⟩ := hj
      intro x hx'
      obtain ⟨r, hr, hrx⟩ := List.mem_filterMap.1 hx'
      have := h6 hr
      unfold live at this
      rw [List.mem_filter] at this
      exact ⟨r, this.1, hrx, by simpa using this.2⟩

theorem markBad_present {reps : List (Rep B)} {i : Nat} (h : ∃ r ∈ reps, r.id = i) :
    markBad reps i = reps.map (fun r => if (r.id == i) = true then { r with invalid := true } else r) := by
  obtain ⟨r, hr, hi⟩ := h
  unfold markBad
  rw [if_pos (List.any_eq_true.2 ⟨r, hr, by simp [hi]⟩)]

theorem live_exact {reps : List (Rep B)} (h : (reps.map (·.id)).Nodup) {i : Nat}
    (hl : ∃ r ∈ reps, r.id = i ∧ r.invalid = false) :
    (live reps).length = (live (markBad reps i)).length + 1 := by
  rw [markBad_present (by obtain ⟨r, a, b, _⟩ := hl; exact ⟨r, a, b⟩)]
  induction reps with
  | nil => obtain ⟨r, hr, _⟩ := hl; cases hr
  | cons r l ih =>
    simp only [List.map_cons, List.nodup_cons] at h
    by_cases he : r.id = i
    · subst he
      have hri : r.invalid = false := by
        obtain ⟨r', hr', h1, h2⟩ := hl
        rcases List.mem_cons.1 hr' with h3 | h3
        · subst h3; exact h2
        · exact absurd (List.mem_map.2 ⟨r', h3, h1⟩) h.1
      rw [List.map_cons, live_map_absent h.1]
      simp [live, List.filter_cons, hri]
    · have hl' : ∃ r ∈ l, r.id = i ∧ r.invalid = false := by
        obtain ⟨r', hr', h1, h2⟩ := hl
        rcases List.mem_cons.1 hr' with h3 | h3
        · subst h3; exact absurd h1 he
        · exact ⟨r', h3, h1, h2⟩
      have := ih h.2 hl'
      rw [List.map_cons]
      simp only [beq_iff_eq, he, if_false]
      simp only [live, List.filter_cons] at this ⊢
      simp only [beq_iff_eq] at this
      split <;> simp at * <;> omega

/-- the effect of marking replicas that are all present and live -/
theorem foldl_exact {bad : List Nat} {reps : List (Rep B)} (h : (reps.map (·.id)).Nodup) (hb : bad.Nodup)
    (hl : ∀ i ∈ bad, ∃ r ∈ reps, r.id = i ∧ r.invalid = false) :
    (live reps).length = (live (bad.foldl markBad reps)).length + bad.length ∧
    (∀ r ∈ bad.foldl markBad reps, r ∈ reps ∨ ∃ r0 ∈ reps, r0.id ∈ bad ∧ r = { r0 with invalid := true }) := by
  induction bad generalizing reps with
  | nil => exact ⟨by simp, fun r hr => Or.inl hr⟩
  | cons i bad ih =>
    rw [List.nodup_cons] at hb
    have hpi := hl i (by simp)
    have e := markBad_present (i := i) (reps := reps) (by obtain ⟨r, a, b, _⟩ := hpi; exact ⟨r, a, b⟩)
    have hl' : ∀ k ∈ bad, ∃ r ∈ markBad reps i, r.id = k ∧ r.invalid = false := by
      intro k hk
      obtain ⟨r, hr, h1, h2⟩ := hl k (by simp [hk])
      refine ⟨r, ?_, h1, h2⟩
      rw [e]
      refine List.mem_map.2 ⟨r, hr, ?_⟩
      have : r.id ≠ i := by intro h3; rw [h1] at h3; subst h3; exact hb.1 hk
      simp [this]
    obtain ⟨h1, h2⟩ := ih (markBad_ids h i) hb.2 hl'
    refine ⟨?_, ?_⟩
    · have := live_exact h hpi
      simp only [List.foldl_cons, List.length_cons]; omega
    · intro r hr
      simp only [List.foldl_cons] at hr
      have back : ∀ r' ∈ markBad reps i, r' ∈ reps ∨ ∃ r0 ∈ reps, r0.id = i ∧ r' = { r0 with invalid := true } := by
        intro r' hr'
        rw [e] at hr'
        obtain ⟨r0, hr0, h3⟩ := List.mem_map.1 hr'
        split at h3
        · next hi => exact Or.inr ⟨r0, hr0, by simpa using hi, h3.symm⟩
        · subst h3; exact Or.inl hr0
      rcases h2 r hr with h3 | ⟨r1, h3, h4, h5⟩
      · rcases back r h3 with h6 | ⟨r0, h6, h7, h8⟩
        · exact Or.inl h6
        · exact Or.inr ⟨r0, h6, by simp [h7], h8⟩
      · rcases back r1 h3 with h6 | ⟨r0, h6, h7, h8⟩
        · exact Or.inr ⟨r1, h6, by simp [h4], h5⟩
        · refine Or.inr ⟨r0, h6, by simp [h7], ?_⟩
          rw [h5, h8]

theorem own_step {c c' : Col B D} (hi : Inv v req c) (ho : OwnIds v c) (h : OwnInv v c) (hs : Step v req c c') :
    OwnInv v c' := by
  have addOne : ∀ (id : Nat) (sh : Share B) (c1 : Col B D), c1.reps = c.reps ++ [⟨id, some sh, false⟩] →
      c1.unknown = c.unknown + 1 → c1.expected = c.expected → c1.jobs = c.jobs → OwnInv v c1 := by
    intro id sh c1 h1 h2 h3 h4
    refine ⟨?_, ?_, ?_⟩
    · rw [h1, h2, h.cntEq]; simp [live, List.filter_append]
    · intro r hr hinv
      rw [h1] at hr; rw [h3]
      rcases List.mem_append.1 hr with hr | hr
      · exact h.badOk r hr hinv
      · simp at hr; subst hr; cases hinv
    · intro s w d s' hj hx x hx'
      rw [h4] at hj
      obtain ⟨r, hr, hh⟩ := h.job s w d s' hj ((expects_congr h3 _).1 hx) x hx'
      exact ⟨r, by rw [h1]; exact List.mem_append_left _ hr, hh⟩
  have same : ∀ (c1 : Col B D), c1.reps = c.reps → c1.unknown = c.unknown → c1.expected = c.expected →
      c1.jobs ⊆ c.jobs → OwnInv v c1 := by
    intro c1 h1 h2 h3 h4
    refine ⟨by rw [h1, h2]; exact h.cntEq, by rw [h1, h3]; exact h.badOk, ?_⟩
    intro s w d s' hj hx x hx'
    rw [h1]; exact h.job s w d s' (h4 hj) ((expects_congr h3 _).1 hx) x hx'
  cases hs with
  | addPartial id sh hc hid ht => exact trySend_own ht (addOne id sh _ rfl rfl rfl rfl)
  | addCombined f hc hca ht => exact trySend_own ht (same _ rfl rfl rfl (fun _ h => h))
  | setExpected s w d hs he hp hjobs ht =>
    refine trySend_own ht ⟨h.cntEq, ?_, ?_⟩
    · intro r hr hinv
      obtain ⟨s', w', d', x, h1, -⟩ := h.badOk r hr hinv
      rw [he] at h1; cases h1
    · rintro s' w' d' sh hj ⟨d'', hd''⟩
      simp only [Option.some.injEq, Prod.mk.injEq] at hd''
      exact absurd ⟨hd''.1.symm, hd''.2.1.symm⟩ (hjobs _ hj)
  | @verified _ s w d f pre post hj hx hp hc hres =>
    have hsub : pre ++ post ⊆ c.jobs := by
      intro y hy; rw [hj]; rcases List.mem_append.1 hy with h1 | h1 <;> simp [h1]
    rcases hres with ⟨hv, rfl⟩ | ⟨hv, ht⟩
    · exact same _ rfl rfl rfl hsub
    · exact trySend_own ht (same _ rfl rfl rfl hsub)
  | @built s w d shares f pre post hj hx hp hc hres =>
    have hsub : pre ++ post ⊆ c.jobs := by
      intro y hy; rw [hj]; rcases List.mem_append.1 hy with h1 | h1 <;> simp [h1]
    exact same _ rfl rfl rfl hsub
  | @failed _ s w d shares bad pre post hj hx hp hc hres ht =>
    have hok := hi.jobOk _ (by rw [hj]; simp) hx
    have hexp : c.expected = some (s, w, d) := hok.2.2.1
    obtain ⟨hb1, hb2, hb3⟩ := runJob_bad hres
    have hlive : ∀ i ∈ bad, ∃ r ∈ c.reps, r.id = i ∧ r.invalid = false ∧ ∃ x, r.share = some x ∧ v.ok (i + 1) d x.bytes = false := by
      intro i hib
      obtain ⟨x, hx1, hx2, hx3⟩ := hb3 i hib
      obtain ⟨r, hr, hr2, hr3⟩ := h.job s w d shares (by rw [hj]; simp) hx x hx1
      have := (ho r hr x hr2).1
      exact ⟨r, hr, by omega, hr3, x, hr2, by rw [← hx2]; exact hx3⟩
    obtain ⟨h1, h2⟩ := foldl_exact (bad := bad) hi.ids hb1 (fun i hib => by
      obtain ⟨r, a, b, e, _⟩ := hlive i hib; exact ⟨r, a, b, e⟩)
    refine trySend_own ht ⟨?_, ?_, ?_⟩
    · show c.unknown - bad.length = (live (bad.foldl markBad c.reps)).length
      rw [h.cntEq]; omega
    · intro r hr hinv
      rcases h2 r hr with h3 | ⟨r0, h3, h4, h5⟩
      · exact h.badOk r h3 hinv
      · obtain ⟨r1, hr1, hid, hinv1, x, hx1, hx2⟩ := hlive r0.id h4
        have : r1 = r0 := List.inj_on_of_nodup_map hi.ids hr1 h3 hid
        subst this
        refine ⟨s, w, d, x, hexp, by rw [h5]; exact hx1, by rw [h5]; exact hx2⟩
    · intro s' w' d' sh' hj' hx'
      exact absurd ((expects_congr rfl _).1 hx') (hi.jobUniq pre _ post hj hx _ hj')
  | dropped j pre post hj hx =>
    have hsub : pre ++ post ⊆ c.jobs := by
      intro y hy; rw [hj]; rcases List.mem_append.1 hy with h1 | h1 <;> simp [h1]
    exact same _ rfl rfl rfl hsub
  | reset =>
    refine ⟨by simp [Col.reset, live], by simp [Col.reset], ?_⟩
    rintro s w d sh - ⟨d', hd'⟩; cases hd'
  | initExpected s w d hs he hp hc hca hr h0 hjobs =>
    refine ⟨h.cntEq, ?_, ?_⟩
    · intro r hr hinv
      obtain ⟨s', w', d', x, h1, -⟩ := h.badOk r hr hinv
      rw [he] at h1; cases h1
    · rintro s' w' d' sh hj ⟨d'', hd''⟩
      simp only [Option.some.injEq, Prod.mk.injEq] at hd''
      exact absurd ⟨hd''.1.symm, hd''.2.1.symm⟩ (hjobs _ hj)
  | initPartial id sh hp he hc hca hid hu hreq => exact addOne id sh _ rfl (by simp [hu]) rfl rfl
  | initCombined f hp he hc hca hv => exact same _ rfl rfl rfl (fun _ h => h)

theorem reach_own {c : Col B D} (h : ReachOwn v req c) : OwnInv v c := by
  induction h with
  | init => exact ⟨by simp [live], by simp, by simp⟩
  | step hr hs _ ih => exact own_step (reach_inv hr.reach) hr.own ih hs

/-- **C10, progress.** If every share names its own sender, then a collector that knows what to expect, is not complete
and is not waiting for a job has received fewer than `req` valid shares: bad shares alone never stop it. -/
theorem progress_if_own_ids {c : Col B D} (h : ReachOwn v req c) {s w : Nat} {d : D}
    (he : c.expected = some (s, w, d)) (hc : c.combined = none) (hp : c.processing = false) :
    (c.reps.filter (fun r => match r.share with
      | some x => v.ok (r.id + 1) d x.bytes
      | none => false)).length < req := by
  have h1 := (no_missed_trigger h.reach hc hp (by rw [he]; simp)).2
  have ho := reach_own h
  rw [ho.cntEq] at h1
  refine lt_of_le_of_lt ?_ h1
  unfold live
  rw [← List.countP_eq_length_filter, ← List.countP_eq_length_filter]
  apply List.countP_mono_left
  intro r hr hv
  cases hinv : r.invalid with
  | false => rfl
  | true =>
    obtain ⟨s', w', d', x, h2, h3, h4⟩ := ho.badOk r hr hinv
    rw [he] at h2; cases h2
    simp only [h3] at hv
    rw [h4] at hv; cases hv

/-! ### One replica stalls the collector

`n = 4`, three shares required. Replica 0 sends a share that names signer 2 (replica 1) and is invalid; replicas 1, 2
and 3 send valid shares. -/

private def v4 : Scheme Nat Nat := { n := 4, threshold := 3, ok := fun i d b => b == 10 * i + d }
private def sh0 : Share Nat := ⟨2, 0⟩
private def sh1 : Share Nat := ⟨2, 27⟩
private def sh2 : Share Nat := ⟨3, 37⟩
private def sh3 : Share Nat := ⟨4, 47⟩

/-- Although all replicas answered and three of the four shares are valid for the expected digest, the collector ends
up incomplete, with no job running and the honest replica 1 recorded as the culprit. -/
theorem one_share_stalls :
    ∃ c : Col Nat Nat, Reach v4 3 c ∧ c.expected = some (1, 0, 7) ∧ c.combined = none ∧ c.processing = false ∧
      c.jobs = [] ∧ c.reps = [⟨0, some sh0, false⟩, ⟨1, some sh1, true⟩, ⟨2, some sh2, false⟩, ⟨3, some sh3, false⟩] ∧
      v4.good 7 sh1 = true ∧ v4.good 7 sh2 = true ∧ v4.good 7 sh3 = true := by
  have h1 : Reach v4 3 ({ expected := some (1, 0, 7) } : Col Nat Nat) :=
    .step .init (.setExpected 1 0 7 (by decide) rfl rfl (by simp) (.few rfl rfl rfl rfl (by decide)))
  have h2 := Reach.step h1 (.addPartial 0 sh0 rfl (by simp) (.few rfl rfl rfl rfl (by decide)))
  have h3 := Reach.step h2 (.addPartial 1 sh1 rfl (by simp) (.few rfl rfl rfl rfl (by decide)))
  have h4 := Reach.step h3 (.addPartial 2 sh2 rfl (by simp)
    (.sigs [⟨0, some sh0, false⟩, ⟨1, some sh1, false⟩, ⟨2, some sh2, false⟩] rfl rfl rfl rfl (by decide)
      (by simp [live]) (by decide) rfl))
  have h5 := Reach.step h4 (.failed (bad := [1]) [] [] rfl ⟨7, rfl⟩ rfl rfl rfl (.few rfl rfl rfl rfl (by decide)))
  have h6 := Reach.step h5 (.addPartial 3 sh3 rfl (by decide)
    (.sigs [⟨0, some sh0, false⟩, ⟨2, some sh2, false⟩, ⟨3, some sh3, false⟩] rfl rfl rfl rfl (by decide)
      (by decide) (by decide) rfl))
  have h7 := Reach.step h6 (.failed (bad := [1]) [] [] rfl ⟨7, rfl⟩ rfl rfl rfl (.few rfl rfl rfl rfl (by decide)))
  exact ⟨_, h7, rfl, rfl, rfl, rfl, rfl, rfl, rfl, rfl⟩

/-! ### Non-vacuity: a collector that discards a bad share and completes -/

private def bad0 : Share Nat := ⟨1, 0⟩

example : ∃ c : Col Nat Nat, ReachOwn v4 3 c ∧ c.builtFrom.isSome = true ∧ c.combined.isSome = true := by
  have own : ∀ (c : Col Nat Nat), (∀ r ∈ c.reps, r = ⟨0, some bad0, false⟩ ∨ r = ⟨0, some bad0, true⟩ ∨ r = ⟨1, some sh1, false⟩ ∨
      r = ⟨2, some sh2, false⟩ ∨ r = ⟨3, some sh3, false⟩) → OwnIds v4 c := by
    intro c h r hr x hx
    rcases h r hr with rfl | rfl | rfl | rfl | rfl <;> simp at hx <;> subst hx <;> decide
  have h1 : ReachOwn v4 3 ({ expected := some (1, 0, 7) } : Col Nat Nat) :=
    .step .init (.setExpected 1 0 7 (by decide) rfl rfl (by simp) (.few rfl rfl rfl rfl (by decide))) (own _ (by simp))
  have h2 := ReachOwn.step h1 (.addPartial 0 bad0 rfl (by simp) (.few rfl rfl rfl rfl (by decide))) (own _ (by simp))
  have h3 := ReachOwn.step h2 (.addPartial 1 sh1 rfl (by simp) (.few rfl rfl rfl rfl (by decide))) (own _ (by simp))
  have h4 := ReachOwn.step h3 (.addPartial 2 sh2 rfl (by simp)
    (.sigs [⟨0, some bad0, false⟩, ⟨1, some sh1, false⟩, ⟨2, some sh2, false⟩] rfl rfl rfl rfl (by decide)
      (by simp [live]) (by decide) rfl)) (own _ (by simp))
  have h5 := ReachOwn.step h4 (.failed (bad := [0]) [] [] rfl ⟨7, rfl⟩ rfl rfl rfl (.few rfl rfl rfl rfl (by decide)))
    (own _ (by simp [Col.applyBad, markBad]))
  have h6 := ReachOwn.step h5 (.addPartial 3 sh3 rfl (by decide)
    (.sigs [⟨1, some sh1, false⟩, ⟨2, some sh2, false⟩, ⟨3, some sh3, false⟩] rfl rfl rfl rfl (by decide)
      (by decide) (by decide) rfl)) (own _ (by simp [Col.applyBad, markBad]))
  have h7 := ReachOwn.step h6 (.built (f := [sh1, sh2, sh3]) [] [] rfl ⟨7, rfl⟩ rfl rfl rfl)
    (own _ (by simp [Col.applyBad, markBad]))
  exact ⟨_, h7, rfl, rfl⟩

end Concord.Collector
