import Verif.Collector.Model
import Mathlib.Data.List.Nodup
import Mathlib.Data.Finset.Card
/-!
Invariants of the collector.
-/
namespace Concord.Collector

variable {B D : Type} {v : Scheme B D} {req : Nat}

theorem expects_congr {c c' : Col B D} (h : c.expected = c'.expected) (j : Job B D) : c.expects j ↔ c'.expects j := by
  unfold Col.expects; rw [h]

/-- Invariant without the "no missed trigger" part -/
structure PreInv (v : Scheme B D) (req : Nat) (c : Col B D) : Prop where
  ids : (c.reps.map (·.id)).Nodup
  shareSome : ∀ r ∈ c.reps, r.invalid = false → r.share.isSome = true
  cnt : c.unknown ≤ (live c.reps).length
  jobOk : ∀ j ∈ c.jobs, c.expects j → c.processing = true ∧ c.combined = none ∧
    c.expected = some (j.seq, j.view, j.digest) ∧
    match j with
    | .verifyCombined _ _ _ f => c.cand = some f
    | .process _ _ _ shares => shares.length = req ∧ req ≤ c.unknown
  jobUniq : ∀ pre j post, c.jobs = pre ++ j :: post → c.expects j → ∀ j' ∈ pre ++ post, ¬ c.expects j'
  procJob : c.processing = true → ∃ j ∈ c.jobs, c.expects j
  comb : ∀ f, c.combined = some f → c.processing = false ∧ ∃ s w d, c.expected = some (s, w, d) ∧ v.verify d f = true ∧
    ∀ sh, c.builtFrom = some sh → runJob v d sh = some (.combined f)
  built0 : c.combined = none → c.builtFrom = none

structure Inv (v : Scheme B D) (req : Nat) (c : Col B D) : Prop extends PreInv v req c where
  trigger : c.combined = none → c.processing = false → c.expected ≠ none → c.cand = none ∧ c.unknown < req

theorem split_append_singleton {α : Type} {l pre post : List α} {x j : α} (h : l ++ [x] = pre ++ j :: post) :
    (post = [] ∧ j = x ∧ pre = l) ∨ ∃ post', post = post' ++ [x] ∧ l = pre ++ j :: post' := by
  rcases List.eq_nil_or_concat post with hp | ⟨post', y, hp⟩
  · subst hp
    have := List.append_inj' h rfl
    left; exact ⟨rfl, by simpa using this.2.symm, this.1.symm⟩
  · subst hp
    right
    have h2 : l ++ [x] = (pre ++ j :: post') ++ [y] := by simpa using h
    have := List.append_inj' h2 rfl
    have hx : x = y := by simpa using this.2
    subst hx
    exact ⟨post', by simp, this.1⟩

theorem filterMap_len {l : List (Rep B)} (h : ∀ r ∈ l, r.share.isSome = true) :
    (l.filterMap (·.share)).length = l.length := by
  induction l with
  | nil => rfl
  | cons r l ih =>
    obtain ⟨s, hs⟩ := Option.isSome_iff_exists.1 (h r (by simp))
    rw [List.filterMap_cons_some hs]
    simp [ih (fun r hr => h r (by simp [hr]))]

theorem trySend_inv {c c' : Col B D} (h : PreInv v req c) (ht : TrySend req c c') : Inv v req c' := by
  -- adding a job for the expected slot while none is running
  have key : ∀ (s w : Nat) (d : D) (j : Job B D), c.combined = none → c.processing = false →
      c.expected = some (s, w, d) → j.seq = s → j.view = w → j.digest = d →
      (match j with
        | .verifyCombined _ _ _ f => c.cand = some f
        | .process _ _ _ shares => shares.length = req ∧ req ≤ c.unknown) →
      Inv v req { c with processing := true, jobs := c.jobs ++ [j] } := by
    intro s w d j hc hp he h1 h2 h3 hm
    subst h1; subst h2; subst h3
    have hno : ∀ j' ∈ c.jobs, ¬ c.expects j' := by
      intro j' hj' hx
      have := (h.jobOk j' hj' hx).1
      rw [hp] at this; cases this
    have hex : ∀ j', ({ c with processing := true, jobs := c.jobs ++ [j] } : Col B D).expects j' ↔ c.expects j' :=
      fun j' => expects_congr rfl j'
    refine
      { ids := h.ids, shareSome := h.shareSome, cnt := h.cnt, jobOk := ?_, jobUniq := ?_, procJob := ?_, comb := ?_
        built0 := h.built0, trigger := ?_ }
    · intro j' hj' hx
      rw [hex] at hx
      rcases List.mem_append.1 hj' with hj' | hj'
      · exact absurd hx (hno j' hj')
      · simp at hj'; subst hj'
        exact ⟨rfl, hc, he, hm⟩
    · intro pre j' post hj hx j'' hj''
      rw [hex] at hx ⊢
      rcases split_append_singleton hj with ⟨h1, h2, h3⟩ | ⟨post', h1, h2⟩
      · subst h1; subst h3
        simp at hj''
        exact hno j'' hj''
      · exfalso
        exact hno j' (by rw [h2]; simp) hx
    · intro _
      exact ⟨j, by simp, j.digest, he⟩
    · intro f hf; simp only at hf; rw [hc] at hf; cases hf
    · intro _ hp'; cases hp'
  cases ht with
  | idle h1 h2 =>
    refine { h with trigger := ?_ }
    intro hc hp he
    rcases h2 with h2 | h2
    · rw [hp] at h2; cases h2
    · exact absurd h2 he
  | few h1 h2 h3 h4 h5 => exact { h with trigger := fun _ _ _ => ⟨h4, h5⟩ }
  | cand h1 h2 h3 h4 => exact key _ _ _ (.verifyCombined _ _ _ _) h1 h2 h3 rfl rfl rfl h4
  | sigs sel h1 h2 h3 h4 h5 h6 h7 h8 =>
    refine key _ _ _ (.process _ _ _ _) h1 h2 h3 rfl rfl rfl ⟨?_, h5⟩
    rw [filterMap_len, h8]
    intro r hr
    have := h6 hr
    unfold live at this
    rw [List.mem_filter] at this
    exact h.shareSome r this.1 (by simpa using this.2)

/-! ### accumulator -/

/-- what is known about an accumulator after adding `l` -/
structure AccInv (v : Scheme B D) (d : D) (l : List (Share B)) (a : Acc B) : Prop where
  nodup : (a.sigs.map (·.id)).Nodup
  sub : ∀ s ∈ a.sigs, s ∈ l
  inv : a.invalid.Nodup
  invOf : ∀ i ∈ a.invalid, ∃ s ∈ l, s.id = i ∧ i ≠ 0 ∧ i ≤ v.n ∧ v.ok i d s.bytes = false

theorem acc_add {verification : Bool} {d : D} {l : List (Share B)} {a a' : Acc B} {s : Share B}
    (h : AccInv v d l a) (ha : a.add v verification d s = some a') : AccInv v d (l ++ [s]) a' := by
  unfold Acc.add at ha
  split at ha
  · cases ha
    exact ⟨h.nodup, fun x hx => List.mem_append_left _ (h.sub x hx), h.inv, fun i hi => by
      obtain ⟨x, hx, h2⟩ := h.invOf i hi; exact ⟨x, List.mem_append_left _ hx, h2⟩⟩
  · next hr =>
    split at ha
    · cases ha
    · next hoob =>
      simp only [Option.some.injEq] at ha
      subst ha
      refine ⟨?_, ?_, ?_, ?_⟩
      · simp only
        split
        · exact h.nodup
        · next hn =>
          rw [List.map_append, List.nodup_append]
          refine ⟨h.nodup, by simp, ?_⟩
          intro x hx y hy hxy
          simp at hy; subst hy
          obtain ⟨z, hz, hzx⟩ := List.mem_map.1 hx
          apply hn
          rw [List.any_eq_true]
          exact ⟨z, hz, by simp [hzx, hxy]⟩
      · intro x hx
        simp only at hx
        split at hx
        · exact List.mem_append_left _ (h.sub x hx)
        · rcases List.mem_append.1 hx with hx | hx
          · exact List.mem_append_left _ (h.sub x hx)
          · exact List.mem_append_right _ hx
      · simp only
        split
        · split
          · exact h.inv
          · next hn =>
            rw [List.nodup_append]
            refine ⟨h.inv, by simp, ?_⟩
            intro x hx y hy hxy
            simp at hy; subst hy; subst hxy
            exact hn (List.elem_iff.2 hx)
        · exact h.inv
      · intro i hi
        simp only at hi
        have old : i ∈ a.invalid → ∃ s' ∈ l ++ [s], s'.id = i ∧ i ≠ 0 ∧ i ≤ v.n ∧ v.ok i d s'.bytes = false := by
          intro hi; obtain ⟨x, hx, h2⟩ := h.invOf i hi; exact ⟨x, List.mem_append_left _ hx, h2⟩
        split at hi
        · next hv =>
          simp only [Bool.and_eq_true, Bool.not_eq_true'] at hv
          split at hi
          · exact old hi
          · rcases List.mem_append.1 hi with hi | hi
            · exact old hi
            · simp at hi; subst hi
              simp only [hv.1, Bool.true_and, decide_eq_true_eq] at hoob
              refine ⟨s, by simp, rfl, ?_, by omega, hv.2⟩
              intro h0; exact hr (Or.inl h0)
        · exact old hi

theorem acc_addAll {verification : Bool} {d : D} (l : List (Share B)) {l0 : List (Share B)} {a a' : Acc B}
    (h : AccInv v d l0 a) (ha : Acc.addAll v verification d a l = some a') : AccInv v d (l0 ++ l) a' := by
  induction l generalizing l0 a with
  | nil => simp only [Acc.addAll, Option.some.injEq] at ha; subst ha; simpa using h
  | cons s l ih =>
    rw [Acc.addAll] at ha
    cases hb : a.add v verification d s with
    | none => rw [hb] at ha; cases ha
    | some b =>
      rw [hb] at ha
      have := ih (acc_add h hb) ha
      simpa using this

theorem acc_init {d : D} : AccInv v d [] ({} : Acc B) := ⟨by simp, by simp, by simp, by simp⟩

/-- a successful job: the combined signature verifies, has distinct signers, and consists of shares of the job -/
theorem runJob_combined {d : D} {shares f : List (Share B)} (h : runJob v d shares = some (.combined f)) :
    v.verify d f = true ∧ (f.map (·.id)).Nodup ∧ ∀ s ∈ f, s ∈ shares := by
  unfold runJob at h
  cases h1 : Acc.addAll v false d {} shares with
  | none => rw [h1] at h; cases h
  | some a1 =>
    rw [h1] at h
    simp only [Option.bind_some] at h
    split at h
    · next hv =>
      cases h
      have := acc_addAll shares acc_init h1
      exact ⟨hv, this.nodup, fun s hs => by simpa using this.sub s hs⟩
    · cases h2 : Acc.addAll v true d {} shares with
      | none => rw [h2] at h; cases h
      | some a2 =>
        rw [h2] at h
        simp only [Option.bind_some] at h
        split at h
        · next hv =>
          cases h
          have := acc_addAll shares acc_init h2
          exact ⟨hv, this.nodup, fun s hs => by simpa using this.sub s hs⟩
        · cases h

theorem runJob_bad {d : D} {shares : List (Share B)} {bad : List Nat} (h : runJob v d shares = some (.bad bad)) :
    bad.Nodup ∧ bad.length ≤ shares.length ∧
      ∀ i ∈ bad, ∃ s ∈ shares, s.id = i + 1 ∧ v.ok s.id d s.bytes = false := by
  unfold runJob at h
  cases h1 : Acc.addAll v false d {} shares with
  | none => rw [h1] at h; cases h
  | some a1 =>
    rw [h1] at h
    simp only [Option.bind_some] at h
    split at h
    · cases h
    · cases h2 : Acc.addAll v true d {} shares with
      | none => rw [h2] at h; cases h
      | some a2 =>
        rw [h2] at h
        simp only [Option.bind_some] at h
        split at h
        · cases h
        · cases h
          have ai := acc_addAll shares acc_init h2
          simp only [List.nil_append] at ai
          refine ⟨?_, ?_, ?_⟩
          · refine List.Nodup.map_on ?_ ai.inv
            intro x hx y hy hxy
            obtain ⟨_, _, _, h3, _⟩ := ai.invOf x hx
            obtain ⟨_, _, _, h4, _⟩ := ai.invOf y hy
            omega
          · rw [List.length_map]
            have hsub : a2.invalid ⊆ shares.map (·.id) := by
              intro i hi
              obtain ⟨s, hs, he, _⟩ := ai.invOf i hi
              exact List.mem_map.2 ⟨s, hs, he⟩
            have := (ai.inv.subperm hsub).length_le
            simpa using this
          · intro i hi
            obtain ⟨k, hk, hki⟩ := List.mem_map.1 hi
            obtain ⟨s, hs, he, h0, hn, ho⟩ := ai.invOf k hk
            exact ⟨s, hs, by omega, by rw [he]; exact ho⟩

/-! ### marking bad signatures -/

theorem markBad_ids {reps : List (Rep B)} (h : (reps.map (·.id)).Nodup) (i : Nat) :
    ((markBad reps i).map (·.id)).Nodup := by
  unfold markBad
  split
  · rw [List.map_map]
    have : ((fun x : Rep B => x.id) ∘ fun r => if (r.id == i) = true then { r with invalid := true } else r)
        = (fun x : Rep B => x.id) := by
      funext r; simp only [Function.comp]; split <;> rfl
    rw [this]; exact h
  · next hn =>
    rw [List.map_append, List.nodup_append]
    refine ⟨h, by simp, ?_⟩
    intro x hx y hy hxy
    simp at hy; subst hy
    obtain ⟨z, hz, hzx⟩ := List.mem_map.1 hx
    exact hn (List.any_eq_true.2 ⟨z, hz, by simp [hzx, hxy]⟩)

theorem markBad_share {reps : List (Rep B)} (h : ∀ r ∈ reps, r.invalid = false → r.share.isSome = true) (i : Nat) :
    ∀ r ∈ markBad reps i, r.invalid = false → r.share.isSome = true := by
  intro r hr hi
  unfold markBad at hr
  split at hr
  · obtain ⟨x, hx, hxr⟩ := List.mem_map.1 hr
    split at hxr
    · subst hxr; cases hi
    · subst hxr; exact h x hx hi
  · rcases List.mem_append.1 hr with hr | hr
    · exact h r hr hi
    · simp at hr; subst hr; cases hi

theorem live_map_absent {reps : List (Rep B)} {i : Nat} (h : i ∉ reps.map (·.id)) :
    reps.map (fun r => if (r.id == i) = true then { r with invalid := true } else r) = reps := by
  conv_rhs => rw [← List.map_id reps]
  apply List.map_congr_left
  intro r hr
  have : r.id ≠ i := fun he => h (List.mem_map.2 ⟨r, hr, he⟩)
  simp [this]

theorem markBad_live {reps : List (Rep B)} (h : (reps.map (·.id)).Nodup) (i : Nat) :
    (live reps).length ≤ (live (markBad reps i)).length + 1 := by
  unfold markBad
  split
  · clear * - h
    induction reps with
    | nil => simp [live]
    | cons r l ih =>
      simp only [List.map_cons, List.nodup_cons] at h
      by_cases he : r.id = i
      · subst he
        rw [List.map_cons, live_map_absent h.1]
        simp only [live, List.filter_cons]
        split <;> simp
      · have := ih h.2
        rw [List.map_cons]
        simp only [beq_iff_eq, he, if_false]
        simp only [live, List.filter_cons] at this ⊢
        simp only [beq_iff_eq] at this
        split <;> simp at * <;> omega
  · simp [live, List.filter_append]

theorem foldl_markBad {bad : List Nat} {reps : List (Rep B)} (h : (reps.map (·.id)).Nodup)
    (hs : ∀ r ∈ reps, r.invalid = false → r.share.isSome = true) :
    ((bad.foldl markBad reps).map (·.id)).Nodup ∧
    (∀ r ∈ bad.foldl markBad reps, r.invalid = false → r.share.isSome = true) ∧
    (live reps).length ≤ (live (bad.foldl markBad reps)).length + bad.length := by
  induction bad generalizing reps with
  | nil => exact ⟨h, hs, by simp⟩
  | cons i bad ih =>
    obtain ⟨h1, h2, h3⟩ := ih (markBad_ids h i) (markBad_share hs i)
    refine ⟨h1, h2, ?_⟩
    have := markBad_live h i
    simp only [List.foldl_cons, List.length_cons]; omega

/-- removing the (only) expected job and finishing it -/
theorem preinv_done {c : Col B D} (h : PreInv v req c) {j : Job B D} {pre post : List (Job B D)}
    (hj : c.jobs = pre ++ j :: post) (hx : c.expects j) (hc : c.combined = none) (cand' : Option (List (Share B))) :
    PreInv v req { c with processing := false, cand := cand', jobs := pre ++ post } := by
  have hno := h.jobUniq pre j post hj hx
  have hex : ∀ j', ({ c with processing := false, cand := cand', jobs := pre ++ post } : Col B D).expects j' ↔ c.expects j' :=
    fun j' => expects_congr rfl j'
  refine
    { ids := h.ids, shareSome := h.shareSome, cnt := h.cnt, jobOk := ?_, jobUniq := ?_, procJob := ?_, comb := ?_
      built0 := h.built0 }
  · intro j' hj' hx'; rw [hex] at hx'; exact absurd hx' (hno j' hj')
  · intro p j' q hpq hx'
    rw [hex] at hx'
    have : j' ∈ pre ++ post := by
      have h1 : pre ++ post = p ++ j' :: q := hpq
      rw [h1]; simp
    exact absurd hx' (hno j' this)
  · intro hp; cases hp
  · intro f hf; simp only at hf; rw [hc] at hf; cases hf

theorem inv_step {c c' : Col B D} (h : Inv v req c) (hs : Step v req c c') : Inv v req c' := by
  cases hs with
  | addPartial id sh hc hid ht =>
    refine trySend_inv ?_ ht
    have hcnt := h.cnt
    have hex : ∀ j', ({ c with reps := c.reps ++ [⟨id, some sh, false⟩], unknown := c.unknown + 1 } : Col B D).expects j' ↔ c.expects j' :=
      fun j' => expects_congr rfl j'
    refine
      { ids := ?_, shareSome := ?_, cnt := ?_, jobOk := ?_, jobUniq := ?_, procJob := h.procJob, comb := ?_
        built0 := h.built0 }
    · rw [List.map_append, List.nodup_append]
      refine ⟨h.ids, by simp, ?_⟩
      intro x hx y hy hxy
      simp at hy; subst hy
      obtain ⟨z, hz, hzx⟩ := List.mem_map.1 hx
      exact hid z hz (by omega)
    · intro r hr hi
      rcases List.mem_append.1 hr with hr | hr
      · exact h.shareSome r hr hi
      · simp at hr; subst hr; rfl
    · simp [live, List.filter_append] at hcnt ⊢; exact hcnt
    · intro j hj hx
      rw [hex] at hx
      have := h.jobOk j hj hx
      refine ⟨this.1, this.2.1, this.2.2.1, ?_⟩
      have h4 := this.2.2.2
      cases j with
      | verifyCombined _ _ _ _ => exact h4
      | process _ _ _ _ => exact ⟨h4.1, by simp only; omega⟩
    · intro p j q hpq hx j' hj'
      rw [hex] at hx ⊢
      exact h.jobUniq p j q hpq hx j' hj'
    · intro f hf; simp only at hf; rw [hc] at hf; cases hf
  | addCombined f hc hca ht =>
    refine trySend_inv ?_ ht
    have hex : ∀ j', ({ c with cand := some f } : Col B D).expects j' ↔ c.expects j' :=
      fun j' => expects_congr rfl j'
    refine
      { ids := h.ids, shareSome := h.shareSome, cnt := h.cnt, jobOk := ?_, jobUniq := ?_, procJob := h.procJob, comb := ?_
        built0 := h.built0 }
    · intro j hj hx
      rw [hex] at hx
      have := h.jobOk j hj hx
      refine ⟨this.1, this.2.1, this.2.2.1, ?_⟩
      have h4 := this.2.2.2
      cases j with
      | verifyCombined _ _ _ g => simp only at h4; rw [hca] at h4; cases h4
      | process _ _ _ _ => exact h4
    · intro p j q hpq hx j' hj'
      rw [hex] at hx ⊢
      exact h.jobUniq p j q hpq hx j' hj'
    · intro f hf; simp only at hf; rw [hc] at hf; cases hf
  | setExpected s w d hs he hp hjobs ht =>
    have hc : c.combined = none := by
      cases hcc : c.combined with
      | none => rfl
      | some f => obtain ⟨-, s', w', d', h1, -⟩ := h.comb f hcc; rw [he] at h1; cases h1
    refine trySend_inv ?_ ht
    have hno : ∀ j ∈ c.jobs, ¬ ({ c with expected := some (s, w, d) } : Col B D).expects j := by
      rintro j hj ⟨d', hd'⟩
      simp only [Option.some.injEq, Prod.mk.injEq] at hd'
      exact hjobs j hj ⟨hd'.1.symm, hd'.2.1.symm⟩
    refine
      { ids := h.ids, shareSome := h.shareSome, cnt := h.cnt, jobOk := ?_, jobUniq := ?_, procJob := ?_, comb := ?_
        built0 := h.built0 }
    · intro j hj hx; exact absurd hx (hno j hj)
    · intro p j q hpq hx
      refine absurd hx (hno j ?_)
      have h1 : c.jobs = p ++ j :: q := hpq
      rw [h1]; simp
    · intro hp'; simp only at hp'; rw [hp] at hp'; cases hp'
    · intro f hf; simp only at hf; rw [hc] at hf; cases hf
  | @verified _ s w d f pre post hj hx hp hc hres =>
    have hok := h.jobOk _ (by rw [hj]; simp) hx
    rcases hres with ⟨hv, rfl⟩ | ⟨hv, ht⟩
    · have hpre := preinv_done h.toPreInv hj hx hc none
      refine
        { ids := hpre.ids, shareSome := hpre.shareSome, cnt := hpre.cnt, jobOk := ?_, jobUniq := ?_
          procJob := ?_, comb := ?_, built0 := ?_, trigger := ?_ }
      · intro j' hj' hx'
        have := (hpre.jobOk j' hj' ((expects_congr rfl j').1 hx')).1
        cases this
      · intro p j' q hpq hx'
        exact fun j'' hj'' hx'' => hpre.jobUniq p j' q hpq ((expects_congr rfl j').1 hx') j'' hj'' ((expects_congr rfl j'').1 hx'')
      · intro hp'; cases hp'
      · intro g hg
        simp only at hg
        have h4 : c.cand = some f := hok.2.2.2
        rw [h4] at hg; cases hg
        refine ⟨rfl, s, w, d, hok.2.2.1, hv, ?_⟩
        intro sh hsh
        have := h.built0 hc
        simp only at hsh; rw [this] at hsh; cases hsh
      · intro hcc; have h4 : c.cand = some f := hok.2.2.2
        simp only at hcc; rw [h4] at hcc; cases hcc
      · intro hcc; have h4 : c.cand = some f := hok.2.2.2
        simp only at hcc; rw [h4] at hcc; cases hcc
    · exact trySend_inv (preinv_done h.toPreInv hj hx hc none) ht
  | @built s w d shares f pre post hj hx hp hc hres =>
    have hok := h.jobOk _ (by rw [hj]; simp) hx
    have hpre := preinv_done h.toPreInv hj hx hc none
    refine
      { ids := hpre.ids, shareSome := hpre.shareSome, cnt := hpre.cnt, jobOk := ?_, jobUniq := ?_
        procJob := ?_, comb := ?_, built0 := ?_, trigger := ?_ }
    · intro j' hj' hx'
      have := (hpre.jobOk j' hj' ((expects_congr rfl j').1 hx')).1
      cases this
    · intro p j' q hpq hx'
      exact fun j'' hj'' hx'' => hpre.jobUniq p j' q hpq ((expects_congr rfl j').1 hx') j'' hj'' ((expects_congr rfl j'').1 hx'')
    · intro hp'; cases hp'
    · intro g hg
      simp only [Option.some.injEq] at hg; subst hg
      refine ⟨rfl, s, w, d, hok.2.2.1, (runJob_combined hres).1, ?_⟩
      intro sh hsh
      simp only [Option.some.injEq] at hsh; subst hsh; exact hres
    · intro hcc; cases hcc
    · intro hcc; cases hcc
  | @failed _ s w d shares bad pre post hj hx hp hc hres ht =>
    have hok := h.jobOk _ (by rw [hj]; simp) hx
    have hpre := preinv_done h.toPreInv hj hx hc c.cand
    refine trySend_inv ?_ ht
    obtain ⟨h1, h2, h3⟩ := foldl_markBad (bad := bad) h.ids h.shareSome
    refine
      { ids := h1, shareSome := h2, cnt := ?_, jobOk := ?_, jobUniq := ?_, procJob := ?_, comb := ?_
        built0 := h.built0 }
    · have h4 := (runJob_bad hres).2.1
      obtain ⟨h5, h6⟩ := hok.2.2.2
      have := h.cnt
      show c.unknown - bad.length ≤ (live (bad.foldl markBad c.reps)).length
      omega
    · intro j' hj' hx'
      have := (hpre.jobOk j' hj' ((expects_congr rfl j').1 hx')).1
      cases this
    · intro p j' q hpq hx'
      exact fun j'' hj'' hx'' => hpre.jobUniq p j' q hpq ((expects_congr rfl j').1 hx') j'' hj'' ((expects_congr rfl j'').1 hx'')
    · intro hp'; cases hp'
    · intro f hf
      have : c.combined = some f := hf
      rw [hc] at this; cases this
  | dropped j pre post hj hx =>
    have hmem : ∀ j' ∈ pre ++ post, j' ∈ c.jobs := by
      intro j' hj'; rw [hj]
      rcases List.mem_append.1 hj' with h1 | h1 <;> simp [h1]
    have hex : ∀ j', ({ c with jobs := pre ++ post } : Col B D).expects j' ↔ c.expects j' :=
      fun j' => expects_congr rfl j'
    refine
      { ids := h.ids, shareSome := h.shareSome, cnt := h.cnt, jobOk := ?_, jobUniq := ?_, procJob := ?_, comb := h.comb
        built0 := h.built0, trigger := h.trigger }
    · intro j' hj' hx'; exact h.jobOk j' (hmem j' hj') ((hex j').1 hx')
    · intro p j' q hpq hx' j'' hj''
      rw [hex] at hx' ⊢
      have h1 : pre ++ post = p ++ j' :: q := hpq
      -- put `j` back
      rcases List.append_eq_append_iff.1 h1 with ⟨as, ha, hb⟩ | ⟨bs, ha, hb⟩
      · -- p = pre ++ as, post = as ++ j' :: q
        refine h.jobUniq (pre ++ j :: as) j' q (by rw [hj, hb]; simp) hx' j'' ?_
        rw [ha] at hj''
        simp at hj'' ⊢
        tauto
      · -- pre = p ++ bs, j' :: q = bs ++ post
        cases bs with
        | nil =>
          simp at ha hb
          refine h.jobUniq (pre ++ [j]) j' q (by rw [hj, ← hb]; simp) hx' j'' ?_
          rw [← ha] at hj''
          simp at hj'' ⊢; tauto
        | cons b bs =>
          simp at hb
          obtain ⟨hb1, hb2⟩ := hb
          subst hb1
          refine h.jobUniq p j' (bs ++ j :: post) (by rw [hj, ha]; simp) hx' j'' ?_
          rw [hb2] at hj''
          simp at hj'' ⊢; tauto
    · intro hp
      obtain ⟨j', hj', hx'⟩ := h.procJob hp
      refine ⟨j', ?_, (hex j').2 hx'⟩
      rw [hj] at hj'
      simp at hj' ⊢
      rcases hj' with h1 | h1 | h1
      · exact Or.inl h1
      · subst h1; exact absurd hx' hx
      · exact Or.inr h1
  | reset =>
    have hno : ∀ j : Job B D, ¬ c.reset.expects j := by
      rintro j ⟨d, hd⟩; cases hd
    refine
      { ids := by simp [Col.reset], shareSome := by simp [Col.reset], cnt := by simp [Col.reset]
        jobOk := fun j _ hx => absurd hx (hno j), jobUniq := fun _ j _ _ hx => absurd hx (hno j)
        procJob := by intro hp; cases hp
        comb := by intro f hf; cases hf
        built0 := fun _ => rfl, trigger := by intro _ _ he; exact absurd rfl he }
  | initExpected s w d hs he hp hc hca hr h0 hjobs =>
    have hno : ∀ j ∈ c.jobs, ¬ ({ c with expected := some (s, w, d) } : Col B D).expects j := by
      rintro j hj ⟨d', hd'⟩
      simp only [Option.some.injEq, Prod.mk.injEq] at hd'
      exact hjobs j hj ⟨hd'.1.symm, hd'.2.1.symm⟩
    have hcnt := h.cnt
    rw [hr] at hcnt
    simp only [live, List.filter_nil, List.length_nil] at hcnt
    refine trySend_inv (req := req) (c := { c with expected := some (s, w, d) }) ?_ ?_
    · refine
        { ids := h.ids, shareSome := h.shareSome, cnt := h.cnt, jobOk := ?_, jobUniq := ?_, procJob := ?_, comb := ?_
          built0 := h.built0 }
      · intro j hj hx; exact absurd hx (hno j hj)
      · intro p j q hpq hx
        refine absurd hx (hno j ?_)
        have h1 : c.jobs = p ++ j :: q := hpq
        rw [h1]; simp
      · intro hp'; simp only at hp'; rw [hp] at hp'; cases hp'
      · intro f hf; simp only at hf; rw [hc] at hf; cases hf
    · exact .few hc hp rfl hca (by simp only; omega)
  | initPartial id sh hp he hc hca hid hu hreq =>
    have hex : ∀ j', ({ c with reps := c.reps ++ [⟨id, some sh, false⟩], unknown := 1 } : Col B D).expects j' ↔ c.expects j' :=
      fun j' => expects_congr rfl j'
    have hno : ∀ j ∈ c.jobs, ¬ c.expects j := by
      intro j hj hx
      have := (h.jobOk j hj hx).1
      rw [hp] at this; cases this
    have hcnt := h.cnt
    refine
      { ids := ?_, shareSome := ?_, cnt := ?_, jobOk := ?_, jobUniq := ?_, procJob := h.procJob, comb := ?_
        built0 := h.built0, trigger := fun _ _ _ => ⟨hca, by simp only; omega⟩ }
    · rw [List.map_append, List.nodup_append]
      refine ⟨h.ids, by simp, ?_⟩
      intro x hx y hy hxy
      simp at hy; subst hy
      obtain ⟨z, hz, hzx⟩ := List.mem_map.1 hx
      exact hid z hz (by omega)
    · intro r hr hi
      rcases List.mem_append.1 hr with hr | hr
      · exact h.shareSome r hr hi
      · simp at hr; subst hr; rfl
    · simp [live, List.filter_append]
    · intro j hj hx; exact absurd ((hex j).1 hx) (hno j hj)
    · intro p j q hpq hx
      refine absurd ((hex j).1 hx) (hno j ?_)
      have h1 : c.jobs = p ++ j :: q := hpq
      rw [h1]; simp
    · intro f hf; simp only at hf; rw [hc] at hf; cases hf
  | @initCombined s w d f hp he hc hca hv =>
    have hex : ∀ j', ({ c with combined := some f } : Col B D).expects j' ↔ c.expects j' :=
      fun j' => expects_congr rfl j'
    have hno : ∀ j ∈ c.jobs, ¬ c.expects j := by
      intro j hj hx
      have := (h.jobOk j hj hx).1
      rw [hp] at this; cases this
    refine
      { ids := h.ids, shareSome := h.shareSome, cnt := h.cnt, jobOk := ?_, jobUniq := ?_, procJob := ?_, comb := ?_
        built0 := ?_, trigger := ?_ }
    · intro j hj hx; exact absurd ((hex j).1 hx) (hno j hj)
    · intro p j q hpq hx
      refine absurd ((hex j).1 hx) (hno j ?_)
      have h1 : c.jobs = p ++ j :: q := hpq
      rw [h1]; simp
    · intro hp'; simp only at hp'; rw [hp] at hp'; cases hp'
    · intro g hg
      simp only [Option.some.injEq] at hg; subst hg
      refine ⟨hp, s, w, d, he, hv, ?_⟩
      intro sh hsh
      have := h.built0 hc
      simp only at hsh; rw [this] at hsh; cases hsh
    · intro hcc; cases hcc
    · intro hcc; cases hcc

theorem inv_init : Inv v req ({} : Col B D) where
  ids := by simp
  shareSome := by simp
  cnt := by simp
  jobOk := by simp
  jobUniq := by simp
  procJob := by simp
  comb := by simp
  built0 := by simp
  trigger := by simp

theorem reach_inv {c : Col B D} (h : Reach v req c) : Inv v req c := by
  induction h with
  | init => exact inv_init
  | step _ hs ih => exact inv_step ih hs

end Concord.Collector
