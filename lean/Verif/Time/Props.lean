import Verif.Time.Model
set_option linter.unusedSimpArgs false
set_option linter.unusedVariables false
namespace Verif.Time
open Verif.Bytes

/-- Specification: the time after the batches `1..s`, from the proposed times alone (no clock, no crash, no page) -/
def timeAt (eps : Int) (log : Nat → Option Int) : Nat → Int
  | 0 => minTime
  | s + 1 =>
    match log (s + 1) with
    | none => timeAt eps log s
    | some t => if t > timeAt eps log s then t else timeAt eps log s + eps

/-- no 64-bit overflow -/
def Fits (eps : Int) (log : Nat → Option Int) : Prop := ∀ s, timeAt eps log s < 2 ^ 63

/-- the times proposed are positive (batches with another time are not accepted, `checkTime`) -/
def Positive (log : Nat → Option Int) : Prop := ∀ s t, log s = some t → 0 < t

theorem timeAt_mono_succ {eps : Int} {log : Nat → Option Int} (he : 0 ≤ eps) (s : Nat) : timeAt eps log s ≤ timeAt eps log (s + 1) := by
  simp only [timeAt]
  split
  · exact Int.le_refl _
  · split <;> omega

theorem timeAt_mono {eps : Int} {log : Nat → Option Int} (he : 0 ≤ eps) {a b : Nat} (h : a ≤ b) : timeAt eps log a ≤ timeAt eps log b := by
  induction h with
  | refl => exact Int.le_refl _
  | step h ih => exact Int.le_trans ih (timeAt_mono_succ he _)

theorem timeAt_min {eps : Int} {log : Nat → Option Int} (he : 0 ≤ eps) (s : Nat) : minTime ≤ timeAt eps log s := by
  have := timeAt_mono (eps := eps) (log := log) he (Nat.zero_le s)
  simpa [timeAt] using this

/-- the value held by a page -/
def pageVal (p : Option Bytes) : Int :=
  match p with
  | none => minTime
  | some b => toInt64 (leDecode b)

theorem pageVal_set (r : Rep) (t : Int) (h1 : minTime ≤ t) (h2 : t < 2 ^ 63) : pageVal (setLast r t).page = t := by
  simp only [setLast, pageVal]
  rw [leDecode_leEncode _ _ (ofInt64_lt t)]
  exact toInt64_ofInt64 t h1 h2

def DescOk (eps : Int) (log : Nat → Option Int) (r : Rep) : Prop :=
  ∀ s t, r.desc = some (s, t) → s ≤ r.lastExec ∨ (s = r.lastExec + 1 ∧ t = timeAt eps log r.lastExec ∧ (log s).isSome)

structure RepOk (eps : Int) (log : Nat → Option Int) (r : Rep) : Prop where
  desc : DescOk eps log r
  idle : r.phase = .idle → r.mem = timeAt eps log r.lastExec ∧ pageVal r.page = r.mem ∧ (∀ s t, r.desc = some (s, t) → s ≤ r.lastExec)
  sel : r.phase = .selected → r.mem = timeAt eps log r.lastExec ∧ pageVal r.page = r.mem ∧
    r.desc = some (r.lastExec + 1, timeAt eps log r.lastExec) ∧ (log (r.lastExec + 1)).isSome
  run : r.phase = .running → r.mem = timeAt eps log (r.lastExec + 1) ∧ pageVal r.page = r.mem ∧
    (pageVal r.page = timeAt eps log r.lastExec ∨ r.desc = some (r.lastExec + 1, timeAt eps log r.lastExec)) ∧
    (∀ s t, r.desc = some (s, t) → s ≤ r.lastExec + 1)
  down : r.phase = .down → pageVal r.page = timeAt eps log r.lastExec ∨
    (pageVal r.page = timeAt eps log (r.lastExec + 1) ∧ r.desc = some (r.lastExec + 1, timeAt eps log r.lastExec))
  noAbort : r.phase ≠ .aborted

structure Ok (eps : Int) (log : Nat → Option Int) (c : Cluster) : Prop where
  rep : ∀ i, RepOk eps log (c.rep i)
  snaps : ∀ s p, (s, p) ∈ c.snaps → pageVal p = timeAt eps log s
  given : ∀ i s t, (i, s, t) ∈ c.given → t = timeAt eps log s ∧ (log s).isSome

theorem load_none {r : Rep} (h : r.page = none) : load r = r := by simp [load, h]

theorem ok_upd {eps : Int} {log : Nat → Option Int} {c : Cluster} (h : Ok eps log c) (i : Nat) {r : Rep} (hr : RepOk eps log r) :
    Ok eps log (upd c i r) where
  rep := by intro j; simp only [upd]; split
            · exact hr
            · exact h.rep j
  snaps := h.snaps
  given := h.given

theorem add64_eq {a b : Int} (h1 : minTime ≤ a + b) (h2 : a + b < 2 ^ 63) : add64 a b = a + b :=
  toInt64_ofInt64 _ h1 h2

theorem boot_ok {eps : Int} {log : Nat → Option Int} (he : 0 ≤ eps) (hf : Fits eps log) {r : Rep}
    (h : RepOk eps log r) (hp : r.phase = .down) : RepOk eps log (bootRep r) := by
  have hd := h.down hp
  have hdo := h.desc
  -- the loaded value
  have hl : ∀ ph, load { r with mem := minTime, phase := ph } = { r with mem := pageVal r.page, phase := ph } := by
    intro ph
    cases hpg : r.page <;> simp [load, hpg, pageVal]
  unfold bootRep
  simp only [hl]
  cases hds : r.desc with
  | none =>
    have h1 : pageVal r.page = timeAt eps log r.lastExec := by
      rcases hd with h | ⟨_, h⟩
      · exact h
      · rw [hds] at h; cases h
    exact ⟨by intro s t h; simp [hds] at h, by intro _; exact ⟨h1, rfl, by intro s t h; simp [hds] at h⟩,
      by intro h; simp at h, by intro h; simp at h, by intro h; simp at h, by simp⟩
  | some d =>
    obtain ⟨s, t⟩ := d
    simp only
    by_cases hgt : s > r.lastExec
    · simp only [hgt, if_true]
      rcases hdo s t hds with h | ⟨rfl, rfl, hsome⟩
      · omega
      · have hmin := timeAt_min (eps := eps) (log := log) he r.lastExec
        have hle : timeAt eps log r.lastExec ≤ pageVal r.page := by
          rcases hd with h | ⟨h, _⟩
          · omega
          · rw [h]; exact timeAt_mono_succ he _
        unfold recoverTime
        simp only [hle, if_true]
        refine ⟨?_, by intro h; simp [setLast] at h, ?_, by intro h; simp [setLast] at h, by intro h; simp [setLast] at h,
          by simp [setLast]⟩
        · intro s' t' h'
          simp [setLast, hds] at h'
          obtain ⟨rfl, rfl⟩ := h'
          right
          exact ⟨rfl, rfl, hsome⟩
        · intro _
          refine ⟨rfl, ?_, by simp [setLast, hds], by simpa [setLast] using hsome⟩
          exact pageVal_set _ _ hmin (hf _)
    · simp only [hgt, if_false]
      have h1 : pageVal r.page = timeAt eps log r.lastExec := by
        rcases hd with h | ⟨_, h⟩
        · exact h
        · rw [hds] at h; injection h with h; injection h with h; omega
      refine ⟨?_, ?_, by intro h; simp at h, by intro h; simp at h, by intro h; simp at h, by simp⟩
      · intro s' t' h'
        simp [hds] at h'
        obtain ⟨rfl, rfl⟩ := h'
        left; simpa using hgt
      · intro _
        refine ⟨h1, rfl, ?_⟩
        intro s' t' h'
        simp [hds] at h'
        obtain ⟨rfl, rfl⟩ := h'
        simpa using hgt

theorem ok_step {eps : Int} {log : Nat → Option Int} (he : 0 ≤ eps) (hf : Fits eps log) (hpos : Positive log) {c c' : Cluster} {e : Ev}
    (h : Ok eps log c) (hs : step eps log c e = some c') : Ok eps log c' := by
  cases e with
  | start i =>
    simp only [step] at hs
    have hr := h.rep i
    generalize c.rep i = r at hs hr
    split at hs
    · rename_i hph
      obtain ⟨h1, h2, h3⟩ := hr.idle hph
      split at hs
      · rename_i hlog
        injection hs with hs; subst hs
        apply ok_upd h
        refine ⟨?_, by intro h; simp at h, by intro h; simp at h, ?_, by intro h; simp at h, by simp⟩
        · intro s t hd; left; exact h3 s t hd
        · intro _
          refine ⟨?_, h2, Or.inl (by rw [h2]; exact h1), fun s t hd => Nat.le_succ_of_le (h3 s t hd)⟩
          show r.mem = timeAt eps log (r.lastExec + 1)
          simp [timeAt, hlog, h1]
      · rename_i t hlog
        injection hs with hs; subst hs
        apply ok_upd h
        refine ⟨?_, by intro h; simp at h, ?_, by intro h; simp at h, by intro h; simp at h, by simp⟩
        · intro s' t' hd
          simp at hd
          obtain ⟨rfl, rfl⟩ := hd
          right; exact ⟨rfl, h1, by simp [hlog]⟩
        · intro _
          exact ⟨h1, h2, by simp [h1], by simp [hlog]⟩
    · cases hs
  | tick i =>
    simp only [step] at hs
    have hr := h.rep i
    generalize c.rep i = r at hs hr
    split at hs
    · rename_i hph
      obtain ⟨h1, h2, h3, h4⟩ := hr.sel hph
      split at hs
      · cases hs
      · rename_i t hlog
        have htp := hpos _ _ hlog
        have : ¬ t ≤ 0 := by omega
        simp only [this, if_false] at hs
        -- the result of compareAndUpdate
        have hT : timeAt eps log (r.lastExec + 1) = if t > timeAt eps log r.lastExec then t else timeAt eps log r.lastExec + eps := by
          simp [timeAt, hlog]
        have hcu : compareAndUpdate eps r t = (setLast r (timeAt eps log (r.lastExec + 1)), timeAt eps log (r.lastExec + 1)) := by
          unfold compareAndUpdate
          rw [h1, hT]
          by_cases hc : t > timeAt eps log r.lastExec
          · simp only [hc, if_true]
          · simp only [hc, if_false]
            have hmin := timeAt_min (eps := eps) (log := log) he r.lastExec
            have hfit := hf (r.lastExec + 1)
            rw [hT, if_neg hc] at hfit
            rw [add64_eq (by omega) hfit]
        rw [hcu] at hs
        simp only at hs
        injection hs with hs
        have hmin := timeAt_min (eps := eps) (log := log) he (r.lastExec + 1)
        have hnew : RepOk eps log { setLast r (timeAt eps log (r.lastExec + 1)) with phase := .running } := by
          refine ⟨?_, by intro h; simp at h, by intro h; simp at h, ?_, by intro h; simp at h, by simp⟩
          · intro s' t' hd
            exact hr.desc s' t' hd
          · intro _
            refine ⟨rfl, pageVal_set r _ hmin (hf _), Or.inr h3, ?_⟩
            intro s' t' hd
            have : r.desc = some (s', t') := hd
            rw [h3] at this
            injection this with this; injection this with ha hb
            show s' ≤ r.lastExec + 1
            omega
        have hu := ok_upd h i hnew
        subst hs
        refine ⟨hu.rep, hu.snaps, ?_⟩
        intro j s' t' hm
        rcases List.mem_append.1 hm with hm | hm
        · exact h.given j s' t' hm
        · simp at hm
          obtain ⟨rfl, rfl, rfl⟩ := hm
          exact ⟨rfl, h4⟩
    · cases hs
  | finish i =>
    simp only [step] at hs
    have hr := h.rep i
    generalize c.rep i = r at hs hr
    split at hs
    · rename_i hph
      obtain ⟨h1, h2, h3, h4⟩ := hr.run hph
      injection hs with hs; subst hs
      apply ok_upd h
      refine ⟨?_, ?_, by intro h; simp at h, by intro h; simp at h, by intro h; simp at h, by simp⟩
      · intro s' t' hd
        left
        exact h4 s' t' hd
      · intro _
        exact ⟨h1, h2, h4⟩
    · cases hs
  | crash i =>
    simp only [step] at hs
    have hr := h.rep i
    generalize c.rep i = r at hs hr
    split at hs
    · cases hs
    · rename_i hph
      injection hs with hs; subst hs
      apply ok_upd h
      refine ⟨?_, by intro h; simp at h, by intro h; simp at h, by intro h; simp at h, ?_, by simp⟩
      · intro s' t' hd
        exact hr.desc s' t' hd
      · intro _
        show pageVal r.page = timeAt eps log r.lastExec ∨ (pageVal r.page = timeAt eps log (r.lastExec + 1) ∧ r.desc = some (r.lastExec + 1, timeAt eps log r.lastExec))
        cases hq : r.phase with
        | idle => obtain ⟨h1, h2, h3⟩ := hr.idle hq; left; rw [h2, h1]
        | selected => obtain ⟨h1, h2, h3⟩ := hr.sel hq; left; rw [h2, h1]
        | running =>
          obtain ⟨h1, h2, h3, h4⟩ := hr.run hq
          rcases h3 with h3 | h3
          · left; exact h3
          · right; exact ⟨by rw [h2, h1], h3⟩
        | down => exact absurd hq hph
        | aborted => exact absurd hq hr.noAbort
  | boot i =>
    simp only [step] at hs
    split at hs
    · rename_i hph
      injection hs with hs; subst hs
      exact ok_upd h i (boot_ok he hf (h.rep i) hph)
    · cases hs
  | checkpoint i =>
    simp only [step] at hs
    split at hs
    · rename_i hph
      obtain ⟨h1, h2, h3⟩ := (h.rep i).idle hph
      injection hs with hs; subst hs
      refine ⟨h.rep, ?_, h.given⟩
      intro s p hm
      rcases List.mem_append.1 hm with hm | hm
      · exact h.snaps s p hm
      · simp at hm
        obtain ⟨rfl, rfl⟩ := hm
        rw [h2, h1]
    · cases hs
  | transfer i k =>
    simp only [step] at hs
    have hr := h.rep i
    generalize c.rep i = r at hs hr
    split at hs
    · cases hs
    · rename_i s p hk
      have hmem : (s, p) ∈ c.snaps := List.mem_of_getElem? hk
      have hv := h.snaps s p hmem
      split at hs
      · rename_i hc
        obtain ⟨hph, hgt⟩ := hc
        obtain ⟨h1, h2, h3⟩ := hr.idle hph
        injection hs with hs; subst hs
        apply ok_upd h
        have hm : (load { r with lastExec := s, page := p }) = { r with lastExec := s, page := p, mem := timeAt eps log s } := by
          cases hp : p with
          | some b => simp [load]; rw [hp] at hv; exact hv
          | none =>
            simp only [load]
            -- an empty page is the initial time; so is our own time, which is not larger
            have hv' : minTime = timeAt eps log s := by rw [hp] at hv; exact hv
            have hle := timeAt_mono (eps := eps) (log := log) he (Nat.le_of_lt hgt)
            have hmn := timeAt_min (eps := eps) (log := log) he r.lastExec
            have : r.mem = timeAt eps log s := by omega
            rw [← this]
        rw [hm]
        refine ⟨?_, ?_, ?_, ?_, ?_, ?_⟩
        · intro s' t' hd
          left; exact Nat.le_of_lt (Nat.lt_of_le_of_lt (h3 s' t' hd) hgt)
        · intro _
          exact ⟨rfl, hv, fun s' t' hd => Nat.le_of_lt (Nat.lt_of_le_of_lt (h3 s' t' hd) hgt)⟩
        · intro h; rw [hph] at h; cases h
        · intro h; rw [hph] at h; cases h
        · intro h; rw [hph] at h; cases h
        · rw [hph]; simp
      · cases hs

theorem ok_new (eps : Int) (log : Nat → Option Int) : Ok eps log newCluster := by
  refine ⟨?_, by intro s p h; simp [newCluster] at h, by intro i s t h; simp [newCluster] at h⟩
  intro i
  refine ⟨by intro s t h; simp [newCluster, newRep] at h, ?_, by intro h; simp [newCluster, newRep] at h,
    by intro h; simp [newCluster, newRep] at h, by intro h; simp [newCluster, newRep] at h, by simp [newCluster, newRep]⟩
  intro _
  exact ⟨rfl, rfl, by intro s t h; simp [newCluster, newRep] at h⟩

theorem ok_run {eps : Int} {log : Nat → Option Int} (he : 0 ≤ eps) (hf : Fits eps log) (hpos : Positive log) {es : List Ev} {c : Cluster}
    (h : Run eps log newCluster es c) : Ok eps log c := by
  induction h with
  | nil => exact ok_new eps log
  | snoc _ hs ih => exact ok_step he hf hpos ih hs

/-- C17, agreement: whatever the clocks, crashes, recoveries and state transfers, every time given to the application for
one batch - on any replica, at any attempt - is the same. -/
theorem same_time {eps : Int} {log : Nat → Option Int} (he : 0 ≤ eps) (hf : Fits eps log) (hpos : Positive log) {es : List Ev} {c : Cluster}
    (h : Run eps log newCluster es c) {i j s : Nat} {t t' : Int} (h1 : (i, s, t) ∈ c.given) (h2 : (j, s, t') ∈ c.given) : t = t' := by
  have ho := ok_run he hf hpos h
  rw [(ho.given i s t h1).1, (ho.given j s t' h2).1]

/-- C17, monotonicity: a later batch gets a strictly later time, on whichever replica. -/
theorem later_batch_later_time {eps : Int} {log : Nat → Option Int} (he : 0 < eps) (hf : Fits eps log) (hpos : Positive log) {es : List Ev}
    {c : Cluster} (h : Run eps log newCluster es c) {i j s s' : Nat} {t t' : Int} (h1 : (i, s, t) ∈ c.given) (h2 : (j, s', t') ∈ c.given)
    (hlt : s < s') : t < t' := by
  have ho := ok_run (Int.le_of_lt he) hf hpos h
  obtain ⟨rfl, _⟩ := ho.given i s t h1
  obtain ⟨rfl, hsome⟩ := ho.given j s' t' h2
  obtain ⟨k, rfl⟩ : ∃ k, s' = k + 1 := ⟨s' - 1, by omega⟩
  have hm := timeAt_mono (eps := eps) (log := log) (Int.le_of_lt he) (show s ≤ k by omega)
  obtain ⟨p, hp⟩ := Option.isSome_iff_exists.1 hsome
  simp only [timeAt, hp]
  split <;> omega

/-- C17: the time given is the proposed one unless an earlier batch already got that time or a later one; it is never below
the proposed one. -/
theorem time_is_proposed {eps : Int} {log : Nat → Option Int} (he : 0 ≤ eps) (hf : Fits eps log) (hpos : Positive log) {es : List Ev}
    {c : Cluster} (h : Run eps log newCluster es c) {i s : Nat} {t p : Int} (h1 : (i, s, t) ∈ c.given) (hp : log s = some p) :
    p ≤ t ∧ (p ≠ t → ∃ s' q, 0 < s' ∧ s' < s ∧ log s' = some q ∧ p ≤ timeAt eps log s') := by
  have ho := ok_run he hf hpos h
  obtain ⟨rfl, _⟩ := ho.given i s t h1
  have key : ∀ k, timeAt eps log k = minTime ∨ ∃ s' q, 0 < s' ∧ s' ≤ k ∧ log s' = some q ∧ timeAt eps log k = timeAt eps log s' := by
    intro k
    induction k with
    | zero => left; rfl
    | succ k ih =>
      cases hl : log (k + 1) with
      | none =>
        have hE : timeAt eps log (k + 1) = timeAt eps log k := by simp [timeAt, hl]
        rcases ih with ih | ⟨s', q, h1, h2, h3, h4⟩
        · left; rw [hE, ih]
        · right; exact ⟨s', q, h1, by omega, h3, by rw [hE, h4]⟩
      | some q => right; exact ⟨k + 1, q, by omega, Nat.le_refl _, hl, rfl⟩
  cases s with
  | zero =>
    have := hpos 0 p hp
    exfalso
    -- batches are numbered from 1: no time is given for number 0
    have : ∀ (es : List Ev) (c : Cluster), Run eps log newCluster es c → ∀ x ∈ c.given, x.2.1 ≠ 0 := by
      intro es c hr
      induction hr with
      | nil => intro x hx; simp [newCluster] at hx
      | @snoc _ c1 c2 e _ hs ih =>
        intro x hx
        cases e with
        | tick i =>
          simp only [step] at hs
          split at hs
          · split at hs
            · cases hs
            · split at hs
              · injection hs with hs; subst hs; exact ih x hx
              · injection hs with hs; subst hs
                rcases List.mem_append.1 hx with hx | hx
                · exact ih x hx
                · simp at hx; subst hx; simp
          · cases hs
        | start i =>
          simp only [step] at hs
          split at hs
          · split at hs <;> (injection hs with hs; subst hs; exact ih x hx)
          · cases hs
        | finish i => simp only [step] at hs; split at hs <;> first | (injection hs with hs; subst hs; exact ih x hx) | cases hs
        | crash i => simp only [step] at hs; split at hs <;> first | (injection hs with hs; subst hs; exact ih x hx) | cases hs
        | boot i => simp only [step] at hs; split at hs <;> first | (injection hs with hs; subst hs; exact ih x hx) | cases hs
        | checkpoint i => simp only [step] at hs; split at hs <;> first | (injection hs with hs; subst hs; exact ih x hx) | cases hs
        | transfer i k =>
          simp only [step] at hs
          split at hs
          · cases hs
          · split at hs <;> first | (injection hs with hs; subst hs; exact ih x hx) | cases hs
    exact this es c h _ h1 rfl
  | succ s =>
    have hT : timeAt eps log (s + 1) = if p > timeAt eps log s then p else timeAt eps log s + eps := by simp [timeAt, hp]
    by_cases hc : p > timeAt eps log s
    · rw [hT, if_pos hc]
      exact ⟨Int.le_refl _, fun h => absurd rfl h⟩
    · rw [hT, if_neg hc]
      refine ⟨by omega, fun _ => ?_⟩
      have hp0 := hpos _ _ hp
      rcases key s with hk | ⟨s', q, a, b, c1, d⟩
      · rw [hk] at hc; simp only [minTime] at hc; omega
      · exact ⟨s', q, a, by omega, c1, by omega⟩

/-- C17: no assertion of the time service fails, recovery always finds a page time not below the recovered one. -/
theorem never_aborts {eps : Int} {log : Nat → Option Int} (he : 0 ≤ eps) (hf : Fits eps log) (hpos : Positive log) {es : List Ev} {c : Cluster}
    (h : Run eps log newCluster es c) (i : Nat) : (c.rep i).phase ≠ .aborted :=
  ((ok_run he hf hpos h).rep i).noAbort

/-- C17: an accepted new proposal is positive and within the hard limit of the local clock, and every such proposal is
accepted. -/
theorem accepted_iff {hard now : Int} {seq m : Nat} {t : Int} (hs : m < seq) :
    checkTime hard now seq m t = some true ↔ 0 < t ∧ now - t ≤ hard ∧ t - now ≤ hard := by
  unfold checkTime withinBounds
  by_cases h0 : t ≤ 0
  · simp [h0]; omega
  · simp only [h0, if_false]
    have : seq > m := hs
    simp only [this, if_true, Option.some.injEq, Bool.not_eq_true', Bool.or_eq_false_iff, decide_eq_false_iff_not]
    omega

/-- with hard limit `hard`, two replicas that accept one proposal have clocks at most `2 * hard` apart; a proposal accepted by
one is accepted by every replica whose clock is close enough -/
theorem clocks_close {hard n1 n2 : Int} {seq m1 m2 : Nat} {t : Int} (h1 : m1 < seq) (h2 : m2 < seq)
    (a1 : checkTime hard n1 seq m1 t = some true) (a2 : checkTime hard n2 seq m2 t = some true) : n1 - n2 ≤ 2 * hard ∧ n2 - n1 ≤ 2 * hard := by
  rw [accepted_iff h1] at a1
  rw [accepted_iff h2] at a2
  omega

/-- a proposal carried over from an earlier view is not compared with the clock, however wrong it is -/
theorem transferred_not_checked {hard now : Int} {seq m : Nat} (hs : seq ≤ m) (t : Int) (h : 0 < t) : checkTime hard now seq m t = some true := by
  unfold checkTime
  have : ¬ t ≤ 0 := by omega
  have h2 : ¬ seq > m := by omega
  simp [this, h2]

/-- bound on the drift: if all proposals are at most `m` the time of batch `s` is at most `m + s * eps` -/
theorem drift {eps : Int} {log : Nat → Option Int} (he : 0 ≤ eps) {m : Int} (hm : 0 ≤ m) (h : ∀ s t, log s = some t → t ≤ m) (s : Nat) :
    timeAt eps log s ≤ m + s * eps := by
  induction s with
  | zero => simp [timeAt, minTime]; omega
  | succ s ih =>
    have : ((s + 1 : Nat) : Int) * eps = s * eps + eps := by
      rw [Int.natCast_succ, Int.add_mul]; omega
    have hpos : 0 ≤ (s : Int) * eps := Int.mul_nonneg (Int.natCast_nonneg s) he
    simp only [timeAt]
    split
    · omega
    · rename_i t ht
      have := h _ _ ht
      split <;> omega

/-! ## Executing a list of events, for the examples -/

def runAll (eps : Int) (log : Nat → Option Int) : Cluster → List Ev → Option Cluster
  | c, [] => some c
  | c, e :: es =>
    match step eps log c e with
    | none => none
    | some c' => runAll eps log c' es

theorem runAll_run {eps : Int} {log : Nat → Option Int} {c0 : Cluster} : ∀ (es pre : List Ev) (c c' : Cluster),
    Run eps log c0 pre c → runAll eps log c es = some c' → Run eps log c0 (pre ++ es) c'
  | [], pre, c, c', h, hr => by
    simp only [runAll, Option.some.injEq] at hr
    subst hr
    simpa using h
  | e :: es, pre, c, c', h, hr => by
    simp only [runAll] at hr
    cases hst : step eps log c e with
    | none => simp [hst] at hr
    | some d =>
      simp only [hst] at hr
      have := runAll_run es (pre ++ [e]) d c' (h.snoc hst) hr
      simpa using this

theorem exists_run {eps : Int} {log : Nat → Option Int} {c0 : Cluster} {es : List Ev} {g : List (Nat × Nat × Int)}
    (h : (runAll eps log c0 es).map (·.given) = some g) : ∃ c, Run eps log c0 es c ∧ c.given = g := by
  cases hr : runAll eps log c0 es with
  | none => simp [hr] at h
  | some c =>
    simp [hr] at h
    exact ⟨c, by simpa using runAll_run es [] c0 c .nil hr, h⟩

/-! ## What does not hold -/

/-- With `timeServiceEpsilonMillis = 0` two batches can get the same time. -/
theorem zero_eps_repeats : ∃ (log : Nat → Option Int) (es : List Ev) (c : Cluster),
    Positive log ∧ Run 0 log newCluster es c ∧ c.given = [(0, 1, 5), (0, 2, 5)] := by
  obtain ⟨c, h1, h2⟩ := exists_run (eps := 0) (log := fun _ => some 5) (c0 := newCluster)
    (es := [.start 0, .tick 0, .finish 0, .start 0, .tick 0]) (g := [(0, 1, 5), (0, 2, 5)]) (by decide +kernel)
  refine ⟨_, _, c, ?_, h1, h2⟩
  intro s t h
  simp at h
  omega

/-- ReplicaConfig.hpp:196-199 documents the time given to the application as `max(consensus_time, last_time + epsilon)`.
The code does not do that: a proposal above the last time but closer than epsilon is given as it is. -/
theorem not_documented_max : ∃ (log : Nat → Option Int) (es : List Ev) (c : Cluster),
    Positive log ∧ Run 10 log newCluster es c ∧ c.given = [(0, 1, 100), (0, 2, 101)] ∧ (101 : Int) ≠ max 101 (100 + 10) := by
  obtain ⟨c, h1, h2⟩ := exists_run (eps := 10) (log := fun s => some (99 + s)) (c0 := newCluster)
    (es := [.start 0, .tick 0, .finish 0, .start 0, .tick 0]) (g := [(0, 1, 100), (0, 2, 101)]) (by decide +kernel)
  refine ⟨_, _, c, ?_, h1, h2, by decide⟩
  intro s t h
  simp at h
  omega

/-! ## Example: two replicas, a crash in the middle of a batch, a state transfer, a time that goes back -/

def exLog : Nat → Option Int
  | 1 => some 100
  | 2 => some 90
  | 4 => some 102
  | _ => none

theorem example_run : ∃ c, Run 1 exLog newCluster
    ([.start 0, .tick 0, .finish 0, .start 0, .tick 0, .crash 0, .boot 0, .tick 0, .finish 0, .checkpoint 0, .transfer 1 0,
      .start 1, .finish 1, .start 1, .tick 1]) c ∧ c.given = [(0, 1, 100), (0, 2, 101), (0, 2, 101), (1, 4, 102)] :=
  exists_run (by decide +kernel)

theorem exLog_le : ∀ s t, exLog s = some t → t ≤ 102 ∧ 0 < t := by
  intro s t h
  unfold exLog at h
  split at h <;> (try injection h with h) <;> (try omega) <;> (try cases h)

theorem exLog_positive : Positive exLog := fun s t h => (exLog_le s t h).2

/-- the hypotheses of the theorems are met by this log -/
theorem exLog_fits : Fits 1 exLog := by
  have h4 : ∀ k, timeAt 1 exLog (k + 4) = 102 := by
    intro k
    induction k with
    | zero => decide
    | succ k ih =>
      have : exLog (k + 4 + 1) = none := by simp [exLog]
      show timeAt 1 exLog (k + 4 + 1) = 102
      rw [timeAt, this]
      exact ih
  intro s
  by_cases h : s < 4
  · match s, h with
    | 0, _ => decide
    | 1, _ => decide
    | 2, _ => decide
    | 3, _ => decide
  · obtain ⟨k, rfl⟩ : ∃ k, s = k + 4 := ⟨s - 4, by omega⟩
    rw [h4 k]
    decide

end Verif.Time
