/-
What the handoff guarantees (C57).
-/
import Verif.Handoff.Spec

set_option linter.unusedSimpArgs false
set_option linter.unusedVariables false

namespace Verif.Handoff
open Verif.Handoff.Spec

/-- The function that is being run. -/
def flight (s : State) : List Elem := match s.phase with | .running e => [e] | _ => []

/-- The synchronous call that is about to be told. -/
def telling (s : State) : List Nat := match s.phase with | .signalling e => [e.id] | _ => []

/-- The state and the pushes so far: `p1` synchronous, `p0` asynchronous. -/
structure J (p1 p0 : List Elem) (s : State) : Prop where
  all1 : kind true s.ran ++ kind true (flight s) ++ s.q1 = p1
  all0 : kind false s.ran ++ kind false (flight s) ++ s.q0 = p0
  told : (kind true s.ran).map (·.id) = s.flags.reverse ++ telling s
  rest : s.phase = .decided ∨ s.phase = .asleep → s.q1 = [] ∧ s.q0 = []
  sig : ∀ e, s.phase = .signalling e → e.sync = true

theorem J.init : J [] [] State.init := by
  refine ⟨rfl, rfl, rfl, ?_, ?_⟩ <;> simp [State.init]

theorem notify_flight (s : State) : flight (notify s) = flight s ∧ telling (notify s) = telling s := by
  unfold flight telling notify
  by_cases h : s.phase = .asleep <;> simp [h]

theorem J.notify {p1 p0 s} (h : J p1 p0 s) : J p1 p0 (notify s) := by
  obtain ⟨f1, f2⟩ := notify_flight s
  refine ⟨?_, ?_, ?_, ?_, ?_⟩
  · rw [f1]; exact h.all1
  · rw [f1]; exact h.all0
  · rw [f2]; exact h.told
  · intro hp
    refine h.rest ?_
    simp only [Handoff.notify] at hp
    split at hp
    · simp at hp
    · exact hp
  · intro e he
    refine h.sig e ?_
    simp only [Handoff.notify] at he
    split at he
    · cases he
    · exact he

theorem J.push {p1 p0 s s' e} (h : J p1 p0 s) (hp : push e s = some s') :
    J (p1 ++ kind true [e]) (p0 ++ kind false [e]) s' := by
  unfold Handoff.push at hp
  split at hp
  · cases hp
  · rename_i hd
    simp only [Option.some.injEq] at hp
    subst hp
    generalize hs : ({ s with
        q1 := if e.sync then s.q1 ++ [e] else s.q1
        q0 := if e.sync then s.q0 else s.q0 ++ [e] } : State) = t
    obtain ⟨f1, f2⟩ := notify_flight t
    have ff : flight t = flight s := by rw [← hs]; rfl
    have ft : telling t = telling s := by rw [← hs]; rfl
    have hran : (Handoff.notify t).ran = s.ran := by rw [← hs]; rfl
    have hfl : (Handoff.notify t).flags = s.flags := by rw [← hs]; rfl
    have hq1 : (Handoff.notify t).q1 = if e.sync then s.q1 ++ [e] else s.q1 := by rw [← hs]; rfl
    have hq0 : (Handoff.notify t).q0 = if e.sync then s.q0 else s.q0 ++ [e] := by rw [← hs]; rfl
    have hph : (Handoff.notify t).phase = if s.phase = .asleep then .look else s.phase := by rw [← hs]; rfl
    refine ⟨?_, ?_, ?_, ?_, ?_⟩
    · rw [f1, ff, hran, hq1, ← h.all1]
      cases hb : e.sync <;> simp [kind, hb]
    · rw [f1, ff, hran, hq0, ← h.all0]
      cases hb : e.sync <;> simp [kind, hb]
    · rw [f2, ft, hran, hfl]; exact h.told
    · intro hc
      rw [hph] at hc
      split at hc
      · simp at hc
      · rename_i hne
        rcases hc with hc | hc
        · exact absurd hc hd
        · exact absurd hc hne
    · intro x hx
      rw [hph] at hx
      split at hx
      · cases hx
      · exact h.sig x hx

theorem J.stop {p1 p0 s} (h : J p1 p0 s) : J p1 p0 (stop s) := by
  unfold Handoff.stop
  split
  · exact h
  · exact J.notify ⟨h.all1, h.all0, h.told, h.rest, h.sig⟩

theorem front_cases (s : State) :
    (∃ e r, s.q1 = e :: r ∧ front s = some (e, r, s.q0)) ∨
    (∃ e r, s.q1 = [] ∧ s.q0 = e :: r ∧ front s = some (e, [], r)) ∨
    (s.q1 = [] ∧ s.q0 = [] ∧ front s = none) := by
  unfold front
  cases h1 : s.q1 with
  | cons e r => exact Or.inl ⟨e, r, rfl, rfl⟩
  | nil =>
    cases h0 : s.q0 with
    | cons e r => exact Or.inr (Or.inl ⟨e, r, rfl, rfl, rfl⟩)
    | nil => exact Or.inr (Or.inr ⟨rfl, rfl, rfl⟩)

theorem kind_mem {b : Bool} {l : List Elem} {e : Elem} (h : e ∈ kind b l) : e.sync = b := by
  simpa using (List.mem_filter.mp h).2

theorem J.turn {p1 p0 s} (h : J p1 p0 s) (hk1 : ∀ e ∈ p1, e.sync = true) (hk0 : ∀ e ∈ p0, e.sync = false) :
    J p1 p0 (turn s) := by
  obtain ⟨q1, q0, st, ph, ran, fl⟩ := s
  have a1 := h.all1
  have a0 := h.all0
  have at' := h.told
  simp only at a1 a0 at'
  cases ph with
  | look =>
    simp only [flight, telling, kind, List.filter_nil, List.append_nil] at a1 a0 at'
    rcases front_cases ⟨q1, q0, st, .look, ran, fl⟩ with ⟨e, r, hq, hf⟩ | ⟨e, r, hq, hq', hf⟩ | ⟨hq, hq', hf⟩
    · simp only at hq
      subst hq
      have he : e.sync = true := hk1 e (by rw [← a1]; simp)
      simp only [Handoff.turn, hf]
      refine ⟨?_, ?_, ?_, by simp, by simp⟩
      · simpa [flight, kind, he] using a1
      · simpa [flight, kind, he] using a0
      · simpa [telling, kind] using at'
    · simp only at hq hq'
      subst hq hq'
      have he : e.sync = false := hk0 e (by rw [← a0]; simp)
      simp only [Handoff.turn, hf]
      refine ⟨?_, ?_, ?_, by simp, by simp⟩
      · simpa [flight, kind, he] using a1
      · simpa [flight, kind, he] using a0
      · simpa [telling, kind] using at'
    · simp only at hq hq'
      subst hq hq'
      simp only [Handoff.turn, hf]
      cases st
      · refine ⟨?_, ?_, ?_, by simp, by simp⟩
        · simpa [flight, kind] using a1
        · simpa [flight, kind] using a0
        · simpa [telling, kind] using at'
      · refine ⟨?_, ?_, ?_, by simp, by simp⟩
        · simpa [flight, kind] using a1
        · simpa [flight, kind] using a0
        · simpa [telling, kind] using at'
  | decided =>
    exact ⟨a1, a0, at', fun _ => h.rest (Or.inl rfl), by simp [Handoff.turn]⟩
  | asleep => exact h
  | ended => exact h
  | running e =>
    simp only [Handoff.turn]
    cases he : e.sync with
    | true =>
      simp only [flight, telling, kind, he, List.append_nil] at a1 a0 at'
      refine ⟨?_, ?_, ?_, by simp, ?_⟩
      · simpa [flight, kind, he, List.filter_append] using a1
      · simpa [flight, kind, he, List.filter_append] using a0
      · simpa [telling, kind, he, List.filter_append] using at'
      · intro x hx
        simp at hx
        exact hx ▸ he
    | false =>
      simp only [flight, telling, kind, he, List.append_nil] at a1 a0 at'
      refine ⟨?_, ?_, ?_, by simp, by simp⟩
      · simpa [flight, kind, he, List.filter_append] using a1
      · simpa [flight, kind, he, List.filter_append] using a0
      · simpa [telling, kind, he, List.filter_append] using at'
  | signalling e =>
    refine ⟨a1, a0, ?_, by simp [Handoff.turn], by simp [Handoff.turn]⟩
    simp only [telling] at at'
    simp [Handoff.turn, telling, at']

theorem pushed_kind (b : Bool) (ops : List Op) : ∀ e ∈ pushed b ops, e.sync = b := by
  intro e he
  simp only [pushed, List.mem_filterMap] at he
  obtain ⟨o, _, ho⟩ := he
  cases o with
  | push x =>
    simp only at ho
    split at ho
    · rename_i hb
      cases ho; exact hb
    · cases ho
  | stop => cases ho
  | turn => cases ho
  | wake => cases ho

theorem pushed_append (b : Bool) (x y : List Op) : pushed b (x ++ y) = pushed b x ++ pushed b y := by
  simp [pushed]

theorem J.step {a s s' o} (h : J (pushed true a) (pushed false a) s) (hs : step s o = some s') :
    J (pushed true (a ++ [o])) (pushed false (a ++ [o])) s' := by
  cases o with
  | push e =>
    have := h.push hs
    rw [pushed_append, pushed_append]
    cases hb : e.sync <;> simpa [pushed, kind, hb] using this
  | stop => cases hs; simpa [pushed_append, pushed] using h.stop
  | turn =>
    cases hs
    simpa [pushed_append, pushed] using h.turn (pushed_kind true a) (pushed_kind false a)
  | wake => cases hs; simpa [pushed_append, pushed] using h.notify

theorem J.run (ops : List Op) : ∀ {a s s'}, J (pushed true a) (pushed false a) s → run s ops = some s' →
    J (pushed true (a ++ ops)) (pushed false (a ++ ops)) s' := by
  induction ops with
  | nil => intro a s s' h hr; cases hr; simpa using h
  | cons o r ih =>
    intro a s s' h hr
    simp only [Handoff.run] at hr
    cases hs : Handoff.step s o with
    | none => rw [hs] at hr; cases hr
    | some t =>
      rw [hs] at hr
      have := ih (h.step hs) hr
      simpa [List.append_assoc] using this

theorem reach {ops s} (h : run State.init ops = some s) : J (pushed true ops) (pushed false ops) s := by
  simpa using J.init.run (a := []) ops h

/-! ### The properties -/

/-- **C57**: in every interleaving the functions of each kind are run in the order in which they were pushed,
each at most once, and nothing else is run. -/
theorem in_order {ops s} (h : run State.init ops = some s) (b : Bool) : kind b s.ran <+: pushed b ops := by
  have hj := reach h
  cases b with
  | true => rw [← hj.all1, List.append_assoc]; exact List.prefix_append _ _
  | false => rw [← hj.all0, List.append_assoc]; exact List.prefix_append _ _

/-- **C57**: a synchronous call returns only after its function was run. -/
theorem returns_after {ops s i} (h : run State.init ops = some s) (hi : i ∈ s.flags) :
    ∃ e ∈ s.ran, e.sync = true ∧ e.id = i := by
  have hj := reach h
  have : i ∈ (kind true s.ran).map (·.id) := by
    rw [hj.told]; simp [hi]
  obtain ⟨e, he, rfl⟩ := List.mem_map.mp this
  exact ⟨e, (List.mem_filter.mp he).1, kind_mem he, rfl⟩

/-- **C57**: an asynchronous function is taken only if no synchronous one waits. -/
theorem sync_first {ops s e} (h : run State.init ops = some s) (hp : s.phase = .look)
    (ht : (turn s).phase = .running e) (he : e.sync = false) : kind true s.ran = pushed true ops := by
  have hj := reach h
  have a1 := hj.all1
  simp only [flight, hp, kind, List.filter_nil, List.append_nil] at a1
  rcases front_cases s with ⟨x, r, hq, hf⟩ | ⟨x, r, hq, hq', hf⟩ | ⟨hq, hq', hf⟩
  · simp only [turn, hp, hf, Phase.running.injEq] at ht
    subst ht
    have : x.sync = true := pushed_kind true ops x (by rw [← a1, hq]; simp)
    rw [he] at this; cases this
  · rw [hq, List.append_nil] at a1; exact a1
  · simp only [turn, hp, hf] at ht
    split at ht <;> cases ht

/-- **C57**: the consumer never waits while a function waits to be run: no wake-up by a push is lost. -/
theorem no_push_missed {ops s} (h : run State.init ops = some s) (hp : s.phase = .asleep) (b : Bool) :
    kind b s.ran = pushed b ops := by
  have hj := reach h
  obtain ⟨h1, h0⟩ := hj.rest (Or.inr hp)
  cases b with
  | true =>
    rw [← hj.all1, h1]; simp [flight, hp, kind]
  | false =>
    rw [← hj.all0, h0]; simp [flight, hp, kind]

/-! ### Progress -/

theorem flight_len (s : State) (b : Bool) : (kind b (flight s)).length ≤ 1 := by
  unfold flight kind
  split
  · exact Nat.le_trans (List.length_filter_le _ _) (by simp)
  · simp

/-- Turns that are needed until `n` synchronous calls have returned. -/
def need (n : Nat) (s : State) : Nat :=
  if s.flags.length ≥ n then 0
  else
    3 * (n - s.flags.length) - (match s.phase with | .running e => if e.sync then 1 else 0 | .signalling _ => 2 | _ => 0) +
      (match s.phase with | .running e => if e.sync then 0 else 1 | _ => 0)

theorem flags_len {p1 p0 s} (h : J p1 p0 s) :
    s.flags.length + (telling s).length + (kind true (flight s)).length + s.q1.length = p1.length := by
  have h1 := congrArg List.length h.told
  have h2 := congrArg List.length h.all1
  simp at h1 h2
  omega

theorem need_notify (n : Nat) {s : State} (hp : s.phase ≠ .asleep) : notify s = s := by
  unfold notify
  rw [if_neg hp]

theorem need_step {n p1 p0 s s' o} (h : J p1 p0 s) (hk1 : ∀ e ∈ p1, e.sync = true) (hn : n ≤ p1.length)
    (hs : step s o = some s') (he : s.phase ≠ .ended ∨ s.flags.length ≥ n) :
    need n s' + (if o = .turn then 1 else 0) ≤ max (need n s) (if o = .turn then 1 else 0) ∧
    (s'.phase ≠ .ended ∨ s'.flags.length ≥ n) := by
  have hl := flags_len h
  by_cases hdone : s.flags.length ≥ n
  · have hmono : s'.flags.length ≥ s.flags.length := by
      cases o with
      | push e =>
        simp only [step, push] at hs
        split at hs
        · cases hs
        · cases hs; exact Nat.le_refl _
      | stop =>
        cases hs
        unfold stop
        split <;> exact Nat.le_refl _
      | turn =>
        cases hs
        unfold turn
        split
        · split <;> exact Nat.le_refl _
        all_goals simp
      | wake => cases hs; exact Nat.le_refl _
    have : need n s' = 0 := by unfold need; rw [if_pos (by omega)]
    refine ⟨by rw [this]; omega, Or.inr (by omega)⟩
  · have he : s.phase ≠ .ended := by
      rcases he with he | he
      · exact he
      · exact absurd he hdone
    have hasleep : s.phase ≠ .asleep := by
      intro hp
      have := (h.rest (Or.inr hp)).1
      simp [telling, flight, hp, kind, this] at hl
      omega
    have hdec : s.phase ≠ .decided := by
      intro hp
      have := (h.rest (Or.inl hp)).1
      simp [telling, flight, hp, kind, this] at hl
      omega
    cases o with
    | push e =>
      simp only [step, push, if_neg hdec, Option.some.injEq] at hs
      subst hs
      have hn' : ∀ t : State, t.phase = s.phase → notify t = t := fun t ht => need_notify n (ht ▸ hasleep)
      have hh := hn' ({ s with
        q1 := if e.sync then s.q1 ++ [e] else s.q1
        q0 := if e.sync then s.q0 else s.q0 ++ [e] }) rfl
      rw [hh]
      refine ⟨?_, Or.inl he⟩
      simp [need]
    | stop =>
      cases hs
      unfold stop
      split
      · exact ⟨by simp, Or.inl he⟩
      · have hn' : ∀ t : State, t.phase = s.phase → notify t = t := fun t ht => need_notify n (ht ▸ hasleep)
        have hh := hn' ({ s with
          stopped := true }) rfl
        rw [hh]
        exact ⟨by simp [need], Or.inl he⟩
    | wake =>
      cases hs
      rw [need_notify n hasleep]
      exact ⟨by simp, Or.inl he⟩
    | turn =>
      cases hs
      obtain ⟨q1, q0, st, ph, ran, fl⟩ := s
      simp only at hl hdone he hasleep hdec
      cases ph with
      | asleep => exact absurd rfl hasleep
      | decided => exact absurd rfl hdec
      | ended => exact absurd rfl he
      | look =>
        simp only [telling, flight, kind, List.filter_nil, List.length_nil] at hl
        rcases front_cases ⟨q1, q0, st, .look, ran, fl⟩ with ⟨e, r, hq, hf⟩ | ⟨e, r, hq, hq', hf⟩ | ⟨hq, hq', hf⟩
        · simp only at hq
          subst hq
          have a1 := h.all1
          have hes : e.sync = true := hk1 e (by rw [← a1]; simp)
          simp only [turn, hf]
          refine ⟨?_, Or.inl (by simp)⟩
          simp only [need, if_neg hdone, hes, if_true]
          omega
        · simp only at hq
          subst hq
          simp at hl
          omega
        · simp only at hq
          subst hq
          simp at hl
          omega
      | running e =>
        simp only [turn]
        cases hes : e.sync with
        | true =>
          refine ⟨?_, Or.inl (by simp)⟩
          simp only [need, if_neg hdone, hes, if_true]
          omega
        | false =>
          refine ⟨?_, Or.inl (by simp)⟩
          simp only [need, if_neg hdone, hes, if_true, Bool.false_eq_true, if_false]
          omega
      | signalling e =>
        simp only [turn]
        refine ⟨?_, Or.inl (by simp)⟩
        simp only [need, if_neg hdone, if_true, List.length_cons]
        split <;> omega

theorem need_run {n : Nat} (ops : List Op) : ∀ {a s s'}, J (pushed true a) (pushed false a) s →
    n ≤ (pushed true a).length → run s ops = some s' → (s.phase ≠ .ended ∨ s.flags.length ≥ n) →
    need n s' ≤ need n s - turns ops := by
  induction ops with
  | nil => intro a s s' h hn hr he; cases hr; exact Nat.le_of_eq rfl
  | cons o r ih =>
    intro a s s' h hn hr he
    simp only [run] at hr
    cases hs : step s o with
    | none => rw [hs] at hr; cases hr
    | some t =>
      rw [hs] at hr
      obtain ⟨h1, h2⟩ := need_step h (pushed_kind true a) hn hs he
      have hn' : n ≤ (pushed true (a ++ [o])).length := by rw [pushed_append, List.length_append]; omega
      have := ih (h.step hs) hn' hr h2
      have ht : turns (o :: r) = (if o = .turn then 1 else 0) + turns r := by
        simp only [turns, List.filter_cons]
        by_cases ho : o = .turn
        · simp [ho]; omega
        · simp [ho]
      rw [ht]
      by_cases ho : o = .turn
      · simp only [ho, if_true] at h1 ⊢; omega
      · simp only [ho, if_false] at h1 ⊢; omega

/-- **C57**: every synchronous call returns, whatever is pushed meanwhile and also if the handoff is being
stopped: with `k` functions of synchronous calls in the queue, after `3 k + 4` turns of the consumer. -/
theorem sync_returns {ops ops1 s s1} (h : run State.init ops = some s) (h1 : run s ops1 = some s1)
    (hp : s.phase ≠ .ended) (ht : 3 * s.q1.length + 4 ≤ turns ops1) :
    ∀ e ∈ pushed true ops, e.id ∈ s1.flags := by
  have hj := reach h
  have hj1 := hj.run ops1 h1
  have hn := need_run ops1 hj (Nat.le_refl _) h1 (Or.inl hp)
  have hl := flags_len hj
  have hfl := flight_len s true
  have hneed : need (pushed true ops).length s ≤ 3 * s.q1.length + 4 := by
    unfold need
    split
    · omega
    · have htel : (telling s).length + (kind true (flight s)).length ≤ 1 := by
        unfold telling flight
        cases s.phase with
        | running e => cases he : e.sync <;> simp [kind, he]
        | signalling e => simp [kind]
        | _ => simp [kind]
      cases hph : s.phase with
      | running e => cases he : e.sync <;> simp [he] <;> omega
      | _ => simp <;> omega
  have hz : need (pushed true ops).length s1 = 0 := by omega
  have hge : s1.flags.length ≥ (pushed true ops).length := by
    unfold need at hz
    split at hz
    · assumption
    · rename_i hlt
      exfalso
      revert hz
      cases hph : s1.phase with
      | running e => cases he : e.sync <;> simp [he] <;> omega
      | _ => simp <;> omega
  intro e he
  have a1 := hj1.all1
  have tl := hj1.told
  have hmap : (pushed true ops).map (·.id) <+: (pushed true (ops ++ ops1)).map (·.id) := by
    rw [pushed_append, List.map_append]; exact List.prefix_append _ _
  have hflag : s1.flags.reverse <+: (pushed true (ops ++ ops1)).map (·.id) := by
    rw [← a1, List.map_append, List.map_append, tl, List.append_assoc, List.append_assoc]
    exact List.prefix_append _ _
  have hpre := List.prefix_of_prefix_length_le hmap hflag (by simpa using hge)
  have := hpre.subset (List.mem_map_of_mem (f := (·.id)) he)
  simpa using this

/-! ### Stopping -/

/-- Turns that are needed until the consumer ends, once it was told to. -/
def left (s : State) : Nat :=
  3 * (s.q1.length + s.q0.length) + (match s.phase with | .running _ => 3 | .signalling _ => 2 | .look => 1 | _ => 0)

theorem left_run (ops : List Op) : ∀ {s s'}, s.stopped = true → s.phase ≠ .decided → s.phase ≠ .asleep →
    (∀ e, Op.push e ∉ ops) → run s ops = some s' →
    s'.stopped = true ∧ s'.phase ≠ .decided ∧ s'.phase ≠ .asleep ∧
    (s'.phase = .ended ∨ left s' ≤ left s - turns ops) := by
  induction ops with
  | nil => intro s s' h1 h2 h3 _ hr; cases hr; exact ⟨h1, h2, h3, Or.inr (by simp [turns])⟩
  | cons o r ih =>
    intro s s' h1 h2 h3 hno hr
    have hno' : ∀ e, Op.push e ∉ r := fun e he => hno e (List.mem_cons_of_mem _ he)
    simp only [run] at hr
    cases o with
    | push e => exact absurd List.mem_cons_self (hno e)
    | stop =>
      have : stop s = s := by unfold stop; rw [if_pos h1]
      simp only [step, this] at hr
      simpa [turns] using ih h1 h2 h3 hno' hr
    | wake =>
      have : notify s = s := need_notify 0 h3
      simp only [step, this] at hr
      simpa [turns] using ih h1 h2 h3 hno' hr
    | turn =>
      simp only [step] at hr
      have key : (turn s).stopped = true ∧ (turn s).phase ≠ .decided ∧ (turn s).phase ≠ .asleep ∧
          ((turn s).phase = .ended ∨ left (turn s) + 1 ≤ left s) := by
        obtain ⟨q1, q0, st, ph, ran, fl⟩ := s
        simp only at h1 h2 h3
        cases ph with
        | look =>
          rcases front_cases ⟨q1, q0, st, .look, ran, fl⟩ with ⟨e, r, hq, hf⟩ | ⟨e, r, hq, hq', hf⟩ | ⟨hq, hq', hf⟩
          · simp only at hq
            subst hq
            simp only [turn, hf]
            refine ⟨h1, by simp, by simp, Or.inr ?_⟩
            simp only [left, List.length_cons]; omega
          · simp only at hq hq'
            subst hq hq'
            simp only [turn, hf]
            refine ⟨h1, by simp, by simp, Or.inr ?_⟩
            simp only [left, List.length_cons]; omega
          · subst h1
            simp [turn, hf]
        | decided => exact absurd rfl h2
        | asleep => exact absurd rfl h3
        | running e =>
          simp only [turn]
          cases e.sync <;> exact ⟨h1, by simp, by simp, Or.inr (by simp only [left]; simp)⟩
        | signalling e =>
          simp only [turn]
          exact ⟨h1, by simp, by simp, Or.inr (by simp only [left]; omega)⟩
        | ended => exact ⟨h1, by simp [turn], by simp [turn], Or.inl rfl⟩
      obtain ⟨k1, k2, k3, k4⟩ := key
      obtain ⟨g1, g2, g3, g4⟩ := ih k1 k2 k3 hno' hr
      refine ⟨g1, g2, g3, ?_⟩
      have ht : turns (Op.turn :: r) = turns r + 1 := by simp [turns]
      rcases g4 with g4 | g4
      · exact Or.inl g4
      · rcases k4 with k4 | k4
        · left
          have stays : ∀ (ops : List Op) (s s' : State), s.phase = .ended → run s ops = some s' → s'.phase = .ended := by
            intro ops
            induction ops with
            | nil => intro s s' h hr; cases hr; exact h
            | cons o r ih =>
              intro s s' h hr
              simp only [run] at hr
              cases o with
              | push e =>
                simp only [step, push, h] at hr
                exact ih _ _ (by simp [notify, h]) hr
              | stop =>
                refine ih _ _ ?_ hr
                unfold stop
                split <;> simp [notify, h]
              | turn => exact ih _ _ (by simp [turn, h]) hr
              | wake => exact ih _ _ (by simp [notify, h]) hr
          exact stays r _ _ k4 hr
        · right; rw [ht]; omega

/-- **C57**: `stop` ends the consumer, after all functions that were pushed have been run, unless it comes
between the consumer's look at the queue and its wait. -/
theorem stop_ends {ops ops1 s s1} (h : run State.init ops = some s) (hp : s.phase ≠ .decided)
    (hns : s.stopped = false)
    (hno : ∀ e, Op.push e ∉ ops1) (h1 : run (stop s) ops1 = some s1)
    (ht : 3 * (s.q1.length + s.q0.length) + 4 ≤ turns ops1) :
    s1.phase = .ended ∧ ∀ b, kind b s1.ran = pushed b ops := by
  have hj := reach h
  have hstop : stop s = notify { s with
      stopped := true } := by unfold stop; rw [if_neg (by simp [hns])]
  have hst : (stop s).stopped = true := by rw [hstop]; rfl
  have hph : (stop s).phase = if s.phase = .asleep then .look else s.phase := by rw [hstop]; rfl
  have hd : (stop s).phase ≠ .decided := by
    rw [hph]; split
    · simp
    · exact hp
  have ha : (stop s).phase ≠ .asleep := by
    rw [hph]; split
    · simp
    · assumption
  have hq : (stop s).q1 = s.q1 ∧ (stop s).q0 = s.q0 := by rw [hstop]; exact ⟨rfl, rfl⟩
  obtain ⟨g1, g2, g3, g4⟩ := left_run ops1 hst hd ha hno h1
  have hle : left (stop s) ≤ 3 * (s.q1.length + s.q0.length) + 3 := by
    unfold left
    rw [hq.1, hq.2]
    cases (stop s).phase <;> simp
  have hend : s1.phase = .ended := by
    rcases g4 with g4 | g4
    · exact g4
    · have hz : left s1 = 0 := by omega
      unfold left at hz
      cases hpp : s1.phase with
      | ended => rfl
      | look => rw [hpp] at hz; simp at hz
      | decided => exact absurd hpp g2
      | asleep => exact absurd hpp g3
      | running e => rw [hpp] at hz; simp at hz
      | signalling e => rw [hpp] at hz; simp at hz
  refine ⟨hend, ?_⟩
  -- an ended consumer left empty queues, and nothing was pushed
  have empty : ∀ (ops : List Op) (s s' : State), (s.phase = .ended → s.q1 = [] ∧ s.q0 = []) →
      (∀ e, Op.push e ∉ ops) → run s ops = some s' → (s'.phase = .ended → s'.q1 = [] ∧ s'.q0 = []) := by
    intro ops
    induction ops with
    | nil => intro s s' h _ hr; cases hr; exact h
    | cons o r ih =>
      intro s s' h hno hr
      have hno' : ∀ e, Op.push e ∉ r := fun e he => hno e (List.mem_cons_of_mem _ he)
      simp only [run] at hr
      have hnot : ∀ t : State, (t.phase = .ended → t.q1 = [] ∧ t.q0 = []) →
          ((notify t).phase = .ended → (notify t).q1 = [] ∧ (notify t).q0 = []) := by
        intro t ht hpe
        refine ht ?_
        simp only [notify] at hpe
        split at hpe
        · cases hpe
        · exact hpe
      cases o with
      | push e => exact absurd List.mem_cons_self (hno e)
      | stop =>
        refine ih _ _ ?_ hno' hr
        unfold stop
        split
        · exact h
        · exact hnot { s with
            stopped := true } h
      | wake => exact ih _ _ (hnot s h) hno' hr
      | turn =>
        refine ih _ _ ?_ hno' hr
        obtain ⟨q1, q0, st, ph, ran, fl⟩ := s
        cases ph with
        | look =>
          rcases front_cases ⟨q1, q0, st, .look, ran, fl⟩ with ⟨e, r, hq, hf⟩ | ⟨e, r, hq, hq', hf⟩ | ⟨hq, hq', hf⟩
          · simp [turn, hf]
          · simp [turn, hf]
          · simp only at hq hq'
            subst hq hq'
            simp [turn, hf]
        | ended => exact h
        | running e => simp only [turn]; cases e.sync <;> simp
        | decided => simp [turn]
        | asleep => simp [turn]
        | signalling e => simp [turn]
  by_cases hse : s.phase = .ended
  · -- the consumer can only have ended after a stop
    exfalso
    have only : ∀ (ops : List Op) (s s' : State), (s.phase = .ended → s.stopped = true) → run s ops = some s' →
        (s'.phase = .ended → s'.stopped = true) := by
      intro ops
      induction ops with
      | nil => intro s s' h hr; cases hr; exact h
      | cons o r ih =>
        intro s s' h hr
        simp only [run] at hr
        cases hs : step s o with
        | none => rw [hs] at hr; cases hr
        | some t =>
          rw [hs] at hr
          refine ih t s' ?_ hr
          have hnot : ∀ t : State, (t.phase = .ended → t.stopped = true) →
              ((notify t).phase = .ended → (notify t).stopped = true) := by
            intro t ht hpe
            refine ht ?_
            simp only [notify] at hpe
            split at hpe
            · cases hpe
            · exact hpe
          cases o with
          | push e =>
            simp only [step, push] at hs
            split at hs
            · cases hs
            · cases hs; exact hnot _ h
          | stop =>
            cases hs
            unfold stop
            split
            · exact h
            · exact hnot _ (fun _ => rfl)
          | wake => cases hs; exact hnot s h
          | turn =>
            cases hs
            obtain ⟨q1, q0, st, ph, ran, fl⟩ := s
            cases ph with
            | look =>
              rcases front_cases ⟨q1, q0, st, .look, ran, fl⟩ with ⟨e, r, hq, hf⟩ | ⟨e, r, hq, hq', hf⟩ | ⟨hq, hq', hf⟩
              · simp [turn, hf]
              · simp [turn, hf]
              · cases st <;> simp [turn, hf]
            | ended => exact h
            | running e => simp only [turn]; cases e.sync <;> simp
            | decided => simp [turn]
            | asleep => simp [turn]
            | signalling e => simp [turn]
    have := only ops State.init s (by simp [State.init]) h hse
    rw [hns] at this; cases this
  · have hse' : (stop s).phase ≠ .ended := by
      rw [hph]; split
      · simp
      · exact hse
    obtain ⟨e1, e0⟩ := empty ops1 _ _ (fun hc => absurd hc hse') hno h1 hend
    have hj1 : J (pushed true (ops ++ ops1)) (pushed false (ops ++ ops1)) s1 := hj.stop.run ops1 h1
    have hnop : ∀ b, pushed b ops1 = [] := by
      intro b
      simp only [pushed, List.filterMap_eq_nil_iff]
      intro o ho
      cases o with
      | push e => exact absurd ho (hno e)
      | _ => rfl
    intro b
    cases b with
    | true =>
      have := hj1.all1
      rw [pushed_append, hnop, e1] at this
      simpa [flight, hend, kind] using this
    | false =>
      have := hj1.all0
      rw [pushed_append, hnop, e0] at this
      simpa [flight, hend, kind] using this

/-- **C57 (BUG127)**: `stop` does not lock the mutex: if it comes after the consumer looked and before it
waits, its notification is lost, and the consumer sleeps through every continuation without a push or a
spurious wake-up: `join` does not return. -/
theorem stop_lost {ops s} (h : run State.init ops = some s) (hp : s.phase = .decided) (hns : s.stopped = false)
    (more : List Op) (hm : ∀ o ∈ more, o = .turn ∨ o = .stop) (s1 : State) (h1 : run (stop s) more = some s1) :
    s1.stopped = true ∧ (s1.phase = .decided ∨ s1.phase = .asleep) := by
  have h0 : (stop s).stopped = true ∧ ((stop s).phase = .decided ∨ (stop s).phase = .asleep) := by
    unfold stop
    rw [if_neg (by simp [hns])]
    simp [notify, hp]
  generalize stop s = t at h0 h1
  induction more generalizing t with
  | nil => cases h1; exact h0
  | cons o r ih =>
    have hm' : ∀ o ∈ r, o = .turn ∨ o = .stop := fun o ho => hm o (List.mem_cons_of_mem _ ho)
    simp only [run] at h1
    rcases hm o List.mem_cons_self with rfl | rfl
    · simp only [step] at h1
      refine ih hm' (turn t) ?_ h1
      rcases h0.2 with hh | hh
      · simp [turn, hh, h0.1]
      · simp [turn, hh, h0.1]
    · simp only [step] at h1
      refine ih hm' (stop t) ?_ h1
      unfold stop
      rw [if_pos h0.1]
      exact h0

/-- **C57 (BUG128)**: `push` does not look at `stopped_`: after the end of the consumer no function is run,
and no synchronous call returns, in any continuation. -/
theorem push_after_end_hangs {s} (hp : s.phase = .ended) (more : List Op) (s1 : State)
    (h1 : run s more = some s1) : s1.ran = s.ran ∧ s1.flags = s.flags ∧ s1.phase = .ended := by
  induction more generalizing s with
  | nil => cases h1; exact ⟨rfl, rfl, hp⟩
  | cons o r ih =>
    simp only [run] at h1
    cases o with
    | push e =>
      simp only [step, push, hp] at h1
      exact ih (s := notify { s with
        q1 := if e.sync then s.q1 ++ [e] else s.q1
        q0 := if e.sync then s.q0 else s.q0 ++ [e] }) (by simp [notify, hp]) (by simpa [hp] using h1)
    | stop =>
      simp only [step] at h1
      have e1 : (stop s).ran = s.ran := by unfold stop; split <;> rfl
      have e2 : (stop s).flags = s.flags := by unfold stop; split <;> rfl
      have e3 : (stop s).phase = .ended := by unfold stop; split <;> simp [notify, hp]
      have := ih e3 h1
      rw [e1, e2] at this
      exact this
    | turn =>
      have e : turn s = s := by simp [turn, hp]
      simp only [step, e] at h1
      exact ih hp h1
    | wake =>
      have e : notify s = s := need_notify 0 (by simp [hp])
      simp only [step, e] at h1
      exact ih hp h1

end Verif.Handoff
