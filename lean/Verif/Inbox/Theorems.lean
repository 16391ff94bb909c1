/-
Messages are neither lost nor doubled nor reordered nor starved between the threads (C52).
-/
import Verif.Inbox.Spec

set_option linter.unusedSimpArgs false
set_option linter.unusedVariables false

namespace Verif.Inbox
open Spec
variable {E I : Type}

/-! ### The observer -/

theorem accepted_append (a b : List (Ev E I)) : accepted (a ++ b) = accepted a ++ accepted b := by
  simp [accepted, List.filterMap_append]
theorem pushed_append (a b : List (Ev E I)) : pushed (a ++ b) = pushed a ++ pushed b := by
  simp [pushed, List.filterMap_append]
theorem gotE_append (a b : List (Ev E I)) : gotE (a ++ b) = gotE a ++ gotE b := by
  simp [gotE, List.filterMap_append]
theorem gotI_append (a b : List (Ev E I)) : gotI (a ++ b) = gotI a ++ gotI b := by
  simp [gotI, List.filterMap_append]

/-! ### One step -/

structure Inv (s : State E I) : Prop where
  idle : s.phase = .waiting → s.le = [] ∧ s.li = []
  boundL : s.le.length ≤ maxPending
  boundP : s.pe.length ≤ maxPending

theorem Inv.init : Inv (State.init : State E I) := ⟨(fun h => by cases h), by simp [State.init], by simp [State.init]⟩

/-- The ways the dispatching thread goes on. -/
theorem dispatch_cases (s : State E I) (hi : Inv s) :
    (∃ i r, s.li = i :: r ∧ s.phase = .running ∧ dispatch s = (some (.internal i), ⟨s.pe, s.pi, s.le, r, .running⟩)) ∨
    (∃ e r, s.li = [] ∧ s.le = e :: r ∧ s.phase = .running ∧
      dispatch s = (some (.external e), ⟨s.pe, s.pi, r, [], .running⟩)) ∨
    (s.li = [] ∧ s.le = [] ∧ s.pe = [] ∧ s.pi = [] ∧ s.phase = .running ∧
      dispatch s = (none, ⟨[], [], [], [], .waiting⟩)) ∨
    (s.li = [] ∧ s.le = [] ∧ s.pe = [] ∧ s.pi = [] ∧ s.phase = .waiting ∧
      dispatch s = (some .nothing, ⟨[], [], [], [], .running⟩)) ∨
    (∃ i r, s.li = [] ∧ s.le = [] ∧ s.pi = i :: r ∧
      dispatch s = (some (.internal i), ⟨[], [], s.pe, r, .running⟩)) ∨
    (∃ e r, s.li = [] ∧ s.le = [] ∧ s.pi = [] ∧ s.pe = e :: r ∧
      dispatch s = (some (.external e), ⟨[], [], r, [], .running⟩)) := by
  obtain ⟨pe, pi, le, li, ph⟩ := s
  have hidle := hi.idle
  simp only at hidle
  cases ph with
  | running =>
    cases li with
    | cons i r => left; exact ⟨i, r, rfl, rfl, rfl⟩
    | nil =>
      cases le with
      | cons e r => right; left; exact ⟨e, r, rfl, rfl, rfl, rfl⟩
      | nil =>
        cases pi with
        | cons i r => right; right; right; right; left; exact ⟨i, r, rfl, rfl, rfl, by cases pe <;> rfl⟩
        | nil =>
          cases pe with
          | cons e r => right; right; right; right; right; exact ⟨e, r, rfl, rfl, rfl, rfl, rfl⟩
          | nil => right; right; left; exact ⟨rfl, rfl, rfl, rfl, rfl, rfl⟩
  | waiting =>
    obtain ⟨rfl, rfl⟩ := hidle rfl
    cases pi with
    | cons i r => right; right; right; right; left; exact ⟨i, r, rfl, rfl, rfl, by cases pe <;> rfl⟩
    | nil =>
      cases pe with
      | cons e r => right; right; right; right; right; exact ⟨e, r, rfl, rfl, rfl, rfl, rfl⟩
      | nil => right; right; right; left; exact ⟨rfl, rfl, rfl, rfl, rfl, rfl⟩

/-- What one step does to messages: nothing is lost, and order is kept. -/
theorem step_spec (s : State E I) (hi : Inv s) (o : Op E I) :
    Inv (step s o).2 ∧
    s.le ++ s.pe ++ accepted (step s o).1 = gotE (step s o).1 ++ ((step s o).2.le ++ (step s o).2.pe) ∧
    s.li ++ s.pi ++ pushed (step s o).1 = gotI (step s o).1 ++ ((step s o).2.li ++ (step s o).2.pi) := by
  cases o with
  | ext e =>
    simp only [step, pushExternal]
    split
    · exact ⟨hi, by simp [accepted, gotE], by simp [pushed, gotI]⟩
    · rename_i h
      refine ⟨⟨hi.idle, hi.boundL, ?_⟩, by simp [accepted, gotE], by simp [pushed, gotI]⟩
      show (s.pe ++ [e]).length ≤ maxPending
      simp at h ⊢
      omega
  | int i =>
    refine ⟨⟨hi.idle, hi.boundL, hi.boundP⟩, ?_, ?_⟩
    · simp [step, pushInternal, accepted, gotE]
    · simp [step, pushInternal, pushed, gotI]
  | disp =>
    have hL := hi.boundL
    have hP := hi.boundP
    rcases dispatch_cases s hi with ⟨i, r, h1, h2, hd⟩ | ⟨e, r, h1, h2, h3, hd⟩ | ⟨h1, h2, h3, h4, h5, hd⟩ |
      ⟨h1, h2, h3, h4, h5, hd⟩ | ⟨i, r, h1, h2, h3, hd⟩ | ⟨e, r, h1, h2, h3, h4, hd⟩ <;>
    simp only [step, hd]
    · exact ⟨⟨(fun h => by cases h), hL, hP⟩, by simp [accepted, gotE], by simp [pushed, gotI, h1]⟩
    · rw [h2] at hL
      simp at hL
      exact ⟨⟨(fun h => by cases h), by show r.length ≤ _; omega, hP⟩, by simp [accepted, gotE, h2],
        by simp [pushed, gotI, h1]⟩
    · exact ⟨⟨fun _ => ⟨rfl, rfl⟩, by simp, by simp⟩, by simp [accepted, gotE, h2, h3], by simp [pushed, gotI, h1, h4]⟩
    · exact ⟨⟨fun _ => ⟨rfl, rfl⟩, by simp, by simp⟩, by simp [accepted, gotE, h2, h3], by simp [pushed, gotI, h1, h4]⟩
    · exact ⟨⟨(fun h => by cases h), hP, by simp⟩, by simp [accepted, gotE, h2], by simp [pushed, gotI, h1, h3]⟩
    · rw [h4] at hP
      simp at hP
      exact ⟨⟨(fun h => by cases h), by show r.length ≤ _; omega, by simp⟩, by simp [accepted, gotE, h2, h4],
        by simp [pushed, gotI, h1, h3]⟩

theorem run_spec (ops : List (Op E I)) : ∀ (s : State E I), Inv s →
    Inv (run s ops).2 ∧
    s.le ++ s.pe ++ accepted (run s ops).1 = gotE (run s ops).1 ++ ((run s ops).2.le ++ (run s ops).2.pe) ∧
    s.li ++ s.pi ++ pushed (run s ops).1 = gotI (run s ops).1 ++ ((run s ops).2.li ++ (run s ops).2.pi) := by
  induction ops with
  | nil => intro s hi; exact ⟨hi, by simp [run, accepted, gotE], by simp [run, pushed, gotI]⟩
  | cons o r ih =>
    intro s hi
    obtain ⟨h1, h2, h3⟩ := step_spec s hi o
    obtain ⟨g1, g2, g3⟩ := ih _ h1
    refine ⟨g1, ?_, ?_⟩
    · show s.le ++ s.pe ++ accepted ((step s o).1 ++ (run (step s o).2 r).1)
        = gotE ((step s o).1 ++ (run (step s o).2 r).1) ++ ((run (step s o).2 r).2.le ++ (run (step s o).2 r).2.pe)
      rw [accepted_append, gotE_append, ← List.append_assoc, h2]
      simp only [List.append_assoc] at g2 ⊢
      rw [g2]
    · show s.li ++ s.pi ++ pushed ((step s o).1 ++ (run (step s o).2 r).1)
        = gotI ((step s o).1 ++ (run (step s o).2 r).1) ++ ((run (step s o).2 r).2.li ++ (run (step s o).2 r).2.pi)
      rw [pushed_append, gotI_append, ← List.append_assoc, h3]
      simp only [List.append_assoc] at g3 ⊢
      rw [g3]

/-! ### Whole executions -/

/-- **C52**: in every interleaving, the messages given to the handlers, followed by those that still wait,
are the messages that were taken: each exactly once, in the order in which they were pushed. -/
theorem exactly_once {ops : List (Op E I)} {evs s} (h : run State.init ops = (evs, s)) :
    accepted evs = gotE evs ++ (s.le ++ s.pe) ∧ pushed evs = gotI evs ++ (s.li ++ s.pi) := by
  obtain ⟨_, h2, h3⟩ := run_spec ops State.init Inv.init
  rw [h] at h2 h3
  exact ⟨h2, h3⟩

/-- **C52**: an external message is refused only if at least 20000 messages that were taken have not been
handled. -/
theorem refused_only_when_full {ops : List (Op E I)} {evs s e} (h : run State.init ops = (evs, s))
    (hd : (step s (.ext e)).1 = [.dropped e]) : (gotE evs).length + 20000 ≤ (accepted evs).length := by
  obtain ⟨h1, _⟩ := exactly_once h
  rw [h1]
  simp only [step, pushExternal] at hd
  split at hd
  · rename_i hf
    have hf : maxPending ≤ s.pe.length := hf
    simp only [List.length_append, maxPending] at hf ⊢
    omega
  · simp at hd

/-- **C52**: and it is taken if fewer than 20000 wait. -/
theorem taken_when_room {ops : List (Op E I)} {evs s} (e : E) (h : run State.init ops = (evs, s))
    (hr : (accepted evs).length < (gotE evs).length + 20000) : (step s (.ext e)).1 = [.accepted e] := by
  obtain ⟨h1, _⟩ := exactly_once h
  rw [h1] at hr
  simp only [List.length_append] at hr
  simp only [step, pushExternal]
  have hm : ¬ s.pe.length ≥ maxPending := by
    have : maxPending = 20000 := rfl
    omega
  simp [hm]

/-- **C52**: no more than 40000 external messages are held. -/
theorem held_bounded {ops : List (Op E I)} {evs s} (h : run State.init ops = (evs, s)) :
    (accepted evs).length ≤ (gotE evs).length + 40000 := by
  obtain ⟨h1, _⟩ := exactly_once h
  have hi := (run_spec ops State.init (Inv.init : Inv (State.init : State E I))).1
  rw [h] at hi
  have := hi.boundL
  have := hi.boundP
  rw [h1]
  simp only [List.length_append, maxPending] at *
  omega

/-- **C52**: the dispatching thread waits, or goes round with nothing, only when everything was handled. -/
theorem idle_only_when_empty {ops : List (Op E I)} {evs s} (h : run State.init ops = (evs, s))
    (hd : (dispatch s).1 = none ∨ (dispatch s).1 = some .nothing) :
    accepted evs = gotE evs ∧ pushed evs = gotI evs := by
  obtain ⟨h1, h2⟩ := exactly_once h
  have hi := (run_spec ops State.init (Inv.init : Inv (State.init : State E I))).1
  rw [h] at hi
  rcases dispatch_cases s hi with ⟨i, r, g1, g2, hd'⟩ | ⟨e, r, g1, g2, g3, hd'⟩ | ⟨g1, g2, g3, g4, g5, hd'⟩ |
      ⟨g1, g2, g3, g4, g5, hd'⟩ | ⟨i, r, g1, g2, g3, hd'⟩ | ⟨e, r, g1, g2, g3, g4, hd'⟩ <;>
    rw [hd'] at hd <;> (try (rcases hd with hd | hd <;> cases hd))
  · rw [h1, h2, g1, g2, g3, g4]; simp
  · rw [h1, h2, g1, g2, g3, g4]; simp

/-! ### Nobody starves -/

/-- What is in the hands of the dispatching thread stays there until it is handled. -/
theorem local_stays (ops : List (Op E I)) : ∀ (s : State E I), Inv s →
    s.le <+: gotE (run s ops).1 ++ (run s ops).2.le ∧ s.li <+: gotI (run s ops).1 ++ (run s ops).2.li := by
  induction ops with
  | nil => intro s _; exact ⟨by simp [run, gotE], by simp [run, gotI]⟩
  | cons o r ih =>
    intro s hi
    obtain ⟨h1, _, _⟩ := step_spec s hi o
    obtain ⟨g1, g2⟩ := ih _ h1
    have e1 : gotE (run s (o :: r)).1 = gotE (step s o).1 ++ gotE (run (step s o).2 r).1 := gotE_append _ _
    have e2 : gotI (run s (o :: r)).1 = gotI (step s o).1 ++ gotI (run (step s o).2 r).1 := gotI_append _ _
    rw [e1, e2]
    show s.le <+: _ ++ (run (step s o).2 r).2.le ∧ s.li <+: _ ++ (run (step s o).2 r).2.li
    cases o with
    | ext e =>
      have q1 : (step s (.ext e)).2.le = s.le := by simp only [step, pushExternal]; split <;> rfl
      have q2 : (step s (.ext e)).2.li = s.li := by simp only [step, pushExternal]; split <;> rfl
      have q3 : gotE (step s (Op.ext e)).1 = [] := by simp only [step, pushExternal]; split <;> rfl
      have q4 : gotI (step s (Op.ext e)).1 = [] := by simp only [step, pushExternal]; split <;> rfl
      rw [q1] at g1; rw [q2] at g2
      rw [q3, q4]
      exact ⟨g1, g2⟩
    | int i => exact ⟨g1, g2⟩
    | disp =>
      rcases dispatch_cases s hi with ⟨i, t, c1, c2, hd⟩ | ⟨e, t, c1, c2, c3, hd⟩ | ⟨c1, c2, c3, c4, c5, hd⟩ |
        ⟨c1, c2, c3, c4, c5, hd⟩ | ⟨i, t, c1, c2, c3, hd⟩ | ⟨e, t, c1, c2, c3, c4, hd⟩
      · have hs : step s (.disp : Op E I) = ([.got (.internal i)], ⟨s.pe, s.pi, s.le, t, .running⟩) := by
          simp only [step, hd]; rfl
        rw [hs] at g1 g2 ⊢
        refine ⟨g1, ?_⟩
        rw [c1]
        exact List.prefix_cons_inj i |>.mpr g2
      · have hs : step s (.disp : Op E I) = ([.got (.external e)], ⟨s.pe, s.pi, t, [], .running⟩) := by
          simp only [step, hd]; rfl
        rw [hs] at g1 g2 ⊢
        refine ⟨?_, by rw [c1]; exact List.nil_prefix⟩
        rw [c2]
        exact List.prefix_cons_inj e |>.mpr g1
      all_goals
        rw [c1, c2]
        exact ⟨List.nil_prefix, List.nil_prefix⟩

/-- What is in the hands of the dispatching thread is handled in as many turns. -/
theorem local_handled (ops : List (Op E I)) : ∀ (s : State E I), Inv s →
    s.li.length + s.le.length ≤ turns ops → s.le <+: gotE (run s ops).1 ∧ s.li <+: gotI (run s ops).1 := by
  induction ops with
  | nil =>
    intro s _ ht
    have ht : s.li.length + s.le.length ≤ 0 := ht
    have a : s.le = [] := List.length_eq_zero_iff.mp (by omega)
    have b : s.li = [] := List.length_eq_zero_iff.mp (by omega)
    rw [a, b]
    exact ⟨List.nil_prefix, List.nil_prefix⟩
  | cons o r ih =>
    intro s hi ht
    obtain ⟨h1, _, _⟩ := step_spec s hi o
    have e1 : gotE (run s (o :: r)).1 = gotE (step s o).1 ++ gotE (run (step s o).2 r).1 := gotE_append _ _
    have e2 : gotI (run s (o :: r)).1 = gotI (step s o).1 ++ gotI (run (step s o).2 r).1 := gotI_append _ _
    rw [e1, e2]
    cases o with
    | ext e =>
      have q1 : (step s (.ext e)).2.le = s.le := by simp only [step, pushExternal]; split <;> rfl
      have q2 : (step s (.ext e)).2.li = s.li := by simp only [step, pushExternal]; split <;> rfl
      have q3 : gotE (step s (Op.ext e)).1 = [] := by simp only [step, pushExternal]; split <;> rfl
      have q4 : gotI (step s (Op.ext e)).1 = [] := by simp only [step, pushExternal]; split <;> rfl
      obtain ⟨g1, g2⟩ := ih _ h1 (by rw [q1, q2]; exact ht)
      rw [q1] at g1; rw [q2] at g2
      rw [q3, q4]
      exact ⟨g1, g2⟩
    | int i => exact ih _ h1 ht
    | disp =>
      have ht : s.li.length + s.le.length ≤ turns r + 1 := ht
      rcases dispatch_cases s hi with ⟨i, t, c1, c2, hd⟩ | ⟨e, t, c1, c2, c3, hd⟩ | ⟨c1, c2, c3, c4, c5, hd⟩ |
        ⟨c1, c2, c3, c4, c5, hd⟩ | ⟨i, t, c1, c2, c3, hd⟩ | ⟨e, t, c1, c2, c3, c4, hd⟩
      · have hs : step s (.disp : Op E I) = ([.got (.internal i)], ⟨s.pe, s.pi, s.le, t, .running⟩) := by
          simp only [step, hd]; rfl
        rw [hs] at h1 ⊢
        rw [c1] at ht
        simp only [List.length_cons] at ht
        obtain ⟨g1, g2⟩ := ih _ h1 (show t.length + s.le.length ≤ turns r by omega)
        refine ⟨g1, ?_⟩
        rw [c1]
        exact List.prefix_cons_inj i |>.mpr g2
      · have hs : step s (.disp : Op E I) = ([.got (.external e)], ⟨s.pe, s.pi, t, [], .running⟩) := by
          simp only [step, hd]; rfl
        rw [hs] at h1 ⊢
        rw [c1, c2] at ht
        simp only [List.length_cons, List.length_nil] at ht
        obtain ⟨g1, g2⟩ := ih _ h1 (show 0 + t.length ≤ turns r by omega)
        refine ⟨?_, by rw [c1]; exact List.nil_prefix⟩
        rw [c2]
        exact List.prefix_cons_inj e |>.mpr g1
      all_goals
        rw [c1, c2]
        exact ⟨List.nil_prefix, List.nil_prefix⟩

/-- What was pushed is in the hands of the dispatching thread, or handled, one turn after it has worked off
what it had in its hands. -/
theorem taken_over (ops : List (Op E I)) : ∀ (s : State E I), Inv s →
    s.li.length + s.le.length + 1 ≤ turns ops →
    s.le ++ s.pe <+: gotE (run s ops).1 ++ (run s ops).2.le ∧
    s.li ++ s.pi <+: gotI (run s ops).1 ++ (run s ops).2.li := by
  induction ops with
  | nil => intro s _ ht; have ht : s.li.length + s.le.length + 1 ≤ 0 := ht; omega
  | cons o r ih =>
    intro s hi ht
    obtain ⟨h1, _, _⟩ := step_spec s hi o
    have e1 : gotE (run s (o :: r)).1 = gotE (step s o).1 ++ gotE (run (step s o).2 r).1 := gotE_append _ _
    have e2 : gotI (run s (o :: r)).1 = gotI (step s o).1 ++ gotI (run (step s o).2 r).1 := gotI_append _ _
    rw [e1, e2]
    show s.le ++ s.pe <+: _ ++ (run (step s o).2 r).2.le ∧ s.li ++ s.pi <+: _ ++ (run (step s o).2 r).2.li
    cases o with
    | ext e =>
      have q1 : (step s (.ext e)).2.le = s.le := by simp only [step, pushExternal]; split <;> rfl
      have q2 : (step s (.ext e)).2.li = s.li := by simp only [step, pushExternal]; split <;> rfl
      have q3 : gotE (step s (Op.ext e)).1 = [] := by simp only [step, pushExternal]; split <;> rfl
      have q4 : gotI (step s (Op.ext e)).1 = [] := by simp only [step, pushExternal]; split <;> rfl
      have q5 : s.pe <+: (step s (.ext e)).2.pe := by
        simp only [step, pushExternal]
        split
        · exact List.prefix_refl _
        · exact List.prefix_append _ _
      have q6 : (step s (.ext e)).2.pi = s.pi := by simp only [step, pushExternal]; split <;> rfl
      obtain ⟨g1, g2⟩ := ih _ h1 (by rw [q1, q2]; exact ht)
      rw [q1] at g1; rw [q2, q6] at g2
      rw [q3, q4]
      exact ⟨((List.prefix_append_right_inj s.le).mpr q5).trans g1, g2⟩
    | int i =>
      obtain ⟨g1, g2⟩ := ih _ h1 ht
      refine ⟨g1, List.IsPrefix.trans ?_ g2⟩
      show s.li ++ s.pi <+: s.li ++ (s.pi ++ [i])
      exact (List.prefix_append_right_inj s.li).mpr (List.prefix_append _ _)
    | disp =>
      have ht : s.li.length + s.le.length + 1 ≤ turns r + 1 := ht
      rcases dispatch_cases s hi with ⟨i, t, c1, c2, hd⟩ | ⟨e, t, c1, c2, c3, hd⟩ | ⟨c1, c2, c3, c4, c5, hd⟩ |
        ⟨c1, c2, c3, c4, c5, hd⟩ | ⟨i, t, c1, c2, c3, hd⟩ | ⟨e, t, c1, c2, c3, c4, hd⟩
      · have hs : step s (.disp : Op E I) = ([.got (.internal i)], ⟨s.pe, s.pi, s.le, t, .running⟩) := by
          simp only [step, hd]; rfl
        rw [hs] at h1 ⊢
        rw [c1] at ht
        simp only [List.length_cons] at ht
        obtain ⟨g1, g2⟩ := ih _ h1 (show t.length + s.le.length + 1 ≤ turns r by omega)
        refine ⟨g1, ?_⟩
        rw [c1]
        exact List.prefix_cons_inj i |>.mpr g2
      · have hs : step s (.disp : Op E I) = ([.got (.external e)], ⟨s.pe, s.pi, t, [], .running⟩) := by
          simp only [step, hd]; rfl
        rw [hs] at h1 ⊢
        rw [c1, c2] at ht
        simp only [List.length_cons, List.length_nil] at ht
        obtain ⟨g1, g2⟩ := ih _ h1 (show 0 + t.length + 1 ≤ turns r by omega)
        rw [c1, c2]
        exact ⟨List.prefix_cons_inj e |>.mpr g1, g2⟩
      · rw [c1, c2, c3, c4]
        exact ⟨List.nil_prefix, List.nil_prefix⟩
      · rw [c1, c2, c3, c4]
        exact ⟨List.nil_prefix, List.nil_prefix⟩
      · have hs : step s (.disp : Op E I) = ([.got (.internal i)], ⟨[], [], s.pe, t, .running⟩) := by
          simp only [step, hd]; rfl
        rw [hs] at h1 ⊢
        obtain ⟨g1, g2⟩ := local_stays r _ h1
        rw [c1, c2, c3]
        exact ⟨g1, List.prefix_cons_inj i |>.mpr g2⟩
      · have hs : step s (.disp : Op E I) = ([.got (.external e)], ⟨[], [], t, [], .running⟩) := by
          simp only [step, hd]; rfl
        rw [hs] at h1 ⊢
        obtain ⟨g1, g2⟩ := local_stays r _ h1
        rw [c1, c2, c3, c4]
        exact ⟨List.prefix_cons_inj e |>.mpr g1, List.nil_prefix⟩

/-- **C52**: no message starves, however many others are pushed meanwhile: once the dispatching thread had
one turn more than messages in its hands, and then one turn for each message it has taken over, every
message that waited has been handled. -/
theorem no_starvation {ops ops1 ops2 : List (Op E I)} {evs e1 e2 s s1 s2}
    (h : run State.init ops = (evs, s)) (h1 : run s ops1 = (e1, s1)) (h2 : run s1 ops2 = (e2, s2))
    (t1 : s.li.length + s.le.length + 1 ≤ turns ops1) (t2 : s1.li.length + s1.le.length ≤ turns ops2) :
    accepted evs <+: gotE (evs ++ e1 ++ e2) ∧ pushed evs <+: gotI (evs ++ e1 ++ e2) := by
  obtain ⟨a1, a2⟩ := exactly_once h
  have hi := (run_spec ops State.init (Inv.init : Inv (State.init : State E I))).1
  rw [h] at hi
  have hi1 := (run_spec ops1 s hi).1
  have p1 := taken_over ops1 s hi t1
  rw [h1] at hi1 p1
  have p2 := local_handled ops2 s1 hi1 t2
  rw [h2] at p2
  rw [a1, a2, gotE_append, gotE_append, gotI_append, gotI_append, List.append_assoc, List.append_assoc]
  exact ⟨(List.prefix_append_right_inj _).mpr (p1.1.trans ((List.prefix_append_right_inj _).mpr p2.1)),
    (List.prefix_append_right_inj _).mpr (p1.2.trans ((List.prefix_append_right_inj _).mpr p2.2))⟩

end Verif.Inbox
