/-
The throttle of ticks (C56).
-/
import Verif.Ticks.Spec

set_option linter.unusedSimpArgs false
set_option linter.unusedVariables false

namespace Verif.Ticks
open Verif.Ticks.Spec

/-! ### The queues -/

/-- The request of a tick, of a message. -/
def tickOf : Msg → Option (Nat × Nat)
  | .tick c q => some (c, q)
  | .other _ => none

/-- The requests of ticks in the external queue, the next to be popped first. -/
def queued (s : State) : List (Nat × Nat) := (s.inbox.le ++ s.inbox.pe).filterMap tickOf

theorem dispatch_keeps {ib : Inbox.State Msg Nat} (hi : Inbox.Inv ib) :
    Inbox.Inv (Inbox.dispatch ib).2 ∧
    ib.le ++ ib.pe = (match (Inbox.dispatch ib).1 with | some (.external e) => [e] | _ => []) ++
      ((Inbox.dispatch ib).2.le ++ (Inbox.dispatch ib).2.pe) := by
  obtain ⟨h1, h2, _⟩ := Inbox.step_spec ib hi .disp
  refine ⟨h1, ?_⟩
  simp only [Inbox.step] at h2
  rcases h : Inbox.dispatch ib with ⟨g, ib'⟩
  rw [h] at h2
  cases g with
  | none => simpa [Inbox.Spec.accepted, Inbox.Spec.gotE] using h2
  | some g => cases g <;> simpa [Inbox.Spec.accepted, Inbox.Spec.gotE] using h2

theorem push_keeps {ib : Inbox.State Msg Nat} (hi : Inbox.Inv ib) (e : Msg) :
    Inbox.Inv (Inbox.pushExternal e ib).2 ∧
    (Inbox.pushExternal e ib).2.le ++ (Inbox.pushExternal e ib).2.pe =
      (ib.le ++ ib.pe) ++ (if (Inbox.pushExternal e ib).1 then [e] else []) := by
  obtain ⟨h1, _, _⟩ := Inbox.step_spec ib hi (.ext e)
  refine ⟨h1, ?_⟩
  simp only [Inbox.pushExternal]
  split <;> simp

theorem pushInternal_keeps {ib : Inbox.State Msg Nat} (hi : Inbox.Inv ib) (c : Nat) :
    Inbox.Inv (Inbox.pushInternal c ib) := (Inbox.step_spec ib hi (.int c)).1

/-! ### What the program remembers -/

theorem lastAsked_append (c : Nat) (a b : List Ev) :
    lastAsked c (a ++ b) = b.foldl (askedStep c) (lastAsked c a) := by
  simp [lastAsked, List.foldl_append]

theorem waiting_append (c : Nat) (a b : List Ev) :
    waiting c (a ++ b) = b.foldl (waitStep c) (waiting c a) := by
  simp [waiting, List.foldl_append]

/-- A request of `c` that was refused. -/
def Lost (c : Nat) (evs : List Ev) : Prop := ∃ q, Ev.asked c q false ∈ evs

/-- The state and the trace. -/
structure J (evs : List Ev) (s : State) : Prop where
  inv : Inbox.Inv s.inbox
  inQ : ∀ c, c ∈ s.inQueue ↔ waiting c evs = true
  last : ∀ c, s.last c = lastAsked c evs
  lostWaits : ∀ c, Lost c evs → waiting c evs = true
  noneLost : ∀ c, lastAsked c evs = none → waiting c evs = false
  queue : ∀ c, (Lost c evs ∨ waiting c evs = false) → ∀ q, (c, q) ∉ queued s
  queue1 : ∀ c q, ¬ Lost c evs → waiting c evs = true → lastAsked c evs = some q →
    (queued s).filter (fun x => x.1 == c) = [(c, q)]

theorem J.init : J [] State.init := by
  refine ⟨Inbox.Inv.init, ?_, ?_, ?_, ?_, ?_, ?_⟩ <;>
    simp [State.init, waiting, lastAsked, Lost, queued, Inbox.State.init]

/-- Only queues and waiting messages that are no ticks differ. -/
theorem J.inbox {evs s ib} (h : J evs s) (hi : Inbox.Inv ib)
    (hq : (ib.le ++ ib.pe).filterMap tickOf = queued s) :
    J evs { s with
            inbox := ib } := by
  refine ⟨hi, h.inQ, h.last, h.lostWaits, h.noneLost, ?_, ?_⟩
  · intro c hc q
    show (c, q) ∉ (ib.le ++ ib.pe).filterMap tickOf
    rw [hq]; exact h.queue c hc q
  · intro c q h1 h2 h3
    show ((ib.le ++ ib.pe).filterMap tickOf).filter _ = _
    rw [hq]; exact h.queue1 c q h1 h2 h3

theorem lost_append {c a b} : Lost c (a ++ b) ↔ Lost c a ∨ Lost c b := by
  simp [Lost, exists_or]

theorem J.send {evs s} (h : J evs s) (c clock : Nat) (hw : waiting c evs = false) :
    J (evs ++ (sendTick c clock s).1) (sendTick c clock s).2 := by
  obtain ⟨g1, g2⟩ := push_keeps h.inv (.tick c clock)
  rcases hb : Inbox.pushExternal (.tick c clock) s.inbox with ⟨b, ib⟩
  rw [hb] at g1 g2
  simp only [sendTick, hb]
  have hnl : ¬ Lost c evs := fun hl => by
    have := h.lostWaits c hl
    rw [hw] at this; cases this
  have hq : (ib.le ++ ib.pe).filterMap tickOf = queued s ++ (if b then [(c, clock)] else []) := by
    simp only at g2
    rw [g2, List.filterMap_append]
    cases b <;> simp [queued, tickOf]
  have hl : ∀ k, Lost k [Ev.asked c clock b] ↔ k = c ∧ b = false := by
    intro k
    constructor
    · rintro ⟨q, hq⟩
      simp at hq
      exact ⟨hq.1, by simpa using hq.2.2.symm⟩
    · rintro ⟨rfl, rfl⟩
      exact ⟨clock, by simp⟩
  refine ⟨g1, ?_, ?_, ?_, ?_, ?_, ?_⟩
  · intro k
    rw [waiting_append]
    have hk := h.inQ k
    simp only [List.foldl_cons, List.foldl_nil, askedStep, waitStep]
    by_cases hkc : c = k
    · subst hkc
      simp only [if_true, iff_true]
      split
      · rename_i hc; simpa using hc
      · simp
    · simp only [hkc, if_false]
      rw [← hk]
      split
      · rfl
      · simp [Ne.symm hkc]
  · intro k
    rw [lastAsked_append]
    simp only [List.foldl_cons, List.foldl_nil, askedStep, waitStep]
    by_cases hkc : k = c
    · subst hkc; simp
    · simp only [hkc, if_false, Ne.symm hkc]
      exact h.last k
  · intro k hk
    rw [waiting_append]
    simp only [List.foldl_cons, List.foldl_nil, askedStep, waitStep]
    by_cases hkc : c = k
    · simp [hkc]
    · simp only [hkc, if_false]
      rw [lost_append, hl] at hk
      rcases hk with hk | hk
      · exact h.lostWaits k hk
      · exact absurd hk.1.symm hkc
  · intro k hk
    rw [lastAsked_append] at hk
    rw [waiting_append]
    simp only [List.foldl_cons, List.foldl_nil, askedStep, waitStep] at hk ⊢
    by_cases hkc : c = k
    · simp [hkc] at hk
    · simp only [hkc, if_false] at hk ⊢
      exact h.noneLost k hk
  · intro k hk q
    show (k, q) ∉ (ib.le ++ ib.pe).filterMap tickOf
    rw [hq]
    rw [waiting_append, lost_append, hl] at hk
    simp only [List.foldl_cons, List.foldl_nil, askedStep, waitStep] at hk
    by_cases hkc : c = k
    · subst hkc
      simp only [hnl, false_or, true_and, if_true] at hk
      have hbf : b = false := by simpa using hk
      subst hbf
      simp only [Bool.false_eq_true, if_false, List.append_nil]
      exact h.queue c (Or.inr hw) q
    · have hkc' : ¬ k = c := Ne.symm hkc
      simp only [hkc, if_false, hkc', false_and, or_false] at hk
      intro hm
      rw [List.mem_append] at hm
      rcases hm with hm | hm
      · exact h.queue k hk q hm
      · cases b <;> simp at hm
        exact hkc' hm.1
  · intro k q hk1 hk2 hk3
    show ((ib.le ++ ib.pe).filterMap tickOf).filter _ = _
    rw [hq, List.filter_append]
    rw [lost_append, hl] at hk1
    rw [waiting_append] at hk2
    rw [lastAsked_append] at hk3
    simp only [List.foldl_cons, List.foldl_nil, askedStep, waitStep] at hk2 hk3
    by_cases hkc : c = k
    · subst hkc
      have hbt : b = true := by
        cases b with
        | true => rfl
        | false => exact absurd (Or.inr ⟨rfl, rfl⟩) hk1
      subst hbt
      simp only [if_true, Option.some.injEq] at hk3
      subst hk3
      have hnone : (queued s).filter (fun x => x.1 == c) = [] := by
        rw [List.filter_eq_nil_iff]
        rintro ⟨a, b⟩ hm hc
        simp at hc
        subst hc
        exact h.queue _ (Or.inr hw) _ hm
      rw [hnone]
      simp
    · simp only [hkc, if_false] at hk2 hk3
      have h2 : (if b = true then [(c, clock)] else []).filter (fun x => x.1 == k) = [] := by
        cases b <;> simp [hkc]
      rw [h2, List.append_nil]
      exact h.queue1 k q (fun hl => hk1 (Or.inl hl)) hk2 hk3

theorem J.pop {evs s c q ib} (h : J evs s) (hi : Inbox.Inv ib)
    (hq : queued s = (c, q) :: (ib.le ++ ib.pe).filterMap tickOf) :
    J (evs ++ [.gave c q])
      (onPopped c
        { s with
          inbox := ib }) ∧ lastAsked c evs = some q ∧ waiting c evs = true := by
  have hmem : (c, q) ∈ queued s := by rw [hq]; simp
  have hw : waiting c evs = true := by
    cases hh : waiting c evs with
    | true => rfl
    | false => exact absurd hmem (h.queue c (Or.inr hh) q)
  have hnl : ¬ Lost c evs := fun hl => h.queue c (Or.inl hl) q hmem
  obtain ⟨q', hq'⟩ : ∃ q', lastAsked c evs = some q' := by
    cases hh : lastAsked c evs with
    | some q' => exact ⟨q', rfl⟩
    | none =>
      have := h.noneLost c hh
      rw [hw] at this; cases this
  have hone := h.queue1 c q' hnl hw hq'
  rw [hq] at hone
  simp only [List.filter_cons, beq_self_eq_true, if_true, List.cons.injEq, Prod.mk.injEq, true_and] at hone
  obtain ⟨hqq, hrest⟩ := hone
  subst hqq
  have hl : ∀ k, ¬ Lost k [Ev.gave c q] := by
    rintro k ⟨x, hx⟩; simp at hx
  refine ⟨⟨hi, ?_, ?_, ?_, ?_, ?_, ?_⟩, hq', hw⟩
  · intro k
    rw [waiting_append]
    simp only [List.foldl_cons, List.foldl_nil, askedStep, waitStep, onPopped, List.mem_filter]
    by_cases hkc : c = k
    · simp [hkc]
    · simp only [hkc, if_false]
      rw [← h.inQ k]
      simp [Ne.symm hkc]
  · intro k
    rw [lastAsked_append]
    exact h.last k
  · intro k hk
    rw [lost_append] at hk
    rcases hk with hk | hk
    · have hkc : ¬ c = k := fun hh => hnl (hh ▸ hk)
      rw [waiting_append]
      simp only [List.foldl_cons, List.foldl_nil, askedStep, waitStep, hkc, if_false]
      exact h.lostWaits k hk
    · exact absurd hk (hl k)
  · intro k hk
    rw [lastAsked_append] at hk
    rw [waiting_append]
    simp only [List.foldl_cons, List.foldl_nil, askedStep, waitStep] at hk ⊢
    split
    · rfl
    · exact h.noneLost k hk
  · intro k hk x
    show (k, x) ∉ (ib.le ++ ib.pe).filterMap tickOf
    by_cases hkc : c = k
    · subst hkc
      intro hm
      rw [List.filter_eq_nil_iff] at hrest
      exact hrest _ hm (by simp)
    · rw [waiting_append, lost_append] at hk
      simp only [List.foldl_cons, List.foldl_nil, askedStep, waitStep, hkc, if_false, hl, or_false] at hk
      intro hm
      exact h.queue k hk x (by rw [hq]; exact List.mem_cons_of_mem _ hm)
  · intro k x hk1 hk2 hk3
    show ((ib.le ++ ib.pe).filterMap tickOf).filter _ = _
    rw [waiting_append] at hk2
    rw [lastAsked_append] at hk3
    simp only [List.foldl_cons, List.foldl_nil, askedStep, waitStep] at hk2 hk3
    by_cases hkc : c = k
    · simp [hkc] at hk2
    · simp only [hkc, if_false] at hk2
      have := h.queue1 k x (fun hl' => hk1 (lost_append.mpr (Or.inl hl'))) hk2 hk3
      rw [hq] at this
      simpa [List.filter_cons, hkc] using this

theorem J.tick {evs s} (h : J evs s) (c clock : Nat) (pend : Nat → Bool) :
    J (evs ++ (onInternalTick c clock pend s).1) (onInternalTick c clock pend s).2 := by
  unfold onInternalTick
  split
  · simpa using h
  · rename_i hc
    have hw : waiting c evs = false := by
      cases hh : waiting c evs with
      | false => rfl
      | true =>
        have := (h.inQ c).mpr hh
        simp [this] at hc
    split
    · exact h.send c clock hw
    · split
      · simpa using h
      · exact h.send c clock hw

theorem J.step {evs s} (h : J evs s) (o : Op) : J (evs ++ (step s o).1) (step s o).2 := by
  cases o with
  | tick c =>
    simp only [Ticks.step, List.append_nil]
    exact h.inbox (pushInternal_keeps h.inv c) rfl
  | other x =>
    simp only [Ticks.step, List.append_nil]
    obtain ⟨g1, g2⟩ := push_keeps h.inv (.other x)
    refine h.inbox g1 ?_
    rw [g2, List.filterMap_append]
    split <;> simp [queued, tickOf]
  | turn clock pend =>
    obtain ⟨g1, g2⟩ := dispatch_keeps h.inv
    simp only [Ticks.step]
    rcases hd : Inbox.dispatch s.inbox with ⟨g, ib⟩
    rw [hd] at g1 g2
    simp only at g1 g2
    have other : ∀ (hq : s.inbox.le ++ s.inbox.pe = ib.le ++ ib.pe),
        J evs { s with
                inbox := ib } := fun hq => h.inbox g1 (by rw [← hq]; rfl)
    cases g with
    | none => simpa using other (by simpa using g2)
    | some g =>
      cases g with
      | nothing => simpa using other (by simpa using g2)
      | internal c => exact (other (by simpa using g2)).tick c clock pend
      | external e =>
        cases e with
        | other x =>
          simp only [List.append_nil]
          refine h.inbox g1 ?_
          show _ = (s.inbox.le ++ s.inbox.pe).filterMap tickOf
          rw [g2]; simp [List.filterMap_cons, tickOf]
        | tick c q =>
          refine (h.pop g1 ?_).1
          show (s.inbox.le ++ s.inbox.pe).filterMap tickOf = _
          rw [g2]; simp [tickOf]

theorem J.run (ops : List Op) : ∀ {evs s}, J evs s → J (evs ++ (run s ops).1) (run s ops).2 := by
  induction ops with
  | nil => intro evs s h; simpa [Ticks.run] using h
  | cons o r ih =>
    intro evs s h
    have := ih (h.step o)
    simpa [Ticks.run] using this

theorem reach {ops evs s} (h : run State.init ops = (evs, s)) : J evs s := by
  have := J.init.run ops
  rw [h] at this
  simpa using this

/-! ### The properties -/

/-- The number of requests of `c` among the messages that wait in the external queue. -/
def inQueueOf (c : Nat) (s : State) : Nat :=
  ((s.inbox.le ++ s.inbox.pe).filter (fun m => match m with | .tick k _ => k == c | .other _ => false)).length

theorem inQueueOf_eq (c : Nat) (s : State) : inQueueOf c s = ((queued s).filter (fun x => x.1 == c)).length := by
  unfold inQueueOf queued
  induction (s.inbox.le ++ s.inbox.pe) with
  | nil => rfl
  | cons m r ih =>
    cases m with
    | other x => simpa [List.filterMap_cons, tickOf] using ih
    | tick k q =>
      simp only [List.filter_cons, List.filterMap_cons, tickOf]
      split <;> simp [ih]

/-- **C56**: in every execution, the external queue holds at most one tick request of a component. -/
theorem at_most_one_queued {ops evs s} (h : run State.init ops = (evs, s)) (c : Nat) : inQueueOf c s ≤ 1 := by
  have hj := reach h
  rw [inQueueOf_eq]
  have none_case : (Lost c evs ∨ waiting c evs = false) → ((queued s).filter (fun x => x.1 == c)).length ≤ 1 := by
    intro hc
    have : (queued s).filter (fun x => x.1 == c) = [] := by
      rw [List.filter_eq_nil_iff]
      rintro ⟨a, b⟩ hm hx
      simp at hx
      subst hx
      exact hj.queue _ hc _ hm
    simp [this]
  by_cases hl : Lost c evs
  · exact none_case (Or.inl hl)
  · cases hw : waiting c evs with
    | false => exact none_case (Or.inr hw)
    | true =>
      cases hq : lastAsked c evs with
      | none =>
        have := hj.noneLost c hq
        rw [hw] at this; cases this
      | some q => rw [hj.queue1 c q hl hw hq]; simp

/-- **C56**: when the replica handles an internal tick of `c`, it asks for a tick exactly if its last request
for `c`, if any, was given to the replica and is not pending; the request has the time as its number. -/
theorem asks_iff {ops evs s c clock pend ib} (h : run State.init ops = (evs, s))
    (hd : Inbox.dispatch s.inbox = (some (.internal c), ib)) :
    ((step s (.turn clock pend)).1 = [] ∨ ∃ b, (step s (.turn clock pend)).1 = [.asked c clock b]) ∧
    ((step s (.turn clock pend)).1 ≠ [] ↔
      waiting c evs = false ∧ ∀ q, lastAsked c evs = some q → pend q = false) := by
  have hj := reach h
  simp only [step, hd, onInternalTick]
  have hq := hj.inQ c
  have hl := hj.last c
  split
  · rename_i hc
    have hw : waiting c evs = true := hq.mp (by simpa using hc)
    simp [hw]
  · rename_i hc
    have hw : waiting c evs = false := by
      cases hh : waiting c evs with
      | false => rfl
      | true =>
        have := hq.mpr hh
        simp [this] at hc
    split
    · rename_i hn
      rw [hl] at hn
      simp [sendTick, hw, hn]
    · rename_i q hn
      rw [hl] at hn
      cases hp : pend q <;> simp [sendTick, hw, hn, hp]

theorem waiting_no_gave {c : Nat} (m : List Ev) (hm : ∀ q, Ev.gave c q ∉ m) :
    ∀ b, m.foldl (waitStep c) true = b → b = true := by
  induction m with
  | nil => intro b hb; exact hb.symm
  | cons e r ih =>
    intro b hb
    have hr : ∀ q, Ev.gave c q ∉ r := fun q hq => hm q (List.mem_cons_of_mem _ hq)
    cases e with
    | asked k q t =>
      simp only [List.foldl_cons, waitStep] at hb
      split at hb <;> exact ih hr b hb
    | gave k q =>
      have hk : ¬ k = c := by
        rintro rfl
        exact hm q List.mem_cons_self
      simp only [List.foldl_cons, waitStep, hk, if_false] at hb
      exact ih hr b hb

theorem tick_cases (c clock : Nat) (pend : Nat → Bool) (s : State) :
    (onInternalTick c clock pend s).1 = [] ∨
    (s.inQueue.contains c = false ∧ (onInternalTick c clock pend s).1 = (sendTick c clock s).1) := by
  unfold onInternalTick
  split
  · exact Or.inl rfl
  · rename_i hc
    have hc : s.inQueue.contains c = false := by simpa using hc
    split
    · exact Or.inr ⟨hc, rfl⟩
    · split
      · exact Or.inl rfl
      · exact Or.inr ⟨hc, rfl⟩

/-- Every event of a step happens in a state where it may happen. -/
theorem step_event {evs s o e} (h : J evs s) (he : e ∈ (step s o).1) :
    (step s o).1 = [e] ∧
    (∀ c q b, e = .asked c q b → waiting c evs = false) ∧
    (∀ c q, e = .gave c q → waiting c evs = true ∧ lastAsked c evs = some q) := by
  cases o with
  | tick c => simp [step] at he
  | other x => simp [step] at he
  | turn clock pend =>
    obtain ⟨g1, g2⟩ := dispatch_keeps h.inv
    simp only [step] at he ⊢
    rcases hd : Inbox.dispatch s.inbox with ⟨g, ib⟩
    rw [hd] at g1 g2
    simp only [hd] at he g1 g2 ⊢
    cases g with
    | none => simp at he
    | some g =>
      cases g with
      | nothing => simp at he
      | internal c =>
        rcases tick_cases c clock pend { s with inbox := ib } with ht | ⟨hc, ht⟩
        · rw [ht] at he; simp at he
        · have hw : waiting c evs = false := by
            cases hh : waiting c evs with
            | false => rfl
            | true =>
              have := (h.inQ c).mpr hh
              simp [this] at hc
          rw [ht] at he ⊢
          simp only [sendTick, List.mem_singleton] at he ⊢
          subst he
          refine ⟨rfl, ?_, ?_⟩
          · intro c' q b heq
            cases heq
            exact hw
          · intro c' q heq; cases heq
      | external m =>
        cases m with
        | other x => simp at he
        | tick c q =>
          simp only [List.mem_singleton] at he
          subst he
          refine ⟨rfl, ?_, ?_⟩
          · intro c' q' b heq; cases heq
          · intro c' q' heq
            cases heq
            have := (h.pop (c := c) (q := q) g1 (by
              show (s.inbox.le ++ s.inbox.pe).filterMap tickOf = _
              rw [g2]; simp [tickOf])).2
            exact ⟨this.2, this.1⟩

/-- Every event of an execution happens in a state where it may happen. -/
theorem run_event (ops : List Op) : ∀ {evs s a e z}, J evs s → (run s ops).1 = a ++ e :: z →
    (∀ c q b, e = .asked c q b → waiting c (evs ++ a) = false) ∧
    (∀ c q, e = .gave c q → waiting c (evs ++ a) = true ∧ lastAsked c (evs ++ a) = some q) := by
  induction ops with
  | nil => intro evs s a e z h he; simp [run] at he
  | cons o r ih =>
    intro evs s a e z h he
    have he' : (step s o).1 ++ (run (step s o).2 r).1 = a ++ e :: z := he
    rcases List.append_eq_append_iff.mp he' with ⟨m, h1, h2⟩ | ⟨m, h1, h2⟩
    · have := ih (h.step o) h2
      rw [h1]
      simpa [List.append_assoc] using this
    · cases m with
      | nil =>
        simp only [List.append_nil] at h1
        have := ih (a := []) (h.step o) (by simpa using h2.symm)
        rw [← h1]
        simpa using this
      | cons m0 mr =>
        simp only [List.cons_append, List.cons.injEq] at h2
        obtain ⟨rfl, h2⟩ := h2
        have hev := step_event (o := o) h (e := e) (by rw [h1]; simp)
        rw [hev.1] at h1
        have ha : a = [] := by
          cases a with
          | nil => rfl
          | cons a0 ar => simp at h1
        subst ha
        simpa using hev.2

/-- **C56**: between two requests for ticks of one component, the first was given to the replica: ticks of a
component do not pile up in front of it. -/
theorem requests_alternate {ops evs s c q1 q2 b1 b2 a m z} (h : run State.init ops = (evs, s))
    (he : evs = a ++ .asked c q1 b1 :: m ++ .asked c q2 b2 :: z) : ∃ q, Ev.gave c q ∈ m := by
  have hr : (run State.init ops).1 = (a ++ .asked c q1 b1 :: m) ++ .asked c q2 b2 :: z := by rw [h]; exact he
  have hw := (run_event ops J.init hr).1 c q2 b2 rfl
  apply Classical.byContradiction
  intro hn
  have hn : ∀ q, Ev.gave c q ∉ m := fun q hq => hn ⟨q, hq⟩
  have e1 : ([] ++ (a ++ Ev.asked c q1 b1 :: m) : List Ev) = a ++ (Ev.asked c q1 b1 :: m) := rfl
  rw [e1, waiting_append] at hw
  simp only [List.foldl_cons, waitStep, if_true] at hw
  have := waiting_no_gave m hn _ hw
  cases this

theorem lost_waits (l : List Ev) {c : Nat} (hl : ∀ q, Ev.gave c q ∉ l) : ∀ evs, waiting c evs = true →
    waiting c (evs ++ l) = true := by
  intro evs hw
  rw [waiting_append, hw]
  exact waiting_no_gave l hl _ rfl

/-- **C56 (BUG125)**: once the external queue was full when a tick request of `c` was pushed, no tick of `c`
is asked for, and none reaches the replica, in any continuation. -/
theorem refused_once_never_again {ops evs s c q} (h : run State.init ops = (evs, s))
    (hl : Ev.asked c q false ∈ evs) (more : List Op) :
    ∀ e ∈ (run s more).1, (∀ q' b, e ≠ .asked c q' b) ∧ (∀ q', e ≠ .gave c q') := by
  have hj := reach h
  have key : ∀ (more : List Op) (evs : List Ev) (s : State), J evs s → Lost c evs →
      ∀ e ∈ (run s more).1, (∀ q' b, e ≠ .asked c q' b) ∧ (∀ q', e ≠ .gave c q') := by
    intro more
    induction more with
    | nil => intro evs s _ _ e he; simp [run] at he
    | cons o r ih =>
      intro evs s hj hl e he
      have he' : e ∈ (step s o).1 ++ (run (step s o).2 r).1 := he
      rw [List.mem_append] at he'
      rcases he' with he' | he'
      · have hw := hj.lostWaits c hl
        have hev := step_event hj he'
        refine ⟨?_, ?_⟩
        · rintro q' b rfl
          have := hev.2.1 c q' b rfl
          rw [hw] at this; cases this
        · rintro q' rfl
          -- the request of a lost tick is not in the queue
          have hj' := hj.step o
          have hw' := hj'.lostWaits c (lost_append.mpr (Or.inl hl))
          rw [hev.1, waiting_append] at hw'
          simp [waitStep] at hw'
      · exact ih _ _ (hj.step o) (lost_append.mpr (Or.inl hl)) e he'
  exact key more evs s hj ⟨q, hl⟩

/-! ### Progress -/

/-- The steps of the queues that a step of the throttle makes. -/
theorem sim_step (s : State) (o : Op) : ∃ iops iev, Inbox.run s.inbox iops = (iev, (step s o).2.inbox) ∧
    (Inbox.Spec.accepted iev).filterMap tickOf = takenOf (step s o).1 ∧
    (Inbox.Spec.gotE iev).filterMap tickOf = gaveOf (step s o).1 ∧
    Inbox.Spec.turns iops = turns [o] := by
  cases o with
  | tick c =>
    exact ⟨[.int c], [.pushed c], rfl, rfl, rfl, rfl⟩
  | other x =>
    refine ⟨[.ext (.other x)], _, rfl, ?_, ?_, rfl⟩
    · simp only [Inbox.step, Inbox.pushExternal]
      split <;> rfl
    · simp only [Inbox.step, Inbox.pushExternal]
      split <;> rfl
  | turn clock pend =>
    have send : ∀ (c : Nat) (g : Inbox.Got Msg Nat) (ib : Inbox.State Msg Nat),
        Inbox.dispatch s.inbox = (some g, ib) → g = .internal c →
        ∃ iops iev, Inbox.run s.inbox iops =
            (iev, (sendTick c clock
              { s with
                inbox := ib }).2.inbox) ∧
          (Inbox.Spec.accepted iev).filterMap tickOf = takenOf (sendTick c clock
              { s with
                inbox := ib }).1 ∧
          (Inbox.Spec.gotE iev).filterMap tickOf = gaveOf (sendTick c clock
              { s with
                inbox := ib }).1 ∧
          Inbox.Spec.turns iops = 1 := by
      intro c g ib hd hg
      subst hg
      refine ⟨[.disp, .ext (.tick c clock)], ?_⟩
      simp only [Inbox.run, Inbox.step, hd, sendTick]
      rcases hp : Inbox.pushExternal (.tick c clock) ib with ⟨b, ib'⟩
      simp only [hp]
      refine ⟨_, rfl, ?_, ?_, rfl⟩
      · cases b <;> rfl
      · cases b <;> rfl
    have plain : ∀ (g : Option (Inbox.Got Msg Nat)) (ib : Inbox.State Msg Nat),
        Inbox.dispatch s.inbox = (g, ib) → (∀ e, g ≠ some (.external e)) →
        ∃ iops iev, Inbox.run s.inbox iops = (iev, ib) ∧
          (Inbox.Spec.accepted iev).filterMap tickOf = [] ∧
          (Inbox.Spec.gotE iev).filterMap tickOf = [] ∧ Inbox.Spec.turns iops = 1 := by
      intro g ib hd hg
      refine ⟨[.disp], ?_⟩
      simp only [Inbox.run, Inbox.step, hd]
      refine ⟨_, rfl, ?_, ?_, rfl⟩
      · cases g <;> rfl
      · cases g with
        | none => rfl
        | some g =>
          cases g with
          | external e => exact absurd rfl (hg e)
          | internal i => rfl
          | nothing => rfl
    simp only [step]
    rcases hd : Inbox.dispatch s.inbox with ⟨g, ib⟩
    cases g with
    | none => exact plain none ib hd (fun e he => by cases he)
    | some g =>
      cases g with
      | nothing => exact plain _ ib hd (fun e he => by cases he)
      | internal c =>
        simp only [onInternalTick]
        split
        · exact plain _ ib hd (fun e he => by cases he)
        · split
          · exact send c _ ib hd rfl
          · split
            · exact plain _ ib hd (fun e he => by cases he)
            · exact send c _ ib hd rfl
      | external m =>
        refine ⟨[.disp], [.got (.external m)], ?_, ?_, ?_, rfl⟩
        · simp only [Inbox.run, Inbox.step, hd]
          cases m <;> rfl
        · cases m <;> rfl
        · cases m <;> rfl

theorem inbox_run_append (a b : List (Inbox.Op Msg Nat)) : ∀ s, Inbox.run s (a ++ b) =
    ((Inbox.run s a).1 ++ (Inbox.run (Inbox.run s a).2 b).1, (Inbox.run (Inbox.run s a).2 b).2) := by
  induction a with
  | nil => intro s; simp [Inbox.run]
  | cons o r ih => intro s; simp [Inbox.run, ih, List.append_assoc]

theorem sim_run (ops : List Op) : ∀ s, ∃ iops iev, Inbox.run s.inbox iops = (iev, (run s ops).2.inbox) ∧
    (Inbox.Spec.accepted iev).filterMap tickOf = takenOf (run s ops).1 ∧
    (Inbox.Spec.gotE iev).filterMap tickOf = gaveOf (run s ops).1 ∧
    Inbox.Spec.turns iops = turns ops := by
  induction ops with
  | nil => intro s; exact ⟨[], [], rfl, rfl, rfl, rfl⟩
  | cons o r ih =>
    intro s
    obtain ⟨io1, ie1, a1, a2, a3, a4⟩ := sim_step s o
    obtain ⟨io2, ie2, b1, b2, b3, b4⟩ := ih (step s o).2
    refine ⟨io1 ++ io2, ie1 ++ ie2, ?_, ?_, ?_, ?_⟩
    · rw [inbox_run_append, a1]
      simp only [b1]
      rfl
    · rw [Inbox.accepted_append, List.filterMap_append, a2, b2]
      simp [takenOf, run]
    · rw [Inbox.gotE_append, List.filterMap_append, a3, b3]
      simp [gaveOf, run]
    · simp only [Inbox.Spec.turns, List.filter_append, List.length_append] at *
      rw [a4, b4]
      show turns [o] + turns r = turns (o :: r)
      simp only [turns, List.filter_cons, List.filter_nil]
      split <;> simp <;> omega

/-- **C56**: the replica gets the requests that the queue took, in that order, each once. -/
theorem requests_in_order {ops evs s} (h : run State.init ops = (evs, s)) : gaveOf evs <+: takenOf evs := by
  obtain ⟨io, ie, a1, a2, a3, _⟩ := sim_run ops State.init
  rw [h] at a1 a2 a3
  have := (Inbox.exactly_once a1).1
  rw [← a2, ← a3, this, List.filterMap_append]
  exact List.prefix_append _ _

theorem waiting_gave_of_taken {evs : List Ev} {s : State} (hj : J evs s) {c : Nat}
    (hq : ∀ q, (c, q) ∉ queued s) (hl : ¬ Lost c evs) : waiting c evs = false := by
  cases hw : waiting c evs with
  | false => rfl
  | true =>
    cases hh : lastAsked c evs with
    | none =>
      have := hj.noneLost c hh
      rw [hw] at this; cases this
    | some q =>
      have := hj.queue1 c q hl hw hh
      have hm : (c, q) ∈ (queued s).filter (fun x => x.1 == c) := by rw [this]; simp
      exact absurd (List.mem_filter.mp hm).1 (hq q)

/-- **C56**: a tick request that the queue took reaches the replica, whatever else is pushed meanwhile, once
the thread had one turn more than messages in its hands, and then one turn for each that it took over. -/
theorem requests_arrive {ops ops1 ops2 evs e1 e2 s s1 s2} (h : run State.init ops = (evs, s))
    (h1 : run s ops1 = (e1, s1)) (h2 : run s1 ops2 = (e2, s2))
    (t1 : s.inbox.li.length + s.inbox.le.length + 1 ≤ turns ops1)
    (t2 : s1.inbox.li.length + s1.inbox.le.length ≤ turns ops2) :
    takenOf evs <+: gaveOf (evs ++ e1 ++ e2) := by
  obtain ⟨io, ie, a1, a2, a3, _⟩ := sim_run ops State.init
  obtain ⟨io1, ie1, b1, b2, b3, b4⟩ := sim_run ops1 s
  obtain ⟨io2, ie2, c1, c2, c3, c4⟩ := sim_run ops2 s1
  rw [h] at a1 a2 a3
  rw [h1] at b1 b2 b3
  rw [h2] at c1 c2 c3
  have := (Inbox.no_starvation a1 b1 c1 (by rw [b4]; exact t1) (by rw [c4]; exact t2)).1
  have hp := List.IsPrefix.filterMap tickOf this
  rw [a2, Inbox.gotE_append, Inbox.gotE_append, List.filterMap_append, List.filterMap_append, a3, b3, c3] at hp
  simpa [gaveOf] using hp

/-- **C56 (BUG126)**: what is not pending is not held back: for every `n` there is an execution in which no
request is ever executed or pending (at the primary a request waits in `requestsQueueOfPrimary`, and is not
pending, until it gets into a PrePrepare: ReplicaImp.cpp:482-490, 716) and `n` tick requests of one component were given to the replica. -/
theorem primary_not_throttled (c n : Nat) : ∃ ops evs s, run State.init ops = (evs, s) ∧
    (∀ clock pend, Op.turn clock pend ∈ ops → pend = fun _ => false) ∧
    gaveOf evs = List.replicate n (c, 7) := by
  let round : List Op := [.tick c, .turn 7 (fun _ => false), .turn 7 (fun _ => false)]
  have one : ∀ s : State, s.inbox = ⟨[], [], [], [], .running⟩ → s.inQueue = [] →
      ∃ s' evs, run s round = (evs, s') ∧ s'.inbox = ⟨[], [], [], [], .running⟩ ∧ s'.inQueue = [] ∧
        gaveOf evs = [(c, 7)] := by
    rintro ⟨ib, iq, l⟩ h1 h2
    simp only at h1 h2
    subst h1 h2
    cases hl : l c <;>
    · refine ⟨_, _, rfl, ?_, ?_, ?_⟩ <;>
        simp [round, run, step, Inbox.pushInternal, Inbox.dispatch, Inbox.popLocal, Inbox.afterWait, Inbox.swapQueues,
          onInternalTick, hl, sendTick, Inbox.pushExternal, Inbox.maxPending, onPopped, gaveOf]
  have runs_append : ∀ (a b : List Op) (s : State), run s (a ++ b) =
      ((run s a).1 ++ (run (run s a).2 b).1, (run (run s a).2 b).2) := by
    intro a
    induction a with
    | nil => intro b s; simp [run]
    | cons o r ih => intro b s; simp [run, ih, List.append_assoc]
  have all : ∀ n (s : State), s.inbox = ⟨[], [], [], [], .running⟩ → s.inQueue = [] →
      ∃ ops evs s', run s ops = (evs, s') ∧ (∀ clock pend, Op.turn clock pend ∈ ops → pend = fun _ => false) ∧
        gaveOf evs = List.replicate n (c, 7) := by
    intro n
    induction n with
    | zero => intro s _ _; exact ⟨[], [], s, rfl, by simp, rfl⟩
    | succ n ih =>
      intro s h1 h2
      obtain ⟨s', evs, r1, r2, r3, r4⟩ := one s h1 h2
      obtain ⟨ops, evs2, s2, q1, q2, q3⟩ := ih s' r2 r3
      refine ⟨round ++ ops, evs ++ evs2, s2, ?_, ?_, ?_⟩
      · rw [runs_append, r1]
        simp only [q1]
      · intro clock pend hm
        rw [List.mem_append] at hm
        rcases hm with hm | hm
        · simp [round] at hm
          exact hm.2
        · exact q2 clock pend hm
      · have : gaveOf (evs ++ evs2) = gaveOf evs ++ gaveOf evs2 := by simp [gaveOf]
        rw [this, r4, q3]
        rfl
  exact all n State.init rfl rfl

end Verif.Ticks
