import Verif.Batch.Quiet
/-!
# Property C47: the primary's queue and its batches

All theorems are about every execution from the start that satisfies `Allowed` (and `Quiet` where it says so).
-/
set_option linter.unusedSimpArgs false
set_option linter.unusedVariables false
namespace Concord.Batch
open Verif

/-! ## the queue -/

/-- **The queue.**  It never holds more than 1500 requests, every one of them was sent by a client, and the counter of
bytes is the sum of their sizes. -/
theorem queue_accounting {cfg : Cfg} (hn : 0 < cfg.maxNum) {s : St} {as : List Act}
    (p : Path cfg (Allowed cfg) (init cfg) as s) :
    s.queue.length ≤ 1500 ∧ s.combined = (s.queue.map (·.size)).sum ∧ ∀ r ∈ s.queue, r ∈ s.accepted := by
  have h := inv_path (fun _ _ h => h) p (inv_init cfg hn)
  exact ⟨h.len, h.comb, h.qacc⟩

/-- **Every batch is well formed**: not empty, no request twice, only requests that clients sent, and the message
is not larger than allowed.  What is sent is a batch that was built. -/
theorem batches_wellformed {cfg : Cfg} (hn : 0 < cfg.maxNum) {s : St} {as : List Act}
    (p : Path cfg (Allowed cfg) (init cfg) as s) :
    (∀ pp ∈ s.made, BatchOk cfg s.accepted pp) ∧ ∀ pp ∈ s.sent, BatchOk cfg s.accepted pp := by
  have h := inv_path (fun _ _ h => h) p (inv_init cfg hn)
  refine ⟨h.made, ?_⟩
  intro pp hpp
  obtain ⟨m, hm, e1, e2, e3⟩ := h.sent pp hpp
  have hb := h.made m hm
  exact ⟨by rw [e1]; exact hb.nonempty, by rw [e1]; exact hb.once, by rw [e1]; exact hb.genuine, by rw [e1, e3]; exact hb.fits⟩

/-! ## one step -/

theorem Went.made_eq {cfg : Cfg} {s t : St} {new : List Req} {ov : Nat} (w : Went cfg s t new ov) :
    t.made = s.made ∨ (new ≠ [] ∧ t.made = s.made ++ [⟨s.view, s.lastUsed + 1, new, ov⟩]) := by
  cases w with
  | nowhere w1 w2 w3 w4 w5 w6 => exact Or.inl w2
  | gone w0 w1 w7 w2 w3 w4 w5 w6 => exact Or.inl w2
  | thread w0 w1 w7 w2 w3 w4 w5 w6 => exact Or.inr ⟨w0, w2⟩
  | sent w0 w1 w2 w3 w4 w5 w6 w7 w8 => exact Or.inr ⟨w0, w2⟩

theorem start_made {cfg : Cfg} {s t : St} {pp : PP} {b : Bool} (h : start cfg s pp b = some t) :
    t.made = s.made ∧ t.cm = s.cm ∧ t.queue = s.queue := by
  unfold start at h
  split at h
  · cases h; exact ⟨rfl, rfl, rfl⟩
  · split at h
    · cases h; exact ⟨rfl, rfl, rfl⟩
    · cases h

theorem env_made {cfg : Cfg} {s t : St} {a : Act} (he : Env a) (h : step cfg s a = some t) : t.made = s.made ∧ t.sent = s.sent ∧
    ((∀ q, a ≠ .enter q) → t.queue = s.queue) := by
  cases a with
  | request r => cases he
  | flush => cases he
  | retry => cases he
  | force => cases he
  | finished k => cases he
  | clients o =>
    change (Clients.step cfg.clients s.cm o).map _ = some t at h
    cases hc : Clients.step cfg.clients s.cm o with
    | none => rw [hc] at h; cases h
    | some cm =>
      rw [hc] at h
      simp only [Option.map_some, Option.some.injEq] at h
      subst h
      exact ⟨rfl, rfl, fun _ => rfl⟩
  | enter q => cases h; exact ⟨rfl, rfl, fun hq => absurd rfl (hq q)⟩
  | executed e a => cases h; exact ⟨rfl, rfl, fun _ => rfl⟩
  | stable q => cases h; exact ⟨rfl, rfl, fun _ => rfl⟩
  | collect => cases h; exact ⟨rfl, rfl, fun _ => rfl⟩
  | transferred q => cases h; exact ⟨rfl, rfl, fun _ => rfl⟩
  | leave v => cases h; exact ⟨rfl, rfl, fun _ => rfl⟩
  | control p w st => cases h; exact ⟨rfl, rfl, fun _ => rfl⟩
  | adapt k => cases h; exact ⟨rfl, rfl, fun _ => rfl⟩

/-- **When a batch is built.**  A step builds at most one batch, for the current view, and only when the replica is the
primary of an active view, transfers no state, is not stopped, and the next sequence number is in the window and
within the concurrency level.  None of its requests was in process or answered before, all are in process after. -/
theorem built_when {cfg : Cfg} {s t : St} {a : Act} (h : step cfg s a = some t) :
    t.made = s.made ∨
    ∃ pp, t.made = s.made ++ [pp] ∧ MayPropose cfg s ∧ pp.view = s.view ∧ pp.seq = s.lastUsed + 1 ∧
      ∀ r ∈ pp.reqs, inProcess cfg s r.key = false ∧ answered cfg s r.key = false ∧ inProcess cfg t r.key = true := by
  have key : ∀ s0 : St, s0.cm = s.cm → s0.made = s.made → s0.view = s.view → s0.lastUsed = s.lastUsed →
      (MayPropose cfg s0 → MayPropose cfg s) → ∀ logic, tryToSend cfg logic s0 = some t →
      t.made = s.made ∨
      ∃ pp, t.made = s.made ++ [pp] ∧ MayPropose cfg s ∧ pp.view = s.view ∧ pp.seq = s.lastUsed + 1 ∧
        ∀ r ∈ pp.reqs, inProcess cfg s r.key = false ∧ answered cfg s r.key = false ∧ inProcess cfg t r.key = true := by
    intro s0 e1 e2 e3 e4 e5 logic ht
    obtain ⟨p, n, ov, o, _, hm⟩ := tryToSend_out ht
    rcases o.went.made_eq with w | ⟨w0, w⟩
    · exact Or.inl (w.trans e2)
    · refine Or.inr ⟨⟨s0.view, s0.lastUsed + 1, n, ov⟩, by rw [w, e2], e5 (hm.resolve_left w0), e3, by show s0.lastUsed + 1 = _; rw [e4], ?_⟩
      intro r hr
      obtain ⟨f1, f2⟩ := o.pop.fresh r hr
      rw [e1] at f1 f2
      exact ⟨f1, f2, (o.pop.pend r.key).2 (Or.inr (List.mem_map_of_mem hr))⟩
  cases stepped h with
  | same e => exact Or.inl (by rw [e])
  | tried logic _ e => exact key s rfl rfl rfl rfl id logic e
  | pushed r hr hl hadm _ _ e =>
    exact key (pushed s r) rfl rfl rfl rfl (fun m => ⟨m.primary, m.active, m.collecting, m.pruning, m.wedged, m.stop, m.inWindow, m.inConc⟩) true e
  | landed k pp hk hpp e =>
    left
    rcases e with e | e
    · rw [e]; rfl
    · rw [(start_made e).1]; rfl
  | env he e => exact Or.inl (env_made he e).1

/-- the queue as a step finds it: a request that is accepted has been pushed already -/
def queueAt (s t : St) : List Req := s.queue ++ t.accepted.drop s.accepted.length

/-- **Order.**  In a step that does not enter a view, requests leave the queue from its front only; those that go into
the batch keep their order. -/
theorem fifo {cfg : Cfg} {s t : St} {a : Act} (h : step cfg s a = some t) (hne : ¬ IsEnter a) :
    ∃ popped, queueAt s t = popped ++ t.queue ∧ ∀ pp, t.made = s.made ++ [pp] → pp.reqs.Sublist popped := by
  have hself : ∀ (l : List PP) (pp : PP), l = l ++ [pp] → False := by
    intro l pp e
    have := congrArg List.length e
    rw [List.length_append] at this
    simp at this
  cases stepped h with
  | same e =>
    subst e
    exact ⟨[], by simp [queueAt], fun pp e => (hself _ _ e).elim⟩
  | tried logic _ e =>
    obtain ⟨p, n, ov, o, _, hm⟩ := tryToSend_out e
    refine ⟨p, by unfold queueAt; rw [o.frame.acc]; simp [o.pop.queue], ?_⟩
    intro pp hpp
    rcases o.went.made_eq with w | ⟨w0, w⟩
    · rw [w] at hpp; exact (hself _ _ hpp).elim
    · rw [w] at hpp
      have := List.append_cancel_left hpp
      rw [← (List.cons.inj this).1]
      exact o.pop.sub
  | pushed r hr hl hadm _ _ e =>
    obtain ⟨p, n, ov, o, _, hm⟩ := tryToSend_out e
    refine ⟨p, ?_, ?_⟩
    · unfold queueAt
      have := o.pop.queue
      rw [o.frame.acc]
      show s.queue ++ (s.accepted ++ [r]).drop s.accepted.length = _
      rw [List.drop_left]; exact this
    intro pp hpp
    rcases o.went.made_eq with w | ⟨w0, w⟩
    · rw [w] at hpp; exact (hself _ _ hpp).elim
    · rw [w] at hpp
      have := List.append_cancel_left (as := s.made) hpp
      rw [← (List.cons.inj this).1]
      exact o.pop.sub
  | landed k pp hk hpp e =>
    have hm : t.made = s.made ∧ t.queue = s.queue ∧ t.accepted = s.accepted := by
      rcases e with e | e
      · rw [e]; exact ⟨rfl, rfl, rfl⟩
      · rcases start_early e with ⟨_, e⟩ | ⟨_, _, _, e⟩ <;> (rw [e]; exact ⟨rfl, rfl, rfl⟩)
    refine ⟨[], by unfold queueAt; rw [hm.2.2, hm.2.1]; simp, ?_⟩
    intro pp e; rw [hm.1] at e; exact (hself _ _ e).elim
  | env he e =>
    have hacc : t.accepted = s.accepted := by
      cases a with
      | request r => cases he
      | flush => cases he
      | retry => cases he
      | force => cases he
      | finished k => cases he
      | clients o =>
        change (Clients.step cfg.clients s.cm o).map _ = some t at e
        cases hc : Clients.step cfg.clients s.cm o with
        | none => rw [hc] at e; cases e
        | some cm => rw [hc] at e; simp only [Option.map_some, Option.some.injEq] at e; subst e; rfl
      | enter q => cases e; rfl
      | executed e1 a1 => cases e; rfl
      | stable q => cases e; rfl
      | collect => cases e; rfl
      | transferred q => cases e; rfl
      | leave v => cases e; rfl
      | control p w st => cases e; rfl
      | adapt k => cases e; rfl
    obtain ⟨h1, _, h2⟩ := env_made he e
    have h3 := h2 (by intro q hq; subst hq; exact hne trivial)
    refine ⟨[], by unfold queueAt; rw [hacc, h3]; simp, ?_⟩
    intro pp e; rw [h1] at e; exact (hself _ _ e).elim

/-- **Nothing is lost while the queue fits in one message.**  In a step of a reachable state that does not enter a view,
if the requests of the queue (with the one that arrives) and the bytes before them are smaller than the largest message,
every request is afterwards still in the queue, or in the batch just built, or it cannot be accepted any more: it is in
process, answered, or its client has reached its limit.  (Without the condition requests are lost: see
`Examples.lost_request`.)  The counter of batches in flight must not overflow; `never_aborts_partial` shows that it does not. -/
theorem nothing_lost_partial {cfg : Cfg} (hn : 0 < cfg.maxNum) {s t : St} {as : List Act}
    (p : Path cfg (Allowed cfg) (init cfg) as s) {a : Act} (ha : Allowed cfg s a) (h : step cfg s a = some t)
    (hne : ¬ IsEnter a) (htr : s.transient + 1 < 65535)
    (hfit : ∀ r ∈ queueAt s t, total (queueAt s t) + overheadOf (s.lastUsed + 1) r.span < cfg.maxMsg) :
    ∀ r ∈ queueAt s t, r ∈ t.queue ∨ (∃ pp, t.made = s.made ++ [pp] ∧ r ∈ pp.reqs) ∨
      admissible cfg t.cm r = false := by
  have hi := inv_path (fun _ _ h => h) p (inv_init cfg hn)
  have core : ∀ s0 : St, Inv cfg s0 → s0.made = s.made → s0.lastUsed = s.lastUsed → s0.transient = s.transient → queueAt s t = s0.queue →
      ∀ logic, tryToSend cfg logic s0 = some t → ∀ r ∈ queueAt s t, r ∈ t.queue ∨ (∃ pp, t.made = s.made ++ [pp] ∧ r ∈ pp.reqs) ∨
      admissible cfg t.cm r = false := by
    intro s0 h0 e1 e2 e3 e4 logic ht r hr
    obtain ⟨p, n, ov, o, _, hm⟩ := tryToSend_out ht
    rw [e4] at hr hfit
    have hl := o.pop.lost h0.comb (by rw [e2]; exact hfit)
    rw [o.pop.queue] at hr
    rcases List.mem_append.1 hr with hr | hr
    · rcases hl r hr with hx | hx
      · right; left
        cases o.went with
        | nowhere w1 w2 w3 w4 w5 w6 => rw [w1] at hx; cases hx
        | gone w0 w1 w7 w2 w3 w4 w5 w6 => rw [e3] at w7; unfold maxTransient at w7; omega
        | thread w0 w1 w7 w2 w3 w4 w5 w6 => exact ⟨_, by rw [w2, e1], hx⟩
        | sent w0 w1 w2 w3 w4 w5 w6 w7 w8 => exact ⟨_, by rw [w2, e1], hx⟩
      · exact Or.inr (Or.inr hx)
    · exact Or.inl hr
  cases stepped h with
  | same e => subst e; intro r hr; left; simpa [queueAt] using hr
  | tried logic _ e =>
    refine core s hi rfl rfl rfl ?_ logic e
    obtain ⟨p, n, ov, o, _, hm⟩ := tryToSend_out e
    unfold queueAt; rw [o.frame.acc]; simp
  | pushed r hr hl hadm _ _ e =>
    subst hr
    refine core (pushed s r) (inv_push hi hl ha) rfl rfl rfl ?_ true e
    obtain ⟨p, n, ov, o, _, hm⟩ := tryToSend_out e
    unfold queueAt; rw [o.frame.acc]
    show s.queue ++ (s.accepted ++ [r]).drop s.accepted.length = _
    rw [List.drop_left]; rfl
  | landed k pp hk hpp e =>
    obtain ⟨popped, h1, h2⟩ := fifo h hne
    intro r hr
    left
    have : t.queue = s.queue ∧ t.accepted = s.accepted := by
      rcases e with e | e
      · rw [e]; exact ⟨rfl, rfl⟩
      · rcases start_early e with ⟨_, e⟩ | ⟨_, _, _, e⟩ <;> (rw [e]; exact ⟨rfl, rfl⟩)
    unfold queueAt at hr
    rw [this.2] at hr
    rw [this.1]; simpa using hr
  | env he e =>
    intro r hr
    left
    have hq := (env_made he e).2.2 (by intro q hq; subst hq; exact hne trivial)
    obtain ⟨popped, h1, h2⟩ := fifo h hne
    have hlen : (t.accepted.drop s.accepted.length) = [] := by
      have := congrArg List.length h1
      unfold queueAt at this
      rw [hq, List.length_append, List.length_append] at this
      cases a with
      | request r => cases he
      | flush => cases he
      | retry => cases he
      | force => cases he
      | finished k => cases he
      | clients o =>
        change (Clients.step cfg.clients s.cm o).map _ = some t at e
        cases hc : Clients.step cfg.clients s.cm o with
        | none => rw [hc] at e; cases e
        | some cm => rw [hc] at e; simp only [Option.map_some, Option.some.injEq] at e; subst e; simp
      | enter q => cases e; simp
      | executed e1 a1 => cases e; simp
      | stable q => cases e; simp
      | collect => cases e; simp
      | transferred q => cases e; simp
      | leave v => cases e; simp
      | control p w st => cases e; simp
      | adapt k => cases e; simp
    unfold queueAt at hr
    rw [hlen, List.append_nil] at hr
    rw [hq]; exact hr

/-! ## at most once -/

theorem clients_keep {c : Clients.Cfg} {cm cm' : Clients.St} {o : Clients.Op} {k : Nat × Nat}
    (hr : ¬ Removes k (.clients o)) (h : Clients.step c cm o = some cm') (hp : Clients.inProcess c cm k.1 k.2 = true) :
    Clients.inProcess c cm' k.1 k.2 = true := by
  have keep : ∀ cm' : Clients.St, ((cm'.info k.1).hasReq k.2 = (cm.info k.1).hasReq k.2) → Clients.inProcess c cm' k.1 k.2 = true := by
    intro cm' e
    unfold Clients.inProcess at hp ⊢
    rw [e]; exact hp
  have setI : ∀ (id : Nat) (i : Clients.Info), (id = k.1 → i.hasReq k.2 = (cm.info id).hasReq k.2) →
      ((cm.setInfo id i).info k.1).hasReq k.2 = (cm.info k.1).hasReq k.2 := by
    intro id i e
    unfold Clients.St.setInfo
    show (if k.1 = id then i else cm.info k.1).hasReq k.2 = _
    split
    · rename_i e2; rw [e e2.symm, e2]
    · rfl
  cases o with
  | add id seq time cid =>
    cases h
    exact (Clients.add_effect cm id seq time cid k.1 k.2).2 (Or.inl hp)
  | mark id seq =>
    simp only [Clients.step] at h
    split at h <;> cases h
    · refine keep _ (setI id _ (fun e => ?_))
      unfold Clients.Info.mark Clients.Info.hasReq
      simp only [List.any_map]
      congr 1
      funext p
      show ((if p.1 = seq then (p.1, _) else p : Nat × Clients.ReqInfo).1 == k.2) = _
      split <;> rfl
    · exact hp
  | outOfBounds id seq => exact absurd trivial hr
  | remove id seq =>
    simp only [Clients.step] at h
    split at h <;> cases h
    · refine keep _ (setI id _ (fun e => ?_))
      have hne : k.2 ≠ seq := fun e2 => hr (by show k = (id, seq); exact Prod.ext e.symm e2)
      unfold Clients.Info.removeReq Clients.Info.hasReq
      simp only [List.any_filter]
      congr 1
      funext p
      by_cases hpk : p.1 = k.2
      · simp [hpk, hne]
      · have : (p.1 == k.2) = false := by simpa using hpk
        rw [this]; simp
    · exact hp
  | clear => exact absurd trivial hr
  | deleteReply id idx =>
    simp only [Clients.step] at h
    split at h <;> cases h
    · exact keep _ (setI id _ (fun _ => rfl))
    · exact hp
  | reply id seq primary idx result data =>
    simp only [Clients.step, Option.map_eq_some_iff] at h
    obtain ⟨r, hr', e⟩ := h
    unfold Clients.newReply at hr'
    split at hr'; · cases hr'
    split at hr'; · cases hr'; subst e; exact hp
    simp only at hr'
    split at hr'; · cases hr'
    cases hr'; subst e
    exact keep _ (setI id _ (fun _ => rfl))
  | setKey id key =>
    simp only [Clients.step] at h
    split at h
    · split at h <;> cases h
      exact hp
    · cases h; exact hp
  | load pages => exact absurd trivial hr

/-- a request in process stays so until something removes it, and does not enter a batch -/
theorem pending_step {cfg : Cfg} {s t : St} {a : Act} {k : Nat × Nat} (h : step cfg s a = some t) (hr : ¬ Removes k a)
    (hp : inProcess cfg s k = true) : inProcess cfg t k = true := by
  have core : ∀ s0 : St, s0.cm = s.cm → ∀ logic, tryToSend cfg logic s0 = some t → inProcess cfg t k = true := by
    intro s0 e logic ht
    obtain ⟨p, n, ov, o, _, hm⟩ := tryToSend_out ht
    refine (o.pop.pend k).2 (Or.inl ?_)
    rw [e]; exact hp
  cases stepped h with
  | same e => rw [e]; exact hp
  | tried logic _ e => exact core s rfl logic e
  | pushed r hr hl hadm _ _ e => exact core (pushed s r) rfl true e
  | landed k' pp hk hpp e =>
    have : t.cm = s.cm := by
      rcases e with e | e
      · rw [e]; rfl
      · rw [(start_made e).2.1]; rfl
    unfold inProcess; rw [this]; exact hp
  | env he e =>
    cases a with
    | request r => cases he
    | flush => cases he
    | retry => cases he
    | force => cases he
    | finished k => cases he
    | clients o =>
      change (Clients.step cfg.clients s.cm o).map _ = some t at e
      cases hc : Clients.step cfg.clients s.cm o with
      | none => rw [hc] at e; cases e
      | some cm =>
        rw [hc] at e; simp only [Option.map_some, Option.some.injEq] at e; subst e
        exact clients_keep hr hc hp
    | enter q => exact absurd trivial hr
    | executed e1 a1 => cases e; exact hp
    | stable q => cases e; exact hp
    | collect => exact absurd trivial hr
    | transferred q => cases e; exact hp
    | leave v => cases e; exact hp
    | control p w st => cases e; exact hp
    | adapt k => cases e; exact hp

/-- does a batch contain the request -/
def hasKey (k : Nat × Nat) (pp : PP) : Bool := decide (k ∈ pp.reqs.map Req.key)

theorem once_aux {cfg : Cfg} {ok : St → Act → Prop} {s t : St} {as : List Act} (p : Path cfg ok s as t) (k : Nat × Nat) :
    (∀ a ∈ as, ¬ Removes k a) → ∃ new, t.made = s.made ++ new ∧ (new.filter (hasKey k)).length ≤ 1 ∧
      (inProcess cfg s k = true → new.filter (hasKey k) = []) := by
  induction p with
  | nil => intro _; exact ⟨[], by simp, by simp, fun _ => rfl⟩
  | @cons s t u a as ha ht _ ih =>
    intro hr
    obtain ⟨n, h1, h2, h3⟩ := ih (fun a h => hr a (List.mem_cons_of_mem _ h))
    have hra := hr a List.mem_cons_self
    rcases built_when ht with hm | ⟨pp, hm, _, _, _, hk⟩
    · refine ⟨n, by rw [h1, hm], h2, fun hp => h3 (pending_step ht hra hp)⟩
    · by_cases hin : hasKey k pp = true
      · unfold hasKey at hin
        simp only [decide_eq_true_eq] at hin
        obtain ⟨r, hr1, hr2⟩ := List.mem_map.1 hin
        obtain ⟨f1, f2, f3⟩ := hk r hr1
        rw [hr2] at f1 f3
        refine ⟨pp :: n, by rw [h1, hm]; simp, ?_, fun hp => by rw [f1] at hp; cases hp⟩
        have h9 := h3 f3
        rw [List.filter_cons, h9]
        split <;> simp
      · refine ⟨pp :: n, by rw [h1, hm]; simp, ?_, ?_⟩
        · rw [List.filter_cons, if_neg hin]; exact h2
        · intro hp; rw [List.filter_cons, if_neg hin]; exact h3 (pending_step ht hra hp)

/-- **At most once.**  In any execution, however long, in which a given request is not removed from the pending ones
(by its execution, a new view or a state transfer), it is put in at most one batch, and in none if it was pending at
the beginning. -/
theorem proposed_once {cfg : Cfg} {s t : St} {as : List Act} (p : Path cfg (fun _ _ => True) s as t) (k : Nat × Nat)
    (hr : ∀ a ∈ as, ¬ Removes k a) :
    ∃ new, t.made = s.made ++ new ∧ (new.filter (fun pp => decide (k ∈ pp.reqs.map Req.key))).length ≤ 1 ∧
      (inProcess cfg s k = true → ∀ pp ∈ new, k ∉ pp.reqs.map Req.key) := by
  obtain ⟨n, h1, h2, h3⟩ := once_aux p k hr
  refine ⟨n, h1, h2, ?_⟩
  intro hp pp hpp hk
  have h9 := h3 hp
  have : pp ∈ n.filter (hasKey k) := List.mem_filter.2 ⟨hpp, by simpa [hasKey] using hk⟩
  rw [h9] at this; cases this

/-! ## sequence numbers -/

/-- **Sequence numbers grow.**  As long as no view is entered, the PrePrepare messages sent have strictly increasing
sequence numbers, all above the last one used before and not above the last one used after. -/
theorem seq_increasing {cfg : Cfg} {s t : St} {as : List Act} (p : Path cfg (fun _ _ => True) s as t)
    (hne : ∀ a ∈ as, ¬ IsEnter a) :
    ∃ new, t.sent = s.sent ++ new ∧ s.lastUsed ≤ t.lastUsed ∧ new.Pairwise (fun a b => a.seq < b.seq) ∧
      ∀ pp ∈ new, s.lastUsed < pp.seq ∧ pp.seq ≤ t.lastUsed := by
  have one : ∀ (s t : St) (a : Act), step cfg s a = some t → ¬ IsEnter a →
      s.lastUsed ≤ t.lastUsed ∧ (t.sent = s.sent ∨ ∃ pp, t.sent = s.sent ++ [pp] ∧ pp.seq = s.lastUsed + 1 ∧ t.lastUsed = s.lastUsed + 1) := by
    intro s t a h hne
    have tr : ∀ s0 : St, s0.sent = s.sent → s0.lastUsed = s.lastUsed → ∀ logic, tryToSend cfg logic s0 = some t →
        s.lastUsed ≤ t.lastUsed ∧ (t.sent = s.sent ∨ ∃ pp, t.sent = s.sent ++ [pp] ∧ pp.seq = s.lastUsed + 1 ∧ t.lastUsed = s.lastUsed + 1) := by
      intro s0 e1 e2 logic ht
      obtain ⟨p, n, ov, o, _, hm⟩ := tryToSend_out ht
      cases o.went with
      | nowhere w1 w2 w3 w4 w5 w6 => exact ⟨by omega, Or.inl (w3.trans e1)⟩
      | gone w0 w1 w7 w2 w3 w4 w5 w6 => exact ⟨by omega, Or.inl (w3.trans e1)⟩
      | thread w0 w1 w7 w2 w3 w4 w5 w6 => exact ⟨by omega, Or.inl (w3.trans e1)⟩
      | sent w0 w1 w2 w3 w4 w5 w6 w7 w8 =>
        exact ⟨by omega, Or.inr ⟨_, by rw [w3, e1], by show s0.lastUsed + 1 = _; omega, by omega⟩⟩
    cases stepped h with
    | same e => rw [e]; exact ⟨Nat.le_refl _, Or.inl rfl⟩
    | tried logic _ e => exact tr s rfl rfl logic e
    | pushed r hr hl hadm _ _ e => exact tr (pushed s r) rfl rfl true e
    | landed k pp hk hpp e =>
      rcases e with e | e
      · rw [e]; exact ⟨Nat.le_refl _, Or.inl rfl⟩
      · rcases start_early e with ⟨_, e⟩ | ⟨_, _, _, e⟩
        · rw [e]; exact ⟨Nat.le_refl _, Or.inl rfl⟩
        · rw [e]; exact ⟨Nat.le_succ _, Or.inr ⟨_, rfl, rfl, rfl⟩⟩
    | env he e =>
      refine ⟨?_, Or.inl (env_made he e).2.1⟩
      cases a with
      | request r => cases he
      | flush => cases he
      | retry => cases he
      | force => cases he
      | finished k => cases he
      | clients o =>
        change (Clients.step cfg.clients s.cm o).map _ = some t at e
        cases hc : Clients.step cfg.clients s.cm o with
        | none => rw [hc] at e; cases e
        | some cm => rw [hc] at e; simp only [Option.map_some, Option.some.injEq] at e; subst e; exact Nat.le_refl _
      | enter q => exact absurd trivial hne
      | executed e1 a1 => cases e; exact Nat.le_refl _
      | stable q => cases e; show s.lastUsed ≤ if q > s.lastUsed then q else s.lastUsed; split <;> omega
      | collect => cases e; exact Nat.le_refl _
      | transferred q => cases e; show s.lastUsed ≤ if q > s.lastUsed then q else s.lastUsed; split <;> omega
      | leave v => cases e; exact Nat.le_refl _
      | control p w st => cases e; exact Nat.le_refl _
      | adapt k => cases e; exact Nat.le_refl _
  induction p with
  | nil => exact ⟨[], by simp, Nat.le_refl _, List.Pairwise.nil, by simp⟩
  | cons ha ht _ ih =>
    obtain ⟨n, h1, h2, h3, h4⟩ := ih (fun a h => hne a (List.mem_cons_of_mem _ h))
    obtain ⟨g1, g2⟩ := one _ _ _ ht (hne _ List.mem_cons_self)
    rcases g2 with g2 | ⟨pp, g2, g3, g4⟩
    · exact ⟨n, by rw [h1, g2], Nat.le_trans g1 h2, h3, fun pp hpp => ⟨by have := (h4 pp hpp).1; omega, (h4 pp hpp).2⟩⟩
    · refine ⟨pp :: n, by rw [h1, g2]; simp, Nat.le_trans g1 h2, ?_, ?_⟩
      · rw [List.pairwise_cons]
        refine ⟨fun x hx => ?_, h3⟩
        have := (h4 x hx).1; omega
      · intro x hx
        rcases List.mem_cons.1 hx with rfl | hx
        · omega
        · have := h4 x hx; omega

/-- **No two batches for the same view and sequence number.**  The primary never sends two PrePrepare messages with
the same view and sequence number, provided no batch is with a worker thread when it enters a view or ends a state
transfer.  (Otherwise it does: `Examples.equivocates`.) -/
theorem no_equivocation_partial {cfg : Cfg} (hn : 0 < cfg.maxNum) {s : St} {as : List Act}
    (p : Path cfg (fun s a => Allowed cfg s a ∧ Quiet s a) (init cfg) as s) :
    s.sent.Pairwise (fun a b => ¬ (a.view = b.view ∧ a.seq = b.seq)) :=
  (inv2_path p (inv_init cfg hn) (inv2_init cfg)).2.dist

/-- the same without any condition when the batches are finished in the main thread -/
theorem no_equivocation_sync {cfg : Cfg} (hn : 0 < cfg.maxNum) (hs : cfg.async = false) {s : St} {as : List Act}
    (p : Path cfg (Allowed cfg) (init cfg) as s) :
    s.sent.Pairwise (fun a b => ¬ (a.view = b.view ∧ a.seq = b.seq)) :=
  no_equivocation_partial hn (quiet_sync hs p (inv_init cfg hn))

/-- **No assertion fails**, and every sequence number given out is in the window: at any point of such an execution,
whatever happens next, the replica goes on; the batches in flight and the sequence numbers used stay in the window
above the stable checkpoint, and the 16-bit counter of batches in flight cannot overflow.  (With a batch in flight when a
view is entered the assertion on the window can fail: `Examples.stale_batch_aborts`.) -/
theorem never_aborts_partial {cfg : Cfg} (hn : 0 < cfg.maxNum) (hc : cfg.conc ≤ 75) {s : St} {as : List Act}
    (p : Path cfg (fun s a => Allowed cfg s a ∧ Quiet s a) (init cfg) as s) :
    s.lastStable ≤ s.lastUsed ∧ s.lastUsed + s.flight.length ≤ s.lastStable + 300 ∧ s.transient + 1 < 65535 ∧
    ∀ a, Allowed cfg s a → ∃ t, step cfg s a = some t := by
  obtain ⟨h1, h2⟩ := inv2_path p (inv_init cfg hn) (inv2_init cfg)
  have hw := h2.win
  have hlow := h1.low
  refine ⟨hlow, by rw [← h1.tr]; exact hw, by unfold window at hw; omega, ?_⟩
  intro a ha
  exact step_some hc h1 h2 ha

/-- the same without any condition when the batches are finished in the main thread -/
theorem never_aborts_sync {cfg : Cfg} (hn : 0 < cfg.maxNum) (hc : cfg.conc ≤ 75) (hs : cfg.async = false) {s : St} {as : List Act}
    (p : Path cfg (Allowed cfg) (init cfg) as s) :
    s.lastStable ≤ s.lastUsed ∧ s.lastUsed ≤ s.lastStable + 300 ∧ s.flight = [] ∧
    ∀ a, Allowed cfg s a → ∃ t, step cfg s a = some t := by
  have q := quiet_sync hs p (inv_init cfg hn)
  obtain ⟨h1, h2, _, h3⟩ := never_aborts_partial hn hc q
  have hf := (inv_path (fun _ _ h => h) p (inv_init cfg hn)).sync hs
  rw [hf] at h2
  exact ⟨h1, h2, hf, h3⟩

/-- **What is sent when.**  In the main-thread mode a PrePrepare is sent in the step that builds it, under the conditions
of `MayPropose`, with the next sequence number of the current view. -/
theorem sent_when_sync {cfg : Cfg} (hs : cfg.async = false) (hn : 0 < cfg.maxNum) {s t : St} {as : List Act}
    (p : Path cfg (Allowed cfg) (init cfg) as s) {a : Act} (h : step cfg s a = some t) :
    t.sent = s.sent ∨ ∃ pp, t.sent = s.sent ++ [pp] ∧ t.made = s.made ++ [pp] ∧ MayPropose cfg s ∧
      pp.view = s.view ∧ pp.seq = s.lastUsed + 1 ∧ s.lastStable < pp.seq ∧ pp.seq ≤ s.lastStable + 300 ∧
      pp.seq ≤ s.lastExec + cfg.conc + s.active := by
  have hi := inv_path (fun _ _ h => h) p (inv_init cfg hn)
  have key : ∀ s0 : St, s0.sent = s.sent → s0.made = s.made → s0.view = s.view → s0.lastUsed = s.lastUsed →
      (MayPropose cfg s0 → MayPropose cfg s) → ∀ logic, tryToSend cfg logic s0 = some t →
      t.sent = s.sent ∨ ∃ pp, t.sent = s.sent ++ [pp] ∧ t.made = s.made ++ [pp] ∧ MayPropose cfg s ∧
        pp.view = s.view ∧ pp.seq = s.lastUsed + 1 ∧ s.lastStable < pp.seq ∧ pp.seq ≤ s.lastStable + 300 ∧
        pp.seq ≤ s.lastExec + cfg.conc + s.active := by
    intro s0 e1 e2 e3 e4 e5 logic ht
    obtain ⟨p, n, ov, o, _, hm⟩ := tryToSend_out ht
    cases o.went with
    | nowhere w1 w2 w3 w4 w5 w6 => exact Or.inl (w3.trans e1)
    | gone w0 w1 w7 w2 w3 w4 w5 w6 => exact Or.inl (w3.trans e1)
    | thread w0 w1 w7 w2 w3 w4 w5 w6 => exact Or.inl (w3.trans e1)
    | sent w0 w1 w2 w3 w4 w5 w6 w7 w8 =>
      have m := e5 (hm.resolve_left w0)
      refine Or.inr ⟨⟨s0.view, s0.lastUsed + 1, n, ov⟩, by rw [w3, e1], by rw [w2, e2], m, e3, by show s0.lastUsed + 1 = _; rw [e4], ?_, ?_, ?_⟩
      · show s.lastStable < s0.lastUsed + 1
        have := hi.low; omega
      · show s0.lastUsed + 1 ≤ _
        have := m.inWindow; omega
      · show s0.lastUsed + 1 ≤ _
        have := m.inConc; omega
  cases stepped h with
  | same e => exact Or.inl (by rw [e])
  | tried logic _ e => exact key s rfl rfl rfl rfl id logic e
  | pushed r hr hl hadm _ _ e =>
    exact key (pushed s r) rfl rfl rfl rfl (fun m => ⟨m.primary, m.active, m.collecting, m.pruning, m.wedged, m.stop, m.inWindow, m.inConc⟩) true e
  | landed k pp hk hpp e =>
    rw [hi.sync hs] at hpp; cases hpp
  | env he e => exact Or.inl (env_made he e).2.1

end Concord.Batch
