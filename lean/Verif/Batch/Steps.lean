import Verif.Batch.Send
/-! # Steps, the invariant and its preservation -/
set_option linter.unusedSimpArgs false
set_option linter.unusedVariables false
namespace Concord.Batch
open Verif

/-- the state with a request pushed to the queue -/
def pushed (s : St) (r : Req) : St := { s with
  combined := s.combined + r.size, queue := s.queue ++ [r], accepted := s.accepted ++ [r] }

/-- the state with a batch taken back from the worker threads -/
def landed (s : St) (k : Nat) : St := { s with
  flight := s.flight.eraseIdx k, transient := s.transient - 1 }

/-- actions that do not concern batches -/
def Env (a : Act) : Prop :=
  match a with
  | .request _ | .flush | .retry | .force | .finished _ => False
  | _ => True

/-- where a step leads -/
inductive Stepped (cfg : Cfg) (s : St) (a : Act) (t : St) : Prop where
  | same : t = s → Stepped cfg s a t
  | tried (logic : Bool) : (∀ r, a ≠ .request r) → tryToSend cfg logic s = some t → Stepped cfg s a t
  | pushed (r : Req) : a = .request r → s.queue.length < maxQueue → admissible cfg s.cm r = true →
      primary cfg s = true → s.viewActive = true →
      tryToSend cfg true (pushed s r) = some t → Stepped cfg s a t
  | landed (k : Nat) (pp : PP) : a = .finished k → s.flight[k]? = some pp →
      t = landed s k ∨ start cfg (landed s k) pp true = some t → Stepped cfg s a t
  | env : Env a → step cfg s a = some t → Stepped cfg s a t

theorem stepped {cfg : Cfg} {s t : St} {a : Act} (h : step cfg s a = some t) : Stepped cfg s a t := by
  cases a with
  | request r =>
    change onRequest cfg s r = some t at h
    unfold onRequest at h
    split at h; · cases h; exact .same rfl
    split at h; · cases h; exact .same rfl
    rename_i hv
    split at h; · cases h; exact .same rfl
    split at h; · cases h; exact .same rfl
    rename_i hp
    split at h; · cases h; exact .same rfl
    rename_i hl
    split at h
    · rename_i ha
      exact .pushed r rfl (by omega) ha (by simpa using hp) (by simpa using hv) h
    · cases h; exact .same rfl
  | flush =>
    change (if _ then _ else _) = _ at h
    split at h
    · exact .tried false (by intro r e; cases e) h
    · cases h; exact .same rfl
  | retry =>
    change (if _ then _ else _) = _ at h
    split at h
    · exact .tried true (by intro r e; cases e) h
    · cases h; exact .same rfl
  | force => exact .tried false (by intro r e; cases e) h
  | finished k =>
    change onFinished cfg s k = some t at h
    unfold onFinished at h
    split at h
    · cases h; exact .same rfl
    · rename_i pp hpp
      simp only at h
      split at h
      · cases h; exact .landed k pp rfl hpp (Or.inl rfl)
      · exact .landed k pp rfl hpp (Or.inr h)
  | clients o => exact .env trivial h
  | executed e a => exact .env trivial h
  | stable q => exact .env trivial h
  | collect => exact .env trivial h
  | transferred q => exact .env trivial h
  | leave v => exact .env trivial h
  | enter q => exact .env trivial h
  | control p w st => exact .env trivial h
  | adapt k => exact .env trivial h

/-- what `start` does with a batch from a worker thread -/
theorem start_early {cfg : Cfg} {s t : St} {pp : PP} (h : start cfg s pp true = some t) :
    (primary cfg s = false ∧ t = s) ∨
    (primary cfg s = true ∧ s.lastStable < s.lastUsed + 1 ∧ s.lastUsed + 1 ≤ s.lastStable + window ∧
      t = { s with
        lastUsed := s.lastUsed + 1, sent := s.sent ++ [{ pp with
          seq := s.lastUsed + 1 }] }) := by
  unfold start at h
  split at h
  · rename_i hp; cases h; exact Or.inl ⟨hp, rfl⟩
  · rename_i hp
    split at h
    · rename_i hw; cases h; exact Or.inr ⟨by simpa using hp, hw.1, hw.2, rfl⟩
    · cases h

/-- the invariant -/
structure Inv (cfg : Cfg) (s : St) : Prop where
  comb : s.combined = total s.queue
  len : s.queue.length ≤ maxQueue
  pos : ∀ r ∈ s.queue, 0 < r.size
  qacc : ∀ r ∈ s.queue, r ∈ s.accepted
  made : ∀ pp ∈ s.made, BatchOk cfg s.accepted pp
  fl : ∀ pp ∈ s.flight, pp ∈ s.made
  sent : ∀ pp ∈ s.sent, ∃ m ∈ s.made, pp.reqs = m.reqs ∧ pp.view = m.view ∧ pp.overhead = m.overhead
  tr : s.transient = s.flight.length
  low : s.lastStable ≤ s.lastUsed
  num : 0 < s.maxNum
  exec : primary cfg s = true → s.viewActive = true → s.lastExec + s.active ≤ s.lastUsed
  sync : cfg.async = false → s.flight = []
  vle : ∀ pp ∈ s.made, pp.view ≤ s.view
  vlt : s.viewActive = false → ∀ pp ∈ s.made, pp.view < s.view

theorem inv_init (cfg : Cfg) (h : 0 < cfg.maxNum) : Inv cfg (init cfg) :=
  ⟨rfl, Nat.zero_le _, by simp [init], by simp [init], by simp [init], by simp [init], by simp [init], rfl, Nat.le_refl _,
   h, fun _ _ => Nat.le_refl _, fun _ => rfl, by simp [init], by simp [init]⟩

theorem BatchOk.grow {cfg : Cfg} {a b : List Req} {pp : PP} (h : BatchOk cfg a pp) (hs : ∀ r ∈ a, r ∈ b) : BatchOk cfg b pp :=
  ⟨h.nonempty, h.once, fun r hr => hs r (h.genuine r hr), h.fits⟩

theorem inv_push {cfg : Cfg} {s : St} {r : Req} (h : Inv cfg s) (hl : s.queue.length < maxQueue) (hp : 0 < r.size) :
    Inv cfg (pushed s r) := by
  refine ⟨?_, ?_, ?_, ?_, ?_, h.fl, h.sent, h.tr, h.low, h.num, h.exec, h.sync, h.vle, h.vlt⟩
  · show s.combined + r.size = total (s.queue ++ [r])
    rw [total_append, total_cons, total_nil, h.comb]; omega
  · show (s.queue ++ [r]).length ≤ _
    rw [List.length_append]; exact hl
  · intro x hx
    rcases List.mem_append.1 hx with hx | hx
    · exact h.pos x hx
    · rw [List.mem_singleton.1 hx]; exact hp
  · intro x hx
    show x ∈ s.accepted ++ [r]
    rcases List.mem_append.1 hx with hx | hx
    · exact List.mem_append_left _ (h.qacc x hx)
    · exact List.mem_append_right _ hx
  · intro pp hpp; exact (h.made pp hpp).grow (fun x hx => List.mem_append_left _ hx)

theorem inv_out {cfg : Cfg} {s t : St} {popped new : List Req} {ov : Nat} (h : Inv cfg s) (o : Out cfg s t popped new ov)
    (hm : new = [] ∨ MayPropose cfg s) : Inv cfg t := by
  have hq := o.pop.queue
  have hsub : ∀ r ∈ t.queue, r ∈ s.queue := fun r hr => by rw [hq]; exact List.mem_append_right _ hr
  have hb : new ≠ [] → BatchOk cfg t.accepted ⟨s.view, s.lastUsed + 1, new, ov⟩ := by
    intro hn
    refine ⟨hn, o.pop.nodup, ?_, o.pop.fits h.comb h.pos hn⟩
    intro r hr
    rw [o.frame.acc]
    exact h.qacc r (by rw [hq]; exact List.mem_append_left _ (o.pop.sub.subset hr))
  have hprim : primary cfg t = primary cfg s := by unfold primary; rw [o.frame.view]
  have c1 : t.combined = total t.queue := by rw [o.pop.comb, h.comb, hq, total_append]; omega
  have c2 : t.queue.length ≤ maxQueue := by
    have := h.len; rw [hq, List.length_append] at this; omega
  have c3 : ∀ r ∈ t.queue, 0 < r.size := fun r hr => h.pos r (hsub r hr)
  have c4 : ∀ r ∈ t.queue, r ∈ t.accepted := fun r hr => by rw [o.frame.acc]; exact h.qacc r (hsub r hr)
  have c5 : 0 < t.maxNum := by rw [o.frame.num]; exact h.num
  have old : ∀ pp ∈ s.made, BatchOk cfg t.accepted pp := fun pp hpp => by rw [o.frame.acc]; exact h.made pp hpp
  have hact : new ≠ [] → t.viewActive = true := by
    intro hn
    rcases hm with hm | hm
    · exact absurd hm hn
    · rw [o.frame.act]; exact hm.active
  cases o.went with
  | nowhere w1 w2 w3 w4 w5 w6 =>
    refine ⟨c1, c2, c3, c4, by rw [w2]; exact old, by rw [w2, w4]; exact h.fl, by rw [w2, w3]; exact h.sent, by rw [w5, w4]; exact h.tr,
      by rw [o.frame.stab, w6]; exact h.low, c5, ?_, by rw [w4]; exact h.sync, by rw [w2, o.frame.view]; exact h.vle,
      by rw [w2, o.frame.view, o.frame.act]; exact h.vlt⟩
    rw [hprim, o.frame.act, o.frame.exec, o.frame.actv, w6]; exact h.exec
  | gone w0 w1 w7 w2 w3 w4 w5 w6 =>
    refine ⟨c1, c2, c3, c4, by rw [w2]; exact old, by rw [w2, w4]; exact h.fl, by rw [w2, w3]; exact h.sent, by rw [w5, w4]; exact h.tr,
      by rw [o.frame.stab, w6]; exact h.low, c5, ?_, by rw [w4]; exact h.sync, by rw [w2, o.frame.view]; exact h.vle,
      by rw [w2, o.frame.view, o.frame.act]; exact h.vlt⟩
    rw [hprim, o.frame.act, o.frame.exec, o.frame.actv, w6]; exact h.exec
  | thread w0 w1 w7 w2 w3 w4 w5 w6 =>
    refine ⟨c1, c2, c3, c4, ?_, ?_, ?_, ?_, by rw [o.frame.stab, w6]; exact h.low, c5, ?_, ?_, ?_, ?_⟩
    · intro pp hpp; rw [w2] at hpp
      rcases List.mem_append.1 hpp with hpp | hpp
      · exact old pp hpp
      · rw [List.mem_singleton.1 hpp]; exact hb w0
    · intro pp hpp; rw [w4] at hpp; rw [w2]
      rcases List.mem_append.1 hpp with hpp | hpp
      · exact List.mem_append_left _ (h.fl pp hpp)
      · exact List.mem_append_right _ hpp
    · intro pp hpp; rw [w3] at hpp
      obtain ⟨m, hm1, hm2⟩ := h.sent pp hpp
      exact ⟨m, by rw [w2]; exact List.mem_append_left _ hm1, hm2⟩
    · rw [w4, w5, h.tr, List.length_append]; rfl
    · rw [hprim, o.frame.act, o.frame.exec, o.frame.actv, w6]; exact h.exec
    · intro hs; rw [w1] at hs; cases hs
    · intro pp hpp; rw [w2] at hpp; rw [o.frame.view]
      rcases List.mem_append.1 hpp with hpp | hpp
      · exact h.vle pp hpp
      · rw [List.mem_singleton.1 hpp]; exact Nat.le_refl _
    · intro hv; rw [hact w0] at hv; cases hv
  | sent w0 w1 w2 w3 w4 w5 w6 w7 w8 =>
    refine ⟨c1, c2, c3, c4, ?_, ?_, ?_, by rw [w4, w5]; exact h.tr, by rw [o.frame.stab, w6]; have := h.low; omega, c5, ?_, by rw [w4]; exact h.sync, ?_, ?_⟩
    · intro pp hpp; rw [w2] at hpp
      rcases List.mem_append.1 hpp with hpp | hpp
      · exact old pp hpp
      · rw [List.mem_singleton.1 hpp]; exact hb w0
    · intro pp hpp; rw [w4] at hpp; rw [w2]; exact List.mem_append_left _ (h.fl pp hpp)
    · intro pp hpp; rw [w3] at hpp
      rcases List.mem_append.1 hpp with hpp | hpp
      · obtain ⟨m, hm1, hm2⟩ := h.sent pp hpp
        exact ⟨m, by rw [w2]; exact List.mem_append_left _ hm1, hm2⟩
      · exact ⟨pp, by rw [w2]; exact List.mem_append_right _ hpp, rfl, rfl, rfl⟩
    · rw [hprim, o.frame.act, o.frame.exec, o.frame.actv, w6]
      intro a b; have := h.exec a b; omega
    · intro pp hpp; rw [w2] at hpp; rw [o.frame.view]
      rcases List.mem_append.1 hpp with hpp | hpp
      · exact h.vle pp hpp
      · rw [List.mem_singleton.1 hpp]; exact Nat.le_refl _
    · intro hv; rw [hact w0] at hv; cases hv

theorem mem_eraseIdx {α : Type} {l : List α} {k : Nat} {x : α} (h : x ∈ l.eraseIdx k) : x ∈ l :=
  (List.eraseIdx_sublist l k).subset h

theorem inv_landed {cfg : Cfg} {s : St} (h : Inv cfg s) {k : Nat} {pp : PP} (hk : s.flight[k]? = some pp) : Inv cfg (landed s k) := by
  have hlt : k < s.flight.length := by
    rw [List.getElem?_eq_some_iff] at hk; exact hk.1
  refine ⟨h.comb, h.len, h.pos, h.qacc, h.made, ?_, h.sent, ?_, h.low, h.num, h.exec, ?_, h.vle, h.vlt⟩
  · intro x hx; exact h.fl x (mem_eraseIdx hx)
  · show s.transient - 1 = (s.flight.eraseIdx k).length
    rw [List.length_eraseIdx, if_pos hlt, h.tr]
  · intro hs
    show s.flight.eraseIdx k = []
    rw [h.sync hs]; rfl

theorem inv_start {cfg : Cfg} {s t : St} (h : Inv cfg s) {pp : PP} (hpp : pp ∈ s.made)
    (ht : start cfg s pp true = some t) : Inv cfg t := by
  rcases start_early ht with ⟨_, e⟩ | ⟨_, h1, h2, e⟩
  · rw [e]; exact h
  · subst e
    refine ⟨h.comb, h.len, h.pos, h.qacc, h.made, h.fl, ?_, h.tr, ?_, h.num, ?_, h.sync, h.vle, h.vlt⟩
    · intro x hx
      rcases List.mem_append.1 hx with hx | hx
      · exact h.sent x hx
      · rw [List.mem_singleton.1 hx]; exact ⟨pp, hpp, rfl, rfl, rfl⟩
    · show s.lastStable ≤ s.lastUsed + 1; have := h.low; omega
    · intro a b; have := h.exec a b; show s.lastExec + s.active ≤ s.lastUsed + 1; omega

theorem emptied_eq : ∀ (q : List Req) (c : Nat), emptied q c = c - total q := by
  intro q
  induction q with
  | nil => intro c; simp [emptied, total_nil]
  | cons r q ih => intro c; rw [emptied, ih, total_cons]; omega

theorem inv_env {cfg : Cfg} {s t : St} {a : Act} (h : Inv cfg s) (he : Env a) (ha : Allowed cfg s a)
    (ht : step cfg s a = some t) : Inv cfg t := by
  cases a with
  | request r => cases he
  | flush => cases he
  | retry => cases he
  | force => cases he
  | finished k => cases he
  | clients o =>
    change (Clients.step cfg.clients s.cm o).map _ = some t at ht
    cases hc : Clients.step cfg.clients s.cm o with
    | none => rw [hc] at ht; cases ht
    | some cm =>
      rw [hc] at ht
      simp only [Option.map_some, Option.some.injEq] at ht
      subst ht
      exact ⟨h.comb, h.len, h.pos, h.qacc, h.made, h.fl, h.sent, h.tr, h.low, h.num, h.exec, h.sync, h.vle, h.vlt⟩
  | executed e a =>
    cases ht
    exact ⟨h.comb, h.len, h.pos, h.qacc, h.made, h.fl, h.sent, h.tr, h.low, h.num, ha, h.sync, h.vle, h.vlt⟩
  | stable q =>
    cases ht
    refine ⟨h.comb, h.len, h.pos, h.qacc, h.made, h.fl, h.sent, h.tr, ?_, h.num, ?_, h.sync, h.vle, h.vlt⟩
    · show q ≤ if q > s.lastUsed then q else s.lastUsed
      split <;> omega
    · intro a b
      have := h.exec a b
      show s.lastExec + s.active ≤ if q > s.lastUsed then q else s.lastUsed
      split <;> omega
  | collect =>
    cases ht
    exact ⟨h.comb, h.len, h.pos, h.qacc, h.made, h.fl, h.sent, h.tr, h.low, h.num, h.exec, h.sync, h.vle, h.vlt⟩
  | transferred q =>
    cases ht
    refine ⟨h.comb, h.len, h.pos, h.qacc, h.made, h.fl, h.sent, h.tr, ?_, h.num, ?_, h.sync, h.vle, h.vlt⟩
    · show s.lastStable ≤ if q > s.lastUsed then q else s.lastUsed
      have := h.low
      split <;> omega
    · intro a b
      show q + 0 ≤ if q > s.lastUsed then q else s.lastUsed
      split <;> omega
  | leave v =>
    cases ht
    have hv : s.view < v := ha
    refine ⟨h.comb, h.len, h.pos, h.qacc, h.made, h.fl, h.sent, h.tr, h.low, h.num, ?_, h.sync, ?_, ?_⟩
    · intro _ b; cases b
    · intro pp hpp; have := h.vle pp hpp; show pp.view ≤ v; omega
    · intro _ pp hpp; have := h.vle pp hpp; show pp.view < v; omega
  | enter q =>
    cases ht
    obtain ⟨h1, h2, h3, h4⟩ := ha
    refine ⟨?_, Nat.zero_le _, (by intro r hr; cases hr), (by intro r hr; cases hr), h.made, h.fl, h.sent, h.tr, h2, h.num,
      fun _ _ => h4, h.sync, h.vle, ?_⟩
    · show emptied s.queue s.combined = 0
      rw [emptied_eq, h.comb]; omega
    · intro b; cases b
  | control p w st =>
    cases ht
    exact ⟨h.comb, h.len, h.pos, h.qacc, h.made, h.fl, h.sent, h.tr, h.low, h.num, h.exec, h.sync, h.vle, h.vlt⟩
  | adapt k =>
    cases ht
    exact ⟨h.comb, h.len, h.pos, h.qacc, h.made, h.fl, h.sent, h.tr, h.low, ha, h.exec, h.sync, h.vle, h.vlt⟩

theorem inv_step {cfg : Cfg} {s t : St} {a : Act} (h : Inv cfg s) (ha : Allowed cfg s a) (ht : step cfg s a = some t) :
    Inv cfg t := by
  cases stepped ht with
  | same e => rw [e]; exact h
  | tried logic _ e =>
    obtain ⟨p, n, ov, o, _, hm⟩ := tryToSend_out e
    exact inv_out h o hm
  | pushed r hr hl hadm _ _ e =>
    subst hr
    obtain ⟨p, n, ov, o, _, hm⟩ := tryToSend_out e
    exact inv_out (inv_push h hl ha) o hm
  | landed k pp hk hpp e =>
    have hl := inv_landed h hpp
    rcases e with e | e
    · rw [e]; exact hl
    · refine inv_start hl (h.fl pp ?_) e
      rw [List.getElem?_eq_some_iff] at hpp
      obtain ⟨hlt, he⟩ := hpp
      rw [← he]; exact List.getElem_mem hlt
  | env he e => exact inv_env h he ha e

theorem inv_path {cfg : Cfg} {ok : St → Act → Prop} (hok : ∀ s a, ok s a → Allowed cfg s a) {s t : St} {as : List Act}
    (p : Path cfg ok s as t) (h : Inv cfg s) : Inv cfg t := by
  induction p with
  | nil => exact h
  | cons ha ht _ ih => exact ih (inv_step h (hok _ _ ha) ht)

end Concord.Batch
