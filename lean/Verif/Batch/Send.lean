import Verif.Batch.Proofs
/-! # One attempt to send: what it does to the state -/
set_option linter.unusedSimpArgs false
set_option linter.unusedVariables false
namespace Concord.Batch
open Verif

/-- what no attempt to send changes -/
structure Frame (s t : St) : Prop where
  view : t.view = s.view
  act : t.viewActive = s.viewActive
  coll : t.collecting = s.collecting
  prun : t.pruning = s.pruning
  wedg : t.wedged = s.wedged
  stop : t.stopAt = s.stopAt
  exec : t.lastExec = s.lastExec
  actv : t.active = s.active
  stab : t.lastStable = s.lastStable
  num : t.maxNum = s.maxNum
  acc : t.accepted = s.accepted

/-- the queue: these requests were popped, those were put in the batch, in a message with `cap` bytes of room -/
structure Popped (cfg : Cfg) (s t : St) (popped new : List Req) (ov : Nat) : Prop where
  queue : s.queue = popped ++ t.queue
  comb : t.combined = s.combined - total popped
  sub : new.Sublist popped
  pend : ∀ k, inP cfg t.cm k = true ↔ inP cfg s.cm k = true ∨ k ∈ new.map Req.key
  reps : ∀ k, hasR cfg t.cm k = hasR cfg s.cm k
  fresh : ∀ r ∈ new, inP cfg s.cm r.key = false ∧ hasR cfg s.cm r.key = false
  nodup : (new.map Req.key).Nodup
  mono : ∀ r, admissible cfg t.cm r = true → admissible cfg s.cm r = true
  ovOf : new ≠ [] → ∃ r ∈ s.queue, ov = overheadOf (s.lastUsed + 1) r.span
  fits : s.combined = total s.queue → (∀ r ∈ s.queue, 0 < r.size) → new ≠ [] → ov + total new ≤ cfg.maxMsg
  lost : s.combined = total s.queue →
    (∀ r ∈ s.queue, total s.queue + overheadOf (s.lastUsed + 1) r.span < cfg.maxMsg) →
    ∀ r ∈ popped, r ∈ new ∨ admissible cfg t.cm r = false

/-- where the batch went -/
inductive Went (cfg : Cfg) (s t : St) (new : List Req) (ov : Nat) : Prop where
  | nowhere : new = [] → t.made = s.made → t.sent = s.sent → t.flight = s.flight → t.transient = s.transient →
      t.lastUsed = s.lastUsed → Went cfg s t new ov
  | thread : new ≠ [] → cfg.async = true → s.transient + 1 < maxTransient →
      t.made = s.made ++ [⟨s.view, s.lastUsed + 1, new, ov⟩] → t.sent = s.sent →
      t.flight = s.flight ++ [⟨s.view, s.lastUsed + 1, new, ov⟩] → t.transient = s.transient + 1 →
      t.lastUsed = s.lastUsed → Went cfg s t new ov
  | gone : new ≠ [] → cfg.async = true → maxTransient ≤ s.transient + 1 →
      t.made = s.made → t.sent = s.sent → t.flight = s.flight → t.transient = s.transient →
      t.lastUsed = s.lastUsed → Went cfg s t new ov
  | sent : new ≠ [] → cfg.async = false →
      t.made = s.made ++ [⟨s.view, s.lastUsed + 1, new, ov⟩] → t.sent = s.sent ++ [⟨s.view, s.lastUsed + 1, new, ov⟩] →
      t.flight = s.flight → t.transient = s.transient →
      t.lastUsed = s.lastUsed + 1 → s.lastStable < s.lastUsed + 1 → s.lastUsed + 1 ≤ s.lastStable + window →
      Went cfg s t new ov

theorem Frame.refl (s : St) : Frame s s := ⟨rfl, rfl, rfl, rfl, rfl, rfl, rfl, rfl, rfl, rfl, rfl⟩

theorem Frame.trans {s t u : St} (a : Frame s t) (b : Frame t u) : Frame s u :=
  ⟨b.view.trans a.view, b.act.trans a.act, b.coll.trans a.coll, b.prun.trans a.prun, b.wedg.trans a.wedg,
   b.stop.trans a.stop, b.exec.trans a.exec, b.actv.trans a.actv, b.stab.trans a.stab, b.num.trans a.num,
   b.acc.trans a.acc⟩

/-- the guard, as read off `check` -/
theorem check_true {cfg : Cfg} {s : St} (h : check cfg s = some true) :
    MayPropose cfg s ∧ s.queue ≠ [] ∧ s.lastExec + s.active ≤ s.lastUsed := by
  unfold check at h
  split at h; · cases h
  rename_i h1
  split at h; · cases h
  rename_i h2
  split at h; · cases h
  rename_i h3
  split at h; · cases h
  rename_i h4
  split at h; · cases h
  rename_i h5
  split at h; · cases h
  rename_i h6
  split at h; · cases h
  rename_i h7
  split at h; · cases h
  rename_i h8
  simp only [stopped, Bool.not_eq_true, Bool.or_eq_false_iff] at h4
  refine ⟨⟨?_, by simpa using h3, by simpa using h2, h4.1.1, h4.1.2, ?_, by unfold window at h5; omega, by omega⟩, ?_, by omega⟩
  · simpa [primary] using h1
  · intro p hp
    have h9 := h4.2
    rw [hp] at h9
    simp only [decide_eq_false_iff_not] at h9
    omega
  · intro e; rw [e] at h; simp at h

theorem check_none {cfg : Cfg} {s : St} (h : check cfg s = none) (hc : cfg.conc ≤ maxConcurrent) :
    primary cfg s = true ∧ s.viewActive = true ∧ s.lastUsed < s.lastExec + s.active := by
  unfold check at h
  split at h; · cases h
  rename_i h1
  split at h; · cases h
  split at h; · cases h
  rename_i h3
  split at h; · cases h
  split at h; · cases h
  split at h; · cases h
  split at h
  · rename_i h7; exact ⟨by simpa using h1, by simpa using h3, h7⟩
  split at h
  · omega
  · cases h

theorem check_of {cfg : Cfg} {s : St} (h : MayPropose cfg s) (hq : s.queue ≠ []) (hc : cfg.conc ≤ maxConcurrent)
    (he : s.lastExec + s.active ≤ s.lastUsed) : check cfg s = some true := by
  have hcw := h.inConc
  have hst : stopped s (s.lastUsed + s.transient + 1) = false := by
    unfold stopped
    rw [h.pruning, h.wedged]
    cases hs : s.stopAt with
    | none => rfl
    | some p => have := h.stop p hs; simp; omega
  unfold check
  rw [if_neg (by simp [primary, h.primary]), if_neg (by simp [h.collecting]), if_neg (by simp [h.active]),
    if_neg (by simp [hst]), if_neg (by have := h.inWindow; unfold window; omega), if_neg (by omega), if_neg (by omega),
    if_neg (by omega)]
  cases hs : s.queue with
  | nil => exact absurd hs hq
  | cons => rfl

theorem removeDuplicated_frame (cfg : Cfg) (s : St) : Frame s (removeDuplicated cfg s) :=
  ⟨rfl, rfl, rfl, rfl, rfl, rfl, rfl, rfl, rfl, rfl, rfl⟩

/-- what removing the duplicates at the head does -/
structure Trimmed (cfg : Cfg) (s t : St) (d : List Req) : Prop where
  frame : Frame s t
  cm : t.cm = s.cm
  queue : s.queue = d ++ t.queue
  comb : t.combined = s.combined - total d
  dup : ∀ r ∈ d, admissible cfg s.cm r = false
  made : t.made = s.made
  sent : t.sent = s.sent
  flight : t.flight = s.flight
  tran : t.transient = s.transient
  used : t.lastUsed = s.lastUsed

theorem removeDuplicated_trimmed (cfg : Cfg) (s : St) : ∃ d, Trimmed cfg s (removeDuplicated cfg s) d := by
  obtain ⟨d, h1, h2, h3, h4⟩ := dropDup_spec cfg s.cm s.queue s.combined
  exact ⟨d, removeDuplicated_frame cfg s, rfl, h1, h2, h3, rfl, rfl, rfl, rfl, rfl⟩

theorem Trimmed.trans {cfg : Cfg} {s t u : St} {d e : List Req} (a : Trimmed cfg s t d) (b : Trimmed cfg t u e) :
    Trimmed cfg s u (d ++ e) := by
  refine ⟨a.frame.trans b.frame, b.cm.trans a.cm, by rw [a.queue, b.queue, List.append_assoc],
    by rw [b.comb, a.comb, total_append]; omega, ?_, b.made.trans a.made, b.sent.trans a.sent, b.flight.trans a.flight,
    b.tran.trans a.tran, b.used.trans a.used⟩
  · intro r hr
    rcases List.mem_append.1 hr with h | h
    · exact a.dup r h
    · rw [← a.cm]; exact b.dup r h

/-- what `adjust` leaves alone -/
theorem adjust_same (cfg : Cfg) (s : St) : Frame s (adjust cfg s) ∧ (adjust cfg s).cm = s.cm ∧ (adjust cfg s).queue = s.queue ∧
    (adjust cfg s).combined = s.combined ∧ (adjust cfg s).made = s.made ∧ (adjust cfg s).sent = s.sent ∧
    (adjust cfg s).flight = s.flight ∧ (adjust cfg s).transient = s.transient ∧ (adjust cfg s).lastUsed = s.lastUsed := by
  unfold adjust
  simp only
  split
  · exact ⟨⟨rfl, rfl, rfl, rfl, rfl, rfl, rfl, rfl, rfl, rfl, rfl⟩, rfl, rfl, rfl, rfl, rfl, rfl, rfl, rfl⟩
  · split
    · exact ⟨⟨rfl, rfl, rfl, rfl, rfl, rfl, rfl, rfl, rfl, rfl, rfl⟩, rfl, rfl, rfl, rfl, rfl, rfl, rfl, rfl⟩
    · exact ⟨⟨rfl, rfl, rfl, rfl, rfl, rfl, rfl, rfl, rfl, rfl, rfl⟩, rfl, rfl, rfl, rfl, rfl, rfl, rfl, rfl⟩

theorem adjust_trimmed {cfg : Cfg} {s t : St} {d : List Req} (h : Trimmed cfg s t d) : Trimmed cfg s (adjust cfg t) d := by
  obtain ⟨f, a1, a2, a3, a4, a5, a6, a7, a8⟩ := adjust_same cfg t
  exact ⟨h.frame.trans f, a1.trans h.cm, by rw [a2]; exact h.queue, by rw [a3]; exact h.comb, h.dup,
    a4.trans h.made, a5.trans h.sent, a6.trans h.flight, a7.trans h.tran, a8.trans h.used⟩

/-- the whole attempt, from the trimmed state -/
structure Out (cfg : Cfg) (s t : St) (popped new : List Req) (ov : Nat) : Prop where
  frame : Frame s t
  pop : Popped cfg s t popped new ov
  went : Went cfg s t new ov

theorem Out.trimmed {cfg : Cfg} {s t : St} {d : List Req} (h : Trimmed cfg s t d) : Out cfg s t d [] 0 :=
  ⟨h.frame, ⟨h.queue, h.comb, List.nil_sublist _, by rw [h.cm]; simp, by rw [h.cm]; simp, by simp, by simp,
    by rw [h.cm]; simp, by simp, by simp, by
      intro _ _ r hr; right; rw [h.cm]; exact h.dup r hr⟩,
    .nowhere rfl h.made h.sent h.flight h.tran h.used⟩

/-- the loop of a build, from the trimmed state -/
theorem build_loop {cfg : Cfg} {s s1 : St} {d : List Req} (h : Trimmed cfg s s1 d) {r : Req} {q : List Req}
    (hq : s1.queue = r :: q) (lim : Limit) {res : Acc × List Req}
    (hres : res = addLoop cfg (capacity cfg s1.combined (overheadOf (s1.lastUsed + 1) r.span)) lim.full (r :: q)
      ⟨s1.cm, [], 0, s1.combined⟩)
    {t : St} (ht : t.cm = res.1.cm) (ht2 : t.queue = res.2) (ht3 : t.combined = res.1.combined) :
    ∃ popped, Popped cfg s t popped res.1.reqs (overheadOf (s1.lastUsed + 1) r.span) := by
  obtain ⟨p, n, h1, h2, h3, h4, h5⟩ := addLoop_spec cfg (capacity cfg s1.combined (overheadOf (s1.lastUsed + 1) r.span)) lim.full
    (r :: q) ⟨s1.cm, [], 0, s1.combined⟩ (Nat.zero_le _)
  rw [← hres] at h1 h2 h3 h4 h5
  simp only [List.nil_append, Nat.zero_add] at h2 h3 h4
  generalize hov : overheadOf (s1.lastUsed + 1) r.span = ov at *
  simp only at h5
  have hcm := h.cm
  have hsq : s.queue = (d ++ p) ++ t.queue := by rw [h.queue, hq, h1, ht2, List.append_assoc]
  have hrs : r ∈ s.queue := by rw [h.queue, hq]; simp
  have hroom := h5.room
  rw [Nat.zero_add] at hroom
  refine ⟨d ++ p, ⟨hsq, ?_, ?_, ?_, ?_, ?_, ?_, ?_, ?_, ?_, ?_⟩⟩
  · rw [ht3, h4, h.comb, total_append]; omega
  · rw [h2]; exact h5.sub.trans (List.sublist_append_right _ _)
  · intro k; rw [ht, h5.pend k, hcm, h2]
  · intro k; rw [ht, h5.reps k, hcm]
  · intro x hx; rw [h2] at hx; rw [← hcm]; exact h5.fresh x hx
  · rw [h2]; exact h5.nodup
  · intro x hx; rw [ht] at hx; rw [← hcm]; exact h5.mono x hx
  · intro _; exact ⟨r, hrs, by rw [← hov, h.used]⟩
  · intro hc hp hn
    rw [h2] at hn ⊢
    have hpos : 0 < total n := by
      cases n with
      | nil => exact absurd rfl hn
      | cons x n =>
        have hx : x ∈ s.queue := by
          rw [hsq]; exact List.mem_append_left _ (List.mem_append_right _ (h5.sub.subset List.mem_cons_self))
        have := hp x hx
        rw [total_cons]; omega
    unfold capacity at hroom
    split at hroom
    · omega
    · omega
  · intro hc hb x hx
    have hcomb : s1.combined = total s1.queue := by
      rw [h.comb, hc, h.queue, total_append]; omega
    have hle : total s1.queue ≤ total s.queue := by rw [h.queue, total_append]; omega
    have hcap : capacity cfg s1.combined ov = total s1.queue := by
      unfold capacity
      have h9 := hb r hrs
      rw [← h.used, hov] at h9
      rw [if_pos (by omega), hcomb]
    rcases List.mem_append.1 hx with hx | hx
    · right
      by_cases hz : admissible cfg t.cm x = true
      · rw [ht] at hz
        have := h5.mono x hz
        rw [hcm] at this
        have h8 := h.dup x hx
        rw [this] at h8; cases h8
      · simpa using hz
    · rw [h2, ht]
      by_cases hxn : x ∈ n
      · exact Or.inl hxn
      · rcases h5.lost x hx with h | h | h
        · exact Or.inl h
        · exact Or.inr h
        · exfalso
          have h6 := total_room h5.sub hx hxn
          have h7 : total p ≤ total s1.queue := by rw [hq, h1, total_append]; omega
          rw [hcap] at h
          omega

/-- building and sending, from the trimmed state -/
theorem sendBuilt_out {cfg : Cfg} {s s1 : St} {d : List Req} (h : Trimmed cfg s s1 d) (lim : Limit) {t : St}
    (ht : sendBuilt cfg (build cfg lim s1) = some t) (hpr : primary cfg s = true) : ∃ popped new ov, Out cfg s t popped new ov := by
  unfold build at ht
  split at ht
  · rename_i hq
    simp only [sendBuilt, Option.some.injEq] at ht
    subst ht
    exact ⟨d, [], 0, Out.trimmed h⟩
  · rename_i r q hq
    simp only at ht
    generalize hres : addLoop cfg (capacity cfg s1.combined (overheadOf (s1.lastUsed + 1) r.span)) lim.full (r :: q)
      ⟨s1.cm, [], 0, s1.combined⟩ = res at ht
    split at ht
    · rename_i he
      simp only [sendBuilt, Option.some.injEq] at ht
      obtain ⟨p, hp⟩ := build_loop h hq lim hres.symm (t := t) (by rw [← ht]) (by rw [← ht]) (by rw [← ht])
      have he' : res.1.reqs = [] := by simpa using he
      refine ⟨p, res.1.reqs, _, ⟨?_, hp, ?_⟩⟩
      · refine h.frame.trans ?_; subst ht; exact ⟨rfl, rfl, rfl, rfl, rfl, rfl, rfl, rfl, rfl, rfl, rfl⟩
      · subst ht; exact .nowhere he' h.made h.sent h.flight h.tran h.used
    · rename_i he
      have he' : res.1.reqs ≠ [] := by simpa using he
      split at ht
      · rename_i hasy
        split at ht
        · rename_i htr
          simp only [sendBuilt, Option.some.injEq] at ht
          obtain ⟨p, hp⟩ := build_loop h hq lim hres.symm (t := t) (by rw [← ht]) (by rw [← ht]) (by rw [← ht])
          refine ⟨p, res.1.reqs, _, ⟨?_, hp, ?_⟩⟩
          · refine h.frame.trans ?_; subst ht; exact ⟨rfl, rfl, rfl, rfl, rfl, rfl, rfl, rfl, rfl, rfl, rfl⟩
          · rw [h.tran] at htr
            refine .thread he' hasy htr ?_ ?_ ?_ ?_ ?_
            · subst ht; show s1.made ++ _ = _; rw [h.made, h.frame.view, h.used]
            · subst ht; exact h.sent
            · subst ht; show s1.flight ++ _ = _; rw [h.flight, h.frame.view, h.used]
            · subst ht; show s1.transient + 1 = _; rw [h.tran]
            · subst ht; exact h.used
        · rename_i htr
          simp only [sendBuilt, Option.some.injEq] at ht
          obtain ⟨p, hp⟩ := build_loop h hq lim hres.symm (t := t) (by rw [← ht]) (by rw [← ht]) (by rw [← ht])
          refine ⟨p, res.1.reqs, _, ⟨?_, hp, ?_⟩⟩
          · refine h.frame.trans ?_; subst ht; exact ⟨rfl, rfl, rfl, rfl, rfl, rfl, rfl, rfl, rfl, rfl, rfl⟩
          · rw [h.tran] at htr
            subst ht
            exact .gone he' hasy (by omega) h.made h.sent h.flight h.tran h.used
      · rename_i hasy
        simp only [sendBuilt] at ht
        unfold start at ht
        split at ht
        · rename_i hp
          exfalso
          have : primary cfg s1 = false := hp
          unfold primary at this hpr
          rw [h.frame.view] at this
          rw [this] at hpr; cases hpr
        · split at ht
          · rename_i hw
            simp only [Option.some.injEq, Bool.false_eq_true, if_false] at ht
            obtain ⟨p, hp⟩ := build_loop h hq lim hres.symm (t := t) (by rw [← ht]) (by rw [← ht]) (by rw [← ht])
            refine ⟨p, res.1.reqs, _, ⟨?_, hp, ?_⟩⟩
            · refine h.frame.trans ?_; subst ht; exact ⟨rfl, rfl, rfl, rfl, rfl, rfl, rfl, rfl, rfl, rfl, rfl⟩
            · have hw1 : s.lastStable < s.lastUsed + 1 := by rw [← h.used, ← h.frame.stab]; exact hw.1
              have hw2 : s.lastUsed + 1 ≤ s.lastStable + window := by rw [← h.used, ← h.frame.stab]; exact hw.2
              refine .sent he' (by simpa using hasy) ?_ ?_ ?_ ?_ ?_ hw1 hw2
              · subst ht; show s1.made ++ _ = _; rw [h.made, h.frame.view, h.used]
              · subst ht; show s1.sent ++ _ = _; rw [h.sent, h.frame.view, h.used]
              · subst ht; exact h.flight
              · subst ht; exact h.tran
              · subst ht; show s1.lastUsed + 1 = _; rw [h.used]
          · cases ht

/-- what the policy does before it builds -/
theorem batchRequests_cases {cfg : Cfg} {s s1 : St} {d : List Req} (h : Trimmed cfg s s1 d) {r : St × Option PP}
    (hr : batchRequests cfg s1 = some r) :
    ∃ s2 d2, Trimmed cfg s s2 d2 ∧ (r = (s2, none) ∨ ∃ lim, r = build cfg lim s2) := by
  have hcb : ∀ lim, checkedBuild cfg lim s1 = some r → ∃ s2 d2, Trimmed cfg s s2 d2 ∧ (r = (s2, none) ∨ ∃ lim, r = build cfg lim s2) := by
    intro lim hr
    unfold checkedBuild at hr
    split at hr
    · cases hr
    · cases hr; exact ⟨s1, d, h, Or.inl rfl⟩
    · cases hr
      obtain ⟨e, he⟩ := removeDuplicated_trimmed cfg s1
      exact ⟨_, _, h.trans he, Or.inr ⟨lim, rfl⟩⟩
  unfold batchRequests at hr
  split at hr
  · cases hr; exact ⟨s1, d, h, Or.inl rfl⟩
  · split at hr
    · split at hr
      · cases hr; exact ⟨_, d, adjust_trimmed h, Or.inl rfl⟩
      · cases hr; exact ⟨_, d, adjust_trimmed h, Or.inr ⟨.all, rfl⟩⟩
    · split at hr
      · cases hr; exact ⟨s1, d, h, Or.inl rfl⟩
      · exact hcb _ hr
    · split at hr
      · cases hr
      · split at hr
        · cases hr; exact ⟨s1, d, h, Or.inl rfl⟩
        · exact hcb _ hr
    · split at hr
      · cases hr
      · split at hr
        · cases hr; exact ⟨s1, d, h, Or.inl rfl⟩
        · exact hcb _ hr

/-- one attempt to send -/
theorem tryToSend_out {cfg : Cfg} {logic : Bool} {s t : St} (h : tryToSend cfg logic s = some t) :
    ∃ popped new ov, Out cfg s t popped new ov ∧ (popped = [] ∨ MayPropose cfg s) ∧ (new = [] ∨ MayPropose cfg s) := by
  unfold tryToSend at h
  split at h
  · cases h
  · cases h
    exact ⟨[], [], 0, Out.trimmed ⟨Frame.refl _, rfl, rfl, by simp [total_nil], by simp, rfl, rfl, rfl, rfl, rfl⟩, Or.inl rfl, Or.inl rfl⟩
  · rename_i hc
    have hm := (check_true hc).1
    have hpr : primary cfg s = true := by simp [primary, hm.primary]
    obtain ⟨d, hd⟩ := removeDuplicated_trimmed cfg s
    split at h
    · split at h
      · cases h
      · rename_i r hr
        obtain ⟨s2, d2, h2, h3 | ⟨lim, h3⟩⟩ := batchRequests_cases hd hr
        · rw [h3] at h
          simp only [sendBuilt, Option.some.injEq] at h
          subst h
          exact ⟨d2, [], 0, Out.trimmed h2, Or.inr hm, Or.inr hm⟩
        · rw [h3] at h
          obtain ⟨p, n, ov, ho⟩ := sendBuilt_out h2 lim h hpr
          exact ⟨p, n, ov, ho, Or.inr hm, Or.inr hm⟩
    · obtain ⟨p, n, ov, ho⟩ := sendBuilt_out hd .all h hpr
      exact ⟨p, n, ov, ho, Or.inr hm, Or.inr hm⟩

end Concord.Batch
