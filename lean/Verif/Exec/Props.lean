import Verif.Exec.Inv
/-! # C11, C12, C13: order of execution, crash recovery, repeated execution -/
set_option linter.unusedSimpArgs false
set_option linter.unusedVariables false
namespace Verif.Exec

variable {Blk Rep : Type}

theorem inv_run {c : Cfg} {app : App Blk Rep} {log : Nat → Batch} {time0 : Int} (he : 0 ≤ c.eps) (hd : 0 < c.maxDel)
    {es : List Ev} {s : St Blk Rep} (h : Run c app log (init time0) es s) (hg : NoSpecial c log ∨ s.crashes = 0) :
    Inv c app log time0 s := by
  induction h with
  | nil => exact inv_init
  | @snoc es s s' e h hs ih =>
    refine inv_step he hd hg (ih ?_) hs
    rcases hg with hg | hg
    · exact .inl hg
    · refine .inr ?_
      have : s.crashes ≤ s'.crashes := by
        cases e <;> simp only [step] at hs <;> (repeat' split at hs) <;>
          first
          | (cases hs; done)
          | (simp only [Option.some.injEq] at hs; subst hs; simp [die])
      omega

/-! ## C11 -/

/-- facts that hold whatever is in the batches and whenever the process dies -/
structure Ord (log : Nat → Batch) (s : St Blk Rep) : Prop where
  sorted : s.calls.Pairwise (fun a b => a.1 ≤ b.1)
  upto : ∀ p ∈ s.calls, 0 < p.1 ∧ p.1 ≤ s.lastExec + 1 ∧ s.committed p.1 = true ∧ p.2 ∈ (log p.1).reqs
  done : ∀ k, 0 < k → k ≤ s.lastExec → s.committed k = true
  win : s.lastExec ≤ s.lastStable + window
  descOk : ∀ d, s.desc = some d → d.seq ≤ s.lastExec ∨
    (d.seq = s.lastExec + 1 ∧ s.committed d.seq = true ∧ s.lastExec < s.lastStable + window)
  active : ∀ p, (s.phase = .selected p ∨ ∃ o n t, s.phase = .running p o n t) →
    s.committed (s.lastExec + 1) = true ∧ s.lastExec < s.lastStable + window ∧ ∀ r, .exec r ∈ p → r ∈ (log (s.lastExec + 1)).reqs

theorem pick_sub {reqs : List Req} {bits : List Bool} {r : Req} (h : r ∈ pick reqs bits) : r ∈ reqs := by
  unfold pick at h
  obtain ⟨p, hp, rfl⟩ := List.mem_map.1 h
  exact (List.of_mem_zip (List.mem_filter.1 hp).1).1

theorem exec_mem_group {g : List Req} {r : Req} (h : Instr.exec r ∈ groupProg g) : r ∈ g := by
  unfold groupProg at h
  rcases List.mem_append.1 h with h | h
  · obtain ⟨x, hx, e⟩ := List.mem_map.1 h; cases e; exact hx
  · obtain ⟨x, hx, e⟩ := List.mem_map.1 h; cases e

theorem exec_mem_prog {c : Cfg} {b : Batch} {bits : List Bool} {r : Req} (h : Instr.exec r ∈ progOf c b bits) : r ∈ b.reqs := by
  unfold progOf at h
  split at h
  · rcases List.mem_append.1 h with h | h
    · exact (List.mem_filter.1 (exec_mem_group h)).1
    · exact pick_sub (exec_mem_group h)
  · exact pick_sub (exec_mem_group h)

theorem ord_die {log : Nat → Batch} {s : St Blk Rep} (h : Ord log s) : Ord log (die s) :=
  ⟨h.sorted, h.upto, h.done, h.win, h.descOk, by
    intro p hp
    rcases hp with hp | ⟨_, _, _, hp⟩ <;> cases hp⟩

theorem ord_phase {log : Nat → Batch} {s : St Blk Rep} {ph : Phase Rep} {ch : List Blk} {tb : Tbl Rep} {tm : Int} (h : Ord log s)
    (ha : ∀ p, (ph = .selected p ∨ ∃ o n t, ph = .running p o n t) →
      s.committed (s.lastExec + 1) = true ∧ s.lastExec < s.lastStable + window ∧ ∀ r, .exec r ∈ p → r ∈ (log (s.lastExec + 1)).reqs) :
    Ord log { s with phase := ph, chain := ch, tbl := tb, time := tm } :=
  ⟨h.sorted, h.upto, h.done, h.win, h.descOk, ha⟩

theorem ord_step {c : Cfg} {app : App Blk Rep} {log : Nat → Batch} {s s' : St Blk Rep} {e : Ev} (h : Ord log s)
    (hs : step c app log s e = some s') : Ord log s' := by
  cases e with
  | commit k =>
    simp only [step, Option.some.injEq] at hs; subst hs
    have mono : ∀ j, s.committed j = true → (if j = k then true else s.committed j) = true := by
      intro j hj; split <;> simp_all
    refine ⟨h.sorted, ?_, ?_, h.win, ?_, ?_⟩
    · intro p hp; have := h.upto p hp; exact ⟨this.1, this.2.1, mono _ this.2.2.1, this.2.2.2⟩
    · intro j h1 h2; exact mono _ (h.done j h1 h2)
    · intro d hd
      rcases h.descOk d hd with h' | h'
      · exact .inl h'
      · exact .inr ⟨h'.1, mono _ h'.2.1, h'.2.2⟩
    · intro p hp; have := h.active p hp; exact ⟨mono _ this.1, this.2⟩
  | stable k =>
    simp only [step] at hs
    split at hs
    · rename_i hk
      simp only [Option.some.injEq] at hs; subst hs
      have hk1 := hk.1
      refine ⟨h.sorted, h.upto, h.done, Nat.le_trans h.win (Nat.add_le_add_right hk1 _), ?_, ?_⟩
      · intro d hd
        rcases h.descOk d hd with h' | h'
        · exact .inl h'
        · exact .inr ⟨h'.1, h'.2.1, Nat.lt_of_lt_of_le h'.2.2 (Nat.add_le_add_right hk1 _)⟩
      · intro p hp
        have := h.active p hp
        exact ⟨this.1, Nat.lt_of_lt_of_le this.2.1 (Nat.add_le_add_right hk1 _), this.2.2⟩
    · cases hs
  | start =>
    simp only [step] at hs
    split at hs
    · split at hs
      · rename_i hw
        split at hs
        · simp only [Option.some.injEq] at hs; subst hs
          refine ⟨h.sorted, h.upto, h.done, h.win, h.descOk, ?_⟩
          intro p hp
          refine ⟨hw.2, hw.1, ?_⟩
          intro r hr
          rcases hp with hp | ⟨_, _, _, hp⟩ <;> cases hp
          cases hr
        · simp only [Option.some.injEq] at hs; subst hs
          refine ⟨h.sorted, h.upto, h.done, h.win, ?_, ?_⟩
          · intro d hd
            cases hd
            exact .inr ⟨rfl, hw.2, hw.1⟩
          · intro p hp
            refine ⟨hw.2, hw.1, ?_⟩
            intro r hr
            rcases hp with hp | ⟨_, _, _, hp⟩ <;> cases hp
            exact exec_mem_prog hr
      · cases hs
    · cases hs
  | tick =>
    simp only [step] at hs
    split at hs
    · rename_i p hp
      simp only [Option.some.injEq] at hs; subst hs
      refine ord_phase h ?_
      intro q hq
      have := h.active p (.inl hp)
      rcases hq with hq | ⟨_, _, _, hq⟩ <;> cases hq
      exact this
    · cases hs
  | instr =>
    simp only [step] at hs
    split at hs
    · rename_i r p outs pos t hp
      simp only [Option.some.injEq] at hs; subst hs
      have ha := h.active _ (.inr ⟨_, _, _, hp⟩)
      refine ⟨?_, ?_, h.done, h.win, h.descOk, ?_⟩
      · show (s.calls ++ [(s.lastExec + 1, r)]).Pairwise _
        rw [List.pairwise_append]
        refine ⟨h.sorted, by simp, ?_⟩
        intro a ha' b hb
        have := (h.upto a ha').2.1
        simp only [List.mem_singleton] at hb
        rw [hb]
        exact this
      · intro q hq
        have hq : q ∈ s.calls ++ [(s.lastExec + 1, r)] := hq
        rcases List.mem_append.1 hq with hq | hq
        · exact h.upto q hq
        · simp only [List.mem_singleton] at hq
          rw [hq]
          exact ⟨Nat.succ_pos _, Nat.le_refl _, ha.1, ha.2.2 r (List.mem_cons_self ..)⟩
      · intro q hq
        rcases hq with hq | ⟨_, _, _, hq⟩ <;> cases hq
        exact ⟨ha.1, ha.2.1, fun r hr => ha.2.2 r (List.mem_cons_of_mem _ hr)⟩
    · rename_i r p rep outs pos t hp
      split at hs
      · simp only [Option.some.injEq] at hs; subst hs; exact ord_die h
      · simp only [Option.some.injEq] at hs; subst hs
        have ha := h.active _ (.inr ⟨_, _, _, hp⟩)
        refine ord_phase h ?_
        intro q hq
        rcases hq with hq | ⟨_, _, _, hq⟩ <;> cases hq
        exact ⟨ha.1, ha.2.1, fun r hr => ha.2.2 r (List.mem_cons_of_mem _ hr)⟩
    · cases hs
  | finish =>
    simp only [step] at hs
    split at hs
    · rename_i outs pos t hp
      simp only [Option.some.injEq] at hs; subst hs
      have ha := h.active _ (.inr ⟨_, _, _, hp⟩)
      refine ⟨h.sorted, ?_, ?_, ha.2.1, ?_, ?_⟩
      · intro p hp; have := h.upto p hp; exact ⟨this.1, Nat.le_succ_of_le this.2.1, this.2.2⟩
      · intro k h1 h2
        have h2 : k ≤ s.lastExec + 1 := h2
        by_cases hk : k = s.lastExec + 1
        · rw [hk]; exact ha.1
        · exact h.done k h1 (by omega)
      · intro d hd
        refine .inl ?_
        show d.seq ≤ s.lastExec + 1
        rcases h.descOk d hd with h' | h'
        · omega
        · omega
      · intro p hp; rcases hp with hp | ⟨_, _, _, hp⟩ <;> cases hp
    · cases hs
  | crash =>
    simp only [step] at hs
    split at hs
    · cases hs
    · simp only [Option.some.injEq] at hs; subst hs; exact ord_die h
  | boot =>
    simp only [step] at hs
    split at hs
    · simp only [Option.some.injEq] at hs; subst hs
      exact ord_phase h (by intro p hp; rcases hp with hp | ⟨_, _, _, hp⟩ <;> cases hp)
    · cases hs
  | del =>
    simp only [step] at hs
    split at hs
    · split at hs
      · cases hs
      · split at hs
        · split at hs
          · simp only [Option.some.injEq] at hs; subst hs; exact ord_die h
          · split at hs
            · simp only [Option.some.injEq] at hs; subst hs
              exact ⟨h.sorted, h.upto, h.done, h.win, h.descOk, by
                intro p hp; rcases hp with hp | ⟨_, _, _, hp⟩ <;> cases hp⟩
            · simp only [Option.some.injEq] at hs; subst hs
              exact ord_phase h (by intro p hp; rcases hp with hp | ⟨_, _, _, hp⟩ <;> cases hp)
        · cases hs
    · cases hs
  | up =>
    simp only [step] at hs
    split at hs
    · split at hs
      · cases hs
      · split at hs
        · simp only [Option.some.injEq] at hs; subst hs
          exact ord_phase h (by intro p hp; rcases hp with hp | ⟨_, _, _, hp⟩ <;> cases hp)
        · rename_i d hd
          split at hs
          · split at hs
            · simp only [Option.some.injEq] at hs; subst hs; exact ord_die h
            · split at hs
              · simp only [Option.some.injEq] at hs; subst hs; exact ord_die h
              · simp only [Option.some.injEq] at hs; subst hs
                refine ⟨h.sorted, h.upto, h.done, h.win, h.descOk, ?_⟩
                intro p hp
                rcases hp with hp | ⟨_, _, _, hp⟩ <;> cases hp
                rcases h.descOk d hd with h' | h'
                · omega
                · refine ⟨by rw [← h'.1]; exact h'.2.1, h'.2.2, ?_⟩
                  intro r hr
                  exact pick_sub (exec_mem_group hr)
          · simp only [Option.some.injEq] at hs; subst hs
            exact ord_phase h (by intro p hp; rcases hp with hp | ⟨_, _, _, hp⟩ <;> cases hp)
    · cases hs

theorem ord_run {c : Cfg} {app : App Blk Rep} {log : Nat → Batch} {time0 : Int} {es : List Ev} {s : St Blk Rep}
    (h : Run c app log (init time0) es s) : Ord log s := by
  induction h with
  | nil =>
    exact ⟨List.Pairwise.nil, (by intro p hp; cases hp), (by intro k h1 h2; simp [init] at h2; omega), (by simp [init]),
      (by intro d hd; cases hd), (by intro p hp; rcases hp with hp | ⟨_, _, _, hp⟩ <;> cases hp)⟩
  | snoc _ hs ih => exact ord_step ih hs

/-- C11: at every moment of every run, with crashes anywhere: the application was called with non-decreasing sequence
numbers, only for requests of batches that were committed, and never more than one batch beyond the last finished
one; every number up to the last executed one was committed, and execution is at most 300 ahead of the last stable
checkpoint -/
theorem in_order {c : Cfg} {app : App Blk Rep} {log : Nat → Batch} {time0 : Int} {es : List Ev} {s : St Blk Rep}
    (h : Run c app log (init time0) es s) :
    s.calls.Pairwise (fun a b => a.1 ≤ b.1) ∧
    (∀ p ∈ s.calls, 0 < p.1 ∧ p.1 ≤ s.lastExec + 1 ∧ s.committed p.1 = true ∧ p.2 ∈ (log p.1).reqs) ∧
    (∀ k, 0 < k → k ≤ s.lastExec → s.committed k = true) ∧ s.lastExec ≤ s.lastStable + 300 := by
  have := ord_run h
  exact ⟨this.sorted, this.upto, this.done, this.win⟩

/-- C11: the last executed number never decreases and grows by one at a time, also across crashes -/
theorem no_gap {c : Cfg} {app : App Blk Rep} {log : Nat → Batch} {s s' : St Blk Rep} {e : Ev}
    (hs : step c app log s e = some s') :
    s'.lastExec = s.lastExec ∨ (s'.lastExec = s.lastExec + 1 ∧ e = .finish) := by
  cases e <;> simp only [step] at hs <;> (repeat' split at hs) <;>
    first
    | (cases hs; done)
    | (simp only [Option.some.injEq] at hs; subst hs; first | exact .inl rfl | exact .inr ⟨rfl, rfl⟩)

/-- C11: in a run without crashes, the application was called for each executed batch exactly for the requests that
should be executed, in order and once (special requests of the default path included); and for the batch being executed
for an initial part of them -/
theorem each_batch_once {c : Cfg} {app : App Blk Rep} {log : Nat → Batch} {time0 : Int} (he : 0 ≤ c.eps) (hd : 0 < c.maxDel)
    {es : List Ev} {s : St Blk Rep} (h : Run c app log (init time0) es s) (hc : s.crashes = 0) :
    (∀ k, k < s.lastExec → callsFor (k + 1) s.calls = chosen c (world c app log time0 k).tbl (log (k + 1))) ∧
    (∃ m, callsFor (s.lastExec + 1) s.calls = (chosen c (world c app log time0 s.lastExec).tbl (log (s.lastExec + 1))).take m) ∧
    ∀ k, s.lastExec + 1 < k → callsFor k s.calls = [] := by
  have hi := inv_run he hd h (.inr hc)
  refine ⟨?_, ?_, hi.future⟩
  · intro k hk
    obtain ⟨ks, h1, h2⟩ := hi.past k hk
    have : ks = [] := List.eq_nil_of_length_eq_zero (by omega)
    rw [h2, this]; rfl
  · have hp := hi.phase
    unfold PhaseOk at hp
    split at hp
    · exact ⟨0, by rw [hp.2.2.2.2]; simp⟩
    · obtain ⟨_, _, _, _, _, _, ks, h1, h2⟩ := hp
      have : ks = [] := List.eq_nil_of_length_eq_zero (by omega)
      exact ⟨0, by rw [h2, this]; simp [attempts]⟩
    · rename_i p _ _ _ _
      obtain ⟨dn, T, e1, _, _, _, _, ks, h1, h2⟩ := hp
      have : ks = [] := List.eq_nil_of_length_eq_zero (by omega)
      obtain ⟨m, hm⟩ := @callsOf_take dn p
      refine ⟨m, ?_⟩
      rw [h2, this, hm, e1]
      unfold nextProg
      rw [callsOf_prog]
      simp [attempts]
    · obtain ⟨_, _, ks, h1, h2⟩ := hp
      have : ks = [] := List.eq_nil_of_length_eq_zero (by omega)
      exact ⟨0, by rw [h2, this]; simp [attempts]⟩
    · obtain ⟨_, _, ks, h1, h2⟩ := hp
      have : ks = [] := List.eq_nil_of_length_eq_zero (by omega)
      exact ⟨0, by rw [h2, this]; simp [attempts]⟩

/-! ## C12 -/

/-- C12: whenever the replica is between two batches, its blocks, reply table and time are exactly those of the
crash-free execution of batches 1 … lastExec - whatever crashes happened, at whatever points, including crashes of the
recovery itself.  Batches must not contain special requests when the default path is used (see `special_lost`). -/
theorem crash_safe_partial {c : Cfg} {app : App Blk Rep} {log : Nat → Batch} {time0 : Int} (he : 0 ≤ c.eps) (hd : 0 < c.maxDel)
    (hns : NoSpecial c log) {es : List Ev} {s : St Blk Rep} (h : Run c app log (init time0) es s) (hp : s.phase = .idle) :
    s.chain = (world c app log time0 s.lastExec).chain ∧ s.tbl = (world c app log time0 s.lastExec).tbl ∧
    s.time = (world c app log time0 s.lastExec).time := by
  have := (inv_run he hd h (.inl hns)).phase
  unfold PhaseOk at this
  rw [hp] at this
  exact ⟨this.2.1, this.2.2.1, this.2.2.2.1⟩

/-- the same for runs without crashes, without a condition on the batches -/
theorem no_crash_safe {c : Cfg} {app : App Blk Rep} {log : Nat → Batch} {time0 : Int} (he : 0 ≤ c.eps) (hd : 0 < c.maxDel)
    {es : List Ev} {s : St Blk Rep} (h : Run c app log (init time0) es s) (hc : s.crashes = 0) (hp : s.phase = .idle) :
    s.chain = (world c app log time0 s.lastExec).chain ∧ s.tbl = (world c app log time0 s.lastExec).tbl ∧
    s.time = (world c app log time0 s.lastExec).time := by
  have := (inv_run he hd h (.inr hc)).phase
  unfold PhaseOk at this
  rw [hp] at this
  exact ⟨this.2.1, this.2.2.1, this.2.2.2.1⟩

/-- C12: what the application sees.  For every finished batch: some interrupted attempts (at most one per crash), each an
initial part of the requests to execute, and then one complete pass over exactly those requests in order. -/
theorem calls_of_finished_partial {c : Cfg} {app : App Blk Rep} {log : Nat → Batch} {time0 : Int} (he : 0 ≤ c.eps) (hd : 0 < c.maxDel)
    (hns : NoSpecial c log) {es : List Ev} {s : St Blk Rep} (h : Run c app log (init time0) es s) {k : Nat} (hk : k < s.lastExec) :
    ∃ ks : List Nat, ks.length ≤ s.crashes ∧
      callsFor (k + 1) s.calls =
        (ks.map (fun m => (chosen c (world c app log time0 k).tbl (log (k + 1))).take m)).flatten ++
          chosen c (world c app log time0 k).tbl (log (k + 1)) :=
  (inv_run he hd h (.inl hns)).past k hk

/-- C12: loading the metadata never aborts the process -/
theorem recovery_never_aborts {c : Cfg} {app : App Blk Rep} {log : Nat → Batch} {time0 : Int} (he : 0 ≤ c.eps) (hd : 0 < c.maxDel)
    (hns : NoSpecial c log) {es : List Ev} {s s' : St Blk Rep} (h : Run c app log (init time0) es s)
    (hs : step c app log s .up = some s') : s'.phase ≠ .down := by
  have hi := inv_run he hd h (.inl hns)
  have hp := hi.phase
  intro hdown
  simp only [step] at hs
  split at hs
  · rename_i k hph
    unfold PhaseOk at hp
    rw [hph] at hp
    split at hs
    · cases hs
    · split at hs
      · cases hs; cases hdown
      · rename_i d hd
        rcases hp.2.1 with ⟨a, b, c1, d1, e1⟩ | ⟨a, b, c1, d1, e1⟩
        · rw [if_neg (by have := a d hd; omega)] at hs
          cases hs; cases hdown
        · rw [a] at hd
          cases hd
          have e1 : s.lastExec + 1 > s.lastExec := by omega
          have e2 : ¬ (world c app log time0 s.lastExec).time > s.time := by omega
          simp only [curDesc, e1, e2, if_true, if_false, ne_eq, not_true_eq_false, Option.some.injEq] at hs
          subst hs
          cases hdown
  · cases hs

theorem run_trans {c : Cfg} {app : App Blk Rep} {log : Nat → Batch} {s0 s1 s2 : St Blk Rep} {es fs : List Ev}
    (h1 : Run c app log s0 es s1) (h2 : Run c app log s1 fs s2) : Run c app log s0 (es ++ fs) s2 := by
  induction h2 with
  | nil => rw [List.append_nil]; exact h1
  | snoc h hs ih => rw [← List.append_assoc]; exact .snoc ih hs

theorem run_one {c : Cfg} {app : App Blk Rep} {log : Nat → Batch} {s s' : St Blk Rep} {e : Ev} (hs : step c app log s e = some s') :
    Run c app log s [e] s' := .snoc (es := []) .nil hs

/-- enough replies for the remaining reply instructions -/
def Fed : List Instr → Nat → Prop
  | [], _ => True
  | .exec _ :: p, n => Fed p (n + 1)
  | .reply _ :: p, n => 0 < n ∧ Fed p (n - 1)

theorem fed_replies : ∀ (g : List Req) n, g.length ≤ n → Fed (g.map .reply) n := by
  intro g
  induction g with
  | nil => intro n _; trivial
  | cons a l ih => intro n h; simp only [List.length_cons] at h; exact ⟨by omega, ih _ (by omega)⟩

theorem fed_group : ∀ (g g' : List Req) n, g'.length ≤ n + g.length → Fed (g.map .exec ++ g'.map .reply) n := by
  intro g
  induction g with
  | nil => intro g' n h; exact fed_replies g' n (by simpa using h)
  | cons a l ih => intro g' n h; simp only [List.length_cons] at h; exact ih g' (n + 1) (by omega)

theorem run_to_end {c : Cfg} {app : App Blk Rep} {log : Nat → Batch} : ∀ (p : List Instr) (s : St Blk Rep) (outs : List Rep) (pos : Nat) (t : Int),
    s.phase = .running p outs pos t → Fed p outs.length → (∀ r, .reply r ∈ p → storeAborts c r = false) →
    ∃ s' es, Run c app log s es s' ∧ s'.phase = .idle ∧ s'.lastExec = s.lastExec + 1 ∧ s'.crashes = s.crashes := by
  intro p
  induction p with
  | nil =>
    intro s outs pos t hp _ _
    have hstep : step c app log s .finish = some { s with
        lastExec := s.lastExec + 1
        lastBlock := if (log (s.lastExec + 1)).reqs = [] then s.lastBlock else s.chain.length
        phase := .idle } := by simp only [step, hp]
    exact ⟨_, _, run_one hstep, rfl, rfl, rfl⟩
  | cons a p ih =>
    intro s outs pos t hp hf ha
    cases a with
    | exec r =>
      have hstep : step c app log s .instr = some { s with
          chain := s.chain ++ (app.run s.chain (s.lastExec + 1) t pos r).1
          phase := .running p (outs ++ [(app.run s.chain (s.lastExec + 1) t pos r).2]) (pos + 1) t
          calls := s.calls ++ [(s.lastExec + 1, r)] } := by simp only [step, hp]
      obtain ⟨s', es, h1, h2, h3, h4⟩ := ih { s with
          chain := s.chain ++ (app.run s.chain (s.lastExec + 1) t pos r).1
          phase := .running p (outs ++ [(app.run s.chain (s.lastExec + 1) t pos r).2]) (pos + 1) t
          calls := s.calls ++ [(s.lastExec + 1, r)] } (outs ++ [(app.run s.chain (s.lastExec + 1) t pos r).2]) (pos + 1) t rfl
        (by simpa [Fed] using hf) (fun r hr => ha r (List.mem_cons_of_mem _ hr))
      exact ⟨s', _, run_trans (run_one hstep) h1, h2, h3, h4⟩
    | reply r =>
      cases outs with
      | nil => exact absurd hf.1 (by simp)
      | cons o outs =>
        have hstep : step c app log s .instr = some { s with
            tbl := store c s.tbl r o
            phase := .running p outs pos t } := by
          simp only [step, hp, ha r (List.mem_cons_self ..), Bool.false_eq_true, if_false]
        obtain ⟨s', es, h1, h2, h3, h4⟩ := ih { s with
            tbl := store c s.tbl r o
            phase := .running p outs pos t } outs pos t rfl (by simpa using hf.2) (fun r hr => ha r (List.mem_cons_of_mem _ hr))
        exact ⟨s', _, run_trans (run_one hstep) h1, h2, h3, h4⟩

theorem sync_to_end {c : Cfg} {app : App Blk Rep} {log : Nat → Batch} (hd : 0 < c.maxDel) : ∀ (n : Nat) (s : St Blk Rep), s.phase = .down →
    0 < s.lastBlock → s.chain.length ≤ s.lastBlock + n →
    ∃ s' es, Run c app log s es s' ∧ (∃ k, s'.phase = .syncing k) ∧ s'.chain.length ≤ s'.lastBlock ∧ s'.lastExec = s.lastExec ∧
      s'.desc = s.desc := by
  intro n
  induction n with
  | zero =>
    intro s hp _ hl
    exact ⟨{ s with phase := .syncing 0 }, [.boot], run_one (by simp only [step, hp]), ⟨0, rfl⟩, hl, rfl, rfl⟩
  | succ n ih =>
    intro s hp hb hl
    by_cases hgt : s.chain.length > s.lastBlock
    · have h1 : step c app log s .boot = some { s with phase := .syncing 0 } := by simp only [step, hp]
      -- delete one block and, if the process did not stop by itself, stop it
      have hne : ¬ s.chain.length = 1 := by omega
      have hm : ¬ c.maxDel = 0 := by omega
      have hlen : s.chain.dropLast.length ≤ s.lastBlock + n := by rw [List.length_dropLast]; omega
      by_cases h1m : 0 + 1 = c.maxDel
      · have h2 : step c app log { s with phase := .syncing 0 } .del = some (die { s with phase := .syncing 0, chain := s.chain.dropLast }) := by
          simp only [step, hm, hne, h1m, hgt, if_true, if_false]
        obtain ⟨s', es, a1, a2, a3, a4, a5⟩ := ih _ (rfl : (die { s with phase := .syncing 0, chain := s.chain.dropLast }).phase = .down) hb hlen
        exact ⟨s', _, run_trans (run_one h1) (run_trans (run_one h2) a1), a2, a3, a4, a5⟩
      · have h2 : step c app log { s with phase := .syncing 0 } .del = some { s with chain := s.chain.dropLast, phase := .syncing (0 + 1) } := by
          simp only [step, hm, hne, h1m, hgt, if_true, if_false]
        have h3 : step c app log { s with chain := s.chain.dropLast, phase := .syncing (0 + 1) } .crash =
            some (die { s with chain := s.chain.dropLast, phase := .syncing (0 + 1) }) := by
          simp only [step]
        obtain ⟨s', es, a1, a2, a3, a4, a5⟩ := ih _ (rfl : (die { s with chain := s.chain.dropLast, phase := .syncing (0 + 1) }).phase = .down) hb hlen
        exact ⟨s', _, run_trans (run_one h1) (run_trans (run_one h2) (run_trans (run_one h3) a1)), a2, a3, a4, a5⟩
    · exact ih s hp hb (by omega)

/-- C12: an interrupted batch is never skipped and never blocks the replica: from every stopped state in which the
descriptor of the next batch is durable, recovery can run to the end and then that batch is executed.  Needed: a block
existed before the batch (see `first_block_stuck`) and the requests' indices are below the configured number
(otherwise the process aborts each time it stores the reply: `index_in_batch_aborts` in C14). -/
theorem recovers {c : Cfg} {app : App Blk Rep} {log : Nat → Batch} {time0 : Int} (he : 0 ≤ c.eps) (hd : 0 < c.maxDel)
    (hns : NoSpecial c log) {es : List Ev} {s : St Blk Rep} (h : Run c app log (init time0) es s) (hp : s.phase = .down)
    {d : Desc} (hdesc : s.desc = some d) (hseq : d.seq > s.lastExec) (hb : 0 < s.lastBlock)
    (hidx : ∀ r ∈ (log (s.lastExec + 1)).reqs, r.idx < c.maxReqs) :
    ∃ s' fs, Run c app log s fs s' ∧ s'.phase = .idle ∧ s'.lastExec = s.lastExec + 1 := by
  obtain ⟨s1, es1, r1, ⟨k, hk⟩, hl, e1, e2⟩ := sync_to_end (app := app) (log := log) hd s.chain.length s hp hb (by omega)
  have hrun := run_trans h r1
  have hi := (inv_run he hd hrun (.inl hns))
  have hph := hi.phase
  unfold PhaseOk at hph
  rw [hk] at hph
  obtain ⟨_, hst, -⟩ := hph
  rcases hst with ⟨a, -⟩ | ⟨a, b, c1, d1, e3⟩
  · have := a d (by rw [e2]; exact hdesc)
    omega
  · have e4 : s1.lastExec + 1 > s1.lastExec := by omega
    have e5 : ¬ (world c app log time0 s1.lastExec).time > s1.time := by omega
    have e6 : ¬ (c.maxDel ≠ 0 ∧ s1.chain.length > s1.lastBlock) := by omega
    have h2 : step c app log s1 .up = some { s1 with
        time := (world c app log time0 s1.lastExec).time
        phase := .selected (recoverProg (log (s1.lastExec + 1)) (bitsOf c (world c app log time0 s1.lastExec).tbl (log (s1.lastExec + 1)))) } := by
      simp only [step, hk, a, curDesc, e4, e5, e6, if_true, if_false, ne_eq, not_true_eq_false]
    obtain ⟨s2, es2, r2, a2, a3, a4⟩ := run_to_end (c := c) (app := app) (log := log)
      (recoverProg (log (s1.lastExec + 1)) (bitsOf c (world c app log time0 s1.lastExec).tbl (log (s1.lastExec + 1))))
      { s1 with
        time := compareAndUpdate c.eps (world c app log time0 s1.lastExec).time (log (s1.lastExec + 1)).time
        phase := .running (recoverProg (log (s1.lastExec + 1)) (bitsOf c (world c app log time0 s1.lastExec).tbl (log (s1.lastExec + 1)))) [] 0
          (compareAndUpdate c.eps (world c app log time0 s1.lastExec).time (log (s1.lastExec + 1)).time) }
      [] 0 _ rfl (fed_group _ _ _ (by simp)) (by
        intro r hr
        unfold recoverProg groupProg at hr
        rcases List.mem_append.1 hr with hr | hr
        · obtain ⟨x, _, e⟩ := List.mem_map.1 hr; cases e
        · obtain ⟨x, hx, e⟩ := List.mem_map.1 hr
          cases e
          have := hidx r (by rw [← e1]; exact pick_sub hx)
          simp [storeAborts, this])
    refine ⟨s2, _, run_trans r1 (run_trans (run_one h2) (run_trans (run_one (e := .tick) ?_) r2)), a2, by rw [a3]; exact congrArg (· + 1) e1⟩
    simp only [step]

end Verif.Exec
