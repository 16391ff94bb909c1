import Verif.Exec.Proofs
set_option linter.unusedSimpArgs false
set_option linter.unusedVariables false
namespace Verif.Exec

variable {Blk Rep : Type}

/-- batches executed by the default path contain no special requests -/
def NoSpecial (c : Cfg) (log : Nat → Batch) : Prop := c.sep = true → ∀ s, ∀ r ∈ (log s).reqs, r.special = false

/-- program of the next batch, from the specification's state -/
def nextProg (c : Cfg) (log : Nat → Batch) (w : World Blk Rep) (s : Nat) : List Instr :=
  progOf c (log s) (bitsOf c w.tbl (log s))

theorem noSpecial_prog {c : Cfg} {log : Nat → Batch} (h : NoSpecial c log) (w : World Blk Rep) (s : Nat) :
    nextProg c log w s = groupProg (wanted c w.tbl (log s)) ∧
    recoverProg (log s) (bitsOf c w.tbl (log s)) = groupProg (wanted c w.tbl (log s)) := by
  unfold nextProg progOf recoverProg
  rw [pick_eq]
  refine ⟨?_, rfl⟩
  cases hs : c.sep
  · simp
  · have : specialsOf (log s) = [] := by
      unfold specialsOf
      rw [List.filter_eq_nil_iff]
      intro r hr
      simp [h hs s r hr]
    simp [this, groupProg]

/-- calls of crashed attempts -/
def attempts (full : List Req) (ks : List Nat) : List Req := (ks.map (fun k => full.take k)).flatten

/-- the pending descriptor of the next batch -/
def curDesc (c : Cfg) (log : Nat → Batch) (w : World Blk Rep) (n : Nat) : Desc := ⟨n + 1, bitsOf c w.tbl (log (n + 1)), w.time⟩

/-- state of a stopped replica relative to the specification after `lastExec` batches -/
def Stopped (c : Cfg) (log : Nat → Batch) (w : World Blk Rep) (s : St Blk Rep) : Prop :=
  ((∀ d, s.desc = some d → d.seq ≤ s.lastExec) ∧ s.chain = w.chain ∧ s.tbl = w.tbl ∧ s.time = w.time ∧
    callsFor (s.lastExec + 1) s.calls = []) ∨
  (s.desc = some (curDesc c log w s.lastExec) ∧ (log (s.lastExec + 1)).reqs ≠ [] ∧ w.chain <+: s.chain ∧ w.time ≤ s.time ∧
    Agree c (wanted c w.tbl (log (s.lastExec + 1))) s.tbl w.tbl)

/-- relation of the phase to the specification -/
def PhaseOk (c : Cfg) (app : App Blk Rep) (log : Nat → Batch) (w : World Blk Rep) (s : St Blk Rep) : Prop :=
  match s.phase with
  | .idle => (∀ d, s.desc = some d → d.seq ≤ s.lastExec) ∧ s.chain = w.chain ∧ s.tbl = w.tbl ∧ s.time = w.time ∧
      callsFor (s.lastExec + 1) s.calls = []
  | .selected p => p = nextProg c log w (s.lastExec + 1) ∧ s.chain = w.chain ∧ s.time = w.time ∧
      s.desc = some (curDesc c log w s.lastExec) ∧ (log (s.lastExec + 1)).reqs ≠ [] ∧
      (NoSpecial c log ∧ Agree c (wanted c w.tbl (log (s.lastExec + 1))) s.tbl w.tbl ∨ s.tbl = w.tbl) ∧
      ∃ ks : List Nat, ks.length ≤ s.crashes ∧
        callsFor (s.lastExec + 1) s.calls = attempts (chosen c w.tbl (log (s.lastExec + 1))) ks
  | .running p outs pos t => ∃ (dn : List Instr) (T : Tbl Rep), dn ++ p = nextProg c log w (s.lastExec + 1) ∧
      (⟨s.chain, s.tbl, outs, pos⟩ : M Blk Rep) = irun c app (s.lastExec + 1) t ⟨w.chain, T, [], 0⟩ dn ∧
      (NoSpecial c log ∧ Agree c (wanted c w.tbl (log (s.lastExec + 1))) T w.tbl ∨ T = w.tbl) ∧ s.time = t ∧
      ((log (s.lastExec + 1)).reqs = [] ∧ t = w.time ∧ s.tbl = w.tbl ∧ (∀ d, s.desc = some d → d.seq ≤ s.lastExec) ∨
        (log (s.lastExec + 1)).reqs ≠ [] ∧ t = compareAndUpdate c.eps w.time (log (s.lastExec + 1)).time ∧
        s.desc = some (curDesc c log w s.lastExec)) ∧
      ∃ ks : List Nat, ks.length ≤ s.crashes ∧
        callsFor (s.lastExec + 1) s.calls = attempts (chosen c w.tbl (log (s.lastExec + 1))) ks ++ callsOf dn
  | .down | .syncing _ => NoSpecial c log ∧ Stopped c log w s ∧
      ∃ ks : List Nat, ks.length ≤ s.crashes ∧
        callsFor (s.lastExec + 1) s.calls = attempts (chosen c w.tbl (log (s.lastExec + 1))) ks

/-- the invariant -/
structure Inv (c : Cfg) (app : App Blk Rep) (log : Nat → Batch) (time0 : Int) (s : St Blk Rep) : Prop where
  block : s.lastBlock = (world c app log time0 s.lastExec).chain.length
  phase : PhaseOk c app log (world c app log time0 s.lastExec) s
  past : ∀ k, k < s.lastExec → ∃ ks : List Nat, ks.length ≤ s.crashes ∧
    callsFor (k + 1) s.calls = attempts (chosen c (world c app log time0 k).tbl (log (k + 1))) ks ++
      chosen c (world c app log time0 k).tbl (log (k + 1))
  future : ∀ k, s.lastExec + 1 < k → callsFor k s.calls = []

theorem inv_init {c : Cfg} {app : App Blk Rep} {log : Nat → Batch} {time0 : Int} : Inv c app log time0 (init time0) := by
  refine ⟨rfl, ?_, ?_, ?_⟩
  · refine ⟨?_, rfl, rfl, rfl, rfl⟩
    intro d hd; cases hd
  · intro k hk; simp [init] at hk
  · intro k _; rfl

theorem callsFor_snoc (k n : Nat) (r : Req) (calls : List (Nat × Req)) :
    callsFor k (calls ++ [(n, r)]) = callsFor k calls ++ (if n = k then [r] else []) := by
  unfold callsFor
  by_cases h : n = k
  · simp [h]
  · simp [h, List.filter_append]

theorem attempts_snoc (full : List Req) (ks : List Nat) (k : Nat) : attempts full (ks ++ [k]) = attempts full ks ++ full.take k := by
  simp [attempts]

theorem time_mono {eps old new : Int} (h : 0 ≤ eps) : old ≤ compareAndUpdate eps old new := by
  unfold compareAndUpdate; split <;> omega

theorem irun_chain_prefix {c : Cfg} {app : App Blk Rep} {s : Nat} {t : Int} : ∀ (p : List Instr) (m : M Blk Rep),
    m.chain <+: (irun c app s t m p).chain := by
  intro p
  induction p with
  | nil => intro m; exact List.prefix_refl _
  | cons a l ih =>
    intro m
    have h := ih (iexec c app s t m a)
    refine List.IsPrefix.trans ?_ h
    cases a with
    | exec r => exact List.prefix_append _ _
    | reply r =>
      simp only [iexec]
      split <;> exact List.prefix_refl _

theorem irun_agree {c : Cfg} {app : App Blk Rep} {s : Nat} {t : Int} {g : List Req} {T0 : Tbl Rep} : ∀ (p : List Instr) (m : M Blk Rep),
    (∀ r ∈ repliesOf p, r ∈ g) → Agree c g m.tbl T0 → Agree c g (irun c app s t m p).tbl T0 := by
  intro p
  induction p with
  | nil => intro m _ h; exact h
  | cons a l ih =>
    intro m hr h
    have : irun c app s t m (a :: l) = irun c app s t (iexec c app s t m a) l := rfl
    rw [this]
    cases a with
    | exec r => exact ih _ hr h
    | reply r =>
      refine ih _ (fun x hx => hr x (List.mem_cons_of_mem _ hx)) ?_
      simp only [iexec]
      split
      · exact h
      · exact agree_store h (hr r (List.mem_cons_self ..)) _

theorem repliesOf_mono {p q : List Instr} {r : Req} (h : r ∈ repliesOf p) : r ∈ repliesOf (p ++ q) := by
  rw [mem_repliesOf] at *
  exact List.mem_append_left _ h

theorem callsOf_take {p q : List Instr} : ∃ k, callsOf p = (callsOf (p ++ q)).take k :=
  ⟨(callsOf p).length, by rw [callsOf_append, List.take_left']; rfl⟩

/-- stopping from any phase leaves a well-formed durable state -/
theorem stop_ok {c : Cfg} {app : App Blk Rep} {log : Nat → Batch} {w : World Blk Rep} {s : St Blk Rep} (he : 0 ≤ c.eps)
    (hns : NoSpecial c log) (h : PhaseOk c app log w s) :
    Stopped c log w s ∧ ∃ ks : List Nat, ks.length ≤ s.crashes + 1 ∧
      callsFor (s.lastExec + 1) s.calls = attempts (chosen c w.tbl (log (s.lastExec + 1))) ks := by
  unfold PhaseOk at h
  split at h
  · obtain ⟨h1, h2, h3, h4, h5⟩ := h
    exact ⟨.inl ⟨h1, h2, h3, h4, h5⟩, [], Nat.zero_le _, by rw [h5]; rfl⟩
  · obtain ⟨h1, h2, h3, h4, h5, h6, ks, hk, h7⟩ := h
    refine ⟨.inr ⟨h4, h5, by rw [h2]; exact List.prefix_refl _, by rw [h3]; exact Int.le_refl _, ?_⟩, ks, by omega, h7⟩
    rcases h6 with h6 | h6
    · exact h6.2
    · rw [h6]; exact agree_refl _ _ _
  · rename_i p outs pos t _
    obtain ⟨dn, T, h1, h2, h3, h4, h5, ks, hk, h6⟩ := h
    have hcalls : ∃ ks : List Nat, ks.length ≤ s.crashes + 1 ∧
        callsFor (s.lastExec + 1) s.calls = attempts (chosen c w.tbl (log (s.lastExec + 1))) ks := by
      obtain ⟨k, hk'⟩ := @callsOf_take dn p
      refine ⟨ks ++ [k], by simp; omega, ?_⟩
      rw [attempts_snoc, h6, hk', h1]
      unfold nextProg
      rw [callsOf_prog]
    refine ⟨?_, hcalls⟩
    have hchain : s.chain = (irun c app (s.lastExec + 1) t ⟨w.chain, T, [], 0⟩ dn).chain := congrArg M.chain h2
    have htbl : s.tbl = (irun c app (s.lastExec + 1) t ⟨w.chain, T, [], 0⟩ dn).tbl := congrArg M.tbl h2
    rcases h5 with ⟨a, b, b2, d⟩ | ⟨a, b, d⟩
    · have hp : nextProg c log w (s.lastExec + 1) = [] := by
        unfold nextProg progOf specialsOf pick bitsOf
        rw [a]
        cases c.sep <;> rfl
      rw [hp] at h1
      have hd : dn = [] := (List.append_eq_nil_iff.1 h1).1
      refine .inl ⟨d, by rw [hchain, hd]; rfl, b2, by rw [h4, b], ?_⟩
      rw [h6, hd, ← callsOf_prog]
      show attempts (callsOf (nextProg c log w (s.lastExec + 1))) ks ++ [] = []
      rw [hp]
      simp [attempts, callsOf]
    · refine .inr ⟨d, a, ?_, ?_, ?_⟩
      · rw [hchain]
        exact irun_chain_prefix dn ⟨w.chain, T, [], 0⟩
      · rw [h4, b]; exact time_mono he
      · rw [htbl]
        apply irun_agree
        · intro r hr
          have := repliesOf_mono (q := p) hr
          rw [h1, (noSpecial_prog hns w _).1, repliesOf_group] at this
          exact this
        · rcases h3 with h3 | h3
          · exact h3.2
          · rw [h3]; exact agree_refl _ _ _
  · exact ⟨h.2.1, h.2.2.choose, by have := h.2.2.choose_spec.1; omega, h.2.2.choose_spec.2⟩
  · exact ⟨h.2.1, h.2.2.choose, by have := h.2.2.choose_spec.1; omega, h.2.2.choose_spec.2⟩

theorem stopped_die {c : Cfg} {log : Nat → Batch} {w : World Blk Rep} {s : St Blk Rep} (h : Stopped c log w s) :
    Stopped c log w (die s) := h

theorem inv_die {c : Cfg} {app : App Blk Rep} {log : Nat → Batch} {time0 : Int} {s : St Blk Rep} (he : 0 ≤ c.eps)
    (hns : NoSpecial c log) (h : Inv c app log time0 s) : Inv c app log time0 (die s) := by
  obtain ⟨h1, ks, hk, h2⟩ := stop_ok he hns h.phase
  refine ⟨h.block, ⟨hns, stopped_die h1, ks, hk, h2⟩, ?_, h.future⟩
  intro k hk
  obtain ⟨ks, ha, hb⟩ := h.past k hk
  exact ⟨ks, Nat.le_succ_of_le ha, hb⟩

/-- removing the last block of a stopped replica whose chain is too long -/
theorem stopped_del {c : Cfg} {log : Nat → Batch} {w : World Blk Rep} {s : St Blk Rep} (h : Stopped c log w s)
    (hl : s.chain.length > w.chain.length) : Stopped c log w { s with chain := s.chain.dropLast } := by
  rcases h with ⟨_, h, _, _, _⟩ | ⟨h1, h2, h3, h4, h5⟩
  · rw [h] at hl; omega
  · refine .inr ⟨h1, h2, ?_, h4, h5⟩
    obtain ⟨x, hx⟩ := h3
    show w.chain <+: s.chain.dropLast
    rw [← hx]
    have : x ≠ [] := by rintro rfl; rw [← hx] at hl; simp at hl
    rw [List.dropLast_append_of_ne_nil this]
    exact List.prefix_append _ _

theorem inv_step {c : Cfg} {app : App Blk Rep} {log : Nat → Batch} {time0 : Int} {s s' : St Blk Rep} {e : Ev} (he : 0 ≤ c.eps)
    (hd : 0 < c.maxDel) (hg : NoSpecial c log ∨ s'.crashes = 0)
    (h : Inv c app log time0 s) (hs : step c app log s e = some s') : Inv c app log time0 s' := by
  have hph := h.phase
  cases e with
  | commit k => simp only [step, Option.some.injEq] at hs; subst hs; exact ⟨h.block, h.phase, h.past, h.future⟩
  | stable k =>
    simp only [step] at hs
    split at hs
    · simp only [Option.some.injEq] at hs; subst hs; exact ⟨h.block, h.phase, h.past, h.future⟩
    · cases hs
  | start =>
    simp only [step] at hs
    split at hs
    · rename_i hp
      unfold PhaseOk at hph
      rw [hp] at hph
      obtain ⟨h1, h2, h3, h4, h5⟩ := hph
      split at hs
      · split at hs
        · rename_i hb
          simp only [Option.some.injEq] at hs; subst hs
          refine ⟨h.block, ?_, h.past, h.future⟩
          refine ⟨[], (world c app log time0 s.lastExec).tbl, ?_, ?_, .inr rfl, rfl, .inl ⟨hb, h4, h3, h1⟩, [], Nat.zero_le _, ?_⟩
          · unfold nextProg progOf specialsOf pick bitsOf
            show [] ++ [] = _
            rw [show (log (s.lastExec + 1)).reqs = [] from hb]
            cases c.sep <;> rfl
          · show (⟨s.chain, s.tbl, [], 0⟩ : M Blk Rep) = ⟨_, _, _, _⟩
            rw [h2, h3]
          · exact h5
        · rename_i hb
          simp only [Option.some.injEq] at hs; subst hs
          refine ⟨h.block, ?_, h.past, h.future⟩
          refine ⟨?_, h2, h4, ?_, hb, .inr h3, [], Nat.zero_le _, h5⟩
          · unfold nextProg
            show progOf c (log (s.lastExec + 1)) (bitsOf c s.tbl (log (s.lastExec + 1))) = _
            rw [h3]
          · show some _ = some _
            unfold curDesc
            rw [h3, h4]
      · cases hs
    · cases hs
  | tick =>
    simp only [step] at hs
    split at hs
    · rename_i p hp
      unfold PhaseOk at hph
      rw [hp] at hph
      obtain ⟨h1, h2, h3, h4, h5, h6, ks, hk, h7⟩ := hph
      simp only [Option.some.injEq] at hs; subst hs
      refine ⟨h.block, ?_, h.past, h.future⟩
      refine ⟨[], s.tbl, h1, ?_, h6, rfl, .inr ⟨h5, ?_, h4⟩, ks, hk, ?_⟩
      · show (⟨s.chain, s.tbl, [], 0⟩ : M Blk Rep) = ⟨_, _, _, _⟩
        rw [h2]
      · rw [h3]
      · rw [h7]; simp [callsOf]
    · cases hs
  | instr =>
    simp only [step] at hs
    split at hs
    · rename_i r p outs pos t hp
      unfold PhaseOk at hph
      rw [hp] at hph
      obtain ⟨dn, T, h1, h2, h3, h4, h5, ks, hk, h6⟩ := hph
      simp only [Option.some.injEq] at hs; subst hs
      refine ⟨h.block, ?_, ?_, ?_⟩
      · refine ⟨dn ++ [.exec r], T, by rw [← h1]; simp, ?_, h3, h4, h5, ks, hk, ?_⟩
        · rw [irun_append, ← h2]; rfl
        · show callsFor (s.lastExec + 1) (s.calls ++ [(s.lastExec + 1, r)]) = _
          rw [callsFor_snoc, h6, if_pos rfl, callsOf_append]
          simp [callsOf]
      · intro k hk
        obtain ⟨ks, ha, hb⟩ := h.past k hk
        refine ⟨ks, ha, ?_⟩
        show callsFor (k + 1) (s.calls ++ [(s.lastExec + 1, r)]) = _
        have hk : k < s.lastExec := hk
        rw [callsFor_snoc, if_neg (by omega), List.append_nil, hb]
      · intro k hk
        show callsFor k (s.calls ++ [(s.lastExec + 1, r)]) = _
        have hk : s.lastExec + 1 < k := hk
        rw [callsFor_snoc, if_neg (by omega), List.append_nil, h.future k hk]
    · rename_i r p rep outs pos t hp
      split at hs
      · simp only [Option.some.injEq] at hs; subst hs
        rcases hg with hg | hg
        · exact inv_die he hg h
        · simp [die] at hg
      · unfold PhaseOk at hph
        rw [hp] at hph
        obtain ⟨dn, T, h1, h2, h3, h4, h5, ks, hk, h6⟩ := hph
        simp only [Option.some.injEq] at hs; subst hs
        refine ⟨h.block, ?_, h.past, h.future⟩
        refine ⟨dn ++ [.reply r], T, by rw [← h1]; simp, ?_, h3, h4, ?_, ks, hk, ?_⟩
        · rw [irun_append, ← h2]; rfl
        · rcases h5 with ⟨a, b⟩ | h5
          · exfalso
            have hp : nextProg c log (world c app log time0 s.lastExec) (s.lastExec + 1) = [] := by
              unfold nextProg progOf specialsOf pick bitsOf
              rw [a]
              cases c.sep <;> rfl
            rw [hp] at h1
            simp at h1
          · exact .inr h5
        · rw [callsOf_append]; simpa [callsOf] using h6
    · cases hs
  | finish =>
    simp only [step] at hs
    split at hs
    · rename_i outs pos t hp
      unfold PhaseOk at hph
      rw [hp] at hph
      obtain ⟨dn, T, h1, h2, h3, h4, h5, ks, hk, h6⟩ := hph
      rw [List.append_nil] at h1
      subst h1
      simp only [Option.some.injEq] at hs; subst hs
      let w := world c app log time0 s.lastExec
      have key : s.chain = (world c app log time0 (s.lastExec + 1)).chain ∧ s.tbl = (world c app log time0 (s.lastExec + 1)).tbl ∧
          s.time = (world c app log time0 (s.lastExec + 1)).time := by
        rcases h5 with ⟨a, b, b2, d⟩ | ⟨a, b, d⟩
        · have hw : world c app log time0 (s.lastExec + 1) = world c app log time0 s.lastExec := by
            show batchStep c app (s.lastExec + 1) (log (s.lastExec + 1)) _ = _
            unfold batchStep; rw [if_pos a]
          have hpn : nextProg c log (world c app log time0 s.lastExec) (s.lastExec + 1) = [] := by
            unfold nextProg progOf specialsOf pick bitsOf
            rw [a]
            cases c.sep <;> rfl
          rw [hpn] at h2
          rw [hw]
          exact ⟨congrArg M.chain h2, b2, by rw [h4, b]⟩
        · have ht : t = if (log (s.lastExec + 1)).time > w.time then (log (s.lastExec + 1)).time else w.time + c.eps := b
          obtain ⟨e1, e2, e3⟩ := irun_prog (app := app) (s := s.lastExec + 1) (log (s.lastExec + 1)) w ht a
          have hT : irun c app (s.lastExec + 1) t ⟨w.chain, T, [], 0⟩ (nextProg c log w (s.lastExec + 1)) =
              irun c app (s.lastExec + 1) t ⟨w.chain, w.tbl, [], 0⟩ (nextProg c log w (s.lastExec + 1)) := by
            rcases h3 with ⟨hns, hag⟩ | h3
            · rw [(noSpecial_prog hns w _).1, irun_group, irun_group]
              rw [storeAll_agree _ _ T w.tbl (runAll_length ..) hag]
            · rw [h3]
          rw [hT] at h2
          refine ⟨(congrArg M.chain h2).trans e1, (congrArg M.tbl h2).trans e2, h4.trans e3⟩
      refine ⟨?_, ?_, ?_, ?_⟩
      · show (if _ then s.lastBlock else s.chain.length) = _
        split
        · rename_i a
          have hw : world c app log time0 (s.lastExec + 1) = world c app log time0 s.lastExec := by
            show batchStep c app (s.lastExec + 1) (log (s.lastExec + 1)) _ = _
            unfold batchStep; rw [if_pos a]
          rw [h.block]
          show _ = (world c app log time0 (s.lastExec + 1)).chain.length
          rw [hw]
        · show _ = (world c app log time0 (s.lastExec + 1)).chain.length
          rw [← key.1]
      · refine ⟨?_, key.1, key.2.1, key.2.2, h.future (s.lastExec + 1 + 1) (by omega)⟩
        intro d hd
        have hd : s.desc = some d := hd
        show d.seq ≤ s.lastExec + 1
        rcases h5 with ⟨a, b, b2, dd⟩ | ⟨a, b, dd⟩
        · have := dd d hd; omega
        · rw [dd] at hd; cases hd; exact Nat.le_refl _
      · intro k hk'
        have hk' : k < s.lastExec + 1 := hk'
        by_cases hkk : k = s.lastExec
        · subst hkk
          refine ⟨ks, hk, ?_⟩
          show callsFor (s.lastExec + 1) s.calls = _
          rw [h6]
          unfold nextProg
          rw [callsOf_prog]
        · exact h.past k (by omega)
      · intro k hk'
        have hk' : s.lastExec + 1 + 1 < k := hk'
        exact h.future k (by omega)
    · cases hs
  | crash =>
    simp only [step] at hs
    have : s' = die s := by
      split at hs
      · cases hs
      · exact (Option.some.inj hs).symm
    subst this
    rcases hg with hg | hg
    · exact inv_die he hg h
    · simp [die] at hg
  | boot =>
    simp only [step] at hs
    split at hs
    · rename_i hp
      unfold PhaseOk at hph
      rw [hp] at hph
      simp only [Option.some.injEq] at hs; subst hs
      exact ⟨h.block, hph, h.past, h.future⟩
    · cases hs
  | del =>
    simp only [step] at hs
    split at hs
    · rename_i k hp
      unfold PhaseOk at hph
      rw [hp] at hph
      obtain ⟨hns, h1, h2⟩ := hph
      rw [if_neg (by omega)] at hs
      split at hs
      · rename_i hl
        rw [h.block] at hl
        split at hs
        · simp only [Option.some.injEq] at hs; subst hs
          exact inv_die he hns h
        · have hi : Inv c app log time0 { s with chain := s.chain.dropLast, phase := .syncing (k + 1) } :=
            ⟨h.block, ⟨hns, stopped_del h1 hl, h2⟩, h.past, h.future⟩
          split at hs
          · simp only [Option.some.injEq] at hs; subst hs
            exact ⟨hi.block, (inv_die he hns hi).phase, (inv_die he hns hi).past, hi.future⟩
          · simp only [Option.some.injEq] at hs; subst hs
            exact hi
      · cases hs
    · cases hs
  | up =>
    simp only [step] at hs
    split at hs
    · rename_i k hp
      unfold PhaseOk at hph
      rw [hp] at hph
      obtain ⟨hns, h1, ks, hk, h2⟩ := hph
      split at hs
      · cases hs
      · rename_i hl
        have hl : s.chain.length ≤ (world c app log time0 s.lastExec).chain.length := by
          rw [← h.block]; rcases Nat.lt_or_ge s.lastBlock s.chain.length with h' | h'
          · exact absurd ⟨by omega, h'⟩ hl
          · exact h'
        rcases h1 with ⟨a, b, c1, d, e⟩ | ⟨a, b, c1, d, e⟩
        · have hidle : s' = { s with phase := .idle } := by
            split at hs
            · exact (Option.some.inj hs).symm
            · rename_i dd hdd
              have := a dd hdd
              rw [if_neg (by omega)] at hs
              exact (Option.some.inj hs).symm
          subst hidle
          exact ⟨h.block, ⟨a, b, c1, d, e⟩, h.past, h.future⟩
        · rw [a] at hs
          simp only [curDesc] at hs
          have e1 : s.lastExec + 1 > s.lastExec := by omega
          have e2 : ¬ (world c app log time0 s.lastExec).time > s.time := by omega
          simp only [e1, e2, if_true, if_false, ne_eq, not_true_eq_false, Option.some.injEq] at hs; subst hs
          refine ⟨h.block, ?_, h.past, h.future⟩
          refine ⟨?_, ?_, rfl, rfl, b, .inl ⟨hns, e⟩, ks, hk, h2⟩
          · rw [(noSpecial_prog hns _ _).2, (noSpecial_prog hns _ _).1]
          · obtain ⟨x, hx⟩ := c1
            have : x = [] := by
              rw [← hx] at hl
              simp at hl
              exact List.eq_nil_of_length_eq_zero (by omega)
            show s.chain = _
            rw [← hx, this, List.append_nil]
    · cases hs

end Verif.Exec
