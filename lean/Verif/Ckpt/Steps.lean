import Verif.Ckpt.Stable
/-!
C42: every event keeps the invariant, never fails, and its outputs are justified.
-/
set_option linter.unusedSimpArgs false
set_option linter.unusedVariables false
namespace Verif.Ckpt
open Concord Concord.Cert

variable {g : Cfg} {H : Msg → Prop}

/-- `Backed` with the received messages given by `H` -/
def BackedH (g : Cfg) (H : Msg → Prop) (signed : List (Nat × Content)) (s k : Nat) : Prop :=
  ∃ c, ∃ l : List Nat, l.Nodup ∧ k ≤ l.length ∧ g.self ∈ l ∧
    ∀ r ∈ l, r < g.n ∧ (if r = g.self then (s, c) ∈ signed else ∃ m, H m ∧ m.gen = r ∧ m.seq = s ∧ m.content = c)

theorem backed_of_cnt {x : Nat} {a : St} (h : Core g H x a) {s k : Nat} {sm : Msg}
    (hm : (g.self, sm) ∈ (a.slots s).cert.msgs) (hk : k ≤ cnt eqv (a.slots s).cert.msgs sm) :
    BackedH g H a.signed s k := by
  have hkeys := good_keys (h.good s)
  refine ⟨sm.content, ((a.slots s).cert.msgs.filter (fun e => eqv sm e.2)).map (·.1), ?_, ?_, ?_, ?_⟩
  · exact (List.filter_sublist.map _).nodup hkeys
  · rw [List.length_map, ← List.countP_eq_length_filter]; exact hk
  · exact List.mem_map.2 ⟨(g.self, sm), List.mem_filter.2 ⟨hm, eqv_isEqv.refl sm⟩, rfl⟩
  · intro r hr
    obtain ⟨⟨i, m'⟩, h1, h2⟩ := List.mem_map.1 hr
    simp only at h2; subst h2
    obtain ⟨h3, h4⟩ := List.mem_filter.1 h1
    have h5 := h.msgs _ _ _ h3
    simp only [eqv, Bool.and_eq_true, beq_iff_eq] at h4
    refine ⟨h5.lt, ?_⟩
    split
    · rename_i e
      have := (h5.self e).1
      rw [h4.2]; exact this
    · rename_i e
      exact ⟨m', h5.peer e, h5.gen, h5.seq, h4.2.symm⟩

/-- why a checkpoint may become stable -/
def StableWhy (g : Cfg) (H : Msg → Prop) (v : Env) (e : Ev) (a a' : St) (s : Nat) : Prop :=
  BackedH g H a'.signed s (2 * g.F + g.C) ∨
  (e = .poll ∧ v.fast = true ∧ s + mcf ≤ a.lastExec ∧ ∃ c, (s, c) ∈ a.signed) ∨
  (∃ k, e = .transferred k ∧ s + wws = k * cpw)

/-- what is known about one output -/
def OutOk (g : Cfg) (H : Msg → Prop) (v : Env) (e : Ev) (a a' : St) : Out → Prop
  | .stable s => a.lastStable < s ∧ a'.lastStable = s ∧ StableWhy g H v e a a' s
  | .superStable s => BackedH g H a'.signed s (g.n - 1)
  | .collect => v.collecting = false ∧ ∃ l : List Nat, l.Nodup ∧ g.F + 1 ≤ l.length ∧
      ∀ r ∈ l, ∃ m, H m ∧ m.gen = r ∧ m.stable = true ∧ ¬ (m.seq ≤ a.lastExec ∧ m.epoch = v.epoch) ∧
        (v.late = true ∨ a.lastStable + wws < m.seq ∨ v.epoch < m.epoch) ∧ ((r, m) ∈ a.table ∨ v.epoch ≤ m.epoch)
  | .sendAll m => MsgOk g H a'.signed m.seq g.self m ∧ (m.stable = true → m.seq ≤ a'.lastStable)
  | .sendTo _ m => MsgOk g H a'.signed m.seq m.gen m ∧
      (m.gen = g.self → m.stable = true → m.seq ≤ a'.lastStable)

/-- the result of an event -/
structure StepOk (g : Cfg) (H : Msg → Prop) (v : Env) (e : Ev) (a a' : St) (o : List Out) : Prop where
  inv : Inv g H a'
  sub : ∀ x ∈ a.signed, x ∈ a'.signed
  ls : a.lastStable ≤ a'.lastStable
  le : a.lastExec ≤ a'.lastExec
  outs : ∀ y ∈ o, OutOk g H v e a a' y
  said : a'.lastStable ≠ a.lastStable → Out.stable a'.lastStable ∈ o
  tbl : ∀ e ∈ a'.table, e ∈ a.table ∨ v.epoch ≤ e.2.epoch

theorem StepOk.same {v : Env} {e : Ev} {a : St} (h : Inv g H a) : StepOk g H v e a a [] :=
  ⟨h, fun _ hx => hx, Nat.le_refl _, Nat.le_refl _, by simp, fun hh => absurd rfl hh, fun _ he => .inl he⟩

theorem sle_of_own {x : Nat} {a : St} (h : Core g H x a) {s : Nat} {m : Msg}
    (hm : (g.self, m) ∈ (a.slots s).cert.msgs) : ∃ c, (s, c) ∈ a.signed := ⟨_, ((h.msgs _ _ _ hm).self rfl).1⟩

/-! ### checkpoint messages -/

theorem tset_ok {t : List (Nat × Msg)} (h : TabOk g H t) {m : Msg} (hH : H m) (hs : m.stable = true) :
    TabOk g H (tset t m.gen m) := by
  constructor
  · unfold tset
    apply keysNodup_snoc
    · exact (List.filter_sublist.map _).nodup h.keys
    · intro m' hm'
      have := (List.mem_filter.1 hm').2
      simp at this
  · intro e he
    unfold tset at he
    rcases List.mem_append.1 he with h1 | h1
    · exact h.ent e (List.mem_filter.1 h1).1
    · rw [List.mem_singleton] at h1; subst h1
      exact ⟨rfl, hs, hH⟩

theorem filter_ok {t : List (Nat × Msg)} (h : TabOk g H t) (f : Nat × Msg → Bool) : TabOk g H (t.filter f) :=
  ⟨(List.filter_sublist.map _).nodup h.keys, fun e he => h.ent e (List.mem_filter.1 he).1⟩

theorem tset_epoch {v : Env} {m : Msg} {a : St} (h1 : (ahead v a m && replaces a.table m) = true) :
    ∀ e ∈ tset a.table m.gen m, e ∈ a.table ∨ v.epoch ≤ e.2.epoch := by
  have hep : v.epoch ≤ m.epoch := by
    have := (Bool.and_eq_true_iff.1 h1).1
    unfold ahead at this
    have := (Bool.and_eq_true_iff.1 this).2
    simp only [Bool.or_eq_true, Bool.and_eq_true, decide_eq_true_eq] at this
    omega
  intro e he
  unfold tset at he
  rcases List.mem_append.1 he with q | q
  · exact .inl (List.mem_filter.1 q).1
  · rw [List.mem_singleton] at q; subst q; exact .inr hep

theorem recvTable_ok {v : Env} {m : Msg} {a : St} (h : TabOk g H a.table) (hH : H m) :
    TabOk g H (recvTable g v m a).1 ∧ ((recvTable g v m a).2 = true →
      ∃ l : List Nat, l.Nodup ∧ g.F + 1 ≤ l.length ∧
      ∀ r ∈ l, ∃ m, H m ∧ m.gen = r ∧ m.stable = true ∧ ¬ (m.seq ≤ a.lastExec ∧ m.epoch = v.epoch) ∧
        (v.late = true ∨ a.lastStable + wws < m.seq ∨ v.epoch < m.epoch) ∧ ((r, m) ∈ a.table ∨ v.epoch ≤ m.epoch)) := by
  unfold recvTable
  by_cases h1 : (ahead v a m && replaces a.table m) = true
  · rw [if_pos h1]
    have hs : m.stable = true := by
      have := (Bool.and_eq_true_iff.1 h1).1
      unfold ahead at this
      exact (Bool.and_eq_true_iff.1 this).1
    have hts := tset_ok h hH hs
    simp only
    by_cases h2 : g.F + 1 ≤ (tset a.table m.gen m).length
    · rw [if_pos h2]
      have hf := filter_ok hts (fun e => !stale v a e.2)
      have hst : ∀ e ∈ (tset a.table m.gen m).filter (fun e => !stale v a e.2),
          ¬ (e.2.seq ≤ a.lastExec ∧ e.2.epoch = v.epoch) := by
        intro e he hh
        have := (List.mem_filter.1 he).2
        unfold stale at this
        rw [decide_eq_true hh.1, decide_eq_true hh.2] at this
        cases this
      have hep : ∀ e ∈ (tset a.table m.gen m).filter (fun e => !stale v a e.2), e ∈ a.table ∨ v.epoch ≤ e.2.epoch :=
        fun e he => tset_epoch h1 e (List.mem_filter.1 he).1
      generalize (tset a.table m.gen m).filter (fun e => !stale v a e.2) = t at hf hst hep
      by_cases h3 : g.F + 1 ≤ (t.filter (fun e => above v a e.2)).length
      · rw [if_pos h3]
        refine ⟨hf, fun _ => ⟨(t.filter (fun e => above v a e.2)).map (·.1), ?_, ?_, ?_⟩⟩
        · exact (List.filter_sublist.map _).nodup hf.keys
        · rw [List.length_map]; exact h3
        · intro r hr
          obtain ⟨e, he, rfl⟩ := List.mem_map.1 hr
          obtain ⟨he1, he2⟩ := List.mem_filter.1 he
          obtain ⟨p, q, r⟩ := hf.ent e he1
          refine ⟨e.2, r, p, q, hst e he1, .inr ?_, hep e he1⟩
          unfold above at he2
          simpa using he2
      · rw [if_neg h3]
        by_cases h4 : g.F + 1 ≤ t.length
        · rw [if_pos h4]
          refine ⟨hf, fun hl => ⟨t.map (fun x : Nat × Msg => x.1), hf.keys, by rw [List.length_map]; exact h4, ?_⟩⟩
          intro r hr
          obtain ⟨e, he, rfl⟩ := List.mem_map.1 hr
          obtain ⟨p, q, r⟩ := hf.ent e he
          exact ⟨e.2, r, p, q, hst e he, .inl hl, hep e he⟩
        · rw [if_neg h4]
          exact ⟨hf, fun hh => by cases hh⟩
    · rw [if_neg h2]
      exact ⟨hts, fun hh => by cases hh⟩
  · rw [if_neg h1]
    exact ⟨h, fun hh => by cases hh⟩

theorem recvTable_tbl {v : Env} {m : Msg} {a : St} : ∀ e ∈ (recvTable g v m a).1, e ∈ a.table ∨ v.epoch ≤ e.2.epoch := by
  unfold recvTable
  by_cases h1 : (ahead v a m && replaces a.table m) = true
  · rw [if_pos h1]
    have hts := tset_epoch h1
    simp only
    by_cases h2 : g.F + 1 ≤ (tset a.table m.gen m).length
    · rw [if_pos h2]
      have hf : ∀ e ∈ (tset a.table m.gen m).filter (fun e => !stale v a e.2), e ∈ a.table ∨ v.epoch ≤ e.2.epoch :=
        fun e he => hts e (List.mem_filter.1 he).1
      generalize (tset a.table m.gen m).filter (fun e => !stale v a e.2) = t at hf
      by_cases h3 : g.F + 1 ≤ (t.filter (fun e => above v a e.2)).length
      · rw [if_pos h3]; exact hf
      · rw [if_neg h3]
        by_cases h4 : g.F + 1 ≤ t.length
        · rw [if_pos h4]; exact hf
        · rw [if_neg h4]; exact hf
    · rw [if_neg h2]; exact hts
  · rw [if_neg h1]; exact fun e he => .inl he

theorem recv_ok (hg : g.Ok) {v : Env} {m : Msg} {a : St} (h : Inv g H a) (hl : Legal g (.recv m) a) (hH : H m) :
    ∃ a' o, recv g v m a = some (a', o) ∧ StepOk g H v (.recv m) a a' o := by
  obtain ⟨hgen, hsnd, hne, hseq, hself⟩ := hl
  have hc := h.core
  have b1 := hc.b1; have b2 := hc.b2; have le1 := hc.le1; have le2 := h.le2
  unfold recv recvLog
  by_cases hw : a.lastStable < m.seq ∧ m.seq ≤ a.lastStable + wws ∧ v.epoch ≤ m.epoch
  · rw [if_pos hw]
    have hin : a.inside m.seq = true := by
      rw [inside_iff]; unfold clw; unfold wws cpw at *; omega
    have hgo : a.getOk m.seq = true := getOk_iff.2 ⟨hseq, inside_iff.1 hin⟩
    rw [if_neg (by rw [hgo]; simp)]
    have hc1 := core_add hg hc hin hgen hH hself
    generalize hb : a.setSlot m.seq ((a.slots m.seq).add g m.gen m).1 = b at hc1
    have hbls : b.lastStable = a.lastStable := by rw [← hb]; rfl
    have hble : b.lastExec = a.lastExec := by rw [← hb]; rfl
    have hbsg : b.signed = a.signed := by rw [← hb]; rfl
    have hbtb : b.table = a.table := by rw [← hb]; rfl
    simp only
    by_cases hcomp : (b.slots m.seq).cert.complete = true
    · rw [if_pos hcomp]
      obtain ⟨mo, hmo, hcnt⟩ := base_complete (hc1.exact m.seq (by rw [hbls]; exact hw.1) (by omega)) hcomp
      have hown := own_some (g := g) (good_keys (hc1.good m.seq)) hmo
      rw [hown]
      rw [if_neg (by simp)]
      obtain ⟨c, hsc⟩ := sle_of_own hc1 hmo
      obtain ⟨_, _, hle⟩ := hc1.sle _ _ hsc
      obtain ⟨k, o, heq, ho⟩ := stableAt_eq (v := v) (old := false) hc1 hseq (by rw [hbls]; exact hw.1) hle hmo
      have hc2 := stab_core (k := k) hg hc1 (.inl rfl) hseq (by rw [hbls]; exact hw.1) hle hmo
      rw [heq]
      refine ⟨_, _, rfl, ?_⟩
      have hback : BackedH g H b.signed m.seq (2 * g.F + g.C) := backed_of_cnt hc1 hmo hcnt
      constructor
      · refine ⟨hc2, ?_, ?_, ?_, ?_⟩
        · show TabOk g H b.table; rw [hbtb]; exact h.tab
        · show b.lastExec ≤ m.seq + wws; rw [hble]; omega
        · show 0 < b.lastExec / cpw * cpw → ∃ c, (b.lastExec / cpw * cpw, c) ∈ b.signed
          rw [hble, hbsg]; exact h.flr
        · right; left; exact ⟨c, hsc⟩
      · intro x hx; show x ∈ b.signed; rw [hbsg]; exact hx
      · show a.lastStable ≤ m.seq; omega
      · show a.lastExec ≤ b.lastExec; omega
      · intro y hy
        rcases List.mem_append.1 hy with hy | hy
        · obtain ⟨rfl, hf⟩ := ho y hy
          obtain ⟨sm, h1, h2⟩ := good_full (hc1.good m.seq) hf
          exact backed_of_cnt hc1 h1 h2
        · rw [List.mem_singleton] at hy; subst hy
          exact ⟨hw.1, rfl, .inl hback⟩
      · intro _; exact List.mem_append_right _ (List.mem_singleton.2 rfl)
      · show ∀ e ∈ b.table, _
        rw [hbtb]; exact fun e he => .inl he
    · rw [if_neg hcomp]
      obtain ⟨t1, t2⟩ := recvTable_ok (v := v) (m := m) (a := b) (by rw [hbtb]; exact h.tab) hH
      rw [hble, hbls, hbtb] at t2
      refine ⟨_, _, rfl, ?_⟩
      constructor
      · refine ⟨core_table hc1 _, t1, ?_, ?_, ?_⟩
        · show b.lastExec ≤ b.lastStable + wws; rw [hble, hbls]; exact le2
        · show 0 < b.lastExec / cpw * cpw → ∃ c, (b.lastExec / cpw * cpw, c) ∈ b.signed
          rw [hble, hbsg]; exact h.flr
        · show b.lastStable = 0 ∨ (∃ c, (b.lastStable, c) ∈ b.signed) ∨ b.lastStable + wws = b.lastExec
          rw [hble, hbsg, hbls]; exact h.lsg
      · intro x hx; show x ∈ b.signed; rw [hbsg]; exact hx
      · show a.lastStable ≤ b.lastStable; omega
      · show a.lastExec ≤ b.lastExec; omega
      · intro y hy
        rw [List.nil_append] at hy
        split at hy
        · rename_i hh
          rw [List.mem_singleton] at hy; subst hy
          rw [Bool.and_eq_true, Bool.not_eq_true'] at hh
          exact ⟨hh.2, t2 hh.1⟩
        · cases hy
      · intro hh; exact absurd hbls hh
      · rw [← hbtb]; exact recvTable_tbl
  · rw [if_neg hw]
    by_cases hin : a.inside m.seq = true
    · rw [if_pos hin]
      have hgo : a.getOk m.seq = true := getOk_iff.2 ⟨hseq, inside_iff.1 hin⟩
      rw [if_neg (by rw [hgo]; simp)]
      have hc1 := core_add hg hc hin hgen hH hself
      simp only
      obtain ⟨k, e1, e2⟩ := superIf_fields (((a.slots m.seq).add g m.gen m).2 && ((a.slots m.seq).add g m.gen m).1.cert.full)
        m.seq (a.setSlot m.seq ((a.slots m.seq).add g m.gen m).1)
      have hfull : ((a.slots m.seq).add g m.gen m).1.cert.full = true → BackedH g H a.signed m.seq (g.n - 1) := by
        intro hf
        have hsl : (a.setSlot m.seq ((a.slots m.seq).add g m.gen m).1).slots m.seq = ((a.slots m.seq).add g m.gen m).1 := by
          show (if m.seq = m.seq then _ else _) = _
          rw [if_pos rfl]
        have hf' : ((a.setSlot m.seq ((a.slots m.seq).add g m.gen m).1).slots m.seq).cert.full = true := by rw [hsl]; exact hf
        obtain ⟨sm, h1, h2⟩ := good_full (hc1.good m.seq) hf'
        exact backed_of_cnt hc1 h1 h2
      rw [e1]
      generalize hb : a.setSlot m.seq ((a.slots m.seq).add g m.gen m).1 = b at *
      have hbls : b.lastStable = a.lastStable := by rw [← hb]; rfl
      have hble : b.lastExec = a.lastExec := by rw [← hb]; rfl
      have hbsg : b.signed = a.signed := by rw [← hb]; rfl
      have hbtb : b.table = a.table := by rw [← hb]; rfl
      have hc2 : Core g H 0 { b with lastSuper := k } := by
        have := hc1; cases this; constructor <;> assumption
      obtain ⟨t1, t2⟩ := recvTable_ok (v := v) (m := m) (a := { b with lastSuper := k })
        (show TabOk g H b.table by rw [hbtb]; exact h.tab) hH
      refine ⟨_, _, rfl, ?_⟩
      constructor
      · refine ⟨core_table hc2 _, t1, ?_, ?_, ?_⟩
        · show b.lastExec ≤ b.lastStable + wws; rw [hble, hbls]; exact le2
        · show 0 < b.lastExec / cpw * cpw → ∃ c, (b.lastExec / cpw * cpw, c) ∈ b.signed
          rw [hble, hbsg]; exact h.flr
        · show b.lastStable = 0 ∨ (∃ c, (b.lastStable, c) ∈ b.signed) ∨ b.lastStable + wws = b.lastExec
          rw [hble, hbsg, hbls]; exact h.lsg
      · intro x hx; show x ∈ b.signed; rw [hbsg]; exact hx
      · show a.lastStable ≤ b.lastStable; omega
      · show a.lastExec ≤ b.lastExec; omega
      · intro y hy
        rcases List.mem_append.1 hy with hy | hy
        · obtain ⟨rfl, hf⟩ := e2 y hy
          rw [Bool.and_eq_true] at hf
          show BackedH g H b.signed m.seq _
          rw [hbsg]
          exact hfull hf.2
        · split at hy
          · rename_i hh
            rw [List.mem_singleton] at hy; subst hy
            rw [Bool.and_eq_true, Bool.not_eq_true'] at hh
            have := t2 hh.1
            refine ⟨hh.2, ?_⟩
            rw [← hble, ← hbls, ← hbtb]; exact this
          · cases hy
      · intro hh; exact absurd hbls hh
      · intro e he
        have := recvTable_tbl (a := { b with lastSuper := k }) e he
        rw [← hbtb]; exact this
    · rw [if_neg hin]
      obtain ⟨t1, t2⟩ := recvTable_ok (v := v) (m := m) (a := a) h.tab hH
      refine ⟨_, _, rfl, ?_⟩
      constructor
      · exact ⟨core_table hc _, t1, h.le2, h.flr, h.lsg⟩
      · intro x hx; exact hx
      · exact Nat.le_refl _
      · exact Nat.le_refl _
      · intro y hy
        rw [List.nil_append] at hy
        split at hy
        · rename_i hh
          rw [List.mem_singleton] at hy; subst hy
          rw [Bool.and_eq_true, Bool.not_eq_true'] at hh
          exact ⟨hh.2, t2 hh.1⟩
        · cases hy
      · intro hh; exact absurd rfl hh
      · exact recvTable_tbl

end Verif.Ckpt
