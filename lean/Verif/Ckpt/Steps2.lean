import Verif.Ckpt.Steps
/-!
C42: execution, the periodic check, the end of a state transfer, requests for checkpoints.
-/
set_option linter.unusedSimpArgs false
set_option linter.unusedVariables false
namespace Verif.Ckpt
open Concord Concord.Cert

variable {g : Cfg} {H : Msg → Prop}

theorem setSlot_self (a : St) (s : Nat) (c : Slot) : (a.setSlot s c).slots s = c := by
  show (if s = s then _ else _) = _
  rw [if_pos rfl]

/-- a slot whose certificate and stable flag stay -/
theorem core_flags {x s : Nat} {a : St} (h : Core g H x a) (hin : a.inside s = true) {c : Slot}
    (h1 : c.cert = (a.slots s).cert) (h2 : c.ownStable = (a.slots s).ownStable)
    (h3 : c.executed = true → s ≤ a.lastExec) : Core g H x (a.setSlot s c) := by
  apply core_slot h hin
  · rw [h1]; exact h.good s
  · rw [h1]; exact h.exact s
  · intro t _ ht _; exact ht
  · rw [h1]; exact h.msgs s
  · rw [h1]; exact fun m hm => ⟨m, hm⟩
  · exact h3
  · rw [h2]; exact h.ost s
  · intro k hk e
    rw [h2, e]; exact h.ost2 k hk

theorem exec_ok (hg : g.Ok) {v : Env} {a : St} (h : Inv g H a) (hl : a.lastExec < a.lastStable + wws) :
    ∃ a' o, exec g v a = some (a', o) ∧ StepOk g H v .exec a a' o := by
  have hc := h.core
  have b1 := hc.b1; have b2 := hc.b2; have le1 := hc.le1
  have hc0 := core_le hc (k := a.lastExec + 1) (by omega)
  have hlsg : a.lastStable = 0 ∨ (∃ c, (a.lastStable, c) ∈ a.signed) := by
    rcases h.lsg with h1 | h1 | h1
    · exact .inl h1
    · exact .inr h1
    · omega
  unfold exec tryMark
  simp only
  by_cases hm : (a.lastExec + 1) % cpw = 0
  · rw [if_neg (by simpa using hm)]
    have hin : a.inside (a.lastExec + 1) = true := by
      rw [inside_iff]; unfold clw; unfold wws cpw at *; omega
    have hgo : ({ a with lastExec := a.lastExec + 1, ps := { a.ps with lastExec := a.lastExec + 1 } } : St).getOk
        (a.lastExec + 1) = true := getOk_iff.2 ⟨hm, inside_iff.1 hin⟩
    rw [if_neg (by rw [hgo]; simp)]
    have hc1 := core_sign hg (v := v) (c := v.dg ((a.lastExec + 1) / cpw)) (a.slots (a.lastExec + 1)).sent hc0 hm
      (by omega) (Nat.le_refl _) (show a.lastStable < a.lastExec + 1 by omega)
      (fun t c ht => by
        have := (hc.sle t c ht).2.2
        omega) hin rfl
    have hownm : (g.self, ownMsg g v (a.lastExec + 1) false) ∈
        ((a.slots (a.lastExec + 1)).cert.addMsg g.p g.self (ownMsg g v (a.lastExec + 1) false)).1.msgs := by
      rcases addMsg_cases (g := g) (a.slots (a.lastExec + 1)).cert g.self (ownMsg g v (a.lastExec + 1) false) with
        ⟨h1, h2⟩ | ⟨h1, h2, h3⟩
      · obtain ⟨m, hm⟩ := hasMsg_iff.1 h1
        have := (hc.sle _ _ ((hc.msgs _ _ _ hm).self rfl).1).2.2
        omega
      · rw [h2]; simp
    have hexf : (a.slots (a.lastExec + 1)).executed = false := by
      cases he : (a.slots (a.lastExec + 1)).executed
      · rfl
      · have := hc.exe _ he; omega
    generalize hs : a.lastExec + 1 = s at *
    change Core g H 0 ({ (({ a with lastExec := s, ps := { a.ps with lastExec := s } } : St).setSlot s
      ((a.slots s).add g g.self (ownMsg g v s false)).1) with
      signed := a.signed ++ [(s, v.dg (s / cpw))]
      ps := ({ a.ps with lastExec := s } : Ps).setCheck s (ownMsg g v s false) } : St) at hc1
    simp only at hc1
    generalize hb : ({ (({ a with lastExec := s, ps := { a.ps with lastExec := s } } : St).setSlot s
      ((a.slots s).add g g.self (ownMsg g v s false)).1) with
      signed := a.signed ++ [(s, v.dg (s / cpw))]
      ps := ({ a.ps with lastExec := s } : Ps).setCheck s (ownMsg g v s false) } : St) = b at hc1
    have hbls : b.lastStable = a.lastStable := by rw [← hb]; rfl
    have hble : b.lastExec = s := by rw [← hb]; rfl
    have hbsg : b.signed = a.signed ++ [(s, v.dg (s / cpw))] := by rw [← hb]
    have hbtb : b.table = a.table := by rw [← hb]; rfl
    have hbsl : b.slots s = ((a.slots s).add g g.self (ownMsg g v s false)).1 := by
      rw [← hb]; exact setSlot_self _ _ _
    have hbin : b.inside s = true := by rw [← hb]; exact hin
    have hown : (g.self, ownMsg g v s false) ∈ (b.slots s).cert.msgs := by rw [hbsl]; exact hownm
    have hbex : (b.slots s).executed = false := by rw [hbsl]; exact hexf
    have hsgm : (s, v.dg (s / cpw)) ∈ b.signed := by rw [hbsg]; simp
    have hflr : ∀ d : St, d.lastExec = s → d.signed = b.signed →
        (0 < d.lastExec / cpw * cpw → ∃ c, (d.lastExec / cpw * cpw, c) ∈ d.signed) := by
      intro d h1 h2 _
      rw [h1, h2]
      have : s / cpw * cpw = s := by have := Nat.div_add_mod s cpw; rw [hm, Nat.mul_comm] at this; omega
      rw [this]; exact ⟨_, hsgm⟩
    rw [← hbsl]
    by_cases hcomp : (b.slots s).cert.complete = true
    · rw [if_pos hcomp]
      obtain ⟨mo, hmo, hcnt⟩ := base_complete (hc1.exact s (by rw [hbls]; omega) (by omega)) hcomp
      obtain ⟨k, o, heq, ho⟩ := stableAt_eq (v := v) (old := false) hc1 hm (by rw [hbls]; omega) (by rw [hble]) hmo
      have hc2 := stab_core (k := k) hg hc1 (.inl rfl) hm (by rw [hbls]; omega) (by rw [hble]) hmo
      rw [heq]
      simp only
      have hsl2 : (stabSt g s k mo b).slots s = stSlot (b.slots s) := by
        show (if s = s then _ else _) = _
        rw [if_pos rfl]
      rw [hsl2]
      have hx2 : (stSlot (b.slots s)).executed = false := hbex
      rw [if_neg (by rw [hx2]; simp)]
      rw [setSlot_self]
      have hin2 : (stabSt g s k mo b).inside s = true := by
        have := hc2.b1; have := hc2.b2
        rw [inside_iff]
        have e1 : (stabSt g s k mo b).lastStable = s := rfl
        unfold clw; unfold cpw at *; omega
      have hc3 := core_flags (c := { (stSlot (b.slots s)) with executed := true }) hc2 hin2
        (by rw [hsl2]) (by rw [hsl2]) (fun _ => by show s ≤ b.lastExec; omega)
      obtain ⟨k2, e1, e2⟩ := superIf_fields (b.slots s).cert.full s
        ((stabSt g s k mo b).setSlot s { (stSlot (b.slots s)) with executed := true })
      refine ⟨_, _, rfl, ?_⟩
      have e1' : (superIf (stSlot (b.slots s)).cert.full
        ((stabSt g s k mo b).setSlot s { (stSlot (b.slots s)) with executed := true }).lastStable
        ((stabSt g s k mo b).setSlot s { (stSlot (b.slots s)) with executed := true })) =
        superIf (b.slots s).cert.full s
        ((stabSt g s k mo b).setSlot s { (stSlot (b.slots s)) with executed := true }) := rfl
      rw [e1', e1]
      have hfb : (b.slots s).cert.full = true → BackedH g H b.signed s (g.n - 1) := by
        intro hf
        obtain ⟨sm, h1, h2⟩ := good_full (hc1.good s) hf
        exact backed_of_cnt hc1 h1 h2
      constructor
      · refine ⟨?_, ?_, ?_, ?_, ?_⟩
        · have := hc3; cases this; constructor <;> assumption
        · show TabOk g H b.table; rw [hbtb]; exact h.tab
        · show b.lastExec ≤ s + wws; omega
        · exact hflr _ hble rfl
        · right; left; exact ⟨_, hsgm⟩
      · intro x hx; show x ∈ b.signed; rw [hbsg]; exact List.mem_append_left _ hx
      · show a.lastStable ≤ s; omega
      · show a.lastExec ≤ b.lastExec; omega
      · intro y hy
        rcases List.mem_append.1 hy with hy | hy
        · rcases List.mem_append.1 hy with hy | hy
          · obtain ⟨rfl, hf⟩ := ho y hy
            exact hfb hf
          · rw [List.mem_singleton] at hy; subst hy
            exact ⟨by omega, rfl, .inl (backed_of_cnt hc1 hmo hcnt)⟩
        · obtain ⟨rfl, hf⟩ := e2 y hy
          exact hfb hf
      · intro _; exact List.mem_append_left _ (List.mem_append_right _ (List.mem_singleton.2 rfl))
      · show ∀ e ∈ b.table, _
        rw [hbtb]; exact fun e he => .inl he
    · rw [if_neg hcomp]
      simp only
      rw [if_neg (by rw [hbex]; simp)]
      rw [setSlot_self]
      have hnf : (b.slots s).cert.full = false := by
        cases hf : (b.slots s).cert.full
        · rfl
        · exact absurd (good_full_complete hg (hc1.good s) hf) hcomp
      have hc3 := core_flags (c := { (b.slots s) with executed := true }) hc1 hbin rfl rfl (fun _ => by omega)
      have e1 : superIf ({ (b.slots s) with executed := true } : Slot).cert.full
          (b.setSlot s { (b.slots s) with executed := true }).lastStable
          (b.setSlot s { (b.slots s) with executed := true }) = (b.setSlot s { (b.slots s) with executed := true }, []) := by
        unfold superIf
        rw [if_neg (by show ¬ (b.slots s).cert.full = true; rw [hnf]; simp)]
      rw [e1]
      refine ⟨_, _, rfl, ?_⟩
      constructor
      · refine ⟨hc3, ?_, ?_, ?_, ?_⟩
        · show TabOk g H b.table; rw [hbtb]; exact h.tab
        · show b.lastExec ≤ b.lastStable + wws; omega
        · exact hflr _ hble rfl
        · show b.lastStable = 0 ∨ (∃ c, (b.lastStable, c) ∈ b.signed) ∨ _
          rw [hbls, hbsg]
          rcases hlsg with h1 | ⟨c, h1⟩
          · exact .inl h1
          · exact .inr (.inl ⟨c, List.mem_append_left _ h1⟩)
      · intro x hx; show x ∈ b.signed; rw [hbsg]; exact List.mem_append_left _ hx
      · show a.lastStable ≤ b.lastStable; omega
      · show a.lastExec ≤ b.lastExec; omega
      · intro y hy; simp at hy
      · intro hh; exact absurd hbls hh
      · show ∀ e ∈ b.table, _
        rw [hbtb]; exact fun e he => .inl he
  · rw [if_pos (by simpa using hm)]
    refine ⟨_, _, rfl, ?_⟩
    constructor
    · refine ⟨hc0, h.tab, ?_, ?_, ?_⟩
      · show a.lastExec + 1 ≤ a.lastStable + wws; omega
      · show 0 < (a.lastExec + 1) / cpw * cpw → ∃ c, ((a.lastExec + 1) / cpw * cpw, c) ∈ a.signed
        have : (a.lastExec + 1) / cpw = a.lastExec / cpw := by unfold cpw at *; omega
        rw [this]; exact h.flr
      · rcases hlsg with h1 | h1
        · exact .inl h1
        · exact .inr (.inl h1)
    · intro x hx; exact hx
    · exact Nat.le_refl _
    · show a.lastExec ≤ a.lastExec + 1; omega
    · simp
    · intro hh; exact absurd rfl hh
    · exact fun e he => .inl he

theorem own_ok {x s : Nat} {a : St} (h : Core g H x a) {m : Msg} (hm : (a.slots s).own g = some m) :
    m.seq = s ∧ MsgOk g H a.signed s g.self m ∧ (m.stable = true → s ≤ a.lastStable) := by
  obtain ⟨m0, h1, h2⟩ := own_mem (good_keys (h.good s)) hm
  have h3 := h.msgs _ _ _ h1
  subst h2
  exact ⟨h3.seq, ⟨h3.gen, h3.lt, h3.seq, h3.self, fun e => absurd rfl e⟩, h.ost s⟩

theorem poll_ok (hg : g.Ok) {v : Env} {a : St} (h : Inv g H a) :
    ∃ a' o, poll g v a = some (a', o) ∧ StepOk g H v .poll a a' o := by
  have hc := h.core
  have b1 := hc.b1; have b2 := hc.b2; have le1 := hc.le1; have le2 := h.le2
  unfold poll
  by_cases h1 : (v.collecting || !v.viewActive) = true
  · rw [if_pos h1]; exact ⟨_, _, rfl, .same h⟩
  rw [if_neg h1]
  simp only
  have hsm : a.lastExec / cpw * cpw % cpw = 0 := Nat.mul_mod_left _ _
  have hsl : a.lastExec / cpw * cpw ≤ a.lastExec := Nat.div_mul_le_self _ _
  have hsls : a.lastStable ≤ a.lastExec / cpw * cpw := by
    have := hc.lsm
    unfold cpw at *; omega
  generalize a.lastExec / cpw * cpw = s at *
  by_cases h2 : s = 0
  · rw [if_pos h2]; exact ⟨_, _, rfl, .same h⟩
  rw [if_neg h2]
  have hin : a.inside s = true := by
    rw [inside_iff]; unfold clw; unfold wws cpw at *; omega
  rw [if_neg (by rw [getOk_iff.2 ⟨hsm, inside_iff.1 hin⟩]; simp)]
  cases hown : (a.slots s).own g with
  | none => exact ⟨_, _, rfl, .same h⟩
  | some m =>
    simp only
    obtain ⟨o1, o2, o3⟩ := own_ok hc hown
    obtain ⟨m0, hm0, -⟩ := own_mem (good_keys (hc.good s)) hown
    have hsent : ∀ o, (∀ y ∈ o, y = Out.sendAll m) →
        StepOk g H v .poll a (a.setSlot s { a.slots s with sent := true }) o := by
      intro o ho
      have hc1 := core_flags (c := { a.slots s with sent := true }) hc hin rfl rfl (hc.exe s)
      refine ⟨⟨hc1, h.tab, h.le2, h.flr, h.lsg⟩, fun _ hx => hx, Nat.le_refl _, Nat.le_refl _, ?_, fun hh => absurd rfl hh,
        fun e he => .inl he⟩
      intro y hy
      rw [ho y hy]
      refine ⟨?_, ?_⟩
      · rw [o1]; exact o2
      · rw [o1]; exact o3
    by_cases h3 : (a.slots s).sent = true
    · rw [if_pos h3]; exact ⟨_, _, rfl, .same h⟩
    rw [if_neg h3]
    by_cases h4 : (!(a.slots s).executed || v.waited) = true
    · rw [if_pos h4]; exact ⟨_, _, rfl, hsent _ (by simp)⟩
    rw [if_neg h4]
    unfold fastPath
    by_cases h5 : a.lastExec < s + mcf
    · rw [if_pos h5]; exact ⟨_, _, rfl, .same h⟩
    rw [if_neg h5]
    by_cases h6 : v.fast = true
    · rw [if_pos h6]
      simp only
      rw [setSlot_self]
      have hmk : ((a.slots s).mark g).cert = { (a.slots s).cert with complete := true } := tryComplete_self hm0
      have hcm : ((a.slots s).mark g).cert.complete = true := by rw [hmk]
      rw [if_neg (by rw [hcm]; simp)]
      have hc1 : Core g H s (a.setSlot s ((a.slots s).mark g)) := by
        apply core_slot hc hin
        · exact good_mark (hc.good s)
        · intro _ hh; exact absurd rfl hh
        · intro t _ _ ht; exact ht
        · rw [hmk]; exact hc.msgs s
        · rw [hmk]; exact fun m hm => ⟨m, hm⟩
        · exact hc.exe s
        · exact hc.ost s
        · intro k hk e
          show (a.slots s).ownStable = true
          rw [e]; exact hc.ost2 k hk
      have hsl1 : (a.setSlot s ((a.slots s).mark g)).slots s = (a.slots s).mark g := setSlot_self _ _ _
      by_cases h7 : a.lastStable < s
      · have hmo : (g.self, m0) ∈ ((a.setSlot s ((a.slots s).mark g)).slots s).cert.msgs := by
          rw [hsl1, hmk]; exact hm0
        obtain ⟨k, o, heq, ho⟩ := stableAt_eq (v := v) (old := false) hc1 hsm h7 hsl hmo
        have hc2 := stab_core (k := k) hg hc1 (.inr rfl) hsm h7 hsl hmo
        rw [heq]
        simp only
        have hin2 : (stabSt g s k m0 (a.setSlot s ((a.slots s).mark g))).inside s = true := by
          have := hc2.b1; have := hc2.b2
          rw [inside_iff]
          have e1 : (stabSt g s k m0 (a.setSlot s ((a.slots s).mark g))).lastStable = s := rfl
          unfold clw; unfold cpw at *; omega
        have hc3 := core_flags (c := { (stabSt g s k m0 (a.setSlot s ((a.slots s).mark g))).slots s with sent := true })
          hc2 hin2 rfl rfl (hc2.exe s)
        refine ⟨_, _, rfl, ?_⟩
        obtain ⟨c, hsc⟩ := sle_of_own hc hm0
        constructor
        · refine ⟨hc3, h.tab, ?_, h.flr, ?_⟩
          · show a.lastExec ≤ s + wws; omega
          · right; left; exact ⟨c, hsc⟩
        · intro x hx; exact hx
        · show a.lastStable ≤ s; omega
        · exact Nat.le_refl _
        · intro y hy
          rcases List.mem_append.1 hy with hy | hy
          · obtain ⟨rfl, hf⟩ := ho y hy
            obtain ⟨sm, q1, q2⟩ := good_full (hc1.good s) hf
            exact backed_of_cnt hc1 q1 q2
          · rw [List.mem_singleton] at hy; subst hy
            exact ⟨h7, rfl, .inr (.inl ⟨rfl, h6, by omega, c, hsc⟩)⟩
        · intro _; exact List.mem_append_right _ (List.mem_singleton.2 rfl)
        · exact fun e he => .inl he
      · have hst : stableAt g v s true false (a.setSlot s ((a.slots s).mark g)) =
            some (a.setSlot s ((a.slots s).mark g), []) := by
          unfold stableAt
          rw [if_neg (by simp), if_neg (by simpa using hsm), if_pos (show s ≤ (a.setSlot s ((a.slots s).mark g)).lastStable from (by show s ≤ a.lastStable; omega))]
        rw [hst]
        simp only
        have hc2 : Core g H 0 (a.setSlot s ((a.slots s).mark g)) := by
          have he := hc1.exact
          have := hc1
          cases this
          constructor <;> first | assumption | skip
          intro t ht _
          have ht : a.lastStable < t := ht
          exact he t ht (by omega)
        have hc3 := core_flags (c := { (a.setSlot s ((a.slots s).mark g)).slots s with sent := true })
          hc2 hin rfl rfl (hc2.exe s)
        exact ⟨_, _, rfl, ⟨hc3, h.tab, h.le2, h.flr, h.lsg⟩, fun _ hx => hx, Nat.le_refl _, Nat.le_refl _, by simp,
          fun hh => absurd rfl hh, fun e he => .inl he⟩
    · rw [if_neg h6]; exact ⟨_, _, rfl, hsent _ (by simp)⟩

end Verif.Ckpt
