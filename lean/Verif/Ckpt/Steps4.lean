import Verif.Ckpt.Steps3
/-!
C42: restart from the metadata store, and all events together.
-/
set_option linter.unusedSimpArgs false
set_option linter.unusedVariables false
namespace Verif.Ckpt
open Concord Concord.Cert

variable {g : Cfg} {H : Msg → Prop}

/-- the stored messages added one by one -/
structure Added (g : Cfg) (l : List (Nat × Msg)) (c r : Slot) : Prop where
  base : Base g r.cert
  sent : r.sent = c.sent
  exe : r.executed = c.executed
  ost : r.ownStable = c.ownStable
  from_ : ∀ e ∈ r.cert.msgs, e ∈ c.cert.msgs ∨ e ∈ l
  old : ∀ e ∈ c.cert.msgs, e ∈ r.cert.msgs
  new : ∀ e ∈ l, ∃ m, (e.1, m) ∈ r.cert.msgs

theorem addAll_ok (hg : g.Ok) : ∀ (l : List (Nat × Msg)) (c : Slot), (∀ e ∈ l, e.2.gen = e.1 ∧ e.1 < g.n) →
    Base g c.cert → Added g l c (addAll g c l)
  | [], c, _, hb => ⟨hb, rfl, rfl, rfl, fun _ he => .inl he, fun _ he => he, by simp⟩
  | e :: l, c, hl, hb => by
    obtain ⟨h1, h2⟩ := hl e (List.mem_cons_self ..)
    have hb1 := base_add hg hb e.2 (id := e.2.gen) (by omega)
    have ih := addAll_ok hg l (c.add g e.2.gen e.2).1 (fun e' he' => hl e' (List.mem_cons_of_mem _ he')) hb1
    have heq : addAll g c (e :: l) = addAll g (c.add g e.2.gen e.2).1 l := rfl
    rw [heq]
    have hm : ∀ e' ∈ (c.cert.addMsg g.p e.2.gen e.2).1.msgs, e' ∈ c.cert.msgs ∨ e' = e := by
      intro e' he'
      rcases addMsg_cases (g := g) c.cert e.2.gen e.2 with ⟨q1, q2⟩ | ⟨q1, q2, q3⟩
      · rw [q2] at he'; exact .inl he'
      · rw [q2, List.mem_append, List.mem_singleton] at he'
        rcases he' with he' | he'
        · exact .inl he'
        · right; rw [he', h1]
    have hold : ∀ e' ∈ c.cert.msgs, e' ∈ (c.cert.addMsg g.p e.2.gen e.2).1.msgs := by
      intro e' he'
      rcases addMsg_cases (g := g) c.cert e.2.gen e.2 with ⟨q1, q2⟩ | ⟨q1, q2, q3⟩
      · rw [q2]; exact he'
      · rw [q2]; exact List.mem_append_left _ he'
    refine ⟨ih.base, ih.sent, ih.exe, ih.ost, ?_, ?_, ?_⟩
    · intro e' he'
      rcases ih.from_ e' he' with q | q
      · rcases hm e' q with q | q
        · exact .inl q
        · right; rw [q]; exact List.mem_cons_self ..
      · exact .inr (List.mem_cons_of_mem _ q)
    · intro e' he'
      exact ih.old e' (hold e' he')
    · intro e' he'
      rcases List.mem_cons.1 he' with q | q
      · subst q
        rcases addMsg_cases (g := g) c.cert e'.2.gen e'.2 with ⟨q1, q2⟩ | ⟨q1, q2, q3⟩
        · obtain ⟨m, hm⟩ := hasMsg_iff.1 q1
          refine ⟨m, ih.old _ ?_⟩
          show _ ∈ (c.cert.addMsg g.p e'.2.gen e'.2).1.msgs
          rw [q2, ← h1]; exact hm
        · refine ⟨e'.2, ih.old _ ?_⟩
          show _ ∈ (c.cert.addMsg g.p e'.2.gen e'.2).1.msgs
          rw [q2, h1]; simp
      · exact ih.new e' q

/-- what the loop leaves in the slot of a checkpoint after the last stable one -/
structure Restored (g : Cfg) (p : Ps) (s : Nat) (c : Slot) : Prop where
  base : Base g c.cert
  sent : c.sent = false
  exe : c.executed = false
  ost : c.ownStable = false
  from_ : ∀ id m, (id, m) ∈ c.cert.msgs → id = g.self ∧ p.check s = some m
  own : (p.check s).isSome = true → ∃ m, (g.self, m) ∈ c.cert.msgs

theorem setSlot_same {a : St} {s : Nat} {c : Slot} (h : a.slots s = c) : a.setSlot s c = a := by
  unfold St.setSlot
  have : (fun i => if i = s then c else a.slots i) = a.slots := by
    funext i
    by_cases e : i = s
    · rw [if_pos e, e, h]
    · rw [if_neg e]
  rw [this]

theorem floor_chk {a : St} (h : Inv g H a) {s : Nat} (hs : s = a.lastExec / cpw * cpw) (h0 : 0 < s)
    (hl : a.lastStable ≤ s) : (a.ps.check s).isSome = true := by
  obtain ⟨c, hc⟩ := h.flr (by omega)
  rw [← hs] at hc
  exact h.core.chk2 s c hc hl

theorem restore_other (hg : g.Ok) {a b : St} {s : Nat} (h : Inv g H a) (hls : a.lastStable < s) (hs : s % cpw = 0)
    (hw : s ≤ a.lastStable + wws) (hb : b.begin = a.lastStable) (hb2 : b.slots s = {}) :
    ∃ c, restoreAt g a.ps s b = some (b.setSlot s c) ∧ Restored g a.ps s c := by
  have hc := h.core
  unfold restoreAt
  rw [hc.psLS, hc.psLE]
  rw [if_neg (by
    rintro ⟨h1, h2, h3⟩
    have := floor_chk h h2 h1 (by omega)
    rw [Option.isSome_iff_ne_none, ← Option.isNone_iff_eq_none.symm.ne.symm] at *
    simp_all), if_neg (by rintro ⟨h1, -⟩; omega)]
  have hin : b.inside s = true := by rw [inside_iff, hb]; unfold clw; unfold wws at *; omega
  rw [if_neg (by rw [hin]; simp), if_neg (by intro hh; exact hh (.inr (.inl hls)))]
  cases hm : a.ps.check s with
  | none =>
    refine ⟨{}, ?_, base_init hg, rfl, rfl, rfl, by simp, by rw [hm]; simp⟩
    rw [setSlot_same hb2]
  | some m =>
    obtain ⟨c1, c2, c3, c4⟩ := hc.chk s m hm
    simp only
    have hce : (if s ≠ a.lastStable then ((b.slots s).add g g.self m).1 else b.slots s) = ((b.slots s).add g g.self m).1 :=
      if_pos (by omega)
    rw [hce]
    rw [if_neg (by rw [getOk_iff.2 ⟨hs, inside_iff.1 hin⟩]; simp), if_neg (by rw [c2.seq]; simp),
      if_neg (by rw [(c2.self rfl).2]; simp), if_neg (by intro hh; exact hh (.inl (by omega))), hb2]
    have hmk : a.ps.mark s = false := by
      cases hh : a.ps.mark s
      · rfl
      · have := hc.mrk s hh; omega
    have hmsgs : (({} : Cert.St Msg).addMsg g.p g.self m).1.msgs = [(g.self, m)] := by
      rcases addMsg_cases (g := g) ({} : Cert.St Msg) g.self m with ⟨q1, q2⟩ | ⟨q1, q2, q3⟩
      · obtain ⟨m', hm'⟩ := hasMsg_iff.1 q1
        cases hm'
      · rw [q2]; rfl
    have hown : (({} : Slot).add g g.self m).1.cert.msgOf g.self = some m := by
      apply (msgOf_iff _).2
      · show _ ∈ (({} : Cert.St Msg).addMsg g.p g.self m).1.msgs
        rw [hmsgs]; simp
      · show keysNodup (({} : Cert.St Msg).addMsg g.p g.self m).1.msgs
        rw [hmsgs]; simp [keysNodup]
    rw [if_neg (by rw [hown]; simp)]
    rw [if_neg (by rw [hmk]; simp)]
    refine ⟨_, rfl, ?_⟩
    constructor
    · exact base_add hg (base_init hg) m hg.self
    · rfl
    · rfl
    · rfl
    · intro id m' hm'
      have hm' : (id, m') ∈ (({} : Cert.St Msg).addMsg g.p g.self m).1.msgs := hm'
      rw [hmsgs, List.mem_singleton] at hm'
      cases hm'
      exact ⟨rfl, hm⟩
    · intro _
      refine ⟨m, ?_⟩
      show _ ∈ (({} : Cert.St Msg).addMsg g.p g.self m).1.msgs
      rw [hmsgs]; simp

theorem restore_last (hg : g.Ok) {a b : St} (h : Inv g H a) (hb : b.begin = a.lastStable) :
    ∃ c, restoreAt g a.ps a.lastStable b = some (b.setSlot a.lastStable c) ∧
      (c = b.slots a.lastStable ∨ c = (b.slots a.lastStable).mark g) := by
  have hc := h.core
  unfold restoreAt
  rw [hc.psLS, hc.psLE]
  rw [if_neg (by
    rintro ⟨h1, h2, h3⟩
    have := floor_chk h h2 h1 (Nat.le_refl _)
    simp_all)]
  rw [if_neg (by
    rintro ⟨h1, h2⟩
    obtain ⟨m, hm⟩ := Option.isSome_iff_exists.1 h2
    have := (hc.sle _ _ ((hc.chk _ m hm).2.1.self rfl).1).2.1
    omega)]
  have hin : b.inside a.lastStable = true := by rw [inside_iff, hb]; unfold clw; omega
  rw [if_neg (by rw [hin]; simp), if_neg (by
    intro hh
    apply hh
    rcases h.lsg with q | ⟨c, q⟩ | q
    · exact .inl q
    · exact .inr (.inr (.inl (hc.chk2 _ c q (Nat.le_refl _))))
    · exact .inr (.inr (.inr q)))]
  cases hm : a.ps.check a.lastStable with
  | none => exact ⟨b.slots a.lastStable, by rw [setSlot_same rfl], .inl rfl⟩
  | some m =>
    obtain ⟨c1, c2, c3, c4⟩ := hc.chk _ m hm
    simp only
    have hce : (if a.lastStable ≠ a.lastStable then ((b.slots a.lastStable).add g g.self m).1 else b.slots a.lastStable) =
      b.slots a.lastStable := if_neg (by simp)
    rw [hce]
    rw [if_neg (by rw [getOk_iff.2 ⟨hc.lsm, inside_iff.1 hin⟩]; simp), if_neg (by rw [c2.seq]; simp),
      if_neg (by rw [(c2.self rfl).2]; simp), if_neg (by intro hh; exact hh (.inr (c3 rfl))), if_neg (by simp)]
    by_cases hmk : a.ps.mark a.lastStable = true
    · rw [if_pos hmk]; exact ⟨_, rfl, .inr rfl⟩
    · rw [if_neg hmk]; exact ⟨_, rfl, .inl rfl⟩

/-- the last stable checkpoint's slot before the loop -/
def slotLS (g : Cfg) (a : St) (d : List (Nat × Msg)) : Slot :=
  if 0 < a.lastStable then
    { addAll g {} d with ownStable := d.any (fun e => e.1 == g.self && e.2.stable) }
  else {}

structure LastOk (g : Cfg) (H : Msg → Prop) (a : St) (c : Slot) : Prop where
  good : Good g c.cert
  sent : c.sent = false
  exe : c.executed = false
  msgs : ∀ id m, (id, m) ∈ c.cert.msgs → MsgOk g H a.signed a.lastStable id m
  own : ∀ k, (a.lastStable, k) ∈ a.signed → ∃ m, (g.self, m) ∈ c.cert.msgs
  ost : ∀ k, (a.lastStable, k) ∈ a.signed → c.ownStable = true

theorem slotLS_ok (hg : g.Ok) {a : St} (h : Inv g H a) {d : List (Nat × Msg)} (hd : d.Perm a.ps.desc) :
    LastOk g H a (slotLS g a d) := by
  have hc := h.core
  unfold slotLS
  by_cases h0 : 0 < a.lastStable
  · rw [if_pos h0]
    have had := addAll_ok hg d {} (fun e he => by
      have := (hc.dsc e (hd.mem_iff.1 he)).1
      exact ⟨this.gen, this.lt⟩) (base_init hg)
    constructor
    · exact good_of_base had.base
    · exact had.sent
    · exact had.exe
    · intro id m hm
      rcases had.from_ _ hm with q | q
      · cases q
      · exact (hc.dsc _ (hd.mem_iff.1 q)).1
    · intro k hk
      obtain ⟨m, hm⟩ := hc.dsc2 k hk
      exact had.new _ (hd.mem_iff.2 hm)
    · intro k hk
      obtain ⟨m, hm⟩ := hc.dsc2 k hk
      show d.any _ = true
      rw [List.any_eq_true]
      refine ⟨_, hd.mem_iff.2 hm, ?_⟩
      have := (hc.dsc _ hm).2 rfl
      simp only at this
      simp [this]
  · rw [if_neg h0]
    have hno : ∀ k, (a.lastStable, k) ∉ a.signed := by
      intro k hk
      have := (hc.sle _ _ hk).2.1
      omega
    exact ⟨good_of_base (base_init hg), rfl, rfl, by simp, fun k hk => absurd hk (hno k), fun k hk => absurd hk (hno k)⟩

theorem LastOk.mark {a : St} {c : Slot} (h : LastOk g H a c) : LastOk g H a (c.mark g) := by
  obtain ⟨h1, h1', h2, h3, h4, h5⟩ := h
  refine ⟨good_mark h1, h1', h2, ?_, ?_, h5⟩
  · show ∀ id m, (id, m) ∈ (c.cert.tryComplete g.p).msgs → _
    rw [mark_msgs]; exact h3
  · show ∀ k, _ → ∃ m, (g.self, m) ∈ (c.cert.tryComplete g.p).msgs
    rw [mark_msgs]; exact h4

theorem restart_full (hg : g.Ok) {v : Env} {d : List (Nat × Msg)} {a : St} (h : Inv g H a) (hd : d.Perm a.ps.desc) :
    ∃ a', restart g d a = some (a', []) ∧ StepOk g H v (.restart d) a a' [] ∧ a'.signed = a.signed ∧
      a'.lastStable = a.lastStable ∧ a'.lastExec = a.lastExec ∧
      ∀ t, (a'.slots t).sent = false ∧ (a'.slots t).executed = false := by
  have hc := h.core
  have le1 := hc.le1; have le2 := h.le2
  unfold restart
  simp only
  rw [hc.psLS, hc.psLE, if_neg (by intro hh; exact hh ⟨le1, le2⟩), if_neg (by simpa using hc.lsm)]
  generalize hb0 : ({ lastStable := a.lastStable, lastExec := a.lastExec, begin := a.lastStable, ps := a.ps, signed := a.signed } : St) = b0
  have e0 : (if 0 < a.lastStable then b0.setSlot a.lastStable
      { addAll g {} d with ownStable := d.any (fun e => e.1 == g.self && e.2.stable) } else b0) =
      b0.setSlot a.lastStable (slotLS g a d) := by
    unfold slotLS
    by_cases h0 : 0 < a.lastStable
    · rw [if_pos h0, if_pos h0]
    · rw [if_neg h0, if_neg h0, setSlot_same (by rw [← hb0])]
  rw [e0]
  have hsl0 : ∀ t, b0.slots t = {} := by intro t; rw [← hb0]
  have hbg0 : b0.begin = a.lastStable := by rw [← hb0]
  obtain ⟨c0, r0, hc0⟩ := restore_last hg (b := b0.setSlot a.lastStable (slotLS g a d)) h hbg0
  rw [setSlot_self] at hc0
  have hl0 : LastOk g H a c0 := by
    rcases hc0 with q | q
    · rw [q]; exact slotLS_ok hg h hd
    · rw [q]; exact (slotLS_ok hg h hd).mark
  rw [r0]
  simp only
  generalize hb1 : (b0.setSlot a.lastStable (slotLS g a d)).setSlot a.lastStable c0 = b1
  have hsl1 : ∀ t, b1.slots t = if t = a.lastStable then c0 else {} := by
    intro t; rw [← hb1]
    show (if t = a.lastStable then c0 else if t = a.lastStable then _ else b0.slots t) = _
    rw [hsl0]; split <;> rfl
  have hbg1 : b1.begin = a.lastStable := by rw [← hb1]; exact hbg0
  have hlsm := hc.lsm
  obtain ⟨c1, r1, hc1⟩ := restore_other hg (b := b1) (s := a.lastStable + cpw) h (by unfold cpw; omega)
    (by rw [Nat.add_mod_right]; exact hlsm) (by unfold cpw wws; omega) hbg1
    (by rw [hsl1, if_neg (by unfold cpw; omega)])
  rw [r1]
  simp only
  generalize hb2 : b1.setSlot (a.lastStable + cpw) c1 = b2
  have hsl2 : ∀ t, b2.slots t = if t = a.lastStable + cpw then c1 else if t = a.lastStable then c0 else {} := by
    intro t; rw [← hb2]
    show (if t = a.lastStable + cpw then c1 else b1.slots t) = _
    rw [hsl1]
  have hbg2 : b2.begin = a.lastStable := by rw [← hb2]; exact hbg1
  obtain ⟨c2, r2, hc2⟩ := restore_other hg (b := b2) (s := a.lastStable + wws) h (by unfold wws; omega)
    (by unfold wws cpw at *; omega) (Nat.le_refl _) hbg2
    (by rw [hsl2, if_neg (by unfold cpw wws; omega), if_neg (by unfold wws; omega)])
  rw [r2]
  simp only
  generalize hb3 : b2.setSlot (a.lastStable + wws) c2 = b3
  have sl : ∀ t, b3.slots t = if t = a.lastStable + wws then c2 else if t = a.lastStable + cpw then c1 else
      if t = a.lastStable then c0 else {} := by
    intro t; rw [← hb3]
    show (if t = a.lastStable + wws then c2 else b2.slots t) = _
    rw [hsl2]
  have e1 : b3.begin = a.lastStable := by rw [← hb3]; exact hbg2
  have e2 : b3.lastStable = a.lastStable := by rw [← hb3, ← hb2, ← hb1, ← hb0]; rfl
  have e3 : b3.lastExec = a.lastExec := by rw [← hb3, ← hb2, ← hb1, ← hb0]; rfl
  have e4 : b3.ps = a.ps := by rw [← hb3, ← hb2, ← hb1, ← hb0]; rfl
  have e5 : b3.signed = a.signed := by rw [← hb3, ← hb2, ← hb1, ← hb0]; rfl
  have e6 : b3.table = [] := by rw [← hb3, ← hb2, ← hb1, ← hb0]; rfl
  have hone : ∀ {P : Slot → Nat → Prop}, P c0 a.lastStable → P c1 (a.lastStable + cpw) → P c2 (a.lastStable + wws) →
      (∀ t, P {} t) → ∀ t, P (b3.slots t) t := by
    intro P p0 p1 p2 p3 t
    rw [sl]
    by_cases q2 : t = a.lastStable + wws
    · rw [if_pos q2, q2]; exact p2
    · rw [if_neg q2]
      by_cases q1 : t = a.lastStable + cpw
      · rw [if_pos q1, q1]; exact p1
      · rw [if_neg q1]
        by_cases q0 : t = a.lastStable
        · rw [if_pos q0, q0]; exact p0
        · rw [if_neg q0]; exact p3 t
  refine ⟨_, rfl, ?_, e5, e2, e3, hone (P := fun c _ => c.sent = false ∧ c.executed = false) ⟨hl0.sent, hl0.exe⟩
    ⟨hc1.sent, hc1.exe⟩ ⟨hc2.sent, hc2.exe⟩ (fun _ => ⟨rfl, rfl⟩)⟩
  have hcore : Core g H 0 b3 := by
    have hrm : ∀ {s c}, Restored g a.ps s c → ∀ id m, (id, m) ∈ c.cert.msgs → MsgOk g H a.signed s id m := by
      intro s c hr id m hm
      obtain ⟨p, q⟩ := hr.from_ id m hm
      subst p
      exact (hc.chk s m q).2.1
    constructor
    · rw [e2]; exact hc.lsm
    · rw [e2, e3]; exact le1
    · rw [e1]; exact hc.lsm
    · rw [e1, e2]
    · rw [e1, e2]; omega
    · intro s hs
      rw [inside_false, e1] at hs
      rw [sl, if_neg (by unfold wws clw at *; omega), if_neg (by unfold cpw clw at *; omega),
        if_neg (by unfold clw at *; omega)]
    · exact hone (P := fun c _ => Good g c.cert) hl0.good (good_of_base hc1.base) (good_of_base hc2.base)
        (fun _ => good_of_base (base_init hg))
    · rw [e2]
      exact fun s hs _ => hone (P := fun c s => a.lastStable < s → Base g c.cert) (fun q => absurd q (by omega))
        (fun _ => hc1.base) (fun _ => hc2.base) (fun _ _ => base_init hg) s hs
    · rw [e5]
      exact hone (P := fun c s => ∀ id m, (id, m) ∈ c.cert.msgs → MsgOk g H a.signed s id m) hl0.msgs (hrm hc1) (hrm hc2)
        (by simp)
    · rw [e5, e1]
      intro s c hs hb
      obtain ⟨q1, q2, q3⟩ := hc.sle s c hs
      have hck := hc.chk2 s c hs hb
      have hcase : s = a.lastStable ∨ s = a.lastStable + cpw ∨ s = a.lastStable + wws := by
        unfold wws cpw at *; omega
      rw [sl]
      rcases hcase with q | q | q
      · rw [if_neg (by unfold wws; omega), if_neg (by unfold cpw; omega), if_pos q]
        rw [q] at hs; exact hl0.own c hs
      · rw [if_neg (by unfold wws cpw at *; omega), if_pos q]
        rw [q] at hck; exact hc1.own hck
      · rw [if_pos q]
        rw [q] at hck; exact hc2.own hck
    · rw [e5, e3]; exact hc.sle
    · rw [e5]; exact hc.su
    · exact hone (P := fun c s => c.executed = true → s ≤ b3.lastExec) (by rw [hl0.exe]; intro q; cases q)
        (by rw [hc1.exe]; intro q; cases q) (by rw [hc2.exe]; intro q; cases q) (fun _ q => by cases q)
    · rw [e2]
      exact hone (P := fun c s => c.ownStable = true → s ≤ a.lastStable) (fun _ => Nat.le_refl _)
        (by rw [hc1.ost]; intro q; cases q) (by rw [hc2.ost]; intro q; cases q) (fun _ q => by cases q)
    · rw [e5, e2]
      intro c hs
      rw [sl, if_neg (by unfold wws; omega), if_neg (by unfold cpw; omega), if_pos rfl]
      exact hl0.ost c hs
    · rw [e4, e2]; exact hc.psLS
    · rw [e4, e3]; exact hc.psLE
    · rw [e4, e5, e2]; exact hc.chk
    · rw [e4, e5, e2]; exact hc.chk2
    · rw [e4, e2]; exact hc.mrk
    · rw [e4, e5, e2]; exact hc.dsc
    · rw [e4]; exact hc.dsk
    · rw [e4, e5, e2]; exact hc.dsc2
  constructor
  · refine ⟨hcore, ?_, ?_, ?_, ?_⟩
    · rw [e6]; exact ⟨by simp [keysNodup], by simp⟩
    · rw [e3, e2]; exact le2
    · rw [e3, e5]; exact h.flr
    · rw [e3, e5, e2]; exact h.lsg
  · rw [e5]; exact fun _ hx => hx
  · rw [e2]
  · rw [e3]
  · simp
  · intro hh; exact absurd e2 hh
  · rw [e6]; simp

theorem restart_ok (hg : g.Ok) {v : Env} {d : List (Nat × Msg)} {a : St} (h : Inv g H a) (hd : d.Perm a.ps.desc) :
    ∃ a' o, restart g d a = some (a', o) ∧ StepOk g H v (.restart d) a a' o := by
  obtain ⟨a', h1, h2, -⟩ := restart_full (v := v) hg h hd
  exact ⟨a', [], h1, h2⟩

theorem step_ok (hg : g.Ok) {v : Env} {e : Ev} {a : St} (h : Inv g H a) (hl : Legal g e a)
    (hH : ∀ m, e = .recv m → H m) : ∃ a' o, step g v e a = some (a', o) ∧ StepOk g H v e a a' o := by
  cases e with
  | recv m => exact recv_ok hg h hl (hH m rfl)
  | exec => exact exec_ok hg h hl
  | poll => exact poll_ok hg h
  | transferred k => exact transferred_ok hg h
  | ask r => exact ask_ok h
  | status r ls => exact status_ok h hl
  | restart d => exact restart_ok hg h hl

end Verif.Ckpt
