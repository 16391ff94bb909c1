import Verif.Ckpt.Steps2
/-!
C42: the end of a state transfer, requests for checkpoints, status messages.
-/
set_option linter.unusedSimpArgs false
set_option linter.unusedVariables false
namespace Verif.Ckpt
open Concord Concord.Cert

variable {g : Cfg} {H : Msg → Prop}

theorem BackedH.mono {s1 s2 : List (Nat × Content)} {s k : Nat} (h : BackedH g H s1 s k) (hs : ∀ x ∈ s1, x ∈ s2) :
    BackedH g H s2 s k := by
  obtain ⟨c, l, h1, h2, h3, h4⟩ := h
  refine ⟨c, l, h1, h2, h3, fun r hr => ⟨(h4 r hr).1, ?_⟩⟩
  have := (h4 r hr).2
  split at this
  · rename_i e; rw [if_pos e]; exact hs _ this
  · rename_i e; rw [if_neg e]; exact this

theorem core_lastSuper {x k : Nat} {a : St} (h : Core g H x a) : Core g H x { a with lastSuper := k } := by
  have := h; cases this; constructor <;> assumption

/-- what the first part of `onTransferringCompleteImp` leaves -/
structure Phase1 (g : Cfg) (H : Msg → Prop) (s : Nat) (a b : St) (o : List Out) : Prop where
  core : Core g H 0 b
  le : b.lastExec = s
  sg : b.signed = a.signed
  tb : b.table = a.table
  le2 : s ≤ b.lastStable + wws
  lt : b.lastStable < s
  ge : a.lastStable ≤ b.lastStable
  lsg : b.lastStable = 0 ∨ (∃ c, (b.lastStable, c) ∈ b.signed) ∨ b.lastStable + wws = s
  outs : ∀ y ∈ o, (y = .stable b.lastStable ∧ a.lastStable < b.lastStable ∧ b.lastStable + wws = s) ∨
    ∃ t, y = .superStable t ∧ BackedH g H b.signed t (g.n - 1)
  said : b.lastStable ≠ a.lastStable → Out.stable b.lastStable ∈ o

theorem phase1 (hg : g.Ok) {v : Env} {k : Nat} {a : St} (h : Inv g H a) (hk : a.lastExec < k * cpw) :
    ∃ b o, (if ({ a with lastExec := k * cpw, ps := { a.ps with lastExec := k * cpw } } : St).lastStable + wws < k * cpw then
        stableAt g v (k * cpw - wws)
          (({ a with lastExec := k * cpw, ps := { a.ps with lastExec := k * cpw } } : St).inside (k * cpw - wws) &&
            ((({ a with lastExec := k * cpw, ps := { a.ps with lastExec := k * cpw } } : St).slots (k * cpw - wws)).own g).isSome)
          true { a with lastExec := k * cpw, ps := { a.ps with lastExec := k * cpw } }
      else some ({ a with lastExec := k * cpw, ps := { a.ps with lastExec := k * cpw } }, [])) = some (b, o) ∧
      Phase1 g H (k * cpw) a b o := by
  have hc := h.core
  have b1 := hc.b1; have b2 := hc.b2; have le1 := hc.le1; have le2 := h.le2
  have hc0 := core_le hc (k := k * cpw) (by omega)
  have hsm : k * cpw % cpw = 0 := Nat.mul_mod_left _ _
  generalize hs : k * cpw = s at *
  generalize hd : ({ a with lastExec := s, ps := { a.ps with lastExec := s } } : St) = d at *
  have hdls : d.lastStable = a.lastStable := by rw [← hd]
  have hdle : d.lastExec = s := by rw [← hd]
  have hdsg : d.signed = a.signed := by rw [← hd]
  have hdtb : d.table = a.table := by rw [← hd]
  by_cases h1 : d.lastStable + wws < s
  · rw [if_pos h1]
    have hrm : (s - wws) % cpw = 0 := by unfold wws cpw at *; omega
    have hrl : d.lastStable < s - wws := by omega
    have hre : s - wws ≤ d.lastExec := by omega
    have hrw : s - wws + wws = s := by omega
    have hrp : s - wws < s := by unfold wws at *; omega
    have hra : a.lastStable < s - wws := by omega
    generalize s - wws = ref at *
    by_cases hw : (d.inside (ref) && ((d.slots (ref)).own g).isSome) = true
    · rw [hw]
      rw [Bool.and_eq_true] at hw
      obtain ⟨mo', hmo'⟩ := Option.isSome_iff_exists.1 hw.2
      obtain ⟨mo, hmo, -⟩ := own_mem (good_keys (hc0.good _)) hmo'
      obtain ⟨k', o, heq, ho⟩ := stableAt_eq (v := v) (old := true) hc0 hrm hrl hre hmo
      have hc2 := stab_core (k := k') hg hc0 (.inl rfl) hrm hrl hre hmo
      refine ⟨_, _, heq, ?_⟩
      constructor
      · exact hc2
      · exact hdle
      · exact hdsg
      · exact hdtb
      · show s ≤ ref + wws; omega
      · exact hrp
      · exact Nat.le_of_lt hra
      · right; right; exact hrw
      · intro y hy
        rcases List.mem_append.1 hy with hy | hy
        · obtain ⟨rfl, hf⟩ := ho y hy
          obtain ⟨sm, q1, q2⟩ := good_full (hc0.good _) hf
          exact .inr ⟨_, rfl, backed_of_cnt hc0 q1 q2⟩
        · rw [List.mem_singleton] at hy; subst hy
          exact .inl ⟨rfl, hra, hrw⟩
      · intro _; exact List.mem_append_right _ (List.mem_singleton.2 rfl)
    · have hwf : (d.inside (ref) && ((d.slots (ref)).own g).isSome) = false := by
        simpa using hw
      have hno : ∀ c, (ref, c) ∉ d.signed := by
        intro c hcs
        have hdb := hc0.b1
        obtain ⟨m, hm⟩ := hc0.own _ c hcs (by omega)
        apply hw
        rw [msgs_in hc0 hm, own_some (good_keys (hc0.good _)) hm]; rfl
      rw [hwf]
      have hc2 := stab0_core hg hc0 hrm hrl hre hno
      refine ⟨_, _, stableAt_eq0 hc0 hrm hrl, ?_⟩
      constructor
      · exact hc2
      · exact hdle
      · exact hdsg
      · exact hdtb
      · show s ≤ ref + wws; omega
      · exact hrp
      · exact Nat.le_of_lt hra
      · right; right; exact hrw
      · intro y hy
        rw [List.mem_singleton] at hy; subst hy
        exact .inl ⟨rfl, hra, hrw⟩
      · intro _; exact List.mem_singleton.2 rfl
  · rw [if_neg h1]
    refine ⟨_, _, rfl, ?_⟩
    constructor
    · exact hc0
    · exact hdle
    · exact hdsg
    · exact hdtb
    · omega
    · omega
    · omega
    · rw [hdls, hdsg]
      rcases h.lsg with q | q | q
      · exact .inl q
      · exact .inr (.inl q)
      · omega
    · simp
    · intro hh; exact absurd hdls hh

theorem transferred_ok (hg : g.Ok) {v : Env} {k : Nat} {a : St} (h : Inv g H a) :
    ∃ a' o, transferred g v k a = some (a', o) ∧ StepOk g H v (.transferred k) a a' o := by
  have hc := h.core
  unfold transferred
  simp only
  by_cases h0 : k * cpw ≤ a.lastExec
  · rw [if_pos h0]; exact ⟨_, _, rfl, .same h⟩
  rw [if_neg h0]
  obtain ⟨b, o, heq, hp⟩ := phase1 hg (v := v) (k := k) h (by omega)
  rw [heq]
  simp only
  have hsm : k * cpw % cpw = 0 := Nat.mul_mod_left _ _
  have hb1 := hp.core.b1; have hb2 := hp.core.b2; have l2 := hp.le2; have lt := hp.lt; have ble := hp.le
  have hin : b.inside (k * cpw) = true := by
    rw [inside_iff]; unfold clw; unfold wws cpw at *; omega
  rw [if_neg (by rw [getOk_iff.2 ⟨hsm, inside_iff.1 hin⟩]; simp)]
  have hc1 := core_sign hg (v := v) (c := v.dg (k * cpw / cpw)) true hp.core hsm (by omega) (by omega) lt
    (fun t c ht => by
      rw [hp.sg] at ht
      have := (hc.sle t c ht).2.2
      omega) hin rfl
  obtain ⟨k2, e1, e2⟩ := superIf_fields ((b.slots (k * cpw)).add g g.self (ownMsg g v (k * cpw) false)).1.cert.full (k * cpw)
    { (b.setSlot (k * cpw) { ((b.slots (k * cpw)).add g g.self (ownMsg g v (k * cpw) false)).1 with sent := true }) with
      signed := b.signed ++ [(k * cpw, v.dg (k * cpw / cpw))] }
  rw [e1]
  refine ⟨_, _, rfl, ?_⟩
  have hsub : ∀ x ∈ b.signed, x ∈ b.signed ++ [(k * cpw, v.dg (k * cpw / cpw))] := fun x hx => List.mem_append_left _ hx
  constructor
  · refine ⟨core_lastSuper hc1, ?_, ?_, ?_, ?_⟩
    · show TabOk g H b.table; rw [hp.tb]; exact h.tab
    · show b.lastExec ≤ b.lastStable + wws; omega
    · show 0 < b.lastExec / cpw * cpw → ∃ c, (b.lastExec / cpw * cpw, c) ∈ b.signed ++ [(k * cpw, v.dg (k * cpw / cpw))]
      intro _
      refine ⟨v.dg (k * cpw / cpw), List.mem_append_right _ ?_⟩
      rw [ble, Nat.mul_div_cancel _ (by decide : 0 < cpw)]
      exact List.mem_singleton.2 rfl
    · show b.lastStable = 0 ∨ (∃ c, (b.lastStable, c) ∈ b.signed ++ _) ∨ b.lastStable + wws = b.lastExec
      rw [ble]
      rcases hp.lsg with q | ⟨c, q⟩ | q
      · exact .inl q
      · exact .inr (.inl ⟨c, hsub _ q⟩)
      · exact .inr (.inr q)
  · intro x hx; exact hsub x (by rw [hp.sg]; exact hx)
  · exact hp.ge
  · show a.lastExec ≤ b.lastExec; omega
  · intro y hy
    rcases List.mem_append.1 hy with hy | hy
    · rcases List.mem_append.1 hy with hy | hy
      · rcases hp.outs y hy with ⟨rfl, p, q⟩ | ⟨t, rfl, p⟩
        · exact ⟨p, rfl, .inr (.inr ⟨k, rfl, q⟩)⟩
        · exact p.mono hsub
      · obtain ⟨rfl, hf⟩ := e2 y hy
        obtain ⟨sm, q1, q2⟩ := good_full (hc1.good (k * cpw)) (by
          show ((b.setSlot (k * cpw) _).slots (k * cpw)).cert.full = true
          rw [setSlot_self]; exact hf)
        exact backed_of_cnt hc1 q1 q2
    · rw [List.mem_singleton] at hy; subst hy
      refine ⟨⟨rfl, hg.self, rfl, fun _ => ⟨?_, rfl⟩, fun e => absurd rfl e⟩, fun e => by cases e⟩
      exact List.mem_append_right _ (List.mem_singleton.2 rfl)
  · intro hh
    exact List.mem_append_left _ (List.mem_append_left _ (hp.said hh))
  · show ∀ e ∈ b.table, _
    rw [hp.tb]; exact fun e he => .inl he

theorem ls_in {a : St} (h : Inv g H a) : a.getOk a.lastStable = true := by
  have b1 := h.core.b1; have b2 := h.core.b2
  rw [getOk_iff]
  refine ⟨h.core.lsm, b1, ?_⟩
  unfold clw; unfold cpw at *; omega

theorem sends_ok {v : Env} {e : Ev} {a : St} (h : Inv g H a) {o : List Out}
    (ho : ∀ y ∈ o, OutOk g H v e a a y) : StepOk g H v e a a o :=
  ⟨h, fun _ hx => hx, Nat.le_refl _, Nat.le_refl _, ho, fun hh => absurd rfl hh, fun _ he => .inl he⟩

theorem ask_ok {v : Env} {r : Nat} {a : St} (h : Inv g H a) :
    ∃ a' o, ask g r a = some (a', o) ∧ StepOk g H v (.ask r) a a' o := by
  unfold ask
  rw [if_neg (by rw [ls_in h]; simp)]
  cases hown : (a.slots a.lastStable).own g with
  | none => exact ⟨_, _, rfl, .same h⟩
  | some m =>
    refine ⟨_, _, rfl, sends_ok h ?_⟩
    intro y hy
    rw [List.mem_singleton] at hy; subst hy
    obtain ⟨o1, o2, o3⟩ := own_ok h.core hown
    refine ⟨?_, fun _ hs => Nat.le_of_eq o1⟩
    rw [o1, o2.gen]; exact o2

theorem sendOwn_ok {v : Env} {e : Ev} {r s : Nat} {a : St} (h : Inv g H a) :
    ∀ y ∈ sendOwn g a r s, OutOk g H v e a a y := by
  intro y hy
  unfold sendOwn at hy
  cases hown : (a.slots s).own g with
  | none => rw [hown] at hy; cases hy
  | some m =>
    rw [hown] at hy
    simp only [List.mem_singleton] at hy; subst hy
    obtain ⟨o1, o2, o3⟩ := own_ok h.core hown
    refine ⟨?_, fun _ hs => by rw [o1]; exact o3 hs⟩
    rw [o1, o2.gen]; exact o2

theorem sendRange_ok {v : Env} {e : Ev} {r : Nat} {a : St} (h : Inv g H a) : ∀ (fuel lo hi : Nat), lo % cpw = 0 →
    a.begin ≤ lo → hi < a.begin + clw →
    ∃ l, sendRange g a r fuel lo hi = some l ∧ ∀ y ∈ l, OutOk g H v e a a y
  | 0, lo, hi, _, _, _ => ⟨[], rfl, by simp⟩
  | fuel + 1, lo, hi, hm, hb, hh => by
    unfold sendRange
    by_cases h1 : hi < lo
    · rw [if_pos h1]; exact ⟨[], rfl, by simp⟩
    rw [if_neg h1, if_neg (by rw [getOk_iff.2 ⟨hm, hb, by omega⟩]; simp)]
    obtain ⟨l, hl, hok⟩ := sendRange_ok (v := v) (e := e) (r := r) h fuel (lo + cpw) hi
      (by rw [Nat.add_mod_right]; exact hm) (by omega) hh
    rw [hl]
    refine ⟨_, rfl, ?_⟩
    intro y hy
    rcases List.mem_append.1 hy with hy | hy
    · exact sendOwn_ok h y hy
    · exact hok y hy

theorem status_ok {v : Env} {r ls : Nat} {a : St} (h : Inv g H a) (hl : Legal g (.status r ls) a) :
    ∃ a' o, status g v r ls a = some (a', o) ∧ StepOk g H v (.status r ls) a a' o := by
  obtain ⟨hr, hrs, hlm⟩ := hl
  have hc := h.core
  have b1 := hc.b1; have b2 := hc.b2; have bm := hc.bm
  unfold status
  by_cases h1 : ls + wws < a.lastStable ∨ (v.viewActive = false ∧ ls < a.lastStable)
  · rw [if_pos h1, if_neg (by rw [ls_in h]; simp)]
    refine ⟨_, _, rfl, sends_ok h ?_⟩
    intro y hy
    obtain ⟨e, he, rfl⟩ := List.mem_map.1 hy
    have he := (List.mem_filter.1 he).1
    unfold Slot.all at he
    obtain ⟨⟨i0, m0⟩, p1, p2⟩ := List.mem_map.1 he
    have h3 := hc.msgs _ _ _ p1
    by_cases hi : i0 = g.self
    · rw [if_pos hi] at p2
      subst p2
      refine ⟨?_, fun _ hs => ?_⟩
      · show MsgOk g H a.signed m0.seq m0.gen _
        rw [h3.seq, h3.gen]
        exact ⟨h3.gen, h3.lt, h3.seq, h3.self, fun e => absurd hi e⟩
      · exact Nat.le_of_eq h3.seq
    · rw [if_neg hi] at p2
      subst p2
      refine ⟨?_, fun _ hs => ?_⟩
      · show MsgOk g H a.signed m0.seq m0.gen _
        rw [h3.seq, h3.gen]; exact h3
      · exact Nat.le_of_eq h3.seq
  rw [if_neg h1]
  by_cases h2 : a.lastStable + wws < ls
  · rw [if_pos h2]; exact ⟨_, _, rfl, .same h⟩
  rw [if_neg h2]
  by_cases h3 : a.lastStable ≠ 0 ∧ ls = a.lastStable ∧ a.getOk ls = false
  · obtain ⟨_, p, q⟩ := h3
    rw [p, ls_in h] at q; cases q
  rw [if_neg h3]
  have ho : ∀ y ∈ (if a.lastStable ≠ 0 ∧ ls = a.lastStable then sendOwn g a r ls else []),
      OutOk g H v (.status r ls) a a y := by
    intro y hy
    split at hy
    · exact sendOwn_ok h y hy
    · cases hy
  simp only
  generalize (if a.lastStable ≠ 0 ∧ ls = a.lastStable then sendOwn g a r ls else []) = o at ho
  have hlo : max a.begin (ls + cpw) % cpw = 0 := by unfold cpw at *; omega
  rw [if_neg (by simpa using hlo)]
  by_cases h4 : max a.begin (ls + cpw) ≤ min (a.begin + clw - 1) (ls + wws)
  · rw [if_pos h4, if_neg (by unfold wws cpw at *; omega)]
    obtain ⟨l, hl, hok⟩ := sendRange_ok (v := v) (e := .status r ls) (r := r) h 4 (max a.begin (ls + cpw))
      (min (a.begin + clw - 1) (ls + wws)) hlo (by omega) (by unfold clw; omega)
    rw [hl]
    refine ⟨_, _, rfl, sends_ok h ?_⟩
    intro y hy
    rcases List.mem_append.1 hy with hy | hy
    · exact ho y hy
    · exact hok y hy
  · rw [if_neg h4]
    exact ⟨_, _, rfl, sends_ok h ho⟩

end Verif.Ckpt
