import Verif.Ckpt.Theorems
import Verif.Util.ListLemmas
/-!
C42, progress: enough equal checkpoint messages make a checkpoint stable.
-/
set_option linter.unusedSimpArgs false
set_option linter.unusedVariables false
namespace Verif.Ckpt
open Concord Concord.Cert

variable {g : Cfg} {H : Msg → Prop}

/-- A piece of the life of a replica: from state `a` through the events to another state -/
inductive Steps (g : Cfg) (a : St) : List (Env × Ev) → St → Prop
  | nil : Steps g a [] a
  | snoc {evs b} (h : Steps g a evs b) (v : Env) (e : Ev) {b' o} (hl : Legal g e b)
      (hs : step g v e b = some (b', o)) : Steps g a (evs ++ [(v, e)]) b'

theorem Steps.run {evs0 o0 a} (h0 : Run g evs0 o0 a) {evs b} (h : Steps g a evs b) : ∃ o, Run g (evs0 ++ evs) o b := by
  induction h with
  | nil => exact ⟨o0, by rw [List.append_nil]; exact h0⟩
  | snoc h v e hl hs ih =>
    obtain ⟨o, ih⟩ := ih
    exact ⟨_, by rw [← List.append_assoc]; exact .step ih v e hl hs⟩

/-- the checkpoint is stable, or its certificate is not complete and has lost nothing -/
def Prog (s : Nat) (a a' : St) : Prop :=
  s ≤ a'.lastStable ∨ ((a'.slots s).cert.complete = false ∧ ∀ e ∈ (a.slots s).cert.msgs, e ∈ (a'.slots s).cert.msgs)

theorem prog_cert {s : Nat} {a a' : St} (hc : (a.slots s).cert.complete = false)
    (h : (a'.slots s).cert = (a.slots s).cert) : Prog s a a' :=
  .inr (by rw [h]; exact ⟨hc, fun _ he => he⟩)

theorem stabSt_slot {s t k : Nat} {mo : Msg} {a : St} (hn : newBegin a t ≤ t) (h : t < s) :
    (stabSt g t k mo a).slots s = a.slots s := by
  show (if s = t then _ else if s < newBegin a t then _ else a.slots s) = _
  rw [if_neg (by omega), if_neg (by omega)]

theorem setSlot_ne {a : St} {s t : Nat} {c : Slot} (h : s ≠ t) : (a.setSlot t c).slots s = a.slots s := by
  show (if s = t then _ else _) = _
  rw [if_neg h]

/-- declaring `t` stable, if its own message is there -/
theorem stab_prog (hg : g.Ok) {x s t : Nat} {v : Env} {a b : St} {old : Bool} {mo : Msg} (h : Core g H x b)
    (ht : t % cpw = 0) (hls : b.lastStable < t) (hle : t ≤ b.lastExec) (hmo : (g.self, mo) ∈ (b.slots t).cert.msgs)
    (hsl : s ≠ t → (b.slots s).cert = (a.slots s).cert) (hc : (a.slots s).cert.complete = false) {b' o}
    (heq : stableAt g v t true old b = some (b', o)) :
    s ≤ b'.lastStable ∨ (b'.slots s = b.slots s ∧ (b.slots s).cert = (a.slots s).cert) := by
  obtain ⟨k, o', he, -⟩ := stableAt_eq (v := v) (old := old) h ht hls hle hmo
  rw [heq] at he
  cases he
  by_cases hst : s ≤ t
  · exact .inl hst
  · exact .inr ⟨stabSt_slot (newBegin_facts h ht hls).2.1 (by omega), hsl (by omega)⟩

theorem add_keep {c : Slot} {id : Nat} {m : Msg} : ∀ e ∈ c.cert.msgs, e ∈ (c.add g id m).1.cert.msgs := by
  intro e he
  show e ∈ (c.cert.addMsg g.p id m).1.msgs
  rcases addMsg_cases (g := g) c.cert id m with ⟨h1, h2⟩ | ⟨h1, h2, h3⟩
  · rw [h2]; exact he
  · rw [h2]; exact List.mem_append_left _ he

theorem add_has {c : Slot} {id : Nat} {m : Msg} : ∃ m', (id, m') ∈ (c.add g id m).1.cert.msgs := by
  show ∃ m', (id, m') ∈ (c.cert.addMsg g.p id m).1.msgs
  rcases addMsg_cases (g := g) c.cert id m with ⟨h1, h2⟩ | ⟨h1, h2, h3⟩
  · rw [h2]; exact hasMsg_iff.1 h1
  · rw [h2]; exact ⟨m, by simp⟩

theorem superIf_slots (f : Bool) (s : Nat) (a : St) : (superIf f s a).1.slots = a.slots := by
  obtain ⟨k, e, -⟩ := superIf_fields f s a
  rw [e]

theorem superIf_ls (f : Bool) (s : Nat) (a : St) : (superIf f s a).1.lastStable = a.lastStable := by
  obtain ⟨k, e, -⟩ := superIf_fields f s a
  rw [e]

theorem recv_prog (hg : g.Ok) {v : Env} {m : Msg} {a a' : St} {o} {s : Nat} (h : Inv g H a) (hl : Legal g (.recv m) a)
    (hH : H m) (h1 : a.lastStable < s) (h2 : s ≤ a.lastStable + wws) (hc : (a.slots s).cert.complete = false)
    (hep : m.seq = s → v.epoch ≤ m.epoch) (hs : recv g v m a = some (a', o)) :
    Prog s a a' ∧ (m.seq = s → s ≤ a'.lastStable ∨ ∃ m', (m.gen, m') ∈ (a'.slots s).cert.msgs) := by
  obtain ⟨hgen, hsnd, hne, hseq, hself⟩ := hl
  have hco := h.core
  have b1 := hco.b1; have b2 := hco.b2; have le1 := hco.le1; have le2 := h.le2
  unfold recv recvLog at hs
  by_cases hw : a.lastStable < m.seq ∧ m.seq ≤ a.lastStable + wws ∧ v.epoch ≤ m.epoch
  · rw [if_pos hw] at hs
    have hin : a.inside m.seq = true := by
      rw [inside_iff]; unfold clw; unfold wws cpw at *; omega
    rw [if_neg (by rw [getOk_iff.2 ⟨hseq, inside_iff.1 hin⟩]; simp)] at hs
    have hc1 := core_add hg hco hin hgen hH hself
    simp only at hs
    have hbs : s ≠ m.seq → (a.setSlot m.seq ((a.slots m.seq).add g m.gen m).1).slots s = a.slots s := setSlot_ne
    have hbq : (a.setSlot m.seq ((a.slots m.seq).add g m.gen m).1).slots m.seq = ((a.slots m.seq).add g m.gen m).1 :=
      setSlot_self _ _ _
    generalize hb : a.setSlot m.seq ((a.slots m.seq).add g m.gen m).1 = b at *
    have hbls : b.lastStable = a.lastStable := by rw [← hb]; rfl
    by_cases hcomp : (b.slots m.seq).cert.complete = true
    · rw [if_pos hcomp] at hs
      obtain ⟨mo, hmo, hcnt⟩ := base_complete (hc1.exact m.seq (by rw [hbls]; exact hw.1) (by omega)) hcomp
      rw [own_some (g := g) (good_keys (hc1.good m.seq)) hmo, if_neg (by simp)] at hs
      obtain ⟨c, hsc⟩ := sle_of_own hc1 hmo
      obtain ⟨_, _, hle⟩ := hc1.sle _ _ hsc
      obtain ⟨k, o', heq, -⟩ := stableAt_eq (v := v) (old := false) hc1 hseq (by rw [hbls]; exact hw.1) hle hmo
      rw [heq] at hs
      cases hs
      by_cases hst : s ≤ m.seq
      · exact ⟨.inl hst, fun _ => .inl hst⟩
      · have hse := stabSt_slot (g := g) (k := k) (mo := mo) (newBegin_facts hc1 hseq (by rw [hbls]; exact hw.1)).2.1
          (show m.seq < s by omega)
        rw [hbs (by omega)] at hse
        exact ⟨prog_cert hc (by rw [hse]), fun e => absurd e (by omega)⟩
    · rw [if_neg hcomp] at hs
      cases hs
      by_cases hsm : s = m.seq
      · subst hsm
        refine ⟨.inr ⟨?_, ?_⟩, fun _ => .inr ?_⟩
        · show (b.slots m.seq).cert.complete = false
          simpa using hcomp
        · show ∀ e ∈ _, e ∈ (b.slots m.seq).cert.msgs
          rw [hbq]; exact add_keep
        · show ∃ m', (m.gen, m') ∈ (b.slots m.seq).cert.msgs
          rw [hbq]; exact add_has
      · refine ⟨prog_cert hc ?_, fun e => absurd e.symm hsm⟩
        show (b.slots s).cert = _
        rw [hbs hsm]
  · rw [if_neg hw] at hs
    have hsm : s ≠ m.seq := by
      intro e
      exact hw ⟨by omega, by omega, hep e.symm⟩
    by_cases hin : a.inside m.seq = true
    · rw [if_pos hin, if_neg (by rw [getOk_iff.2 ⟨hseq, inside_iff.1 hin⟩]; simp)] at hs
      cases hs
      refine ⟨prog_cert hc ?_, fun e => absurd e.symm hsm⟩
      show ((superIf _ _ _).1.slots s).cert = _
      rw [superIf_slots, setSlot_ne hsm]
    · rw [if_neg hin] at hs
      cases hs
      exact ⟨prog_cert hc rfl, fun e => absurd e.symm hsm⟩

theorem exec_prog (hg : g.Ok) {v : Env} {a a' : St} {o} {s : Nat} (h : Inv g H a) (hl : a.lastExec < a.lastStable + wws)
    (h1 : a.lastStable < s) (hc : (a.slots s).cert.complete = false) (hs : exec g v a = some (a', o)) : Prog s a a' := by
  have hco := h.core
  have b1 := hco.b1; have b2 := hco.b2; have le1 := hco.le1
  unfold exec tryMark at hs
  simp only at hs
  by_cases hm : (a.lastExec + 1) % cpw = 0
  · rw [if_neg (by simpa using hm)] at hs
    have hin : a.inside (a.lastExec + 1) = true := by
      rw [inside_iff]; unfold clw; unfold wws cpw at *; omega
    have hgo : ({ a with lastExec := a.lastExec + 1, ps := { a.ps with lastExec := a.lastExec + 1 } } : St).getOk
        (a.lastExec + 1) = true := getOk_iff.2 ⟨hm, inside_iff.1 hin⟩
    rw [if_neg (by rw [hgo]; simp)] at hs
    have hc0 := core_le hco (k := a.lastExec + 1) (by omega)
    have hc1 := core_sign hg (v := v) (c := v.dg ((a.lastExec + 1) / cpw)) (a.slots (a.lastExec + 1)).sent hc0 hm
      (by omega) (Nat.le_refl _) (show a.lastStable < a.lastExec + 1 by omega)
      (fun t c ht => by
        have := (hco.sle t c ht).2.2
        omega) hin rfl
    generalize ht : a.lastExec + 1 = t at *
    change Core g H 0 ({ (({ a with lastExec := t, ps := { a.ps with lastExec := t } } : St).setSlot t
      ((a.slots t).add g g.self (ownMsg g v t false)).1) with
      signed := a.signed ++ [(t, v.dg (t / cpw))]
      ps := ({ a.ps with lastExec := t } : Ps).setCheck t (ownMsg g v t false) } : St) at hc1
    simp only at hc1
    generalize hb : ({ (({ a with lastExec := t, ps := { a.ps with lastExec := t } } : St).setSlot t
      ((a.slots t).add g g.self (ownMsg g v t false)).1) with
      signed := a.signed ++ [(t, v.dg (t / cpw))]
      ps := ({ a.ps with lastExec := t } : Ps).setCheck t (ownMsg g v t false) } : St) = b at *
    have hbls : b.lastStable = a.lastStable := by rw [← hb]; rfl
    have hble : b.lastExec = t := by rw [← hb]; rfl
    have hbsl : b.slots t = ((a.slots t).add g g.self (ownMsg g v t false)).1 := by
      rw [← hb]; exact setSlot_self _ _ _
    have hbne : s ≠ t → b.slots s = a.slots s := by
      intro e; rw [← hb]; exact setSlot_ne e
    rw [← hbsl] at hs
    by_cases hcomp : (b.slots t).cert.complete = true
    · rw [if_pos hcomp] at hs
      obtain ⟨mo, hmo, hcnt⟩ := base_complete (hc1.exact t (by rw [hbls]; omega) (by omega)) hcomp
      obtain ⟨k, o', heq, -⟩ := stableAt_eq (v := v) (old := false) hc1 hm (by rw [hbls]; omega) (by rw [hble]) hmo
      rw [heq] at hs
      simp only at hs
      by_cases hx : ((stabSt g t k mo b).slots t).executed = true
      · rw [if_pos hx] at hs; cases hs
      rw [if_neg hx] at hs
      cases hs
      by_cases hst : s ≤ t
      · left
        rw [superIf_ls]; exact hst
      · apply prog_cert hc
        rw [superIf_slots, setSlot_ne (by omega), stabSt_slot (newBegin_facts hc1 hm (by rw [hbls]; omega)).2.1 (by omega),
          hbne (by omega)]
    · rw [if_neg hcomp] at hs
      simp only at hs
      by_cases hx : (b.slots t).executed = true
      · rw [if_pos hx] at hs; cases hs
      rw [if_neg hx] at hs
      cases hs
      by_cases hst : s = t
      · subst hst
        right
        rw [superIf_slots, setSlot_self]
        refine ⟨by simpa using hcomp, ?_⟩
        show ∀ e ∈ _, e ∈ (b.slots s).cert.msgs
        rw [hbsl]; exact add_keep
      · apply prog_cert hc
        rw [superIf_slots, setSlot_ne hst, hbne hst]
  · rw [if_pos (by simpa using hm)] at hs
    cases hs
    exact prog_cert hc rfl

theorem poll_prog (hg : g.Ok) {v : Env} {a a' : St} {o} {s : Nat} (h : Inv g H a)
    (h1 : a.lastStable < s) (hc : (a.slots s).cert.complete = false) (hs : poll g v a = some (a', o)) : Prog s a a' := by
  have hco := h.core
  have hle1 := hco.le1; have hle2 := h.le2; have hb1 := hco.b1; have hb2 := hco.b2
  unfold poll at hs
  by_cases q1 : (v.collecting || !v.viewActive) = true
  · rw [if_pos q1] at hs; cases hs; exact prog_cert hc rfl
  rw [if_neg q1] at hs
  simp only at hs
  have hsm : a.lastExec / cpw * cpw % cpw = 0 := Nat.mul_mod_left _ _
  have hsl : a.lastExec / cpw * cpw ≤ a.lastExec := Nat.div_mul_le_self _ _
  have hsls : a.lastStable ≤ a.lastExec / cpw * cpw := by
    have := hco.lsm
    unfold cpw at *; omega
  generalize a.lastExec / cpw * cpw = t at *
  have hflag : ∀ b : St, Prog s b (b.setSlot t { b.slots t with sent := true }) ∨ (b.slots s).cert.complete = true := by
    intro b
    cases hbc : (b.slots s).cert.complete
    · left
      by_cases e : s = t
      · subst e
        exact prog_cert hbc (by rw [setSlot_self])
      · exact prog_cert hbc (by rw [setSlot_ne e])
    · exact .inr rfl
  by_cases q2 : t = 0
  · rw [if_pos q2] at hs; cases hs; exact prog_cert hc rfl
  rw [if_neg q2] at hs
  by_cases q3 : (!a.getOk t) = true
  · rw [if_pos q3] at hs; cases hs
  rw [if_neg q3] at hs
  have hin : a.inside t = true := by
    rw [inside_iff]; unfold clw; unfold wws cpw at *; omega
  cases hown : (a.slots t).own g with
  | none => rw [hown] at hs; cases hs; exact prog_cert hc rfl
  | some m =>
    rw [hown] at hs
    simp only at hs
    obtain ⟨m0, hm0, -⟩ := own_mem (good_keys (hco.good t)) hown
    by_cases q4 : (a.slots t).sent = true
    · rw [if_pos q4] at hs; cases hs; exact prog_cert hc rfl
    rw [if_neg q4] at hs
    by_cases q5 : (!(a.slots t).executed || v.waited) = true
    · rw [if_pos q5] at hs; cases hs
      rcases hflag a with q | q
      · exact q
      · rw [hc] at q; cases q
    rw [if_neg q5] at hs
    unfold fastPath at hs
    by_cases q6 : a.lastExec < t + mcf
    · rw [if_pos q6] at hs; cases hs; exact prog_cert hc rfl
    rw [if_neg q6] at hs
    by_cases q7 : v.fast = true
    · rw [if_pos q7] at hs
      simp only at hs
      rw [setSlot_self] at hs
      have hmk : ((a.slots t).mark g).cert = { (a.slots t).cert with complete := true } := tryComplete_self hm0
      have hcm : ((a.slots t).mark g).cert.complete = true := by rw [hmk]
      rw [if_neg (by rw [hcm]; simp)] at hs
      have hc1 : Core g H t (a.setSlot t ((a.slots t).mark g)) := by
        apply core_slot hco hin
        · exact good_mark (hco.good t)
        · intro _ hh; exact absurd rfl hh
        · intro t _ _ ht; exact ht
        · rw [hmk]; exact hco.msgs t
        · rw [hmk]; exact fun m hm => ⟨m, hm⟩
        · exact hco.exe t
        · exact hco.ost t
        · intro k hk e
          show (a.slots t).ownStable = true
          rw [e]; exact hco.ost2 k hk
      by_cases q8 : a.lastStable < t
      · have hmo : (g.self, m0) ∈ ((a.setSlot t ((a.slots t).mark g)).slots t).cert.msgs := by
          rw [setSlot_self, hmk]; exact hm0
        obtain ⟨k, o', heq, -⟩ := stableAt_eq (v := v) (old := false) hc1 hsm q8 hsl hmo
        rw [heq] at hs
        cases hs
        by_cases hst : s ≤ t
        · exact .inl hst
        · apply prog_cert hc
          rw [setSlot_ne (by omega), stabSt_slot (newBegin_facts hc1 hsm q8).2.1 (by omega), setSlot_ne (by omega)]
      · have hst : stableAt g v t true false (a.setSlot t ((a.slots t).mark g)) =
            some (a.setSlot t ((a.slots t).mark g), []) := by
          unfold stableAt
          rw [if_neg (by simp), if_neg (by simpa using hsm),
            if_pos (show t ≤ (a.setSlot t ((a.slots t).mark g)).lastStable from (by show t ≤ a.lastStable; omega))]
        rw [hst] at hs
        cases hs
        apply prog_cert hc
        rw [setSlot_ne (by omega), setSlot_ne (by omega)]
    · rw [if_neg q7] at hs; cases hs
      rcases hflag a with q | q
      · exact q
      · rw [hc] at q; cases q

theorem stabSt0_slot {s t : Nat} {a : St} (hn : newBegin a t ≤ t) (h : t < s) :
    (stabSt0 g t a).slots s = a.slots s := by
  show (if s < newBegin a t then _ else a.slots s) = _
  rw [if_neg (by omega)]

theorem transferred_prog (hg : g.Ok) {v : Env} {k : Nat} {a a' : St} {o} {s : Nat} (h : Inv g H a)
    (h1 : a.lastStable < s) (hc : (a.slots s).cert.complete = false) (hk : k * cpw ≠ s)
    (hs : transferred g v k a = some (a', o)) : Prog s a a' := by
  have hco := h.core
  have le1 := hco.le1
  unfold transferred at hs
  simp only at hs
  by_cases h0 : k * cpw ≤ a.lastExec
  · rw [if_pos h0] at hs; cases hs; exact prog_cert hc rfl
  rw [if_neg h0] at hs
  have hc0 := core_le hco (k := k * cpw) (by omega)
  have hsm : k * cpw % cpw = 0 := Nat.mul_mod_left _ _
  generalize hq : k * cpw = q at *
  generalize hd : ({ a with lastExec := q, ps := { a.ps with lastExec := q } } : St) = d at *
  have hdls : d.lastStable = a.lastStable := by rw [← hd]
  have hdle : d.lastExec = q := by rw [← hd]
  have hdsl : d.slots = a.slots := by rw [← hd]
  have hph : ∀ b ob, (if d.lastStable + wws < q then
        stableAt g v (q - wws) (d.inside (q - wws) && ((d.slots (q - wws)).own g).isSome) true d
      else some (d, [])) = some (b, ob) → s ≤ b.lastStable ∨ b.slots s = a.slots s := by
    intro b ob hb
    by_cases q1 : d.lastStable + wws < q
    · rw [if_pos q1] at hb
      have hrm : (q - wws) % cpw = 0 := by unfold wws cpw at *; omega
      have hrl : d.lastStable < q - wws := by omega
      have hre : q - wws ≤ d.lastExec := by omega
      generalize q - wws = ref at *
      by_cases hw : (d.inside ref && ((d.slots ref).own g).isSome) = true
      · rw [hw] at hb
        rw [Bool.and_eq_true] at hw
        obtain ⟨mo', hmo'⟩ := Option.isSome_iff_exists.1 hw.2
        obtain ⟨mo, hmo, -⟩ := own_mem (good_keys (hc0.good _)) hmo'
        obtain ⟨k', o', heq, -⟩ := stableAt_eq (v := v) (old := true) hc0 hrm hrl hre hmo
        rw [heq] at hb
        cases hb
        by_cases hst : s ≤ ref
        · exact .inl hst
        · right
          rw [stabSt_slot (newBegin_facts hc0 hrm hrl).2.1 (by omega), hdsl]
      · have hwf : (d.inside ref && ((d.slots ref).own g).isSome) = false := by
          simpa using hw
        rw [hwf, stableAt_eq0 hc0 hrm hrl] at hb
        cases hb
        by_cases hst : s ≤ ref
        · exact .inl hst
        · right
          rw [stabSt0_slot (newBegin_facts hc0 hrm hrl).2.1 (by omega), hdsl]
    · rw [if_neg q1] at hb
      cases hb
      right; rw [hdsl]
  split at hs
  · cases hs
  · rename_i b ob hb
    have hb := hph b ob (by rw [hdls, hdsl]; exact hb)
    by_cases q2 : (!b.getOk q) = true
    · rw [if_pos q2] at hs; cases hs
    rw [if_neg q2] at hs
    cases hs
    rcases hb with hb | hb
    · left
      show s ≤ (superIf _ _ _).1.lastStable
      rw [superIf_ls]; exact hb
    · apply prog_cert hc
      show ((superIf _ _ _).1.slots s).cert = _
      rw [superIf_slots]
      show ((b.setSlot q _).slots s).cert = _
      rw [setSlot_ne (fun e => hk e.symm), hb]

theorem ask_same {r : Nat} {a a' : St} {o} (h : ask g r a = some (a', o)) : a' = a := by
  unfold ask at h
  split at h
  · cases h
  · split at h <;> (cases h; rfl)

theorem status_same {v : Env} {r ls : Nat} {a a' : St} {o} (h : status g v r ls a = some (a', o)) : a' = a := by
  unfold status at h
  simp only at h
  by_cases h1 : ls + wws < a.lastStable ∨ (v.viewActive = false ∧ ls < a.lastStable)
  · rw [if_pos h1] at h
    split at h
    · cases h
    · cases h; rfl
  rw [if_neg h1] at h
  by_cases h2 : a.lastStable + wws < ls
  · rw [if_pos h2] at h; cases h; rfl
  rw [if_neg h2] at h
  by_cases h3 : a.lastStable ≠ 0 ∧ ls = a.lastStable ∧ a.getOk ls = false
  · rw [if_pos h3] at h; cases h
  rw [if_neg h3] at h
  by_cases h4 : max a.begin (ls + cpw) % cpw ≠ 0
  · rw [if_pos h4] at h; cases h
  rw [if_neg h4] at h
  by_cases h5 : max a.begin (ls + cpw) ≤ min (a.begin + clw - 1) (ls + wws)
  · rw [if_pos h5] at h
    by_cases h6 : wws < min (a.begin + clw - 1) (ls + wws) - max a.begin (ls + cpw)
    · rw [if_pos h6] at h; cases h
    rw [if_neg h6] at h
    split at h
    · cases h
    · cases h; rfl
  · rw [if_neg h5] at h; cases h; rfl

/-- what holds along the way: the checkpoint is stable, or nothing that was received for it since is lost -/
theorem steps_prog (hg : g.Ok) {evs0 o0 a} (h0 : Run g evs0 o0 a) {s : Nat} (hs2 : s ≤ a.lastStable + 300)
    (hex : a.lastExec < s) {evs b} (h : Steps g a evs b) (hnr : ∀ v d, (v, Ev.restart d) ∉ evs)
    (hnt : ∀ v k, (v, Ev.transferred k) ∈ evs → k * 150 ≠ s)
    (hep : ∀ v m, (v, Ev.recv m) ∈ evs → m.seq = s → v.epoch ≤ m.epoch) :
    a.lastStable ≤ b.lastStable ∧ (s ≤ b.lastStable ∨ ((b.slots s).cert.complete = false ∧
      ∀ v m, (v, Ev.recv m) ∈ evs → m.seq = s → ∃ m', (m.gen, m') ∈ (b.slots s).cert.msgs)) := by
  induction h with
  | nil =>
    refine ⟨Nat.le_refl _, .inr ⟨?_, by simp⟩⟩
    have hi := run_inv hg h0
    have := hi.core.le1
    cases hc : (a.slots s).cert.complete
    · rfl
    · obtain ⟨mo, hmo, -⟩ := base_complete (hi.core.exact s (by omega) (by omega)) hc
      have := (hi.core.sle _ _ ((hi.core.msgs _ _ _ hmo).self rfl).1).2.2
      omega
  | @snoc evs b h v e b' o hl hs ih =>
    obtain ⟨i1, i2⟩ := ih (fun v d hm => hnr v d (List.mem_append_left _ hm))
      (fun v k hm => hnt v k (List.mem_append_left _ hm)) (fun v m hm => hep v m (List.mem_append_left _ hm))
    obtain ⟨ob, hrun⟩ := Steps.run h0 h
    have hi := run_inv hg hrun
    have hmon := monotone hg hrun hl hs
    refine ⟨by omega, ?_⟩
    by_cases hst : s ≤ b'.lastStable
    · exact .inl hst
    rcases i2 with i2 | ⟨i2, i3⟩
    · omega
    have hls : b.lastStable < s := by omega
    have hpr : Prog s b b' ∧ (∀ m, e = .recv m → m.seq = s →
        s ≤ b'.lastStable ∨ ∃ m', (m.gen, m') ∈ (b'.slots s).cert.msgs) := by
      have hsame : b' = b → Prog s b b' := by rintro rfl; exact prog_cert i2 rfl
      cases e with
      | recv m =>
        have hi2 := hi.monoH (heard_mono (x := (v, Ev.recv m)))
        have := recv_prog hg hi2 hl ⟨v, by simp⟩ hls (show s ≤ b.lastStable + wws by unfold wws; omega) i2
          (hep v m (by simp)) hs
        exact ⟨this.1, fun m' hm' => by cases hm'; exact this.2⟩
      | exec => exact ⟨exec_prog hg hi hl hls i2 hs, fun m hm => by cases hm⟩
      | poll => exact ⟨poll_prog hg hi hls i2 hs, fun m hm => by cases hm⟩
      | transferred k =>
        exact ⟨transferred_prog hg hi hls i2 (hnt v k (by simp)) hs, fun m hm => by cases hm⟩
      | ask r => exact ⟨hsame (ask_same hs), fun m hm => by cases hm⟩
      | status r ls => exact ⟨hsame (status_same hs), fun m hm => by cases hm⟩
      | restart d => exact absurd (List.mem_append_right _ (List.mem_singleton.2 rfl)) (hnr v d)
    right
    obtain ⟨p1, p2⟩ := hpr
    rcases p1 with p1 | ⟨p1, p3⟩
    · omega
    refine ⟨p1, fun v' m hm hseq => ?_⟩
    rcases List.mem_append.1 hm with q | q
    · obtain ⟨m', hm'⟩ := i3 v' m q hseq
      exact ⟨m', p3 _ hm'⟩
    · rw [List.mem_singleton] at q
      cases q
      rcases p2 m rfl hseq with q | q
      · omega
      · exact q

/-- **Enough equal checkpoint messages make a checkpoint stable**: from a moment when checkpoint `s` is in the work window
and not executed yet, whatever else happens short of a restart or a state transfer that lands exactly on `s`: once this
replica has signed content `c` for `s`, and `2f+c` other replicas, none of which ever sent another content for `s`, had
their message received (with an epoch that is not older), in any order, the last stable sequence number is at least `s`. -/
theorem quorum_makes_stable (hg : g.Ok) {evs0 o0 a} (h0 : Run g evs0 o0 a) {s : Nat} {c : Content} (hs2 : s ≤ a.lastStable + 300)
    (hex : a.lastExec < s) {evs b} (h : Steps g a evs b) (hnr : ∀ v d, (v, Ev.restart d) ∉ evs)
    (hnt : ∀ v k, (v, Ev.transferred k) ∈ evs → k * 150 ≠ s)
    (hep : ∀ v m, (v, Ev.recv m) ∈ evs → m.seq = s → v.epoch ≤ m.epoch)
    (hsign : (s, c) ∈ b.signed) {l : List Nat} (hnd : l.Nodup) (hlen : 2 * g.F + g.C ≤ l.length)
    (hl : ∀ r ∈ l, r ≠ g.self ∧ (∃ v m, (v, Ev.recv m) ∈ evs ∧ m.gen = r ∧ m.seq = s) ∧
      ∀ v m, (v, Ev.recv m) ∈ evs0 ++ evs → m.gen = r → m.seq = s → m.content = c) :
    s ≤ b.lastStable := by
  obtain ⟨i1, i2⟩ := steps_prog hg h0 hs2 hex h hnr hnt hep
  rcases i2 with i2 | ⟨i2, i3⟩
  · exact i2
  by_cases hst : s ≤ b.lastStable
  · exact hst
  exfalso
  obtain ⟨ob, hrun⟩ := Steps.run h0 h
  have hi := run_inv hg hrun
  have hb1 := hi.core.b1
  obtain ⟨mo, hmo⟩ := hi.core.own s c hsign (by omega)
  have hmok := hi.core.msgs _ _ _ hmo
  have hmc : mo.content = c := hi.core.su _ _ _ (hmok.self rfl).1 hsign
  have hkeys := good_keys (hi.core.good s)
  have hcnt : 2 * g.F + g.C + 1 ≤ cnt eqv (b.slots s).cert.msgs mo := by
    have hsub : ∀ r ∈ g.self :: l, r ∈ ((b.slots s).cert.msgs.filter (fun e => eqv mo e.2)).map (fun e : Nat × Msg => e.1) := by
      intro r hr
      rcases List.mem_cons.1 hr with rfl | hr
      · exact List.mem_map.2 ⟨(g.self, mo), List.mem_filter.2 ⟨hmo, eqv_isEqv.refl mo⟩, rfl⟩
      · obtain ⟨hne, ⟨v, m, q1, q2, q3⟩, q4⟩ := hl r hr
        obtain ⟨m', hm'⟩ := i3 v m q1 q3
        rw [q2] at hm'
        have hok := hi.core.msgs _ _ _ hm'
        obtain ⟨v', hv'⟩ := hok.peer hne
        have hcc := q4 v' m' hv' hok.gen hok.seq
        refine List.mem_map.2 ⟨(r, m'), List.mem_filter.2 ⟨hm', ?_⟩, rfl⟩
        simp [eqv, hmok.seq, hok.seq, hmc, hcc]
    have := ListU.nodup_subset_length (List.nodup_cons.2 ⟨fun hh => (hl _ hh).1 rfl, hnd⟩) hsub
    rw [List.length_cons, List.length_map, ← List.countP_eq_length_filter] at this
    show _ ≤ List.countP _ _
    omega
  have := base_quorum (hi.core.exact s (by omega) (by have := (hi.core.sle _ _ hsign).2.1; omega)) hmo hcnt
  rw [i2] at this; cases this

end Verif.Ckpt
