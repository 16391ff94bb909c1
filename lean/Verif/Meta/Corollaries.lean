import Verif.Meta.Theorems
set_option linter.unusedSimpArgs false
set_option linter.unusedVariables false
/-!
# What a replica sees of the metadata storage (C34), in terms of its calls
-/
namespace Verif.Meta
open Verif.Bytes

section
variable {g : Cfg}

/-- a state the storage can be in -/
def Reach (g : Cfg) (s : St) : Prop := ∃ s0 ops rs, g.start = some s0 ∧ Admissible g s0 ops ∧ s0.run g ops = some (s, rs)

/-- what a getter answers (`none`: it ends the process) -/
def answer (g : Cfg) (s : St) (q : Get) (junk : Nat → Bytes) : Option Out := (s.get g junk q).map (·.1)

/-- the replica specific information asked for exists -/
def Get.Ok (g : Cfg) : Get → Prop
  | .rsi i => i < g.numPrinc * g.batch ∧ g.idRsi + i < g.objs
  | _ => True

/-- calls and events that commit nothing -/
def Op.quiet : Op → Bool
  | .begin | .set _ | .get _ _ | .crash _ => true
  | _ => false

theorem Reach.inv (hg : g.Ok) {s : St} (h : Reach g s) : ∃ t, Inv g s t := by
  obtain ⟨s0, ops, rs, h0, ha, hr⟩ := h
  obtain ⟨s1, h1, h2⟩ := start_ok hg
  rw [h1] at h0; cases h0
  obtain ⟨s', t', rs', h3, h4, h5⟩ := run_ok hg ops h2 ha
  rw [h3] at hr; cases hr
  exact ⟨t', h5⟩

theorem answer_eq (hg : g.Ok) {s : St} {t : Spec.St} (h : Inv g s t) (hn : s.nest = 0) {q : Get} (hq : q.Ok g) (junk : Nat → Bytes) :
    answer g s q junk = Spec.value t.cur q := by
  unfold answer
  cases hv : Spec.value t.cur q with
  | none => rw [get_fails h (Or.inr hv)]; rfl
  | some o =>
    have ho : (Op.get q junk).Ok g s := by
      cases q with
      | exec => exact hn
      | rsi i => exact hq
      | _ => trivial
    rw [get_ok hg h ho (fun _ => hn) hv]; rfl

theorem inv_erase (hg : g.Ok) {s : St} {t : Spec.St} (h : Inv g s t) (hn : s.nest = 0) {junk : Nat → Bytes} {b : Bool}
    (he : answer g s .erase junk = some (.bool b)) : t.cur.erase = b := by
  rw [answer_eq hg h hn (q := .erase) trivial] at he
  have he' : some (Out.bool t.cur.erase) = some (.bool b) := he
  simpa using he'

theorem boot_keep {m : Spec.Rec} {old : List Spec.Rec} (he : m.erase = false) : Spec.boot g m old = ⟨m, old, 0, []⟩ := by
  unfold Spec.boot; rw [he]; rfl

theorem quiet_step {t t' : Spec.St} {o : Op} {r : Out} (hq : o.quiet = true) (he : t.cur.erase = false) (h : Spec.Step g t o t' r) :
    t'.cur = t.cur ∧ t'.old = t.old := by
  cases h with
  | begin => exact ⟨rfl, rfl⟩
  | set _ _ => exact ⟨rfl, rfl⟩
  | refused _ => rw [boot_keep he]; exact ⟨rfl, rfl⟩
  | get _ _ => exact ⟨rfl, rfl⟩
  | noGet _ => rw [boot_keep he]; exact ⟨rfl, rfl⟩
  | crash => rw [boot_keep he]; exact ⟨rfl, rfl⟩
  | _ => cases hq

theorem quiet_run : ∀ {ops : List Op} {t t' : Spec.St} {rs : List Out}, (∀ o ∈ ops, o.quiet = true) → t.cur.erase = false →
    Spec.Run g t ops t' rs → t'.cur = t.cur ∧ t'.old = t.old
  | [], _, _, _, _, _, .nil => ⟨rfl, rfl⟩
  | o :: os, t, t', _, hq, he, .cons h1 h2 => by
    obtain ⟨a, b⟩ := quiet_step (hq o List.mem_cons_self) he h1
    obtain ⟨c, d⟩ := quiet_run (fun x hx => hq x (List.mem_cons_of_mem _ hx)) (by rw [a]; exact he) h2
    exact ⟨c.trans a, d.trans b⟩

theorem run_append (ops ops' : List Op) (s : St) :
    s.run g (ops ++ ops') = (s.run g ops).bind fun x => (x.1.run g ops').map fun y => (y.1, x.2 ++ y.2) := by
  induction ops generalizing s with
  | nil =>
    show s.run g ops' = (s.run g ops').map fun y => (y.1, [] ++ y.2)
    cases s.run g ops' <;> rfl
  | cons o os ih =>
    show (match s.step g o with | none => none | some (s', r) => match St.run g s' (os ++ ops') with | none => none | some (s'', rs) => some (s'', r :: rs)) =
      (match s.step g o with | none => none | some (s', r) => match St.run g s' os with | none => none | some (s'', rs) => some (s'', r :: rs)).bind _
    cases s.step g o with
    | none => rfl
    | some x =>
      obtain ⟨s', r⟩ := x
      dsimp only
      rw [ih]
      cases St.run g s' os with
      | none => rfl
      | some y =>
        obtain ⟨s1, rs⟩ := y
        dsimp only [Option.bind_some]
        cases St.run g s1 ops' with
        | none => rfl
        | some z => rfl

/-- one more step -/
theorem last_ok (hg : g.Ok) {s : St} {t : Spec.St} (h : Inv g s t) {ops : List Op} (ha : Admissible g s ops) {o : Op} (ho : ∀ s, o.Ok g s) :
    ∃ s1 t1 rs s' t' r, s.run g ops = some (s1, rs) ∧ Spec.Run g t ops t1 rs ∧ Inv g s1 t1 ∧
      s1.step g o = some (s', r) ∧ Spec.Step g t1 o t' r ∧ Inv g s' t' ∧ s.run g (ops ++ [o]) = some (s', rs ++ [r]) := by
  obtain ⟨s1, t1, rs, h1, h2, h3⟩ := run_ok hg ops h ha
  obtain ⟨s', t', r, h4, h5, h6⟩ := step_ok hg h3 (ho s1)
  refine ⟨s1, t1, rs, s', t', r, h1, h2, h3, h4, h5, h6, ?_⟩
  rw [run_append, h1]
  dsimp only [Option.bind_some]
  have : s1.run g [o] = some (s', [r]) := by
    show (match s1.step g o with | none => none | some (s', r) => match St.run g s' [] with | none => none | some (s'', rs) => some (s'', r :: rs)) = _
    rw [h4]; rfl
  rw [this]; rfl

/-- **A crash undoes an open transaction, completely.**  Between two transactions, whatever is then begun and set and read,
and however often the process dies: after the last start every getter answers as before. -/
theorem crash_undoes_transaction (hg : g.Ok) {s : St} (h : Reach g s) (hn : s.nest = 0) {junk : Nat → Bytes}
    (he : answer g s .erase junk = some (.bool false)) {ops : List Op} (ha : Admissible g s ops) (hq : ∀ o ∈ ops, o.quiet = true) (k : Nat) :
    ∃ s' rs, s.run g (ops ++ [.crash k]) = some (s', rs) ∧ ∀ q, q.Ok g → ∀ j j', answer g s' q j = answer g s q j' := by
  obtain ⟨t, hi⟩ := h.inv hg
  have e0 := inv_erase hg hi hn he
  obtain ⟨s1, t1, rs, s', t', r, h1, h2, h3, h4, h5, h6, h7⟩ := last_ok hg hi ha (o := .crash k) (fun _ => trivial)
  refine ⟨s', _, h7, ?_⟩
  obtain ⟨c1, _⟩ := quiet_run hq e0 h2
  cases h5
  rw [boot_keep (by rw [c1]; exact e0)] at h6
  intro q hq j j'
  rw [answer_eq hg h6 (by rw [h6.nest]) hq, answer_eq hg hi hn hq]
  show Spec.value t1.cur q = _
  rw [c1]

/-- **An outermost commit with `sync` survives a power failure**, and everything after it that commits nothing is undone. -/
theorem sync_survives_power (hg : g.Ok) {s s0 : St} (h : Reach g s) (h1 : s.nest = 1) (hf : s.step g (.fin true) = some (s0, .ok))
    {junk : Nat → Bytes} (he : answer g s0 .erase junk = some (.bool false))
    {ops : List Op} (ha : Admissible g s0 ops) (hq : ∀ o ∈ ops, o.quiet = true) (k i : Nat) :
    ∃ s' rs, s0.run g (ops ++ [.power k i]) = some (s', rs) ∧ ∀ q, q.Ok g → ∀ j j', answer g s' q j = answer g s0 q j' := by
  obtain ⟨t, hi⟩ := h.inv hg
  obtain ⟨s2, t0, r, g1, g2, g3⟩ := step_ok hg hi (o := .fin true) trivial
  rw [hf] at g1; cases g1
  have hd : t.depth = 1 := by rw [← hi.nest]; exact h1
  cases g2 with
  | inner hx => omega
  | outer hx =>
    have hn0 : s0.nest = 0 := g3.nest
    have e0 := inv_erase hg g3 hn0 he
    obtain ⟨s1, t1, rs, s', t', r, h1, h2, h3, h4, h5, h6, h7⟩ := last_ok hg g3 ha (o := .power k i) (fun _ => trivial)
    refine ⟨s', _, h7, ?_⟩
    obtain ⟨c1, c2⟩ := quiet_run hq e0 h2
    cases h5 with
    | power hm =>
      rw [c1, c2, if_pos rfl] at hm
      cases List.mem_singleton.1 hm
      rw [boot_keep e0] at h6
      intro q hq j j'
      rw [answer_eq hg h6 (by rw [h6.nest]) hq, answer_eq hg g3 hn0 hq]

theorem sets_run : ∀ (us : List Upd) {t t' : Spec.St} {rs : List Out}, (∀ r ∈ rs, r = .ok) →
    Spec.Run g t (us.map .set) t' rs → t' = { t with pend := t.pend ++ us }
  | [], t, _, _, _, .nil => by rw [List.append_nil]
  | u :: us, t, t', _, hr, .cons h1 h2 => by
    cases h1 with
    | refused _ => exact absurd (hr _ List.mem_cons_self) (by decide)
    | set _ _ =>
      have := sets_run us (fun x hx => hr x (List.mem_cons_of_mem _ hx)) h2
      rw [this]
      dsimp only
      rw [List.append_assoc]; rfl

theorem runS_append {t' : Spec.St} : ∀ {ops ops' : List Op} {t : Spec.St} {rs : List Out}, Spec.Run g t (ops ++ ops') t' rs →
    ∃ t1 rs1 rs2, Spec.Run g t ops t1 rs1 ∧ Spec.Run g t1 ops' t' rs2 ∧ rs = rs1 ++ rs2
  | [], ops', t, rs, h => ⟨t, [], rs, .nil, h, rfl⟩
  | o :: os, ops', t, _, .cons h1 h2 => by
    obtain ⟨t1, rs1, rs2, a, b, c⟩ := runS_append h2
    exact ⟨t1, _ :: rs1, rs2, .cons h1 a, b, by rw [c]; rfl⟩

/-- **A transaction takes effect as a whole.**  Between two transactions the getters show one record; a transaction whose
calls all return makes them show the record with its updates applied in order, and this is what they show after any
crash that follows. -/
theorem transaction_takes_effect (hg : g.Ok) {s : St} (h : Reach g s) (hn : s.nest = 0) :
    ∃ m : Spec.Rec, (∀ q, q.Ok g → ∀ j, answer g s q j = Spec.value m q) ∧
      ∀ (us : List Upd) (y : Bool) s1 rs, (∀ u ∈ us, u.Ok g) →
        s.run g (.begin :: (us.map .set ++ [.fin y])) = some (s1, rs) → (∀ r ∈ rs, r = .ok) →
        (∀ q, q.Ok g → ∀ j, answer g s1 q j = Spec.value (us.foldl Spec.apply m) q) ∧
        (m.erase = false → ∀ k, ∃ s2 r, s1.step g (.crash k) = some (s2, r) ∧
          ∀ q, q.Ok g → ∀ j, answer g s2 q j = Spec.value (us.foldl Spec.apply m) q) := by
  obtain ⟨t, hi⟩ := h.inv hg
  refine ⟨t.cur, fun q hq j => answer_eq hg hi hn hq j, ?_⟩
  intro us y s1 rs hu hrun hok
  have hdep : t.depth = 0 := by rw [← hi.nest]; exact hn
  have had : Admissible g s (.begin :: (us.map .set ++ [.fin y])) := by
    refine ⟨by show s.nest < 255; omega, ?_⟩
    intro s' r _
    have : ∀ (us : List Upd), (∀ u ∈ us, u.Ok g) → ∀ s', Admissible g s' (us.map .set ++ [.fin y]) := by
      intro us
      induction us with
      | nil => intro _ s'; exact ⟨trivial, fun _ _ _ => trivial⟩
      | cons u us ih => intro hu s'; exact ⟨hu u List.mem_cons_self, fun s'' r _ => ih (fun x hx => hu x (List.mem_cons_of_mem _ hx)) s''⟩
    exact this us hu s'
  obtain ⟨s1', t1, rs', e1, e2, e3⟩ := run_ok hg _ hi had
  rw [hrun] at e1; cases e1
  cases e2 with
  | cons f1 f2 =>
    cases f1
    obtain ⟨tm, r1, r2, a, b, c⟩ := runS_append f2
    have hm := sets_run us (fun x hx => hok x (List.mem_cons_of_mem _ (by rw [c]; exact List.mem_append_left _ hx))) a
    rw [hdep, if_pos rfl] at hm
    dsimp only at hm
    rw [List.nil_append] at hm
    subst hm
    cases b with
    | cons b1 b2 =>
      cases b2
      have key : t1.cur = us.foldl Spec.apply t.cur ∧ t1.depth = 0 := by
        cases b1 with
        | inner hx => exact absurd hx (by show ¬(2 ≤ 0 + 1); decide)
        | outer hx => exact ⟨rfl, rfl⟩
        | noTran hx => exact absurd hx (by show ¬(0 + 1 = 0); decide)
      have hn1 : s1.nest = 0 := by rw [e3.nest]; exact key.2
      refine ⟨fun q hq j => by rw [answer_eq hg e3 hn1 hq, key.1], ?_⟩
      intro he k
      have he1 : t1.cur.erase = false := by
        rw [key.1]
        have : ∀ (us : List Upd) (m : Spec.Rec), (us.foldl Spec.apply m).erase = m.erase := by
          intro us
          induction us with
          | nil => intro m; rfl
          | cons u us ih =>
            intro m
            show (us.foldl Spec.apply (Spec.apply m u)).erase = _
            rw [ih]
            cases u <;> rfl
        rw [this]; exact he
      obtain ⟨s2, t2, r, g1, g2, g3⟩ := step_ok hg e3 (o := .crash k) trivial
      refine ⟨s2, r, g1, ?_⟩
      cases g2
      rw [boot_keep he1] at g3
      intro q hq j
      rw [answer_eq hg g3 (by rw [g3.nest]) hq, ← key.1]

end
end Verif.Meta
