import Verif.Ckpt.ReadOnly
/-!
C42: concrete runs. They meet the hypotheses of the theorems and show what the theorems cannot promise.
-/
set_option linter.unusedSimpArgs false
set_option linter.unusedVariables false
namespace Verif.Ckpt.Ex
open Concord Concord.Cert

/-- four replicas; this one is 0 -/
def g4 : Cfg := { F := 1, C := 0, self := 0 }
theorem g4_ok : g4.Ok := ⟨by decide, by decide⟩

/-- the state of this replica at checkpoint number `k` -/
def con (k : Nat) : Content := ⟨k, 10 * k, 7, 8⟩
/-- a state this replica never had -/
def odd' (k : Nat) : Content := ⟨k, 10 * k + 1, 7, 8⟩

/-- answers of the other modules -/
def env : Env := { epoch := 0, dg := con, collecting := false, viewActive := true, fast := false, waited := true, late := false }

/-- a checkpoint message of `r` -/
def cp (r s ep : Nat) (c : Content) (st : Bool) : Msg := { gen := r, sender := r, seq := s, epoch := ep, content := c, stable := st }

/-- decidable sufficient condition for `Legal` -/
def legalB (g : Cfg) (a : St) : Ev → Bool
  | .recv m => decide (m.gen < g.n ∧ m.sender < g.n ∧ m.sender ≠ g.self ∧ m.seq % cpw = 0 ∧ m.gen ≠ g.self)
  | .exec => decide (a.lastExec < a.lastStable + wws)
  | .status r ls => decide (r < g.n ∧ r ≠ g.self ∧ ls % cpw = 0)
  | .restart d => decide (d = a.ps.desc)
  | _ => true

theorem legalB_ok {g : Cfg} {a : St} {e : Ev} (h : legalB g a e = true) : Legal g e a := by
  cases e with
  | recv m =>
    obtain ⟨h1, h2, h3, h4, h5⟩ := of_decide_eq_true h
    exact ⟨h1, h2, h3, h4, fun e => absurd e h5⟩
  | exec => exact of_decide_eq_true (p := a.lastExec < a.lastStable + wws) h
  | poll => trivial
  | transferred k => trivial
  | ask r => trivial
  | status r ls => exact of_decide_eq_true (p := r < g.n ∧ r ≠ g.self ∧ ls % cpw = 0) h
  | restart d => exact (of_decide_eq_true (p := d = a.ps.desc) h) ▸ List.Perm.refl _

def drive (g : Cfg) : List (Env × Ev) → St → Option (St × List Out)
  | [], a => some (a, [])
  | (v, e) :: l, a =>
    if legalB g a e then
      match step g v e a with
      | none => none
      | some (a', o) =>
        match drive g l a' with
        | none => none
        | some (b, o') => some (b, o ++ o')
    else none

theorem drive_run {g : Cfg} : ∀ (l evs : List (Env × Ev)) (o : List Out) (a b : St) (o' : List Out), Run g evs o a →
    drive g l a = some (b, o') → Run g (evs ++ l) (o ++ o') b := by
  intro l
  induction l with
  | nil =>
    intro evs o a b o' h hd
    cases hd
    rw [List.append_nil, List.append_nil]; exact h
  | cons x l ih =>
    obtain ⟨v, e⟩ := x
    intro evs o a b o' h hd
    unfold drive at hd
    by_cases hl : legalB g a e = true
    · rw [if_pos hl] at hd
      cases hs : step g v e a with
      | none => rw [hs] at hd; cases hd
      | some r =>
        obtain ⟨a1, o1⟩ := r
        rw [hs] at hd
        simp only at hd
        cases hd2 : drive g l a1 with
        | none => rw [hd2] at hd; cases hd
        | some r2 =>
          obtain ⟨b1, o2⟩ := r2
          rw [hd2] at hd
          cases hd
          have := ih (evs ++ [(v, e)]) (o ++ o1) a1 b o2 (.step h v e (legalB_ok hl) hs) hd2
          rw [List.append_assoc, List.append_assoc] at this
          exact this
    · rw [if_neg hl] at hd; cases hd

theorem drive_steps {g : Cfg} : ∀ (l evs : List (Env × Ev)) (a0 a b : St) (o' : List Out), Steps g a0 evs a →
    drive g l a = some (b, o') → Steps g a0 (evs ++ l) b := by
  intro l
  induction l with
  | nil =>
    intro evs a0 a b o' h hd
    cases hd
    rw [List.append_nil]; exact h
  | cons x l ih =>
    obtain ⟨v, e⟩ := x
    intro evs a0 a b o' h hd
    unfold drive at hd
    by_cases hl : legalB g a e = true
    · rw [if_pos hl] at hd
      cases hs : step g v e a with
      | none => rw [hs] at hd; cases hd
      | some r =>
        obtain ⟨a1, o1⟩ := r
        rw [hs] at hd
        simp only at hd
        cases hd2 : drive g l a1 with
        | none => rw [hd2] at hd; cases hd
        | some r2 =>
          obtain ⟨b1, o2⟩ := r2
          rw [hd2] at hd
          cases hd
          have := ih (evs ++ [(v, e)]) a0 a1 b o2 (.snoc h v e (legalB_ok hl) hs) hd2
          rw [List.append_assoc] at this
          exact this
    · rw [if_neg hl] at hd; cases hd

/-- `n` executions -/
def execs (n : Nat) : List (Env × Ev) := List.replicate n (env, .exec)

/-- what the outside sees of a run -/
def outsOf (g : Cfg) (l : List (Env × Ev)) : Option (List Out) := (drive g l {}).map (·.2)
/-- some numbers at the end of a run -/
def endOf (g : Cfg) (l : List (Env × Ev)) : Option (Nat × Nat × Nat) :=
  (drive g l {}).map (fun r => (r.1.lastStable, r.1.lastExec, r.1.lastSuper))

theorem run_of_outs {g : Cfg} {l : List (Env × Ev)} {o : List Out} (h : outsOf g l = some o) : ∃ a, Run g l o a := by
  unfold outsOf at h
  cases hd : drive g l {} with
  | none => rw [hd] at h; cases h
  | some r =>
    rw [hd] at h
    have h : r.2 = o := Option.some.inj h
    have := drive_run l [] [] {} r.1 r.2 .init hd
    rw [List.nil_append, List.nil_append, h] at this
    exact ⟨r.1, this⟩

/-- a peer's message, then 150 executions -/
def evTwo (c : Content) : List (Env × Ev) := (env, .recv (cp 1 150 0 c false)) :: execs 150

set_option maxRecDepth 100000 in
theorem two_outs : outsOf g4 (evTwo (con 1)) = some [.stable 150] := by decide +kernel

/-- **The full quorum is not needed** (BUG81): with `f = 1` and `n = 4`, one message of one peer, possibly the faulty
one, makes a checkpoint stable: nobody else ever sent anything. -/
theorem stable_two : (∃ a, Run g4 (evTwo (con 1)) [.stable 150] a) ∧
    ∀ sg, ¬ Backed g4 (evTwo (con 1)) sg 150 (2 * g4.F + g4.C + 1) := by
  refine ⟨run_of_outs two_outs, ?_⟩
  rintro sg ⟨c, l, h1, h2, h3, h4⟩
  have hsub : ∀ r ∈ l, r ∈ [0, 1] := by
    intro r hr
    have := (h4 r hr).2
    unfold Vouches at this
    split at this
    · rename_i e
      rw [e]; decide
    · obtain ⟨v, m, q1, q2, q3, q4⟩ := this
      unfold evTwo execs at q1
      rcases List.mem_cons.1 q1 with q | q
      · cases q
        rw [← q2]; decide
      · have := List.eq_of_mem_replicate q
        cases this
  have := ListU.nodup_subset_length h1 hsub
  have hb : 3 ≤ l.length := h2
  simp at this
  omega

/-- a replica that reached another state -/
def g4b : Cfg := { F := 1, C := 0, self := 2 }
def envB : Env := { env with dg := odd' }
/-- replica 3 is the faulty one: it repeats to each what it wants to hear -/
def evA : List (Env × Ev) := (env, .recv (cp 3 150 0 (con 1) false)) :: execs 150
def evB : List (Env × Ev) := (envB, .recv (cp 3 150 0 (odd' 1) false)) :: List.replicate 150 (envB, .exec)

set_option maxRecDepth 100000 in
theorem a_outs : outsOf g4 evA = some [.stable 150] := by decide +kernel
set_option maxRecDepth 100000 in
theorem b_outs : outsOf g4b evB = some [.stable 150] := by decide +kernel

/-- **Two honest replicas with different states both take checkpoint 150 as stable** (BUG81), with one faulty replica out
of four and every message correctly signed. -/
theorem diverged_stable : (∃ a, Run g4 evA [.stable 150] a) ∧ (∃ a, Run g4b evB [.stable 150] a) ∧ con 1 ≠ odd' 1 :=
  ⟨run_of_outs a_outs, run_of_outs b_outs, by decide⟩

/-- two peers, then the own message: super stable without the fourth replica -/
def evThree : List (Env × Ev) := (env, .recv (cp 1 150 0 (con 1) false)) :: (env, .recv (cp 2 150 0 (con 1) false)) :: execs 150

set_option maxRecDepth 100000 in
theorem three_outs : outsOf g4 evThree = some [.superStable 150, .stable 150] := by decide +kernel

/-- **Super stable with one replica missing** (BUG82): replica 3 never said anything, yet the replica concludes that all
four reached the checkpoint, reports it super stable and may stop at a wedge point. -/
theorem super_three : (∃ a, Run g4 evThree [.superStable 150, .stable 150] a) ∧
    ∀ v m, (v, Ev.recv m) ∈ evThree → m.gen ≠ 3 ∧ m.sender ≠ 3 := by
  refine ⟨run_of_outs three_outs, ?_⟩
  intro v m hm
  unfold evThree at hm
  rcases List.mem_cons.1 hm with q | q
  · cases q; decide
  rcases List.mem_cons.1 q with q | q
  · cases q; decide
  · have := List.eq_of_mem_replicate q
    cases this

/-- the same peers after the own message: exactly the quorum `2f+c+1` -/
def evLate : List (Env × Ev) := execs 150 ++ [(env, .recv (cp 1 150 0 (con 1) false)), (env, .recv (cp 2 150 0 (con 1) false))]

set_option maxRecDepth 100000 in
theorem late_outs : outsOf g4 (execs 150 ++ [(env, .recv (cp 1 150 0 (con 1) false))]) = some [] ∧
    outsOf g4 evLate = some [.stable 150] ∧ endOf g4 evLate = some (150, 150, 0) := by decide +kernel

/-- non-vacuity of `quorum_makes_stable`: the hypotheses hold of the piece `evLate` from the beginning -/
theorem quorum_example : ∃ b, Steps g4 {} evLate b ∧ (150, con 1) ∈ b.signed ∧ 150 ≤ b.lastStable := by
  have hex : ∃ r, drive g4 evLate {} = some r ∧ (150, con 1) ∈ r.1.signed := by
    have h : ((drive g4 evLate {}).map (fun r => decide ((150, con 1) ∈ r.1.signed))) = some true := by
      set_option maxRecDepth 100000 in decide +kernel
    cases hd : drive g4 evLate {} with
    | none => rw [hd] at h; cases h
    | some r =>
      rw [hd] at h
      exact ⟨r, rfl, of_decide_eq_true (Option.some.inj h)⟩
  obtain ⟨⟨b, o⟩, hd, hsg⟩ := hex
  have hst := drive_steps evLate [] {} {} b o .nil hd
  rw [List.nil_append] at hst
  have hmem : ∀ v e, (v, e) ∈ evLate → e = .exec ∨ (v = env ∧ (e = .recv (cp 1 150 0 (con 1) false) ∨ e = .recv (cp 2 150 0 (con 1) false))) := by
    intro v e h
    unfold evLate at h
    rcases List.mem_append.1 h with q | q
    · left; have := List.eq_of_mem_replicate q; cases this; rfl
    · simp only [List.mem_cons, List.not_mem_nil, or_false] at q
      rcases q with q | q
      · cases q; exact .inr ⟨rfl, .inl rfl⟩
      · cases q; exact .inr ⟨rfl, .inr rfl⟩
  refine ⟨b, hst, hsg, ?_⟩
  apply quorum_makes_stable g4_ok (Run.init) (by decide) (by decide) hst ?_ ?_ ?_ hsg (l := [1, 2]) (by decide) (by decide) ?_
  · intro v d h
    rcases hmem v _ h with q | ⟨_, q | q⟩ <;> cases q
  · intro v k h
    rcases hmem v _ h with q | ⟨_, q | q⟩ <;> cases q
  · intro v m h _
    rcases hmem v _ h with q | ⟨rfl, q | q⟩ <;> cases q <;> decide
  · intro r hr
    have hl2 : ∀ v m, (v, Ev.recv m) ∈ [] ++ evLate → m.gen = r → m.seq = 150 → m.content = con 1 := by
      intro v m h _ _
      rw [List.nil_append] at h
      rcases hmem v _ h with q | ⟨_, q | q⟩ <;> cases q <;> rfl
    rcases List.mem_cons.1 hr with rfl | hr
    · exact ⟨by decide, ⟨env, cp 1 150 0 (con 1) false, by unfold evLate; simp, rfl, rfl⟩, hl2⟩
    · rw [List.mem_singleton] at hr; subst hr
      exact ⟨by decide, ⟨env, cp 2 150 0 (con 1) false, by unfold evLate; simp, rfl, rfl⟩, hl2⟩

/-- after `evLate`, a restart with what is stored, and the periodic check: the own message is sent again -/
def descLate : List (Nat × Msg) :=
  [(0, cp 0 150 0 (con 1) true), (1, cp 1 150 0 (con 1) false), (2, cp 2 150 0 (con 1) false)]

set_option maxRecDepth 100000 in
theorem restart_example : outsOf g4 (evLate ++ [(env, .restart descLate), (env, .poll), (env, .ask 5)]) =
    some [.stable 150, .sendAll (cp 0 150 0 (con 1) true), .sendTo 5 (cp 0 150 0 (con 1) true)] := by decide +kernel

/-- **The fast path looks at no checkpoint message** (BUG83): after 225 executions with a fast-path proof a checkpoint
becomes stable although nobody ever sent a checkpoint message; a peer that reported another state changes nothing. -/
def fastEnv : Env := { env with fast := true, waited := false }
set_option maxRecDepth 100000 in
theorem fast_example : outsOf g4 ((env, .recv (cp 1 150 0 (odd' 1) false)) :: (env, .recv (cp 2 150 0 (odd' 1) false)) ::
    (execs 225 ++ [(fastEnv, .poll)])) = some [.stable 150] := by decide +kernel

/-- **State transfer after two messages** (`f + 1 = 2`): both about a checkpoint beyond the window -/
def evST : List (Env × Ev) :=
  [(env, .recv (cp 1 450 0 (con 3) true)), (env, .recv (cp 2 450 0 (con 3) true)), (env, .transferred 3)]

set_option maxRecDepth 100000 in
theorem st_example : outsOf g4 evST = some [.collect, .stable 150, .superStable 450, .sendAll (cp 0 450 0 (con 3) false)] ∧
    endOf g4 evST = some (150, 450, 450) := by decide +kernel

/-- **After state transfer** (BUG84): checkpoint 450 is reported super stable ("all replicas reached it", with one of
four missing) while the last stable checkpoint is 150. -/
theorem super_before_stable : ∃ a o, Run g4 evST o a ∧ Out.superStable 450 ∈ o ∧ a.lastStable = 150 := by
  have h : ((drive g4 evST {}).map (fun r => decide (Out.superStable 450 ∈ r.2 ∧ r.1.lastStable = 150))) = some true := by
    set_option maxRecDepth 100000 in decide +kernel
  cases hd : drive g4 evST {} with
  | none => rw [hd] at h; cases h
  | some r =>
    rw [hd] at h
    have h1 := of_decide_eq_true (Option.some.inj h)
    have := drive_run evST [] [] {} r.1 r.2 .init hd
    rw [List.nil_append, List.nil_append] at this
    exact ⟨r.1, r.2, this, h1.1, h1.2⟩

/-- **Stale entries after an epoch change** (BUG85): peer 1 reported checkpoint 150 of epoch 0, which this replica then
executed itself; in epoch 1 a single message of replica 3 and five idle seconds start state transfer, because the old
entry no longer has the current epoch and is not dropped. -/
def envE1 : Env := { env with epoch := 1, late := true }
def evEp : List (Env × Ev) := (env, .recv (cp 1 150 0 (con 1) true)) :: (execs 150 ++ [(envE1, .recv (cp 3 300 1 (con 2) true))])

set_option maxRecDepth 100000 in
theorem epoch_example : outsOf g4 evEp = some [.stable 150, .collect] := by decide +kernel

/-- in the same situation without the change of epoch nothing happens -/
def envE0 : Env := { env with late := true }
set_option maxRecDepth 100000 in
theorem epoch_same : outsOf g4 ((env, .recv (cp 1 150 0 (con 1) true)) :: (execs 150 ++ [(envE0, .recv (cp 3 300 0 (con 2) true))])) =
    some [.stable 150] := by decide +kernel

/-- **Status messages**: a replica that reports an older stable checkpoint gets the own messages after it -/
theorem status_example : outsOf g4 (execs 150 ++ [(env, .status 2 0)]) = some [.sendTo 2 (cp 0 150 0 (con 1) false)] := by
  set_option maxRecDepth 100000 in decide +kernel

/-! ### read-only replica -/

def roRunB (g : Cfg) : List RoEv → Ro → List Nat × Ro
  | [], a => ([], a)
  | e :: l, a => ((roStep g e a).2.toList ++ (roRunB g l (roStep g e a).1).1, (roRunB g l (roStep g e a).1).2)

/-- three equal messages start state transfer, a fourth, different one changes nothing, repetitions do not count -/
theorem ro_example : (roRunB { g4 with self := 7 } [.recv 0 false (cp 1 150 0 (con 1) true), .recv 0 false (cp 1 150 0 (con 1) true),
      .recv 0 false (cp 3 150 0 (odd' 1) true), .recv 0 false (cp 0 150 0 (con 1) true)] {}).1 = [] ∧
    (roRunB { g4 with self := 7 } [.recv 0 false (cp 1 150 0 (con 1) true), .recv 0 false (cp 3 150 0 (odd' 1) true),
      .recv 0 false (cp 0 150 0 (con 1) true), .recv 0 false (cp 2 150 0 (con 1) true), .done 1,
      .recv 0 false (cp 2 150 0 (con 1) true)] {}).1 = [150] := by decide +kernel

/-- non-vacuity of `ro_collect_justified` -/
theorem ro_run_example : ∃ evs o a, RoRun { g4 with self := 7 } evs o a ∧
    (roStep { g4 with self := 7 } (.recv 0 false (cp 2 150 0 (con 1) true)) a).2 = some 150 := by
  refine ⟨_, _, _, .step (.step .init (.recv 0 false (cp 1 150 0 (con 1) true)) ?_) (.recv 0 false (cp 0 150 0 (con 1) true)) ?_, ?_⟩
  · intro ep c m h; cases h; decide
  · intro ep c m h; cases h; decide
  · decide +kernel

end Verif.Ckpt.Ex
