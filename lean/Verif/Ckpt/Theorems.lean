import Verif.Ckpt.Steps4
/-!
C42: theorems over every life of a replica.
-/
set_option linter.unusedSimpArgs false
set_option linter.unusedVariables false
namespace Verif.Ckpt
open Concord Concord.Cert

variable {g : Cfg} {H : Msg → Prop}

/-- the message was received -/
def Heard (evs : List (Env × Ev)) (m : Msg) : Prop := ∃ v, (v, Ev.recv m) ∈ evs

theorem MsgOk.monoH {H' : Msg → Prop} (hH : ∀ m, H m → H' m) {sg s id m} (h : MsgOk g H sg s id m) :
    MsgOk g H' sg s id m := ⟨h.gen, h.lt, h.seq, h.self, fun e => hH _ (h.peer e)⟩

theorem Inv.monoH {H' : Msg → Prop} (hH : ∀ m, H m → H' m) {a : St} (h : Inv g H a) : Inv g H' a := by
  obtain ⟨hc, ht, h1, h2, h3⟩ := h
  refine ⟨?_, ⟨ht.keys, fun e he => ?_⟩, h1, h2, h3⟩
  · have q1 := hc.msgs; have q2 := hc.chk; have q3 := hc.dsc
    cases hc
    constructor <;> first | assumption | skip
    · exact fun s id m hm => (q1 s id m hm).monoH hH
    · intro s m hm
      obtain ⟨p1, p2, p3⟩ := q2 s m hm
      exact ⟨p1, p2.monoH hH, p3⟩
    · intro e he
      exact ⟨(q3 e he).1.monoH hH, (q3 e he).2⟩
  · obtain ⟨p1, p2, p3⟩ := ht.ent e he
    exact ⟨p1, p2, hH _ p3⟩

theorem heard_mono {evs : List (Env × Ev)} {x : Env × Ev} (m : Msg) (h : Heard evs m) : Heard (evs ++ [x]) m := by
  obtain ⟨v, hv⟩ := h
  exact ⟨v, List.mem_append_left _ hv⟩

theorem run_step_inv (hg : g.Ok) {evs : List (Env × Ev)} {v : Env} {e : Ev} {a : St} (h : Inv g (Heard evs) a)
    (hl : Legal g e a) : ∃ a' o, step g v e a = some (a', o) ∧ StepOk g (Heard (evs ++ [(v, e)])) v e a a' o :=
  step_ok hg (h.monoH heard_mono) hl (fun m hm => ⟨v, by rw [hm]; simp⟩)

theorem run_inv (hg : g.Ok) {evs o a} (h : Run g evs o a) : Inv g (Heard evs) a := by
  induction h with
  | init => exact init_inv hg
  | step h v e hl hs ih =>
    obtain ⟨a', o', h1, h2⟩ := run_step_inv (v := v) hg ih hl
    rw [hs] at h1; cases h1
    exact h2.inv

theorem run_step (hg : g.Ok) {evs o a} (h : Run g evs o a) {v : Env} {e : Ev} {a' o'} (hl : Legal g e a)
    (hs : step g v e a = some (a', o')) : StepOk g (Heard (evs ++ [(v, e)])) v e a a' o' := by
  obtain ⟨a1, o1, h1, h2⟩ := run_step_inv (v := v) hg (run_inv hg h) hl
  rw [hs] at h1; cases h1
  exact h2

/-- **No event makes a replica fail**: whatever messages arrive, at every point of every life of a replica, none of the
assertions of the modelled functions fails and every slot that is read exists. -/
theorem never_aborts (hg : g.Ok) {evs o a} (h : Run g evs o a) (v : Env) (e : Ev) (hl : Legal g e a) :
    (step g v e a).isSome = true := by
  obtain ⟨a', o', h1, -⟩ := run_step_inv (v := v) hg (run_inv hg h) hl
  rw [h1]; rfl

/-- **The last stable sequence number** is always a checkpoint, never ahead of what was executed and never more than the
work window behind it; the stored copies agree. -/
theorem window (hg : g.Ok) {evs o a} (h : Run g evs o a) :
    a.lastStable % 150 = 0 ∧ a.lastStable ≤ a.lastExec ∧ a.lastExec ≤ a.lastStable + 300 ∧
      a.ps.lastStable = a.lastStable ∧ a.ps.lastExec = a.lastExec := by
  have hi := run_inv hg h
  exact ⟨hi.core.lsm, hi.core.le1, hi.le2, hi.core.psLS, hi.core.psLE⟩

/-- **Nothing goes back**: the last stable and the last executed sequence number never decrease, restarts included. -/
theorem monotone (hg : g.Ok) {evs o a} (h : Run g evs o a) {v : Env} {e : Ev} {a' o'} (hl : Legal g e a)
    (hs : step g v e a = some (a', o')) : a.lastStable ≤ a'.lastStable ∧ a.lastExec ≤ a'.lastExec :=
  ⟨(run_step hg h hl hs).ls, (run_step hg h hl hs).le⟩

/-- **A checkpoint is reported stable exactly when the last stable sequence number moves to it.** -/
theorem stable_reported (hg : g.Ok) {evs o a} (h : Run g evs o a) {v : Env} {e : Ev} {a' o'} (hl : Legal g e a)
    (hs : step g v e a = some (a', o')) (s : Nat) :
    Out.stable s ∈ o' ↔ a.lastStable < s ∧ a'.lastStable = s := by
  have hok := run_step hg h hl hs
  constructor
  · intro hm
    obtain ⟨h1, h2, -⟩ := hok.outs _ hm
    exact ⟨h1, h2⟩
  · rintro ⟨h1, h2⟩
    have := hok.said (by omega)
    rw [h2] at this; exact this

theorem backed_iff {evs : List (Env × Ev)} {sg s k} : BackedH g (Heard evs) sg s k ↔ Backed g evs sg s k := by
  unfold BackedH Backed Vouches Heard
  constructor
  · rintro ⟨c, l, h1, h2, h3, h4⟩
    refine ⟨c, l, h1, h2, h3, fun r hr => ⟨(h4 r hr).1, ?_⟩⟩
    have := (h4 r hr).2
    split at this
    · rename_i e; rw [if_pos e]; exact this
    · rename_i e; rw [if_neg e]
      obtain ⟨m, ⟨v, q1⟩, q2⟩ := this
      exact ⟨v, m, q1, q2⟩
  · rintro ⟨c, l, h1, h2, h3, h4⟩
    refine ⟨c, l, h1, h2, h3, fun r hr => ⟨(h4 r hr).1, ?_⟩⟩
    have := (h4 r hr).2
    split at this
    · rename_i e; rw [if_pos e]; exact this
    · rename_i e; rw [if_neg e]
      obtain ⟨v, m, q1, q2⟩ := this
      exact ⟨m, ⟨v, q1⟩, q2⟩

/-- **Why a checkpoint is stable**: when a checkpoint is reported stable, this replica and others, `2f+c` in all, vouch
for one content of it; or this replica signed it, has executed 75 more sequence numbers and the last one has a fast-path
proof; or state transfer reached the checkpoint 300 later.

Partial: the intended quorum is `2f+c+1` (CheckpointInfo.hpp 103), which would let the contents of two stable checkpoints
be compared; the code counts this replica twice when an equal message arrived before its own (`stable_two` shows a run
with `f = 1` in which a single peer is enough), and on the fast path no checkpoint message is looked at at all. -/
theorem stable_justified_partial (hg : g.Ok) {evs o a} (h : Run g evs o a) {v : Env} {e : Ev} {a' o'} (hl : Legal g e a)
    (hs : step g v e a = some (a', o')) {s : Nat} (hm : Out.stable s ∈ o') :
    Backed g (evs ++ [(v, e)]) a'.signed s (2 * g.F + g.C) ∨
    (e = .poll ∧ v.fast = true ∧ s + 75 ≤ a.lastExec ∧ ∃ c, (s, c) ∈ a.signed) ∨
    (∃ k, e = .transferred k ∧ s + 300 = k * 150) := by
  obtain ⟨-, -, hw⟩ := (run_step hg h hl hs).outs _ hm
  rcases hw with q | q | q
  · exact .inl (backed_iff.1 q)
  · exact .inr (.inl q)
  · exact .inr (.inr q)

/-- **Why a checkpoint is super stable** (after which the replica may stop at a wedge point): all replicas but one, this
one among them, vouch for one content of it.  Partial: the intent (CheckpointInfo.hpp 66-71) is all `n` replicas;
`super_three` shows a run in which one of four never said anything. -/
theorem super_justified_partial (hg : g.Ok) {evs o a} (h : Run g evs o a) {v : Env} {e : Ev} {a' o'} (hl : Legal g e a)
    (hs : step g v e a = some (a', o')) {s : Nat} (hm : Out.superStable s ∈ o') :
    Backed g (evs ++ [(v, e)]) a'.signed s (g.n - 1) :=
  backed_iff.1 ((run_step hg h hl hs).outs _ hm)

/-! ### state transfer -/

theorem table_epoch (hg : g.Ok) {ep : Nat} {evs o a} (h : Run g evs o a) (he : ∀ x ∈ evs, x.1.epoch = ep) :
    ∀ e ∈ a.table, ep ≤ e.2.epoch := by
  induction h with
  | init => simp
  | step h v e hl hs ih =>
    intro x hx
    have hv := he (v, e) (by simp)
    rcases (run_step hg h hl hs).tbl x hx with q | q
    · exact ih (fun y hy => he y (List.mem_append_left _ hy)) x q
    · simp only at hv; omega

/-- **State transfer is not started by `f` liars**: when a replica asks for state transfer, it was not collecting state
already, and `f+1` distinct replicas told it, in signed messages flagged stable, about a checkpoint it has not executed
in its own epoch, or of another epoch; and either it executed nothing for 5 s or these messages are beyond its window.

Partial: "another epoch" may be an older one, if this replica's epoch has changed since the message came (entries of the
table are compared with the current epoch only for equality, RI 2351-2353); `collect_justified` is the full property
while the epoch does not change. -/
theorem collect_justified_partial (hg : g.Ok) {evs o a} (h : Run g evs o a) {v : Env} {e : Ev} {a' o'} (hl : Legal g e a)
    (hs : step g v e a = some (a', o')) (hm : Out.collect ∈ o') :
    v.collecting = false ∧ ∃ l : List Nat, l.Nodup ∧ g.F + 1 ≤ l.length ∧
      ∀ r ∈ l, ∃ v' m, (v', Ev.recv m) ∈ evs ++ [(v, e)] ∧ m.gen = r ∧ m.stable = true ∧
        ¬ (m.seq ≤ a.lastExec ∧ m.epoch = v.epoch) ∧
        (v.late = true ∨ a.lastStable + 300 < m.seq ∨ v.epoch < m.epoch) := by
  obtain ⟨h1, l, h2, h3, h4⟩ := (run_step hg h hl hs).outs _ hm
  refine ⟨h1, l, h2, h3, fun r hr => ?_⟩
  obtain ⟨m, ⟨v', q1⟩, q2, q3, q4, q5, -⟩ := h4 r hr
  exact ⟨v', m, q1, q2, q3, q4, q5⟩

/-- **State transfer is not started by `f` liars**, the full property while this replica's epoch stays the same: it is
asked for only if `f+1` distinct replicas told it that a checkpoint ahead of it is stable, and, unless it executed
nothing for 5 s, `f+1` distinct replicas told it about one beyond its window or of a later epoch. -/
theorem collect_justified (hg : g.Ok) {ep : Nat} {evs o a} (h : Run g evs o a) {v : Env} {e : Ev} {a' o'}
    (he : ∀ x ∈ evs ++ [(v, e)], x.1.epoch = ep) (hl : Legal g e a)
    (hs : step g v e a = some (a', o')) (hm : Out.collect ∈ o') :
    v.collecting = false ∧ ∃ l : List Nat, l.Nodup ∧ g.F + 1 ≤ l.length ∧
      (∀ r ∈ l, ToldAhead (evs ++ [(v, e)]) ep a.lastExec r) ∧
      (v.late = true ∨ ∀ r ∈ l, ToldBeyond (evs ++ [(v, e)]) ep a.lastStable r) := by
  have hv : v.epoch = ep := he (v, e) (by simp)
  have htab := table_epoch hg h (fun x hx => he x (List.mem_append_left _ hx))
  obtain ⟨h1, l, h2, h3, h4⟩ := (run_step hg h hl hs).outs _ hm
  rw [hv] at h4
  refine ⟨h1, l, h2, h3, fun r hr => ?_, ?_⟩
  · obtain ⟨m, ⟨v', q1⟩, q2, q3, q4, q5, q6⟩ := h4 r hr
    refine ⟨v', m, q1, q2, q3, ?_⟩
    have : ep ≤ m.epoch := by
      rcases q6 with q | q
      · exact htab _ q
      · exact q
    omega
  · by_cases hlate : v.late = true
    · exact .inl hlate
    · right
      intro r hr
      obtain ⟨m, ⟨v', q1⟩, q2, q3, q4, q5, q6⟩ := h4 r hr
      refine ⟨v', m, q1, q2, q3, ?_⟩
      rcases q5 with q | q
      · exact absurd q hlate
      · exact q

/-! ### what the replica says -/

/-- a message sent in this replica's own name was signed, any other was received -/
def Honest (g : Cfg) (evs : List (Env × Ev)) (signed : List (Nat × Content)) (m : Msg) : Prop :=
  (m.gen = g.self → (m.seq, m.content) ∈ signed) ∧ (m.gen ≠ g.self → Heard evs m)

theorem outs_honest (hg : g.Ok) {evs o a} (h : Run g evs o a) :
    ∀ y ∈ o, ∀ m, y.msg? = some m → Honest g evs a.signed m := by
  induction h with
  | init => simp
  | step h v e hl hs ih =>
    intro y hy m hm
    have hok := run_step hg h hl hs
    rcases List.mem_append.1 hy with hy | hy
    · obtain ⟨p, q⟩ := ih y hy m hm
      exact ⟨fun e => hok.sub _ (p e), fun e => heard_mono m (q e)⟩
    · have := hok.outs y hy
      cases y with
      | stable s => cases hm
      | superStable s => cases hm
      | collect => cases hm
      | sendAll m' =>
        cases hm
        obtain ⟨p, -⟩ := this
        exact ⟨fun _ => (p.self rfl).1, fun e => absurd p.gen e⟩
      | sendTo r m' =>
        cases hm
        obtain ⟨p, -⟩ := this
        exact ⟨fun e => (p.self e).1, fun e => p.peer e⟩

/-- **No equivocation**: over its whole life, restarts and state transfers included, a replica never sends two checkpoint
messages in its own name that say different things about the same sequence number. -/
theorem no_equivocation (hg : g.Ok) {evs o a} (h : Run g evs o a) {y1 y2 : Out} {m1 m2 : Msg} (h1 : y1 ∈ o) (h2 : y2 ∈ o)
    (hm1 : y1.msg? = some m1) (hm2 : y2.msg? = some m2) (g1 : m1.gen = g.self) (g2 : m2.gen = g.self)
    (hs : m1.seq = m2.seq) : m1.content = m2.content := by
  have p1 := (outs_honest hg h y1 h1 m1 hm1).1 g1
  have p2 := (outs_honest hg h y2 h2 m2 hm2).1 g2
  rw [hs] at p1
  exact (run_inv hg h).core.su _ _ _ p1 p2

/-- **Only what was received is passed on**: a checkpoint message sent in the name of another replica was received from
the network with that replica's signature, and is passed on unchanged. -/
theorem forwards_received (hg : g.Ok) {evs o a} (h : Run g evs o a) {y : Out} {m : Msg} (hy : y ∈ o) (hm : y.msg? = some m)
    (hne : m.gen ≠ g.self) : ∃ v, (v, Ev.recv m) ∈ evs :=
  (outs_honest hg h y hy m hm).2 hne

/-- **The stable flag is true**: a message sent in this replica's name that claims its checkpoint is stable is about a
sequence number that is not after the last stable one. -/
theorem stable_flag (hg : g.Ok) {evs o a} (h : Run g evs o a) {v : Env} {e : Ev} {a' o'} (hl : Legal g e a)
    (hs : step g v e a = some (a', o')) {y : Out} {m : Msg} (hy : y ∈ o') (hm : y.msg? = some m) (hg' : m.gen = g.self)
    (hst : m.stable = true) : m.seq ≤ a'.lastStable := by
  have := (run_step hg h hl hs).outs y hy
  cases y with
  | stable s => cases hm
  | superStable s => cases hm
  | collect => cases hm
  | sendAll m' => cases hm; exact this.2 hst
  | sendTo r m' => cases hm; exact this.2 hg' hst

/-- **Only executed checkpoints are signed**: what a replica vouches for is a checkpoint it executed or reached by state
transfer. -/
theorem signed_executed (hg : g.Ok) {evs o a} (h : Run g evs o a) {s : Nat} {c : Content} (hs : (s, c) ∈ a.signed) :
    s % 150 = 0 ∧ 0 < s ∧ s ≤ a.lastExec := (run_inv hg h).core.sle s c hs

/-! ### restarts -/

/-- **A restart loses nothing that was said**: it succeeds at every point, keeps the last stable and the last executed
sequence number, reports nothing, and the replica still has its own message, with the same content, for the last stable
checkpoint and every later one it signed. -/
theorem restart_keeps (hg : g.Ok) {evs o a} (h : Run g evs o a) {d : List (Nat × Msg)} (hd : d.Perm a.ps.desc) :
    ∃ a', restart g d a = some (a', []) ∧ a'.lastStable = a.lastStable ∧ a'.lastExec = a.lastExec ∧
      ∀ s c, (s, c) ∈ a.signed → a.lastStable ≤ s →
        ∃ m, (a'.slots s).own g = some m ∧ m.gen = g.self ∧ m.seq = s ∧ m.content = c ∧
          (s = a.lastStable → m.stable = true) := by
  obtain ⟨a', h1, h2, h3, h4, h5, h6⟩ := restart_full (v := ⟨0, fun _ => ⟨0, 0, 0, 0⟩, false, false, false, false, false⟩) hg (run_inv hg h) hd
  refine ⟨a', h1, h4, h5, ?_⟩
  intro s c hs hls
  have hi := h2.inv
  have hs' : (s, c) ∈ a'.signed := by rw [h3]; exact hs
  obtain ⟨m, hm⟩ := hi.core.own s c hs' (by have := hi.core.b1; omega)
  have hok := hi.core.msgs _ _ _ hm
  refine ⟨_, own_some (good_keys (hi.core.good s)) hm, hok.gen, hok.seq, ?_, ?_⟩
  · exact hi.core.su _ _ _ (hok.self rfl).1 hs'
  · intro e
    subst e
    rw [← h4] at hs'
    have := hi.core.ost2 c hs'
    rw [h4] at this
    exact this

/-- **A restarted replica repeats its last checkpoint message**: the first periodic check in an active view sends its own
message for the last checkpoint it executed to everyone, with the content it signed before the restart. -/
theorem restart_resends (hg : g.Ok) {evs o a} (h : Run g evs o a) {d : List (Nat × Msg)} (hd : d.Perm a.ps.desc)
    (hle : 150 ≤ a.lastExec) : ∃ a', restart g d a = some (a', []) ∧
      ∀ v : Env, v.collecting = false → v.viewActive = true →
        ∃ a2 m, poll g v a' = some (a2, [.sendAll m]) ∧ m.gen = g.self ∧ m.seq = a.lastExec / 150 * 150 ∧
          (m.seq, m.content) ∈ a.signed := by
  have hi0 := run_inv hg h
  obtain ⟨a', h1, h2, h3, h4, h5, h6⟩ := restart_full (v := ⟨0, fun _ => ⟨0, 0, 0, 0⟩, false, false, false, false, false⟩) hg hi0 hd
  refine ⟨a', h1, fun v hv1 hv2 => ?_⟩
  have hi := h2.inv
  have hpos : 0 < a.lastExec / cpw * cpw := by unfold cpw; omega
  obtain ⟨c, hc⟩ := hi0.flr hpos
  have hsl : a.lastExec / cpw * cpw ≤ a.lastExec := Nat.div_mul_le_self _ _
  have hlsm := hi0.core.lsm; have hle1 := hi0.core.le1; have hle2 := hi0.le2
  have hls : a.lastStable ≤ a.lastExec / cpw * cpw := by unfold cpw at *; omega
  have hc' : (a.lastExec / cpw * cpw, c) ∈ a'.signed := by rw [h3]; exact hc
  have hb1 := hi.core.b1
  obtain ⟨m, hm⟩ := hi.core.own _ c hc' (by omega)
  have hown := own_some (g := g) (good_keys (hi.core.good _)) hm
  have hin := msgs_in hi.core hm
  have hok := hi.core.msgs _ _ _ hm
  unfold poll
  rw [if_neg (by rw [hv1, hv2]; simp)]
  simp only
  rw [h5]
  have hsm : a.lastExec / cpw * cpw % cpw = 0 := Nat.mul_mod_left _ _
  rw [if_neg (by omega), if_neg (by rw [getOk_iff.2 ⟨hsm, inside_iff.1 hin⟩]; simp), hown]
  simp only
  rw [if_neg (by rw [(h6 _).1]; simp), if_pos (by rw [(h6 _).2]; simp)]
  refine ⟨_, _, rfl, hok.gen, hok.seq, ?_⟩
  have := (hok.self rfl).1
  rw [h3] at this
  show (m.seq, m.content) ∈ a.signed
  rw [hok.seq]; exact this

end Verif.Ckpt
