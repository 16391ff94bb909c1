import Verif.Ckpt.Progress
/-!
C42: a read-only replica (`/repo/bftengine/src/bftengine/ReadOnlyReplica.cpp`): `onTransferringCompleteImp` 98-103,
`onMessage<CheckpointMsg>` 125-167, with `CheckpointInfo<false>`. Not modelled: the descriptor written for the collected
checkpoint (169-195), metrics, client requests.
-/
set_option linter.unusedSimpArgs false
set_option linter.unusedVariables false
namespace Verif.Ckpt
open Concord Concord.Cert

/-- `CheckpointInfo<false>` (CheckpointInfo.hpp 33, 40-44): no own message -/
def Cfg.ro (g : Cfg) : Cert.Params Msg :=
  { n := 3 * g.F + 2 * g.C + 1, maxFails := g.F, required := 2 * g.F + g.C + 1, self := g.self, selfTrust := false,
    selfRequired := false, keepAll := true, eqv := eqv }

/-- `lastExecutedSeqNum` and the static map `checkpointsInfo` (ReadOnlyReplica.cpp 154). `acc` is a ghost: the messages
that were put into the map since it was last cleared. -/
structure Ro where
  lastExec : Nat := 0
  map : Nat → Cert.St Msg := fun _ => {}
  acc : List Msg := []

/-- What happens to a read-only replica: a checkpoint message (with the epoch of the reserved pages and
`isCollectingState()`), the end of a state transfer -/
inductive RoEv where
  | recv (ep : Nat) (collecting : Bool) (m : Msg)
  | done (k : Nat)

/-- the message is considered (ReadOnlyReplica.cpp 126-128, 149-152) -/
def relevant (a : Ro) (ep : Nat) (collecting : Bool) (m : Msg) : Bool :=
  !collecting && !(!m.stable || decide (m.seq ≤ a.lastExec) || decide (m.epoch < ep))

/-- `onMessage<CheckpointMsg>` (125-167) and `onTransferringCompleteImp` (98-103); the second component is the checkpoint
for which state transfer is started -/
def roStep (g : Cfg) (e : RoEv) (a : Ro) : Ro × Option Nat :=
  match e with
  | .done k => ({ a with lastExec := k * cpw }, none)
  | .recv ep collecting m =>
    if relevant a ep collecting m then
      let c := ((a.map m.seq).addMsg g.ro m.gen m).1
      if c.complete then ({ a with map := fun _ => {}, acc := [] }, some m.seq)
      else ({ a with map := fun i => if i = m.seq then c else a.map i, acc := a.acc ++ [m] }, none)
    else (a, none)

/-- A life of a read-only replica: the messages that reach it were accepted by `CheckpointMsg::validate` (their
generating replica is one of the `n`) -/
inductive RoRun (g : Cfg) : List RoEv → List Nat → Ro → Prop
  | init : RoRun g [] [] {}
  | step {evs o a} (h : RoRun g evs o a) (e : RoEv) (hl : ∀ ep c m, e = .recv ep c m → m.gen < g.n) :
      RoRun g (evs ++ [e]) (o ++ (roStep g e a).2.toList) (roStep g e a).1

/-- the messages about `s`, under the replica that generated them -/
def about (l : List Msg) (s : Nat) : List (Nat × Msg) := (l.filter (fun m => m.seq = s)).map (fun m => (m.gen, m))

/-- at least `k` distinct replicas, whose first message about `s` in `l` says content `c` -/
def Says (l : List Msg) (s k : Nat) (c : Content) : Prop :=
  ∃ rs : List Nat, rs.Nodup ∧ k ≤ rs.length ∧ ∀ r ∈ rs, ∃ m, l.find? (fun m => m.seq = s && m.gen = r) = some m ∧ m.content = c

variable {g : Cfg}

theorem ro_ok (hf : 1 ≤ g.F) : g.ro.Ok where
  eqv := eqv_isEqv
  req := by show 2 ≤ 2 * g.F + g.C + 1; omega
  reqn := by show 2 * g.F + g.C + 1 ≤ 3 * g.F + 2 * g.C + 1; omega
  selfOk := fun h => by cases h

theorem crun_snoc {M : Type} {p : Params M} : ∀ (l : List (Nat × M)) (s : Cert.St M) (id : Nat) (m : M),
    Cert.run p s (l ++ [(id, m)]) = ((Cert.run p s l).addMsg p id m).1
  | [], s, id, m => rfl
  | e :: l, s, id, m => crun_snoc l _ id m

theorem about_snoc {l : List Msg} {m : Msg} {s : Nat} : about (l ++ [m]) s = if m.seq = s then about l s ++ [(m.gen, m)] else about l s := by
  unfold about
  rw [List.filter_append]
  by_cases h : m.seq = s
  · rw [if_pos h]; simp [h]
  · rw [if_neg h]; simp [h]

/-- what is known about the messages kept -/
structure RoInv (g : Cfg) (evs : List RoEv) (a : Ro) : Prop where
  map : ∀ s, a.map s = Cert.run g.ro {} (about a.acc s)
  acc : ∀ m ∈ a.acc, m.gen < g.n ∧ m.stable = true ∧ ∃ ep, RoEv.recv ep false m ∈ evs ∧ ep ≤ m.epoch

theorem relevant_iff {a : Ro} {ep : Nat} {cl : Bool} {m : Msg} :
    relevant a ep cl m = true ↔ cl = false ∧ m.stable = true ∧ a.lastExec < m.seq ∧ ep ≤ m.epoch := by
  unfold relevant
  cases cl <;> cases hs : m.stable <;> simp

theorem ro_inv {evs o a} (h : RoRun g evs o a) : RoInv g evs a := by
  induction h with
  | init => exact ⟨fun _ => rfl, by simp⟩
  | @step evs o a h e hl ih =>
    have hmono : ∀ m ∈ a.acc, m.gen < g.n ∧ m.stable = true ∧ ∃ ep, RoEv.recv ep false m ∈ evs ++ [e] ∧ ep ≤ m.epoch := by
      intro m hm
      obtain ⟨p1, p2, ep, p3, p4⟩ := ih.acc m hm
      exact ⟨p1, p2, ep, List.mem_append_left _ p3, p4⟩
    cases e with
    | done k => exact ⟨ih.map, hmono⟩
    | recv ep cl m =>
      unfold roStep
      simp only
      by_cases hr : relevant a ep cl m = true
      · rw [if_pos hr]
        obtain ⟨r1, r2, r3, r4⟩ := relevant_iff.1 hr
        by_cases hc : ((a.map m.seq).addMsg g.ro m.gen m).1.complete = true
        · rw [if_pos hc]
          exact ⟨fun _ => rfl, by simp⟩
        · rw [if_neg hc]
          refine ⟨fun s => ?_, fun m' hm' => ?_⟩
          · show (if s = m.seq then _ else a.map s) = Cert.run g.ro {} (about (a.acc ++ [m]) s)
            rw [about_snoc]
            by_cases e : s = m.seq
            · rw [if_pos e, if_pos e.symm, crun_snoc, ih.map m.seq, e]
            · rw [if_neg e, if_neg (fun e' => e e'.symm), ih.map s]
          · rcases List.mem_append.1 hm' with q | q
            · exact hmono m' q
            · rw [List.mem_singleton] at q; subst q
              exact ⟨hl _ _ _ rfl, r2, ep, by rw [r1]; simp, r4⟩
      · rw [if_neg hr]
        exact ⟨ih.map, hmono⟩

theorem firstOf_about {l : List Msg} {s r : Nat} : firstOf (about l s) r = l.find? (fun m => m.seq = s && m.gen = r) := by
  unfold firstOf about
  induction l with
  | nil => rfl
  | cons m l ih =>
    by_cases h : m.seq = s
    · rw [List.filter_cons_of_pos (by simpa using h), List.map_cons, List.find?_cons, List.find?_cons]
      by_cases h2 : m.gen = r
      · simp [h, h2]
      · have hb : (m.gen == r) = false := by simpa using h2
        have hb2 : (decide (m.seq = s) && decide (m.gen = r)) = false := by simp [h2]
        simp only [hb, hb2]
        exact ih
    · rw [List.filter_cons_of_neg (by simpa using h), List.find?_cons]
      simp [h]; simpa using ih

theorem quorum_iff {l : List Msg} {s k : Nat} (hk : 0 < k) :
    (∃ m, k ≤ (support eqv (about l s) m).card) ↔ ∃ c, Says l s k c := by
  constructor
  · rintro ⟨m, hm⟩
    refine ⟨m.content, (support eqv (about l s) m).toList, Finset.nodup_toList _, by rw [Finset.length_toList]; exact hm, ?_⟩
    intro r hr
    rw [Finset.mem_toList] at hr
    unfold support at hr
    obtain ⟨h1, m', h2, h3⟩ := Finset.mem_filter.1 hr
    rw [firstOf_about] at h2
    simp only [eqv, Bool.and_eq_true, beq_iff_eq] at h3
    exact ⟨m', h2, h3.2.symm⟩
  · rintro ⟨c, rs, h1, h2, h3⟩
    have hne : rs ≠ [] := by intro e; rw [e] at h2; simp at h2; omega
    obtain ⟨r0, hr0⟩ := List.exists_mem_of_ne_nil _ hne
    obtain ⟨m0, hf0, hc0⟩ := h3 r0 hr0
    refine ⟨m0, ?_⟩
    have hsub : rs.toFinset ⊆ support eqv (about l s) m0 := by
      intro r hr
      rw [List.mem_toFinset] at hr
      obtain ⟨m, hf, hc⟩ := h3 r hr
      have q0 := List.find?_some hf0
      have q1 := List.find?_some hf
      simp only [Bool.and_eq_true, decide_eq_true_eq] at q0 q1
      unfold support
      rw [Finset.mem_filter]
      refine ⟨?_, m, by rw [firstOf_about]; exact hf, ?_⟩
      · unfold senders
        rw [List.mem_toFinset]
        refine List.mem_map.2 ⟨(r, m), ?_, rfl⟩
        unfold about
        refine List.mem_map.2 ⟨m, List.mem_filter.2 ⟨List.mem_of_find?_eq_some hf, by simpa using q1.1⟩, by rw [q1.2]⟩
      · simp [eqv, q0.1, q1.1, hc0, hc]
    have := Finset.card_le_card hsub
    rw [List.toFinset_card_of_nodup h1] at this
    omega

/-- **When a read-only replica starts state transfer**: exactly when a message about a later checkpoint, flagged stable,
of an epoch that is not older, arrives while no state is being collected, and with it `2f+c+1` distinct replicas' first
such messages about that checkpoint since the last state transfer say the same content. -/
theorem ro_collect_iff (hf : 1 ≤ g.F) {evs o a} (h : RoRun g evs o a) (ep : Nat) (cl : Bool) (m : Msg) (hm : m.gen < g.n) (s : Nat) :
    (roStep g (.recv ep cl m) a).2 = some s ↔
      cl = false ∧ m.stable = true ∧ a.lastExec < m.seq ∧ ep ≤ m.epoch ∧ s = m.seq ∧
        ∃ c, Says (a.acc ++ [m]) s (2 * g.F + g.C + 1) c := by
  have hi := ro_inv h
  unfold roStep
  simp only
  by_cases hr : relevant a ep cl m = true
  · rw [if_pos hr]
    obtain ⟨r1, r2, r3, r4⟩ := relevant_iff.1 hr
    have hcomp : ((a.map m.seq).addMsg g.ro m.gen m).1.complete = true ↔ ∃ c, Says (a.acc ++ [m]) m.seq (2 * g.F + g.C + 1) c := by
      rw [← quorum_iff (by omega), hi.map, ← crun_snoc]
      have e : about a.acc m.seq ++ [(m.gen, m)] = about (a.acc ++ [m]) m.seq := by rw [about_snoc, if_pos rfl]
      rw [e]
      apply complete_iff_quorum (ro_ok hf) rfl
      intro x hx
      unfold about at hx
      obtain ⟨m', q1, q2⟩ := List.mem_map.1 hx
      have q3 := (List.mem_filter.1 q1).1
      subst q2
      rcases List.mem_append.1 q3 with q | q
      · exact (hi.acc m' q).1
      · rw [List.mem_singleton] at q; subst q; exact hm
    by_cases hc : ((a.map m.seq).addMsg g.ro m.gen m).1.complete = true
    · rw [if_pos hc]
      constructor
      · intro e
        have e : m.seq = s := by simpa using e
        subst e
        exact ⟨r1, r2, r3, r4, rfl, hcomp.1 hc⟩
      · rintro ⟨-, -, -, -, e, -⟩
        rw [e]
    · rw [if_neg hc]
      constructor
      · intro e; cases e
      · rintro ⟨-, -, -, -, e, q⟩
        subst e
        exact absurd (hcomp.2 q) hc
  · rw [if_neg hr]
    constructor
    · intro e; cases e
    · rintro ⟨q1, q2, q3, q4, -⟩
      exact absurd (relevant_iff.2 ⟨q1, q2, q3, q4⟩) hr

/-- **`f` liars cannot make a read-only replica fetch a wrong state**: when it starts state transfer for `s`, `2f+c+1`
distinct replicas each sent it, with their signature, one content of `s` flagged stable. -/
theorem ro_collect_justified (hf : 1 ≤ g.F) {evs o a} (h : RoRun g evs o a) (ep : Nat) (cl : Bool) (m : Msg) (hm : m.gen < g.n)
    {s : Nat} (hs : (roStep g (.recv ep cl m) a).2 = some s) :
    a.lastExec < s ∧ ∃ c, ∃ l : List Nat, l.Nodup ∧ 2 * g.F + g.C + 1 ≤ l.length ∧ ∀ r ∈ l, r < g.n ∧
      ∃ ep' cl' m', RoEv.recv ep' cl' m' ∈ evs ++ [.recv ep cl m] ∧ m'.gen = r ∧ m'.seq = s ∧ m'.stable = true ∧ m'.content = c := by
  obtain ⟨r1, r2, r3, r4, rfl, c, rs, h1, h2, h3⟩ := (ro_collect_iff hf h ep cl m hm s).1 hs
  refine ⟨r3, c, rs, h1, h2, fun r hr => ?_⟩
  obtain ⟨m', hf, hc⟩ := h3 r hr
  have hp := List.find?_some hf
  simp only [Bool.and_eq_true, decide_eq_true_eq] at hp
  rcases List.mem_append.1 (List.mem_of_find?_eq_some hf) with q | q
  · obtain ⟨p1, p2, ep', p3, p4⟩ := (ro_inv h).acc m' q
    exact ⟨by rw [← hp.2]; exact p1, ep', false, m', List.mem_append_left _ p3, hp.2, hp.1, p2, hc⟩
  · rw [List.mem_singleton] at q; subst q
    exact ⟨by rw [← hp.2]; exact hm, ep, cl, m', by simp, hp.2, hp.1, r2, hc⟩

/-- **Two read-only replicas never fetch different states of one checkpoint**: if all but `f` of the replicas send only one
content for `s` (`no_equivocation`), the contents any two read-only replicas (or one, at two times) act upon are equal. -/
theorem ro_agree {bad : List Nat} (hbad : bad.length ≤ g.F) {said : Nat → Nat → Content}
    {l1 l2 : List Nat} {s : Nat} {c1 c2 : Content} (n1 : l1.Nodup) (n2 : l2.Nodup)
    (q1 : 2 * g.F + g.C + 1 ≤ l1.length) (q2 : 2 * g.F + g.C + 1 ≤ l2.length)
    (b1 : ∀ r ∈ l1, r < g.n) (b2 : ∀ r ∈ l2, r < g.n)
    (t1 : ∀ r ∈ l1, r ∉ bad → c1 = said r s) (t2 : ∀ r ∈ l2, r ∉ bad → c2 = said r s) : c1 = c2 := by
  have hu : (l1.toFinset ∪ l2.toFinset).card ≤ g.n := by
    have : l1.toFinset ∪ l2.toFinset ⊆ Finset.range g.n := by
      intro r hr
      rw [Finset.mem_union, List.mem_toFinset, List.mem_toFinset] at hr
      rw [Finset.mem_range]
      rcases hr with hr | hr
      · exact b1 r hr
      · exact b2 r hr
    have := Finset.card_le_card this
    rwa [Finset.card_range] at this
  have hi := Finset.card_union_add_card_inter l1.toFinset l2.toFinset
  rw [List.toFinset_card_of_nodup n1, List.toFinset_card_of_nodup n2] at hi
  have hb : (bad.toFinset).card ≤ g.F := by
    have := List.toFinset_card_le bad
    omega
  have hlt : bad.toFinset.card < (l1.toFinset ∩ l2.toFinset).card := by
    unfold Cfg.n at hu
    omega
  obtain ⟨r, hr, hnb⟩ := Finset.exists_mem_notMem_of_card_lt_card hlt
  rw [Finset.mem_inter, List.mem_toFinset, List.mem_toFinset] at hr
  rw [List.mem_toFinset] at hnb
  rw [t1 r hr.1 hnb, t2 r hr.2 hnb]

end Verif.Ckpt
