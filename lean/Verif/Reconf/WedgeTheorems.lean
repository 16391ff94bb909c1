import Verif.Reconf.WedgeInv
set_option linter.unusedVariables false
set_option linter.unusedSimpArgs false
/-!
# Stopping the system: theorems
-/
namespace Verif.Wedge

/-- **Specification.**  After request `n` has been executed, the latest stopping command up to `n` is `s`, its stop point is
the second checkpoint after it, `w`, and `w` has not been passed. -/
def Pending (log : Nat → List Cmd) (n w : Nat) : Prop :=
  ∃ s, 1 ≤ s ∧ s ≤ n ∧ log s ≠ [] ∧ (∀ p, s < p → p ≤ n → log p = []) ∧ w = second s ∧ n ≤ w

/-- **Specification.**  `q` is a point at which the system stops. -/
def StopPoint (log : Nat → List Cmd) (q : Nat) : Prop := Pending log q q

theorem stopAfter_iff (log : Nat → List Cmd) (n : Nat) : ∀ w, stopAfter log n = some w ↔ Pending log n w := by
  induction n with
  | zero =>
    intro w
    refine ⟨fun h => (by cases h), ?_⟩
    rintro ⟨s, h1, h2, _⟩; omega
  | succ n ih =>
    intro w
    unfold stopAfter
    by_cases hl : log (n + 1) = []
    · rw [if_neg (by simpa using hl)]
      constructor
      · intro h
        by_cases hs : stopAfter log n = some n
        · rw [if_pos hs] at h; cases h
        · rw [if_neg hs] at h
          obtain ⟨s, h1, h2, h3, h4, h5, h6⟩ := (ih w).1 h
          refine ⟨s, h1, by omega, h3, ?_, h5, ?_⟩
          · intro p p1 p2
            by_cases hp : p = n + 1
            · rw [hp]; exact hl
            · exact h4 p p1 (by omega)
          · have : n ≠ w := by intro e; rw [← e] at h; exact hs h
            omega
      · rintro ⟨s, h1, h2, h3, h4, h5, h6⟩
        have hsn : s ≤ n := by
          by_cases he : s = n + 1
          · rw [he] at h3; exact absurd hl h3
          · omega
        have hp : stopAfter log n = some w := (ih w).2 ⟨s, h1, hsn, h3, fun p p1 p2 => h4 p p1 (by omega), h5, by omega⟩
        rw [hp, if_neg]
        intro e
        have := Option.some.inj e
        omega
    · rw [if_pos hl]
      constructor
      · intro h
        cases h
        exact ⟨n + 1, by omega, by omega, hl, fun p p1 p2 => by omega, rfl, by have := second_gt (n + 1); omega⟩
      · rintro ⟨s, h1, h2, h3, h4, h5, h6⟩
        by_cases he : s = n + 1
        · rw [h5, he]
        · exact absurd (h4 (n + 1) (by omega) (by omega)) hl

open Classical in
/-- the number of stop points below `n` -/
noncomputable def stopsBefore (log : Nat → List Cmd) (n : Nat) : Nat := ((List.range n).filter (fun q => decide (StopPoint log q))).length

theorem epochAfter_eq (log : Nat → List Cmd) (n : Nat) : epochAfter log n = stopsBefore log n := by
  classical
  induction n with
  | zero => rfl
  | succ n ih =>
    unfold epochAfter stopsBefore
    rw [List.range_succ, List.filter_append, List.length_append]
    unfold stopsBefore at ih
    rw [ih]
    by_cases h : StopPoint log n
    · rw [if_pos ((stopAfter_iff log n n).2 h)]
      simp [h]
    · rw [if_neg (fun e => h ((stopAfter_iff log n n).1 e))]
      simp [h]

/-! ### where the system stops -/

/-- **No request is executed beyond a stop point, and none is accepted**: a replica with a stop point `q` is at or before `q`,
and every PrePrepare it has accepted is at or before `q`; `q` is the second checkpoint after the latest stopping command
it has executed.  Missing for the full property (false, WedgeExamples): runs with `InstallCommand`, and state transfers
into a later epoch with a stop pending. -/
theorem never_beyond_partial {cfg : Cfg} {log : Nat → List Cmd} (hni : NoInstall log) {l : List Ev} {w : World}
    (h : Reach cfg log okTransfer l w) (i : Nat) {q : Nat} (hq : (w i).stop = some q) :
    Pending log (w i).last q ∧ ∀ p ∈ (w i).accepted, p ≤ q := by
  have hi := reach_inv hni (fun _ _ h => h) h i
  refine ⟨?_, fun p hp => (hi.acc p hp).2 q hq⟩
  rcases hi.stop_eq hni with ⟨_, h2, _⟩ | ⟨_, _, h2, _⟩
  · rw [h2] at hq; exact (stopAfter_iff log _ q).1 hq
  · rw [h2] at hq; cases hq

/-- **Every replica that has executed a stopping command stops**: its stop point is in force, or it is at it and it has been lifted
there. -/
theorem stop_in_force_partial {cfg : Cfg} {log : Nat → List Cmd} (hni : NoInstall log) {l : List Ev} {w : World}
    (h : Reach cfg log okTransfer l w) (i : Nat) {q : Nat} (hq : Pending log (w i).last q) :
    ((w i).stop = some q ∧ (w i).self = stopsBefore log (w i).last) ∨
    ((w i).last = q ∧ (w i).stop = none ∧ (w i).wedged = false ∧ (w i).self = stopsBefore log (w i).last + 1) := by
  have hi := reach_inv hni (fun _ _ h => h) h i
  have hq := (stopAfter_iff log _ q).2 hq
  rw [← epochAfter_eq]
  rcases hi.stop_eq hni with ⟨_, h2, h3⟩ | ⟨h1, _, h2, h4⟩
  · exact .inl ⟨by rw [h2]; exact hq, h3⟩
  · refine .inr ⟨?_, h2, ?_, h4⟩
    · rw [hq] at h1; exact (Option.some.inj h1).symm
    · cases hw : (w i).wedged with
      | false => rfl
      | true => have := hi.wedged hw; rw [h2] at this; cases this

/-- **Nobody stops without a command**: no stop point is in force and the flag is not set if no command is pending. -/
theorem no_stop_without_command_partial {cfg : Cfg} {log : Nat → List Cmd} (hni : NoInstall log) {l : List Ev} {w : World}
    (h : Reach cfg log okTransfer l w) (i : Nat) (hq : ∀ q, ¬ Pending log (w i).last q) : (w i).stop = none ∧ (w i).wedged = false := by
  have hi := reach_inv hni (fun _ _ h => h) h i
  have hn : (w i).stop = none := by
    cases hs : (w i).stop with
    | none => rfl
    | some q => exact absurd (never_beyond_partial hni h i hs).1 (hq q)
  refine ⟨hn, ?_⟩
  cases hw : (w i).wedged with
  | false => rfl
  | true => have := hi.wedged hw; rw [hn] at this; cases this

/-- **Same position, same stop point and epoch**, except that one of two replicas at the same stop point may already have been
lifted. -/
theorem same_stop_partial {cfg : Cfg} {log : Nat → List Cmd} (hni : NoInstall log) {l : List Ev} {w : World}
    (h : Reach cfg log okTransfer l w) (i j : Nat) (he : (w i).last = (w j).last) :
    ((w i).stop = (w j).stop ∧ (w i).self = (w j).self ∧ (w i).chain = (w j).chain) ∨
    (StopPoint log (w i).last ∧ (w i).stop ≠ (w j).stop ∧ ((w i).stop = none ∨ (w j).stop = none)) := by
  have hi := (reach_inv hni (fun _ _ h => h) h i).stop_eq hni
  have hj := (reach_inv hni (fun _ _ h => h) h j).stop_eq hni
  rw [← he] at hj
  rcases hi with ⟨a1, a2, a3⟩ | ⟨a1, a2, a3, a4⟩ <;> rcases hj with ⟨b1, b2, b3⟩ | ⟨b1, b2, b3, b4⟩
  · exact .inl ⟨by rw [a2, b2], by rw [a3, b3], by rw [a1, b1]⟩
  · refine .inr ⟨(stopAfter_iff log _ _).1 b1, ?_, .inr b3⟩
    rw [a2, b1, b3]; intro e; cases e
  · refine .inr ⟨(stopAfter_iff log _ _).1 a1, ?_, .inl a3⟩
    rw [b2, a1, a3]; intro e; cases e
  · exact .inl ⟨by rw [a3, b3], by rw [a4, b4], by rw [a2, b2]⟩

theorem wedgeEvent_fields (r : Rep) : (wedgeEvent r).last = r.last ∧ (wedgeEvent r).snaps = r.snaps ∧ (wedgeEvent r).chain = r.chain ∧
    (wedgeEvent r).self = r.self ∧ (wedgeEvent r).cbs = r.cbs ∧
    (r.stop = none → (wedgeEvent r).stop = some r.last → (wedgeEvent r).wedged = true) := by
  unfold wedgeEvent
  cases r.chain.wedge with
  | none => exact ⟨rfl, rfl, rfl, rfl, rfl, fun h1 h2 => (by rw [h1] at h2; cases h2)⟩
  | some x =>
    obtain ⟨s, e⟩ := x
    simp only
    by_cases h0 : s = 0
    · rw [if_pos h0]; exact ⟨rfl, rfl, rfl, rfl, rfl, fun h1 h2 => (by rw [h1] at h2; cases h2)⟩
    · rw [if_neg h0]
      by_cases h1 : e = r.chain.epoch
      · rw [if_pos h1]
        by_cases h2 : stopFor s = some r.last
        · rw [if_pos h2]; exact ⟨rfl, rfl, rfl, rfl, rfl, fun _ _ => rfl⟩
        · rw [if_neg h2]; exact ⟨rfl, rfl, rfl, rfl, rfl, fun _ h => absurd h h2⟩
      · rw [if_neg h1]; exact ⟨rfl, rfl, rfl, rfl, rfl, fun h1 h2 => (by rw [h1] at h2; cases h2)⟩

theorem restart_fields (b : Bool) (r : Rep) : (restart b r).last = r.last ∧ (restart b r).snaps = r.snaps ∧
    (restart b r).chain = { r.chain with epoch := if b then r.chain.epoch + 1 else r.chain.epoch } ∧
    (restart b r).self = (if b then r.chain.epoch + 1 else r.chain.epoch) ∧ (restart b r).cbs = [] ∧
    ((restart b r).stop = some r.last → (restart b r).wedged = true) := by
  obtain ⟨h1, h2, h3, h4, h5, h6⟩ := wedgeEvent_fields { r with stop := none, wedged := false, cbs := [], onStable := false, onSuper := false, self := if b then r.chain.epoch + 1 else r.chain.epoch, chain := { r.chain with epoch := if b then r.chain.epoch + 1 else r.chain.epoch } }
  exact ⟨h1, h2, h3, h4, h5, h6 rfl⟩

/-! ### who lifts a stop -/

/-- **Specification.**  Votes needed: 2f+c+1 with `bft_support`, otherwise all n. -/
def required (cfg : Cfg) (bft : Bool) : Nat := if bft then 2 * cfg.f + cfg.c + 1 else cfg.n

theorem quorum_eq (cfg : Cfg) (bft : Bool) : quorum cfg bft = required cfg bft := rfl

/-- in the run, a replica stopped at `q` received enough valid votes for its epoch or a later one -/
def Lifted (cfg : Cfg) (log : Nat → List Cmd) (l : List Ev) (q : Nat) : Prop :=
  ∃ (l1 l2 : List Ev) (j : Nat) (u : Unwedge) (w1 : World), l = l1 ++ .unwedge j u :: l2 ∧ Reach cfg log okTransfer l1 w1 ∧
    (w1 j).wedged = true ∧ (w1 j).stop = some q ∧ (w1 j).last = q ∧ (w1 j).self = stopsBefore log q ∧
    required cfg u.bft ≤ countVotes cfg (w1 j).self u.votes

theorem Lifted.snoc {cfg : Cfg} {log : Nat → List Cmd} {l : List Ev} {q : Nat} (h : Lifted cfg log l q) (e : Ev) : Lifted cfg log (l ++ [e]) q := by
  obtain ⟨l1, l2, j, u, w1, h1, h2⟩ := h
  exact ⟨l1, l2 ++ [e], j, u, w1, by rw [h1]; simp, h2⟩

/-- the replica has passed `q`, or is about to -/
def Passed (r : Rep) (q : Nat) : Prop := q < r.last ∨ (r.last = q ∧ r.stop = none)

theorem reach_lifted {cfg : Cfg} {log : Nat → List Cmd} (hni : NoInstall log) {l : List Ev} {w : World}
    (h : Reach cfg log okTransfer l w) : ∀ q, StopPoint log q → ∀ i, (Passed (w i) q → Lifted cfg log l q) ∧
      (∀ x ∈ (w i).snaps, q < x.1 → Lifted cfg log l q) := by
  induction h with
  | init =>
    intro q hq i
    refine ⟨?_, fun x hx => (by cases hx)⟩
    obtain ⟨s, h1, h2, _⟩ := hq
    rintro (h | ⟨h, _⟩)
    · have h : q < 0 := h; omega
    · have h : 0 = q := h; omega
  | step hr ho hs ih =>
    rename_i l0 w0 w0' e
    intro q hq
    have hinv := reach_inv hni (fun _ _ h => h) hr
    have hqs := (stopAfter_iff log q q).2 hq
    have upd : ∀ (i : Nat) (r : Rep), (Passed r q → Lifted cfg log (l0 ++ [e]) q) → (∀ x ∈ r.snaps, q < x.1 → Lifted cfg log (l0 ++ [e]) q) →
        ∀ j, (Passed (w0.set i r j) q → Lifted cfg log (l0 ++ [e]) q) ∧ (∀ x ∈ (w0.set i r j).snaps, q < x.1 → Lifted cfg log (l0 ++ [e]) q) := by
      intro i r h1 h2 j
      unfold World.set
      split
      · exact ⟨h1, h2⟩
      · exact ⟨fun h => ((ih q hq j).1 h).snoc e, fun x hx hl => ((ih q hq j).2 x hx hl).snoc e⟩
    have keep : ∀ (i : Nat) (r : Rep), (Passed r q → Passed (w0 i) q) → r.snaps = (w0 i).snaps →
        ∀ j, (Passed (w0.set i r j) q → Lifted cfg log (l0 ++ [e]) q) ∧ (∀ x ∈ (w0.set i r j).snaps, q < x.1 → Lifted cfg log (l0 ++ [e]) q) := by
      intro i r h1 h2
      exact upd i r (fun h => ((ih q hq i).1 (h1 h)).snoc e) (fun x hx hl => ((ih q hq i).2 x (by rw [← h2]; exact hx) hl).snoc e)
    cases hs with
    | accept i p h => exact keep i _ (fun h => h) rfl
    | exec i hx =>
      have hi := hinv i
      have hi2 := hi.exec hni hx
      have hx2 := hx
      unfold canExec at hx2
      simp only [Bool.and_eq_true, decide_eq_true_eq, Bool.not_eq_true', List.contains_iff_mem] at hx2
      have hns : (w0 i).stop ≠ some (w0 i).last := by
        intro e
        have := (hi.acc _ hx2.2).2 _ e
        omega
      obtain ⟨f1, f2, f3, f4, f5, f6, f7, f8⟩ := fold_command (s := (w0 i).last + 1) (by omega) (log ((w0 i).last + 1)) { w0 i with last := (w0 i).last + 1 }
      have hl1 : (exec log (w0 i)).last = (w0 i).last + 1 := f3
      have before : q ≤ (w0 i).last → Lifted cfg log l0 q := by
        intro hle
        apply (ih q hq i).1
        by_cases he : q < (w0 i).last
        · exact .inl he
        · have he : (w0 i).last = q := by omega
          refine .inr ⟨he, ?_⟩
          rcases hi.stop_eq hni with ⟨_, h2, _⟩ | ⟨_, _, h2, _⟩
          · rw [h2, he, hqs] at hns; exact absurd rfl hns
          · exact h2
      refine upd i _ ?_ ?_
      · rintro (hp | ⟨hp1, hp2⟩)
        · exact (before (by omega)).snoc _
        · exfalso
          rcases hi2.chain with hc | ⟨_, hc⟩
          · have : (exec log (w0 i)).stop = some q := by
              rw [hi2.stop, hc, (chainAfter_inv hni _).stop, hp1, hqs]
            rw [this] at hp2; cases hp2
          · have hch : (exec log (w0 i)).chain = chainAfter log (exec log (w0 i)).last := by
              obtain ⟨n1, n2, n3⟩ := hi.next hni hns
              rw [hl1]
              refine Eq.trans f1 ?_
              show List.foldl (record _ (w0 i).self) (w0 i).chain _ = _
              rw [n1, n2]; rfl
            have : (exec log (w0 i)).stop = some q := by
              rw [hi2.stop, hch, (chainAfter_inv hni _).stop, hp1, hqs]
            rw [this] at hp2; cases hp2
      · intro x hx3 hl
        have hx3 : x ∈ (if ((w0 i).last + 1) % 150 = 0 then
            ((log ((w0 i).last + 1)).foldl (command ((w0 i).last + 1)) { w0 i with last := (w0 i).last + 1 }).snaps ++
              [((w0 i).last + 1, ((log ((w0 i).last + 1)).foldl (command ((w0 i).last + 1)) { w0 i with last := (w0 i).last + 1 }).chain)]
            else ((log ((w0 i).last + 1)).foldl (command ((w0 i).last + 1)) { w0 i with last := (w0 i).last + 1 }).snaps) := hx3
        rw [f7] at hx3
        split at hx3
        · rcases List.mem_append.1 hx3 with h | h
          · exact ((ih q hq i).2 x h hl).snoc _
          · rw [List.mem_singleton.1 h] at hl
            exact (before (by have hl : q < (w0 i).last + 1 := hl; omega)).snoc _
        · exact ((ih q hq i).2 x hx3 hl).snoc _
    | stable i c h1 h2 h3 =>
      refine keep i _ ?_ ?_
      · unfold stableAt; simp only; split <;> exact fun h => h
      · unfold stableAt; simp only; split <;> rfl
    | superStable i c h1 h2 =>
      refine keep i _ ?_ ?_
      · unfold superStableAt; split <;> exact fun h => h
      · unfold superStableAt; split <;> rfl
    | restart i =>
      have hi := hinv i
      have hi2 := hi.restart hni false (fun h => by cases h)
      obtain ⟨g1, g2, g3, _⟩ := restart_fields false (w0 i)
      have hl : (restart false (w0 i)).last = (w0 i).last ∧ (restart false (w0 i)).snaps = (w0 i).snaps ∧ (restart false (w0 i)).chain = (w0 i).chain := ⟨g1, g2, g3⟩
      refine keep i _ ?_ hl.2.1
      rintro (hp | ⟨hp1, hp2⟩)
      · rw [hl.1] at hp; exact .inl hp
      · rw [hl.1] at hp1
        rw [hi2.stop, hl.2.2, ← hi.stop] at hp2
        exact .inr ⟨hp1, hp2⟩
    | unwedge i u =>
      have hi := hinv i
      by_cases hw : (w0 i).wedged = false
      · have : unwedge cfg u (w0 i) = w0 i := by unfold unwedge; rw [if_pos hw]
        rw [this]; exact keep i _ (fun h => h) rfl
      · by_cases hv : countVotes cfg (w0 i).self u.votes < quorum cfg u.bft
        · have : unwedge cfg u (w0 i) = w0 i := by unfold unwedge; rw [if_neg hw, if_pos hv]
          rw [this]; exact keep i _ (fun h => h) rfl
        · have hwt : (w0 i).wedged = true := by simpa using hw
          have hst := hi.wedged hwt
          have hl : (unwedge cfg u (w0 i)).last = (w0 i).last ∧ (unwedge cfg u (w0 i)).snaps = (w0 i).snaps := by
            unfold unwedge
            rw [if_neg hw, if_neg hv]
            split
            · exact ⟨(restart_fields true (w0 i)).1, (restart_fields true (w0 i)).2.1⟩
            · exact ⟨rfl, rfl⟩
          refine upd i _ ?_ (fun x hx hlt => ((ih q hq i).2 x (by rw [← hl.2]; exact hx) hlt).snoc _)
          rintro (hp | ⟨hp1, hp2⟩)
          · rw [hl.1] at hp
            exact ((ih q hq i).1 (.inl hp)).snoc _
          · rw [hl.1] at hp1
            refine ⟨l0, [], i, u, w0, rfl, hr, hwt, by rw [hst, hp1], hp1, ?_, by rw [← quorum_eq]; omega⟩
            rcases hi.stop_eq hni with ⟨_, _, h3⟩ | ⟨_, _, h3, _⟩
            · rw [h3, hp1, epochAfter_eq]
            · rw [h3] at hst; cases hst
    | transfer i j c ch h1 h2 =>
      have hsn := (hinv j).snaps _ h1
      have hi2 := (hinv i).transfer hni hsn.1 hsn.2 h2 ho
      have hkeep : (transfer c ch (w0 i)).last = c ∧ (transfer c ch (w0 i)).snaps = (stCallBack c ch.epoch { w0 i with chain := ch }).snaps ++ [(c, ch)] := ⟨rfl, rfl⟩
      have hscale : ∀ x : Rep, (stScale c ch.epoch x).snaps = x.snaps ∧ (stScale c ch.epoch x).chain = x.chain := by
        intro x; unfold stScale; split
        · exact ⟨rfl, rfl⟩
        · split
          · exact ⟨rfl, rfl⟩
          · split
            · exact ⟨rfl, rfl⟩
            · split
              · exact ⟨rfl, rfl⟩
              · split <;> exact ⟨rfl, rfl⟩
      have hwed : ∀ x : Rep, (stWedge ch.epoch x).snaps = x.snaps ∧ (stWedge ch.epoch x).chain = x.chain := by
        intro x; unfold stWedge; split
        · exact ⟨rfl, rfl⟩
        · split
          · exact ⟨rfl, rfl⟩
          · split <;> exact ⟨rfl, rfl⟩
      have hins : ∀ x : Rep, (stInstall x).snaps = x.snaps ∧ (stInstall x).chain = x.chain := by
        intro x; unfold stInstall; split <;> exact ⟨rfl, rfl⟩
      have hcb : (stCallBack c ch.epoch { w0 i with chain := ch }).snaps = (w0 i).snaps ∧ (stCallBack c ch.epoch { w0 i with chain := ch }).chain = ch := by
        unfold stCallBack
        rw [(hins _).1, (hwed _).1, (hscale _).1, (hins _).1, (hins _).2, (hwed _).2, (hscale _).2, (hins _).2]
        exact ⟨rfl, rfl⟩
      refine upd i _ ?_ ?_
      · rintro (hp | ⟨hp1, hp2⟩)
        · exact ((ih q hq j).2 _ h1 hp).snoc _
        · exfalso
          have hp1 : c = q := hp1
          have hchn : (transfer c ch (w0 i)).chain = ch := hcb.2
          have hsn1 : ch = chainAfter log c := hsn.1
          rw [hi2.stop, hchn, hsn1, (chainAfter_inv hni c).stop, hp1, hqs] at hp2
          cases hp2
      · intro x hx hl
        rw [hkeep.2, hcb.1] at hx
        rcases List.mem_append.1 hx with h | h
        · exact ((ih q hq i).2 x h hl).snoc _
        · rw [List.mem_singleton.1 h] at hl
          exact ((ih q hq j).2 _ h1 hl).snoc _

/-- **Going on needs a quorum**: a request after a stop point is executed (or its results are obtained by state transfer) only if
before that a replica that had stopped there received an `UnwedgeCommand` with enough valid votes for its epoch or a
later one. -/
theorem passed_only_if_lifted_partial {cfg : Cfg} {log : Nat → List Cmd} (hni : NoInstall log) {l : List Ev} {w : World}
    (h : Reach cfg log okTransfer l w) {q : Nat} (hq : StopPoint log q) (i : Nat) (hl : q < (w i).last) : Lifted cfg log l q :=
  (reach_lifted hni h q hq i).1 (.inl hl)

/-- **Without a lift all stay together**: as long as nobody is lifted at `q`, no replica has gone beyond `q`. -/
theorem all_stop_partial {cfg : Cfg} {log : Nat → List Cmd} (hni : NoInstall log) {l : List Ev} {w : World}
    (h : Reach cfg log okTransfer l w) {q : Nat} (hq : StopPoint log q) (hn : ¬ Lifted cfg log l q) (i : Nat) :
    (w i).last ≤ q ∧ ((w i).last = q → (w i).stop = some q) := by
  refine ⟨?_, ?_⟩
  · by_cases hl : (w i).last ≤ q
    · exact hl
    · exact absurd (passed_only_if_lifted_partial hni h hq i (by omega)) hn
  · intro he
    rcases stop_in_force_partial hni h i (q := q) (by rw [he]; exact hq) with h1 | ⟨h1, h2, _⟩
    · exact h1.1
    · exact absurd ((reach_lifted hni h q hq i).1 (.inr ⟨he, h2⟩)) hn

/-! ### votes -/

theorem countVotes_le (cfg : Cfg) (self : Nat) (vs : List Vote) :
    countVotes cfg self vs = (vs.filter (fun v => decide (self ≤ v.epoch) && cfg.valid v.id v.epoch v.sig)).length := by
  induction vs with
  | nil => rfl
  | cons v vs ih =>
    unfold countVotes
    rw [ih, List.filter_cons]
    by_cases h : self ≤ v.epoch ∧ cfg.valid v.id v.epoch v.sig = true
    · rw [if_pos h, if_pos (by simpa using h), List.length_cons]; omega
    · rw [if_neg h, if_neg (by simpa using h)]; omega

/-- **If the identifiers of the votes are different, a lift carries signatures of a quorum of different signers.**  (The code does
not check that they are different: `one_vote_suffices`.) -/
theorem quorum_of_signers_partial {cfg : Cfg} {self : Nat} {u : Unwedge} (hd : (u.votes.map Vote.id).Nodup)
    (hv : quorum cfg u.bft ≤ countVotes cfg self u.votes) :
    ∃ ids : List Nat, ids.Nodup ∧ required cfg u.bft ≤ ids.length ∧ ∀ x ∈ ids, ∃ e s, self ≤ e ∧ cfg.valid x e s = true := by
  refine ⟨(u.votes.filter (fun v => decide (self ≤ v.epoch) && cfg.valid v.id v.epoch v.sig)).map Vote.id, ?_, ?_, ?_⟩
  · exact List.Nodup.sublist (List.Sublist.map _ List.filter_sublist) hd
  · rw [List.length_map, ← countVotes_le]; exact hv
  · intro x hx
    obtain ⟨v, hv, rfl⟩ := List.mem_map.1 hx
    have := (List.mem_filter.1 hv).2
    simp only [Bool.and_eq_true, decide_eq_true_eq] at this
    exact ⟨v.epoch, v.sig, this.1, this.2⟩

/-- **One vote suffices** (defect): repeated often enough, a single valid vote of a single signer lifts the stop. -/
theorem one_vote_suffices (cfg : Cfg) (r : Rep) (v : Vote) (bft : Bool) (hw : r.wedged = true) (he : r.self ≤ v.epoch)
    (hv : cfg.valid v.id v.epoch v.sig = true) :
    (unwedge cfg ⟨List.replicate (quorum cfg bft) v, bft, false⟩ r).stop = none ∧
    (unwedge cfg ⟨List.replicate (quorum cfg bft) v, bft, false⟩ r).wedged = false ∧
    (unwedge cfg ⟨List.replicate (quorum cfg bft) v, bft, false⟩ r).self = r.self + 1 := by
  have hc : countVotes cfg r.self (List.replicate (quorum cfg bft) v) = quorum cfg bft := by
    rw [countVotes_le, List.filter_replicate_of_pos (by simp [he, hv]), List.length_replicate]
  unfold unwedge
  rw [if_neg (by rw [hw]; simp), if_neg (by show ¬ countVotes cfg r.self (List.replicate (quorum cfg bft) v) < quorum cfg bft; rw [hc]; omega)]
  exact ⟨rfl, rfl, rfl⟩

/-- **Exactly when a stop is lifted, and what happens then.** -/
theorem unwedge_exact {cfg : Cfg} {log : Nat → List Cmd} (hni : NoInstall log) {l : List Ev} {w : World}
    (h : Reach cfg log okTransfer l w) (i : Nat) (u : Unwedge) :
    (((w i).wedged = true ∧ required cfg u.bft ≤ countVotes cfg (w i).self u.votes) →
      (unwedge cfg u (w i)).stop = none ∧ (unwedge cfg u (w i)).wedged = false ∧ (unwedge cfg u (w i)).self = (w i).self + 1 ∧
      (unwedge cfg u (w i)).last = (w i).last ∧ (unwedge cfg u (w i)).cbs = []) ∧
    (¬ ((w i).wedged = true ∧ required cfg u.bft ≤ countVotes cfg (w i).self u.votes) → unwedge cfg u (w i) = w i) := by
  have hi := reach_inv hni (fun _ _ h => h) h i
  rw [← quorum_eq]
  refine ⟨?_, ?_⟩
  · rintro ⟨h1, h2⟩
    have hst := hi.wedged h1
    have hi2 := hi.unwedge hni cfg u
    have hun : unwedge cfg u (w i) = if u.restart then restart true (w i) else { w i with
        chain := { (w i).chain with epoch := (w i).self + 1 }, self := (w i).self + 1, stop := none, wedged := false, cbs := [], onStable := false, onSuper := false } := by
      unfold unwedge; rw [if_neg (by rw [h1]; simp), if_neg (by omega)]
    cases hr : u.restart with
    | false =>
      rw [hr] at hun
      rw [hun]
      exact ⟨rfl, rfl, rfl, rfl, rfl⟩
    | true =>
      rw [hr, if_pos rfl] at hun
      have hself : (restart true (w i)).self = (w i).self + 1 ∧ (restart true (w i)).last = (w i).last ∧ (restart true (w i)).cbs = [] ∧
          (restart true (w i)).chain = { (w i).chain with epoch := (w i).chain.epoch + 1 } := by
        rw [hi.self]
        obtain ⟨g1, g2, g3, g4, g5, _⟩ := restart_fields true (w i)
        exact ⟨g4, g1, g5, g3⟩
      rw [hun] at hi2 ⊢
      have hsn : (restart true (w i)).stop = none := by
        rw [hi2.stop, hself.2.2.2]
        rcases hi.stop_eq hni with ⟨c1, _, _⟩ | ⟨_, _, c1, _⟩
        · rw [c1]; exact stopOf_lift hni _
        · rw [c1] at hst; cases hst
      refine ⟨hsn, ?_, hself.1, hself.2.1, hself.2.2.1⟩
      cases hw : (restart true (w i)).wedged with
      | false => rfl
      | true => have := hi2.wedged hw; rw [hsn] at this; cases this
  · intro hn
    unfold unwedge
    by_cases h1 : (w i).wedged = false
    · rw [if_pos h1]
    · rw [if_neg h1]
      rw [if_pos]
      by_cases h2 : quorum cfg u.bft ≤ countVotes cfg (w i).self u.votes
      · exact absurd ⟨by simpa using h1, h2⟩ hn
      · omega

/-! ### crashes -/

/-- **A restart keeps the stop point**, the epoch and the position, and the replica is stopped afterwards exactly if it is at the
stop point. -/
theorem restart_keeps_partial {cfg : Cfg} {log : Nat → List Cmd} (hni : NoInstall log) {l : List Ev} {w : World}
    (h : Reach cfg log okTransfer l w) (i : Nat) :
    (restart false (w i)).stop = (w i).stop ∧ (restart false (w i)).self = (w i).self ∧ (restart false (w i)).last = (w i).last ∧
    (restart false (w i)).chain = (w i).chain ∧ ((restart false (w i)).wedged = true ↔ (w i).stop = some (w i).last) := by
  have hi := reach_inv hni (fun _ _ h => h) h i
  have hi2 := hi.restart hni false (fun h => by cases h)
  have hl : (restart false (w i)).last = (w i).last ∧ (restart false (w i)).self = (w i).chain.epoch ∧ (restart false (w i)).chain = (w i).chain ∧
      ((restart false (w i)).stop = some (w i).last → (restart false (w i)).wedged = true) := by
    obtain ⟨g1, g2, g3, g4, g5, g6⟩ := restart_fields false (w i)
    exact ⟨g1, g4, g3, g6⟩
  have hs : (restart false (w i)).stop = (w i).stop := by rw [hi2.stop, hl.2.2.1, ← hi.stop]
  refine ⟨hs, by rw [hl.2.1, hi.self], hl.1, hl.2.2.1, ?_, ?_⟩
  · intro hw
    have := hi2.wedged hw
    rw [hs, hl.1] at this; exact this
  · intro he
    exact hl.2.2.2 (by rw [hs]; exact he)

/-! ### getting there -/

/-- a replica that is not stopped can execute the next request, whatever the others do -/
theorem advance {cfg : Cfg} {log : Nat → List Cmd} {ok : World → Ev → Prop}
    (ho : (∀ v i p, ok v (.accept i p)) ∧ (∀ v i, ok v (.exec i)) ∧ (∀ v i c, ok v (.stable i c)))
    {l : List Ev} {w : World} (h : Reach cfg log ok l w) (i : Nat) (hw : (w i).wedged = false)
    (hs : ∀ q, (w i).stop = some q → (w i).last < q) (hst : (w i).stable % 150 = 0 ∧ (w i).stable ≤ (w i).last) :
    ∃ l' st acc, Reach cfg log ok (l ++ l') (w.set i (exec log { w i with stable := st, accepted := acc })) ∧ st % 150 = 0 ∧ st ≤ (w i).last := by
  -- first the checkpoint
  have h1 : ∃ l1, ∃ st, Reach cfg log ok (l ++ l1) (w.set i { w i with stable := st }) ∧ st % 150 = 0 ∧ st ≤ (w i).last ∧ (w i).last < st + 150 := by
    by_cases hc : (w i).last < (w i).stable + 150
    · refine ⟨[], (w i).stable, ?_, hst.1, hst.2, hc⟩
      have : w.set i { w i with stable := (w i).stable } = w := by
        funext j; unfold World.set; split
        · rename_i e; rw [e]
        · rfl
      rw [this, List.append_nil]; exact h
    · refine ⟨[.stable i (150 * ((w i).last / 150))], 150 * ((w i).last / 150), ?_, by omega, by omega, by omega⟩
      have hstep := Step.stable (cfg := cfg) (log := log) w i (150 * ((w i).last / 150)) (by omega) (by omega) (by omega)
      have : stableAt (w i) (150 * ((w i).last / 150)) = { w i with stable := 150 * ((w i).last / 150) } := by
        unfold stableAt
        simp only
        rw [if_neg]
        intro e
        have := hs _ e
        omega
      rw [this] at hstep
      exact .step h (ho.2.2 _ _ _) hstep
  obtain ⟨l1, st, r1, s1, s2, s3⟩ := h1
  have hset : ∀ (v : World) (r : Rep), v.set i r i = r := by intro v r; unfold World.set; rw [if_pos rfl]
  have hset2 : ∀ (v : World) (r r' : Rep), (v.set i r).set i r' = v.set i r' := by
    intro v r r'; funext j; unfold World.set; split <;> rfl
  have hacc : accepts ((w.set i { w i with stable := st }) i) ((w i).last + 1) = true := by
    rw [hset]
    unfold accepts stopAt
    simp only [Bool.and_eq_true, decide_eq_true_eq, Bool.not_eq_true', Bool.or_eq_false_iff]
    refine ⟨⟨⟨hw, ?_⟩, by omega⟩, by omega⟩
    cases hq : (w i).stop with
    | none => rfl
    | some q =>
      have := hs q hq
      simp only [decide_eq_false_iff_not]
      omega
  have r2 := Reach.step r1 (ho.1 _ _ _) (Step.accept _ i _ hacc)
  rw [hset, hset2] at r2
  have hcan : canExec ((w.set i { w i with stable := st, accepted := (w i).accepted ++ [(w i).last + 1] }) i) = true := by
    rw [hset]
    unfold canExec
    simp only [Bool.and_eq_true, decide_eq_true_eq, Bool.not_eq_true', List.contains_iff_mem]
    exact ⟨⟨by omega, hw⟩, by simp⟩
  have r3 := Reach.step r2 (ho.2.1 _ _) (Step.exec _ i hcan)
  rw [hset, hset2] at r3
  refine ⟨l1 ++ [.accept i ((w i).last + 1)] ++ [.exec i], st, (w i).accepted ++ [(w i).last + 1], ?_, s1, s2⟩
  rw [← List.append_assoc, ← List.append_assoc]
  exact r3

/-- without a command the next request changes nothing but the position -/
theorem exec_quiet {log : Nat → List Cmd} {r : Rep} (hl : log (r.last + 1) = []) :
    (exec log r).last = r.last + 1 ∧ (exec log r).stop = r.stop ∧ (exec log r).self = r.self ∧ (exec log r).chain = r.chain ∧
    (exec log r).stable = r.stable ∧ (exec log r).wedged = (r.wedged || decide (r.stop = some (r.last + 1))) ∧
    (∀ x ∈ r.snaps, x ∈ (exec log r).snaps) ∧ ((r.last + 1) % 150 = 0 → (r.last + 1, r.chain) ∈ (exec log r).snaps) ∧
    (exec log r).fired = r.fired ∧ (exec log r).cbs = r.cbs := by
  unfold exec
  simp only [hl, List.foldl_nil]
  refine ⟨trivial, trivial, trivial, trivial, trivial, trivial, ?_, ?_, trivial, trivial⟩
  · intro x hx
    split
    · exact List.mem_append_left _ hx
    · exact hx
  · intro hm
    rw [if_pos hm]
    exact List.mem_append_right _ List.mem_cons_self

/-- a replica that has not reached its stop point can go on up to `t`, if no command intervenes -/
theorem go_to {cfg : Cfg} {log : Nat → List Cmd} {ok : World → Ev → Prop}
    (ho : (∀ v i p, ok v (.accept i p)) ∧ (∀ v i, ok v (.exec i)) ∧ (∀ v i c, ok v (.stable i c))) (i k : Nat) :
    ∀ {l : List Ev} {w : World}, Reach cfg log ok l w → (w i).wedged = false → (∀ q, (w i).stop = some q → (w i).last + k ≤ q) →
    (w i).stable % 150 = 0 ∧ (w i).stable ≤ (w i).last → (∀ p, (w i).last < p → p ≤ (w i).last + k → log p = []) →
    ∃ l' w', Reach cfg log ok (l ++ l') w' ∧ (∀ j, j ≠ i → w' j = w j) ∧ (w' i).last = (w i).last + k ∧ (w' i).stop = (w i).stop ∧
      (w' i).self = (w i).self ∧ (w' i).chain = (w i).chain ∧ ((w' i).stable % 150 = 0 ∧ (w' i).stable ≤ (w' i).last) ∧
      (w' i).wedged = (decide (0 < k) && decide ((w i).stop = some ((w i).last + k))) ∧
      (∀ x ∈ (w i).snaps, x ∈ (w' i).snaps) ∧ (0 < k → ((w i).last + k) % 150 = 0 → ((w i).last + k, (w i).chain) ∈ (w' i).snaps) ∧
      (w' i).fired = (w i).fired ∧ (w' i).cbs = (w i).cbs := by
  induction k with
  | zero =>
    intro l w h hw hs hst hl
    refine ⟨[], w, by rw [List.append_nil]; exact h, fun _ _ => rfl, rfl, rfl, rfl, rfl, hst, ?_, fun x hx => hx, fun h => absurd h (by omega), rfl, rfl⟩
    rw [hw]; rfl
  | succ k ih =>
    intro l w h hw hs hst hl
    obtain ⟨l1, w1, r1, o1, a1, a2, a3, a4, a5, a6, a7, a8, a9, a10⟩ := ih h hw (fun q hq => by have := hs q hq; omega) hst (fun p p1 p2 => hl p p1 (by omega))
    have hw1 : (w1 i).wedged = false := by
      rw [a6]
      have : ¬ ((w i).stop = some ((w i).last + k)) := by
        intro e; have := hs _ e; omega
      simp [this]
    obtain ⟨l2, st, acc, r2, s1, s2⟩ := advance ho r1 i hw1 (by
      intro q hq
      rw [a2] at hq
      have := hs q hq
      rw [a1]; omega) a5
    have hlog : log ((w1 i).last + 1) = [] := by rw [a1]; exact hl _ (by omega) (by omega)
    obtain ⟨e1, e2, e3, e4, e5, e6, e7, e8, e9, e10⟩ := exec_quiet (r := { w1 i with stable := st, accepted := acc }) hlog
    refine ⟨l1 ++ l2, _, by rw [← List.append_assoc]; exact r2, ?_, ?_, ?_, ?_, ?_, ?_, ?_, ?_, ?_, ?_, ?_⟩
    · intro j hj
      unfold World.set
      rw [if_neg hj, o1 j hj]
    all_goals (have hset : ∀ r, w1.set i r i = r := by intro r; unfold World.set; rw [if_pos rfl])
    all_goals rw [hset]
    · rw [e1]; show (w1 i).last + 1 = _; omega
    · rw [e2]; exact a2
    · rw [e3]; exact a3
    · rw [e4]; exact a4
    · rw [e5, e1]; exact ⟨s1, by show st ≤ (w1 i).last + 1; omega⟩
    · rw [e6]
      show ((w1 i).wedged || decide ((w1 i).stop = some ((w1 i).last + 1))) = _
      rw [hw1, a2, a1]
      simp [Nat.add_assoc]
    · intro x hx; exact e7 x (a7 x hx)
    · intro _ hm
      have := e8 (by show ((w1 i).last + 1) % 150 = 0; rw [a1, Nat.add_assoc]; exact hm)
      have h2 : ((w1 i).last + 1, (w1 i).chain) = ((w i).last + (k + 1), (w i).chain) := by rw [a1, a4]; rfl
      rw [← h2]; exact this
    · rw [e9]; exact a9
    · rw [e10]; exact a10

/-- **The stop point can always be reached, and there the replica stops**: from every reachable state with a stop point ahead and no
further stopping command on the way, a continuation leads the replica to its stop point, stopped. -/
theorem reaches_stop_partial {cfg : Cfg} {log : Nat → List Cmd} (hni : NoInstall log) {l : List Ev} {w : World}
    (h : Reach cfg log okTransfer l w) (i : Nat) {q : Nat} (hq : (w i).stop = some q) (hlt : (w i).last < q)
    (hl : ∀ p, (w i).last < p → p ≤ q → log p = []) :
    ∃ l' w', Reach cfg log okTransfer (l ++ l') w' ∧ (w' i).last = q ∧ (w' i).stop = some q ∧ (w' i).wedged = true ∧ ∀ j, j ≠ i → w' j = w j := by
  have hi := reach_inv hni (fun _ _ h => h) h i
  have hw : (w i).wedged = false := by
    cases hw : (w i).wedged with
    | false => rfl
    | true =>
      have := hi.wedged hw
      rw [hq] at this
      have := Option.some.inj this
      omega
  obtain ⟨l', w', r, o, a1, a2, a3, a4, a5, a6, _⟩ := go_to (cfg := cfg) (log := log) (ok := okTransfer)
    ⟨fun _ _ _ => trivial, fun _ _ => trivial, fun _ _ _ => trivial⟩ i (q - (w i).last) h hw
    (by intro q' h'; rw [hq] at h'; cases h'; omega) hi.stable (by intro p p1 p2; exact hl p p1 (by omega))
  refine ⟨l', w', r, by omega, by rw [a2, hq], ?_, o⟩
  rw [a6, hq]
  have : (w i).last + (q - (w i).last) = q := by omega
  rw [this]
  simp
  omega

/-! ### scaling -/

/-- **Scaling is lost by a replica that is brought forward by state transfer** (defect): behind the global epoch, with the scaling
records of an earlier epoch, the handler of the scaling command registers the callback that makes the replica rejoin in the new
configuration, and the handler of the wedge record, run right after it, removes it. -/
theorem scaling_lost {cp ge : Nat} {r : Rep} {s e s' e' : Nat} {b rs : Bool} (hsc : r.chain.scale = some (s, e, b, rs)) (hw : r.chain.wedge = some (s', e'))
    (hin : r.chain.install = none) (hlt : r.self < ge) (he : r.self ≤ e) (he' : e' < ge) (hcp : cp ≠ 300) :
    (false, Cb.rejoin) ∈ (stScale cp ge r).cbs ∧ (stScale cp ge r).stop = some (cp - cp % 150) ∧
    (stCallBack cp ge r).cbs = [] ∧ (stCallBack cp ge r).stop = none ∧ (stCallBack cp ge r).wedged = false := by
  have h0 : stScale cp ge r = { r with stop := stopHere cp, cbs := r.cbs ++ [(false, .rejoin)] } := by
    unfold stScale; rw [hsc]; simp only
    rw [if_neg (by omega), if_neg (by omega), if_pos hlt]
  have hst : stopHere cp = some (cp - cp % 150) := by unfold stopHere; rw [if_neg hcp]
  have h1 : stInstall r = r := by unfold stInstall; rw [hin]
  have h2 : stCallBack cp ge r = { r with stop := none, wedged := false, cbs := [], onStable := false, onSuper := false, self := ge } := by
    unfold stCallBack
    rw [h1, h0]
    have h3 : stWedge ge { r with stop := stopHere cp, cbs := r.cbs ++ [(false, .rejoin)] } =
        { r with stop := none, wedged := false, cbs := [], onStable := false, onSuper := false, self := ge } := by
      unfold stWedge
      simp only [hw]
      rw [if_neg (by omega), if_pos ⟨he', by rw [hst]; rfl⟩]
    rw [h3]
    unfold stInstall
    simp only [hin]
  refine ⟨?_, ?_, ?_, ?_, ?_⟩
  · rw [h0]; simp
  · rw [h0]; exact hst
  · rw [h2]
  · rw [h2]
  · rw [h2]

end Verif.Wedge
