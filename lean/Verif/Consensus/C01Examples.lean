import Verif.Consensus.C01
/-!
C01: a run that meets the hypotheses of `agreement_partial`, and runs of the model in which agreement fails
when a hypothesis is dropped (findings about the code, see DESIGN.md).
-/
namespace Concord.Protocol
open Concord.VC Concord.VC.Spec

/-- four replicas, replica 3 faulty -/
def p4 (time : Bool) : Params :=
  { cfg := { F := 1, C := 0, nullDigest := 0, valid := fun _ _ _ sig => sig == 7 },
    honest := fun i => i != 3, timeService := time }

/-- the digests committed, with replica, view and sequence number -/
def commitsOf (P : Params) (as : List Action) : Option (List Ev) := (run P State.init as).map (·.commits)

theorem commitsOf_reachable {P : Params} {as : List Action} {l : List Ev} (h : commitsOf P as = some l) :
    ∃ σ, Reachable P σ ∧ σ.commits = l := by
  unfold commitsOf at h
  rw [Option.map_eq_some_iff] at h
  obtain ⟨σ, h1, h2⟩ := h
  exact ⟨σ, Reachable.run .init h1, h2⟩

theorem p4_few (b : Bool) : FewFaulty (p4 b).cfg (p4 b).honest := by
  unfold FewFaulty; cases b <;> decide

/-- slow path for the proposal of digest 5 at sequence number 1 in view 0, committed by replica 0 with the shares
of 0, 1 and 2; then view 1 is entered by 0, 1, 2, where batch 5 is proposed again and committed by replica 1. -/
def goodRun : List Action :=
  [ .propose 0 1 5 true true, .accept 1 1 5 true true, .accept 2 1 5 true true,
    .sendPrepare 0 1, .sendPrepare 1 1, .sendPrepare 2 1,
    .prepareFull 0 1 7, .prepareFull 1 1 7, .prepareFull 2 1 7,
    .sendCommit 0 1, .sendCommit 1 1, .sendCommit 2 1, .commit 0 1, .execute 0,
    .leaveView 0 1, .leaveView 1 1, .leaveView 2 1 ]

def vcOf (i : Nat) (e : List Elem) : VCMsg := { sender := i, newView := 1, lastStable := 0, elems := e }
def el (d : Nat) (c : Option Cert) : Elem := ⟨1, d, 0, c⟩
def goodArr : List (Option VCMsg) :=
  [some (vcOf 0 [el 5 (some ⟨0, 7⟩)]), some (vcOf 1 [el 5 (some ⟨0, 7⟩)]), some (vcOf 2 [el 5 (some ⟨0, 7⟩)]), none]

def goodRun2 : List Action := goodRun ++
  [ .pend 0 goodArr, .pend 1 goodArr, .pend 2 goodArr, .enter 0, .enter 1, .enter 2,
    .sendPrepare 0 1, .sendPrepare 1 1, .sendPrepare 2 1,
    .prepareFull 0 1 7, .prepareFull 1 1 7, .prepareFull 2 1 7,
    .sendCommit 0 1, .sendCommit 1 1, .sendCommit 2 1, .commit 1 1, .execute 1 ]

/-- the hypotheses of `agreement_partial` and `executed_agreement_partial` are met by a run with commits of two
replicas in two views -/
theorem good_run : commitsOf (p4 false) goodRun2 = some [⟨1, 1, 1, 5⟩, ⟨0, 0, 1, 5⟩] := by
  decide +kernel

theorem good_run_installs : (run (p4 false) State.init goodRun2).map (·.installs.map (fun I => (I.rep, I.view, I.lb, I.stable)))
    = some [(2, 1, 0, 0), (1, 1, 0, 0), (0, 1, 0, 0)] := by
  decide +kernel

/-- **Finding (time service).**  Replica 2 judges the time of the PrePrepare to be off, does not prepare, but
signs the commit; replica 1 prepares but misses the prepare certificate.  The commit quorum is 0, 2 and the
faulty 3.  On leaving the view replica 2 does not report the batch (its time was off), replica 1 reports it
without certificate: the quorum 1, 2, 3 forgets the batch and a null operation is committed instead. -/
def badTime : List Action :=
  [ .propose 0 1 5 true true, .accept 1 1 5 true true, .accept 2 1 5 true false,
    .sendPrepare 0 1, .sendPrepare 1 1, .byzShare ⟨.prepare, 0, 1, 5, 3⟩,
    .prepareFull 0 1 7, .prepareFull 2 1 7,
    .sendCommit 0 1, .sendCommit 2 1, .byzShare ⟨.commit, 0, 1, 5, 3⟩, .commit 0 1,
    .leaveView 1 1, .leaveView 2 1, .byzVC (vcOf 3 []),
    .pend 1 [none, some (vcOf 1 [el 5 none]), some (vcOf 2 []), some (vcOf 3 [])],
    .pend 2 [none, some (vcOf 1 [el 5 none]), some (vcOf 2 []), some (vcOf 3 [])],
    .enter 1, .enter 2,
    .sendPrepare 1 1, .sendPrepare 2 1, .byzShare ⟨.prepare, 1, 1, 0, 3⟩,
    .prepareFull 1 1 7, .prepareFull 2 1 7,
    .sendCommit 1 1, .sendCommit 2 1, .byzShare ⟨.commit, 1, 1, 0, 3⟩, .commit 1 1 ]

/-- Agreement fails with the time service enabled. -/
theorem agreement_fails_with_time_service :
    ∃ (P : Params) (σ : State) (e e' : Ev), FewFaulty P.cfg P.honest ∧ P.timeService = true ∧ Reachable P σ ∧
      e ∈ σ.commits ∧ e' ∈ σ.commits ∧ e.seq = e'.seq ∧ e.digest ≠ e'.digest := by
  obtain ⟨σ, hr, hc⟩ := commitsOf_reachable (P := p4 true) (as := badTime) (l := [⟨1, 1, 1, 0⟩, ⟨0, 0, 1, 5⟩])
    (by decide +kernel)
  exact ⟨p4 true, σ, ⟨1, 1, 1, 0⟩, ⟨0, 0, 1, 5⟩, p4_few true, rfl, hr, by rw [hc]; simp, by rw [hc]; simp, rfl, by decide⟩

/-- the run `goodRun2` also meets `GoodInstall` -/
theorem good_run_meets_hypotheses : ∃ σ, Reachable (p4 false) σ ∧ (∀ I ∈ σ.installs, GoodInstall (p4 false) I) ∧
    σ.commits = [⟨1, 1, 1, 5⟩, ⟨0, 0, 1, 5⟩] ∧ σ.executed = [⟨0, 0, 1, 5⟩, ⟨1, 1, 1, 5⟩] := by
  have h : (run (p4 false) State.init goodRun2).map (fun σ =>
      decide (σ.commits = [⟨1, 1, 1, 5⟩, ⟨0, 0, 1, 5⟩]) && (decide (σ.executed = [⟨0, 0, 1, 5⟩, ⟨1, 1, 1, 5⟩]) &&
      decide (σ.installs.map (fun I => (I.arr, I.lb)) = [(goodArr, 0), (goodArr, 0), (goodArr, 0)]))) = some true := by
    decide +kernel
  rw [Option.map_eq_some_iff] at h
  obtain ⟨σ, h1, h2⟩ := h
  simp only [Bool.and_eq_true, decide_eq_true_eq] at h2
  refine ⟨σ, Reachable.run .init h1, ?_, h2.1, h2.2.1⟩
  intro I hI
  have hmem : (I.arr, I.lb) ∈ σ.installs.map (fun I => (I.arr, I.lb)) := List.mem_map.2 ⟨I, hI, rfl⟩
  rw [h2.2.2] at hmem
  simp only [List.mem_cons, List.not_mem_nil, or_false, or_self, Prod.mk.injEq] at hmem
  obtain ⟨ha, hl⟩ := hmem
  constructor
  · rw [ha, hl]; decide
  · intro rs _ s v _ _ hc
    rw [ha] at hc
    obtain ⟨e, he, hd, _⟩ := hc
    obtain ⟨m, hm, hem, _⟩ := mem_reported.1 he
    have hall : ∀ m ∈ msgs goodArr, ∀ e ∈ m.elems, e.digest ≠ 0 := by decide
    exact absurd hd (hall m hm e hem)
  · exact Or.inl (by decide)

/-- **Finding (shortened range).**  A null operation committed at 200 in view 1 is forgotten in view 2, because
the highest restricted batch (1) is at most 150, so the range is cut at 150.  Replica 2 is faulty and is the
primary of view 2. -/
def p4b : Params :=
  { cfg := { F := 1, C := 0, nullDigest := 0, valid := fun _ _ _ sig => sig == 7 },
    honest := fun i => i != 2, timeService := false }

def vcw (i w : Nat) (e : List Elem) : VCMsg := { sender := i, newView := w, lastStable := 0, elems := e }

def badNull : List Action :=
  [ .propose 0 1 5 true true, .accept 1 1 5 true true,
    .sendPrepare 0 1, .sendPrepare 1 1, .byzShare ⟨.prepare, 0, 1, 5, 2⟩, .prepareFull 0 1 7,
    .leaveView 1 1, .leaveView 3 1, .byzVC (vcw 2 1 []),
    .pend 1 [none, some (vcw 1 1 [el 5 none]), some (vcw 2 1 []), some (vcw 3 1 [])],
    .pend 3 [none, some (vcw 1 1 [el 5 none]), some (vcw 2 1 []), some (vcw 3 1 [])],
    .enter 1, .enter 3,
    .sendPrepare 1 200, .sendPrepare 3 200, .byzShare ⟨.prepare, 1, 200, 0, 2⟩,
    .prepareFull 1 200 7, .prepareFull 3 200 7,
    .sendCommit 1 200, .sendCommit 3 200, .byzShare ⟨.commit, 1, 200, 0, 2⟩, .commit 1 200,
    .leaveView 0 2, .leaveView 1 2, .byzVC (vcw 2 2 []),
    .pend 0 [some (vcw 0 2 [el 5 (some ⟨0, 7⟩)]), some (vcw 1 2 [⟨200, 0, 1, some ⟨1, 7⟩⟩]), some (vcw 2 2 []), none],
    .pend 1 [some (vcw 0 2 [el 5 (some ⟨0, 7⟩)]), some (vcw 1 2 [⟨200, 0, 1, some ⟨1, 7⟩⟩]), some (vcw 2 2 []), none],
    .enter 0, .enter 1,
    .byzPP ⟨2, 2, 200, 9⟩, .accept 0 200 9 true true, .accept 1 200 9 true true,
    .sendPrepare 0 200, .sendPrepare 1 200, .byzShare ⟨.prepare, 2, 200, 9, 2⟩,
    .prepareFull 0 200 7, .prepareFull 1 200 7,
    .sendCommit 0 200, .sendCommit 1 200, .byzShare ⟨.commit, 2, 200, 9, 2⟩, .commit 0 200 ]

/-- Agreement fails when a certified null operation is above the shortened range (`GoodInstall.nulls`). -/
theorem agreement_fails_with_cut_range :
    ∃ (P : Params) (σ : State) (e e' : Ev), FewFaulty P.cfg P.honest ∧ P.timeService = false ∧ P.cfg.F ≤ 1 ∧
      Reachable P σ ∧ e ∈ σ.commits ∧ e' ∈ σ.commits ∧ e.seq = e'.seq ∧ e.digest ≠ e'.digest ∧
      ∀ I ∈ σ.installs, ∀ m ∈ msgs I.arr, m.lastStable ≤ I.lb := by
  have h : (run p4b State.init badNull).map (fun σ => (σ.commits,
      decide (∀ I ∈ σ.installs, ∀ m ∈ msgs I.arr, m.lastStable ≤ I.lb))) =
      some ([⟨0, 2, 200, 9⟩, ⟨1, 1, 200, 0⟩], true) := by decide +kernel
  rw [Option.map_eq_some_iff] at h
  obtain ⟨σ, h1, h2⟩ := h
  simp only [Prod.mk.injEq, decide_eq_true_eq] at h2
  exact ⟨p4b, σ, ⟨0, 2, 200, 9⟩, ⟨1, 1, 200, 0⟩, (by unfold FewFaulty; decide), rfl, (by decide),
    Reachable.run .init h1, by rw [h2.1]; simp, by rw [h2.1]; simp, rfl, by decide, h2.2⟩

/-- **Finding (shadowed certificate).**  `F = 2`, replicas 1 and 2 are faulty.  The faulty replica 1 reports the
certificate of the committed batch with a bad signature; the honest replica 4 reports it with the good one, but
the two are equal for the `std::set` that collects the certificates, so the good one is dropped. -/
def p7 : Params :=
  { cfg := { F := 2, C := 0, nullDigest := 0, valid := fun _ _ _ sig => sig == 7 },
    honest := fun i => i != 1 && i != 2, timeService := false }

def shadowArr : List (Option VCMsg) :=
  [none, some (vcw 1 1 [el 5 (some ⟨0, 8⟩)]), some (vcw 2 1 []), none, some (vcw 4 1 [el 5 (some ⟨0, 7⟩)]),
   some (vcw 5 1 []), some (vcw 6 1 [])]

def badShadow : List Action :=
  [ .propose 0 1 5 true true, .accept 3 1 5 true true, .accept 4 1 5 true true,
    .sendPrepare 0 1, .sendPrepare 3 1, .sendPrepare 4 1,
    .byzShare ⟨.prepare, 0, 1, 5, 1⟩, .byzShare ⟨.prepare, 0, 1, 5, 2⟩,
    .prepareFull 0 1 7, .prepareFull 3 1 7, .prepareFull 4 1 7,
    .sendCommit 0 1, .sendCommit 3 1, .sendCommit 4 1,
    .byzShare ⟨.commit, 0, 1, 5, 1⟩, .byzShare ⟨.commit, 0, 1, 5, 2⟩, .commit 0 1,
    .leaveView 4 1, .leaveView 5 1, .leaveView 6 1,
    .byzVC (vcw 1 1 [el 5 (some ⟨0, 8⟩)]), .byzVC (vcw 2 1 []),
    .pend 4 shadowArr, .pend 5 shadowArr, .pend 6 shadowArr, .enter 4, .enter 5, .enter 6,
    .sendPrepare 4 1, .sendPrepare 5 1, .sendPrepare 6 1,
    .byzShare ⟨.prepare, 1, 1, 0, 1⟩, .byzShare ⟨.prepare, 1, 1, 0, 2⟩,
    .prepareFull 4 1 7, .prepareFull 5 1 7, .prepareFull 6 1 7,
    .sendCommit 4 1, .sendCommit 5 1, .sendCommit 6 1,
    .byzShare ⟨.commit, 1, 1, 0, 1⟩, .byzShare ⟨.commit, 1, 1, 0, 2⟩, .commit 5 1 ]

/-- Agreement fails with `F = 2` when a certificate is shadowed (`GoodInstall.shadow`). -/
theorem agreement_fails_with_shadow :
    ∃ (P : Params) (σ : State) (e e' : Ev), FewFaulty P.cfg P.honest ∧ P.timeService = false ∧
      Reachable P σ ∧ e ∈ σ.commits ∧ e' ∈ σ.commits ∧ e.seq = e'.seq ∧ e.digest ≠ e'.digest ∧
      ∀ I ∈ σ.installs, ∀ m ∈ msgs I.arr, m.lastStable ≤ I.lb := by
  have h : (run p7 State.init badShadow).map (fun σ => (σ.commits,
      decide (∀ I ∈ σ.installs, ∀ m ∈ msgs I.arr, m.lastStable ≤ I.lb))) =
      some ([⟨5, 1, 1, 0⟩, ⟨0, 0, 1, 5⟩], true) := by decide +kernel
  rw [Option.map_eq_some_iff] at h
  obtain ⟨σ, h1, h2⟩ := h
  simp only [Prod.mk.injEq, decide_eq_true_eq] at h2
  exact ⟨p7, σ, ⟨5, 1, 1, 0⟩, ⟨0, 0, 1, 5⟩, (by unfold FewFaulty; decide), rfl,
    Reachable.run .init h1, by rw [h2.1]; simp, by rw [h2.1]; simp, rfl, by decide, h2.2⟩

end Concord.Protocol
