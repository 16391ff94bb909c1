import Verif.Consensus.C01
/-!
C01 with crashes: a replica may stop at any time and start again from its persistent storage
(`ReplicaLoader::loadReplica`, the constructor of `ReplicaImp` from `LoadedReplicaData`).

What is stored: the window with PrePrepare, PrepareFull, `slowStarted` and the commit proofs of every slot,
`lastStableSeqNum`, `lastExecutedSeqNum`, `primaryLastUsedSeqNum`, `strictLowerBoundOfSeqNums`, the descriptor of
the last view entered (`DescriptorOfLastNewView`) and the descriptor of the last active view that was left
(`DescriptorOfLastExitFromView`).  The current view itself is *not* stored: outside of an active view the replica
comes back in the view after its last active one.

A crash between the writes of one handler is not modelled (every handler writes in one transaction before it
sends; crashes inside the execution of a batch are the subject of C11-C13).
-/
set_option linter.unusedSimpArgs false
set_option linter.unusedVariables false
namespace Concord.Protocol
open Concord.VC Concord.VC.Spec

/-- the latest entry into a view: `DescriptorOfLastNewView` (PersistentStorageDescriptors.hpp) -/
def lastInstall (l : List Install) (i : Nat) : Option Install := l.find? (fun I => I.rep == i)

/-- `viewsManager->latestActiveView()` after loading, ReplicaLoader.cpp:70-175 -/
def lastActive (l : List Install) (i : Nat) : Nat :=
  match lastInstall l i with
  | some I => I.view
  | none => 0

/-- `stableLowerBoundWhenEnteredToView` of both descriptors, ViewsManager.cpp:157, 239 -/
def lbEntered (l : List Install) (i : Nat) : Nat :=
  match lastInstall l i with
  | some I => I.lb
  | none => 0

/-- The view of a replica that starts again outside of an active view: `lastAgreedView + 1`,
ReplicaImp.cpp:4022-4034.  `keep` is a repaired program that also stores the current view. -/
def recoveredView (keep : Bool) (l : List Install) (i : Nat) (r : Replica) : Nat :=
  if keep then r.view else lastActive l i + 1

/-- my view-change message after the start: `createOutsideView` runs `exitFromCurrentView` on the stored
descriptor (ViewsManager.cpp:118-180), which gives the elements and the stable point of the message made when the
view was left, for view `lastActiveView + 1` -/
def recoveredVC (v : Nat) (r : Replica) : Option VCMsg := r.myVC.map (fun m => { m with newView := v })

/-- The replica after the start, ReplicaLoader.cpp:70-290, ReplicaImp.cpp:3994-4215. -/
def reloaded (keep : Bool) (l : List Install) (i : Nat) (r : Replica) : Replica :=
  if r.active then
    { r with pending := none, lbPending := lbEntered l i, slot := fun t => (r.slot t).map Slot.reload }
  else
    { r with view := recoveredView keep l i r, pending := none, lbPending := lbEntered l i, slot := fun _ => none,
             myVC := recoveredVC (recoveredView keep l i r) r }

/-- outside of an active view, the view-change message is signed and sent again
(ReplicaImp.cpp:4029-4033) -/
def resent (r : Replica) (vcs : List VCMsg) : List VCMsg :=
  if r.active then vcs else
  match r.myVC with
  | some m => if vcs.contains m then vcs else m :: vcs
  | none => vcs

/-- Actions with crashes. `refast`: after a start the replica signs its share of the fast path again for every
stored PrePrepare whose first path is a fast one, without the tests of `sendPartialProof`
(ReplicaImp.cpp:4110-4133).  (Simplification: allowed at any time, for any batch that is not the null
operation, which only adds behaviours.) -/
inductive RAction where
  | act (a : Action)
  | restart (i : Nat)
  | refast (i s : Nat) (optimistic : Bool)

/-- One step of the system with crashes. -/
def stepR? (P : Params) (keep : Bool) (σ : State) : RAction → Option State
  | .act a => step? P σ a
  | .restart i =>
    let r := reloaded keep σ.installs i (σ.rep i)
    if P.ok i then some { σ.setRep i r with vcs := resent r σ.vcs } else none
  | .refast i s optimistic =>
    let r := σ.rep i
    match r.slot s with
    | some sl =>
      if P.ok i && r.active && r.inWindow s && decide (sl.digest ≠ P.cfg.nullDigest) then
        some { σ with shares := ⟨if optimistic then .fastOpt else .fastThr, r.view, s, sl.digest, i⟩ :: σ.shares }
      else none
    | none => none

def runR (P : Params) (keep : Bool) : State → List RAction → Option State
  | σ, [] => some σ
  | σ, a :: as => match stepR? P keep σ a with | some σ' => runR P keep σ' as | none => none

/-- The states reachable with crashes. -/
inductive ReachableR (P : Params) (keep : Bool) : State → Prop
  | init : ReachableR P keep State.init
  | step {σ σ' : State} (a : RAction) : ReachableR P keep σ → stepR? P keep σ a = some σ' → ReachableR P keep σ'

/-- The start does not bring the replica back to a lower view than the one it was in. -/
def NoRegress (keep : Bool) (σ : State) : RAction → Prop
  | .restart i => (reloaded keep σ.installs i (σ.rep i)).view = (σ.rep i).view
  | _ => True

/-- The states reachable with crashes, none of which brings a replica back to a lower view. -/
inductive ReachableSafe (P : Params) (keep : Bool) : State → Prop
  | init : ReachableSafe P keep State.init
  | step {σ σ' : State} (a : RAction) : ReachableSafe P keep σ → NoRegress keep σ a →
      stepR? P keep σ a = some σ' → ReachableSafe P keep σ'

theorem ReachableR.run {P : Params} {keep : Bool} : ∀ {as : List RAction} {σ σ' : State}, ReachableR P keep σ →
    runR P keep σ as = some σ' → ReachableR P keep σ'
  | [], σ, σ', h, e => by simp only [runR, Option.some.injEq] at e; exact e ▸ h
  | a :: as, σ, σ', h, e => by
    simp only [runR] at e
    split at e
    · next τ hs => exact ReachableR.run (.step a h hs) e
    · cases e

theorem ReachableSafe.weaken {P : Params} {keep : Bool} {σ : State} (h : ReachableSafe P keep σ) :
    ReachableR P keep σ := by
  induction h with
  | init => exact .init
  | step a _ _ hs ih => exact .step a ih hs

theorem Reachable.restart {P : Params} {keep : Bool} {σ : State} (h : Reachable P σ) : ReachableSafe P keep σ := by
  induction h with
  | init => exact .init
  | step a _ hs ih => exact .step (.act a) ih trivial hs

/-- with the view stored, no start brings a replica back -/
theorem keep_safe {P : Params} {σ : State} (h : ReachableR P true σ) : ReachableSafe P true σ := by
  induction h with
  | init => exact .init
  | step a _ hs ih =>
    refine .step a ih ?_ hs
    cases a with
    | restart i =>
      show (reloaded true _ i _).view = _
      unfold reloaded
      split <;> rfl
    | act _ => trivial
    | refast _ _ _ => trivial

/-! ## the invariant, when no start brings a replica back -/

theorem refast_eff {P : Params} {keep : Bool} {σ σ' : State} {i s : Nat} {o : Bool}
    (h : stepR? P keep σ (.refast i s o) = some σ') : Eff P σ.core σ'.core := by
  simp only [stepR?] at h
  split at h
  · next sl hs =>
    split at h
    · next hg =>
      simp only [Replica.inWindow, Bool.and_eq_true, decide_eq_true_eq] at hg
      cases h
      exact Eff.share (c := σ.core) i s sl (if o then .fastOpt else .fastThr) hg.1.1.1 hg.1.1.2 hs
        (by cases o <;> simp) (fun _ => Or.inr hg.2)
    · cases h
  · cases h

theorem restart_some {P : Params} {keep : Bool} {σ σ' : State} {i : Nat}
    (h : stepR? P keep σ (.restart i) = some σ') : P.ok i = true ∧
      σ' = { σ.setRep i (reloaded keep σ.installs i (σ.rep i)) with
             vcs := resent (reloaded keep σ.installs i (σ.rep i)) σ.vcs } := by
  simp only [stepR?] at h
  split at h
  · next hok => cases h; exact ⟨hok, rfl⟩
  · cases h

/-- A start that keeps the view is a `restart` effect. -/
theorem restart_eff {P : Params} {keep : Bool} {σ σ' : State} {i : Nat} (hI : Inv P σ.core)
    (hn : NoRegress keep σ (.restart i)) (h : stepR? P keep σ (.restart i) = some σ') : Eff P σ.core σ'.core := by
  obtain ⟨hok, rfl⟩ := restart_some h
  have hR := hI.reps i hok
  refine (Eff.restart (c := σ.core) i (lbEntered σ.installs i) hok).cast ?_
  cases ha : (σ.rep i).active with
  | true =>
    have e : reloaded keep σ.installs i (σ.rep i) = { σ.rep i with
        pending := none, lbPending := lbEntered σ.installs i, slot := fun t => ((σ.rep i).slot t).map Slot.reload } := by
      unfold reloaded; rw [if_pos ha]
    have hv : ∀ r : Replica, r.active = true → resent r σ.vcs = σ.vcs := by
      intro r hr; unfold resent; rw [if_pos hr]
    rw [hv _ (by rw [e]; exact ha), e]
    simp only [State.core, State.setRep, Core.mk.injEq, and_true]
    funext j; simp only [upd]; split <;> rfl
  | false =>
    have hna : ¬ (σ.rep i).active = true := by rw [ha]; exact Bool.false_ne_true
    have hslot : ∀ t, (σ.rep i).slot t = none := by
      intro t
      cases hs : (σ.rep i).slot t with
      | none => rfl
      | some sl => have := (hR.slotA t sl hs).1; rw [show (σ.core.rep i).active = (σ.rep i).active from rfl, ha] at this; cases this
    have hv : recoveredView keep σ.installs i (σ.rep i) = (σ.rep i).view := by
      have : (reloaded keep σ.installs i (σ.rep i)).view = (σ.rep i).view := hn
      unfold reloaded at this
      rw [if_neg hna] at this
      exact this
    have hvc : recoveredVC (recoveredView keep σ.installs i (σ.rep i)) (σ.rep i) = (σ.rep i).myVC := by
      rw [hv]
      unfold recoveredVC
      cases hm : (σ.rep i).myVC with
      | none => rfl
      | some m =>
        have := (hR.myVC m hm).2.2
        rw [show (σ.core.rep i).view = (σ.rep i).view from rfl] at this
        show some { m with newView := (σ.rep i).view } = some m
        rw [← this]
    have e : reloaded keep σ.installs i (σ.rep i) = { σ.rep i with
        pending := none, lbPending := lbEntered σ.installs i, slot := fun _ => none } := by
      unfold reloaded; rw [if_neg hna, hvc, hv]
    have hvs : ∀ r : Replica, r.active = false → r.myVC = (σ.rep i).myVC → resent r σ.vcs = σ.vcs := by
      intro r hr hm'
      unfold resent
      rw [if_neg (by rw [hr]; exact Bool.false_ne_true), hm']
      cases hm : (σ.rep i).myVC with
      | none => rfl
      | some m =>
        have := (hR.myVC m hm).1
        exact if_pos (List.contains_iff_mem.2 this)
    rw [hvs _ (by rw [e]; exact ha) (by rw [e]), e]
    simp only [State.core, State.setRep, Core.mk.injEq, and_true]
    funext j; simp only [upd]; split
    · next hj =>
      subst hj
      simp only [Replica.core, CR.mk.injEq, true_and, and_true]
      funext t
      rw [hslot t]; rfl
    · rfl

theorem inv_safe {P : Params} {keep : Bool} (hT : P.timeService = false) {σ : State} (h : ReachableSafe P keep σ) :
    Inv P σ.core := by
  induction h with
  | init => exact inv_init P
  | step a _ hn hs ih =>
    cases a with
    | act a => exact inv_eff hT ih (step_eff hs)
    | restart i => exact inv_eff hT ih (restart_eff ih hn hs)
    | refast i s o => exact inv_eff hT ih (refast_eff hs)

/-! ## facts that survive every start -/

/-- the views a replica was active in -/
structure Hist (c : Core) (i : Nat) : Prop where
  le : lastActive c.installs i ≤ (c.rep i).view
  act : (c.rep i).active = true → (c.rep i).view = lastActive c.installs i
  lt : (c.rep i).active = false → lastActive c.installs i < (c.rep i).view
  asg : ∀ v s d, Asg c i v s d → v ≤ lastActive c.installs i

theorem Hist.frame {c c' : Core} {j : Nat} (h : Hist c j) (hv : (c'.rep j).view = (c.rep j).view)
    (ha : (c'.rep j).active = (c.rep j).active) (hi : lastActive c'.installs j = lastActive c.installs j)
    (hs : ∀ x ∈ c'.assigned, x.rep = j → x ∈ c.assigned) : Hist c' j := by
  refine ⟨?_, ?_, ?_, fun v s d hx => ?_⟩
  · rw [hi, hv]; exact h.le
  · rw [hi, hv, ha]; exact h.act
  · rw [hi, hv, ha]; exact h.lt
  · rw [hi]; exact h.asg v s d (hs _ hx rfl)

theorem lastActive_cons_ne {l : List Install} {I : Install} {j : Nat} (h : I.rep ≠ j) :
    lastActive (I :: l) j = lastActive l j := by
  unfold lastActive lastInstall
  rw [List.find?_cons_of_neg (by simpa using h)]

theorem lastActive_cons_eq {l : List Install} {I : Install} : lastActive (I :: l) I.rep = I.view := by
  unfold lastActive lastInstall
  rw [List.find?_cons_of_pos (by simp)]

theorem upd_view {f : Nat → CR} {i j : Nat} {r : CR} (h : r.view = (f i).view) :
    (upd f i r j).view = (f j).view := by
  unfold upd; split
  · next hj => rw [hj]; exact h
  · rfl

theorem upd_active {f : Nat → CR} {i j : Nat} {r : CR} (h : r.active = (f i).active) :
    (upd f i r j).active = (f j).active := by
  unfold upd; split
  · next hj => rw [hj]; exact h
  · rfl

theorem hist_eff {P : Params} {c c' : Core} (h : ∀ j, P.ok j = true → Hist c j) (he : Eff P c c') :
    ∀ j, P.ok j = true → Hist c' j := by
  intro j hj
  have hH := h j hj
  cases he with
  | idle => exact hH
  | assign i s d sl ok act lo hi emp nn dig cert time =>
    by_cases hij : j = i
    · subst hij
      refine ⟨?_, ?_, ?_, ?_⟩
      all_goals simp only [upd_same]
      · exact hH.le
      · exact hH.act
      · exact hH.lt
      · intro v t x hx
        rcases List.mem_cons.1 hx with h1 | h1
        · simp only [Ev.mk.injEq] at h1
          rw [h1.2.1, hH.act act]; exact Nat.le_refl _
        · exact hH.asg v t x h1
    · refine hH.frame (congrArg CR.view (upd_ne _ _ hij)) (congrArg CR.active (upd_ne _ _ hij)) rfl ?_
      intro x hx hxj
      rcases List.mem_cons.1 hx with rfl | h1
      · exact absurd hxj.symm hij
      · exact h1
  | slot i s sl sl' com ok act old dig time slow cert hcom =>
    exact hH.frame (upd_view rfl) (upd_active rfl) rfl (fun x hx _ => hx)
  | share i s sl k ok act old hc hf => exact hH.frame rfl rfl rfl (fun x hx _ => hx)
  | stable i s ok ge => exact hH.frame (upd_view rfl) (upd_active rfl) rfl (fun x hx _ => hx)
  | leaveActive i next m ok act lt hm =>
    by_cases hij : j = i
    · subst hij
      refine ⟨?_, ?_, ?_, hH.asg⟩
      all_goals simp only [upd_same]
      · have := hH.le; show lastActive c.installs j ≤ next; omega
      · intro h1; cases h1
      · intro _; have := hH.le; show lastActive c.installs j < next; omega
    · exact hH.frame (congrArg CR.view (upd_ne _ _ hij)) (congrArg CR.active (upd_ne _ _ hij)) rfl (fun x hx _ => hx)
  | leaveInactive i next m0 ok act lt my =>
    by_cases hij : j = i
    · subst hij
      refine ⟨?_, ?_, ?_, hH.asg⟩
      all_goals simp only [upd_same]
      · have := hH.le; show lastActive c.installs j ≤ next; omega
      · intro h1; cases h1
      · intro _; have := hH.le; show lastActive c.installs j < next; omega
    · exact hH.frame (congrArg CR.view (upd_ne _ _ hij)) (congrArg CR.active (upd_ne _ _ hij)) rfl (fun x hx _ => hx)
  | pend i arr lb ok act q nv => exact hH.frame (upd_view rfl) (upd_active rfl) rfl (fun x hx _ => hx)
  | enter i arr rs filled ok act pen lb hr hfill =>
    by_cases hij : j = i
    · subst hij
      have e : lastActive (⟨j, (c.rep j).view, arr, (c.rep j).lbPending, (c.rep j).lastStable⟩ :: c.installs) j =
          (c.rep j).view := lastActive_cons_eq (I := ⟨j, (c.rep j).view, arr, (c.rep j).lbPending, (c.rep j).lastStable⟩)
      refine ⟨?_, ?_, ?_, ?_⟩
      all_goals simp only [upd_same]
      · rw [e]; exact Nat.le_refl _
      · intro _; rw [e]
      · intro h1; cases h1
      · intro v t x hx
        rw [e]
        rcases List.mem_append.1 hx with h1 | h1
        · obtain ⟨_, _, _, _, _, heq⟩ := (hfill _).1 h1
          simp only [Ev.mk.injEq] at heq
          rw [heq.2.1]; exact Nat.le_refl _
        · exact Nat.le_trans (hH.asg v t x h1) hH.le
    · refine hH.frame (congrArg CR.view (upd_ne _ _ hij)) (congrArg CR.active (upd_ne _ _ hij))
        (lastActive_cons_ne (fun h => hij h.symm)) ?_
      intro x hx hxj
      rcases List.mem_append.1 hx with h1 | h1
      · obtain ⟨_, _, _, _, _, rfl⟩ := (hfill _).1 h1
        exact absurd hxj.symm hij
      · exact h1
  | byzShare sh bad => exact hH.frame rfl rfl rfl (fun x hx _ => hx)
  | byzVC m bad hb => exact hH.frame rfl rfl rfl (fun x hx _ => hx)
  | restart i lb ok => exact hH.frame (upd_view rfl) (upd_active rfl) rfl (fun x hx _ => hx)

/-- the facts that survive every start -/
structure Base (P : Params) (σ : State) : Prop where
  lite : ∀ j, P.ok j = true → Lite σ.core j
  hist : ∀ j, P.ok j = true → Hist σ.core j
  commits : ∀ e ∈ σ.commits, CommitEv P σ.shares e.view e.seq e.digest

theorem setRep_core_same (σ : State) (i : Nat) (r : Replica) (vs : List VCMsg) :
    (({ σ.setRep i r with vcs := vs } : State).core.rep i) = r.core := by
  show (if i = i then r else σ.rep i).core = r.core
  rw [if_pos rfl]

theorem setRep_core_ne (σ : State) {i j : Nat} (r : Replica) (vs : List VCMsg) (h : j ≠ i) :
    (({ σ.setRep i r with vcs := vs } : State).core.rep j) = σ.core.rep j := by
  show (if j = i then r else σ.rep j).core = _
  rw [if_neg h]; rfl

/-- A start, also one that brings the replica back to a lower view, keeps the basic facts. -/
theorem base_restart {P : Params} {keep : Bool} {σ σ' : State} {i : Nat} (h : Base P σ)
    (hs : stepR? P keep σ (.restart i) = some σ') : Base P σ' := by
  obtain ⟨hok, rfl⟩ := restart_some hs
  have hL := h.lite i hok
  have hH := h.hist i hok
  have hla : (reloaded keep σ.installs i (σ.rep i)).active = (σ.rep i).active := by
    unfold reloaded; split <;> rfl
  have hst : (reloaded keep σ.installs i (σ.rep i)).lastStable = (σ.rep i).lastStable := by
    unfold reloaded; split <;> rfl
  have hview : ((σ.rep i).active = true → (reloaded keep σ.installs i (σ.rep i)).view = (σ.rep i).view) ∧
      ((σ.rep i).active = false → lastActive σ.installs i < (reloaded keep σ.installs i (σ.rep i)).view) := by
    refine ⟨fun ha => ?_, fun ha => ?_⟩
    · unfold reloaded; rw [if_pos ha]
    · have : (reloaded keep σ.installs i (σ.rep i)).view = recoveredView keep σ.installs i (σ.rep i) := by
        unfold reloaded; rw [if_neg (by rw [ha]; exact Bool.false_ne_true)]
      rw [this]
      unfold recoveredView
      split
      · exact hH.lt ha
      · omega
  refine ⟨fun j hj => ?_, fun j hj => ?_, h.commits⟩
  · by_cases hij : j = i
    · subst hij
      cases ha : (σ.rep j).active with
      | true =>
        have er : reloaded keep σ.installs j (σ.rep j) = { σ.rep j with
            pending := none, lbPending := lbEntered σ.installs j, slot := fun t => ((σ.rep j).slot t).map Slot.reload } := by
          unfold reloaded; rw [if_pos ha]
        constructor
        · intro s sl hx
          rw [setRep_core_same] at hx ⊢
          rw [er] at hx ⊢
          obtain ⟨y, hy, rfl⟩ := Option.map_eq_some_iff.1 hx
          exact hL.slotA s y hy
        · intro v s d hx
          rw [setRep_core_same, er]
          exact hL.aView v s d hx
        · intro s d hx
          rw [setRep_core_same, er] at hx ⊢
          rcases hL.aCur s d hx with ⟨y, hy, hd⟩ | h1
          · refine Or.inl ⟨y.reload, ?_, hd⟩
            show ((σ.rep j).slot s).map Slot.reload = _
            rw [show (σ.rep j).slot s = some y from hy]; rfl
          · exact Or.inr h1
        · exact hL.aUniq
        · exact hL.shareA
      | false =>
        have hlt := hview.2 ha
        have er : (reloaded keep σ.installs j (σ.rep j)).slot = fun _ => none := by
          unfold reloaded; rw [if_neg (by rw [ha]; exact Bool.false_ne_true)]
        constructor
        · intro s sl hx
          rw [setRep_core_same] at hx
          have : (reloaded keep σ.installs j (σ.rep j)).slot s = some sl := hx
          rw [er] at this; cases this
        · intro v s d hx
          rw [setRep_core_same]
          have hle := hH.asg v s d hx
          show v ≤ (reloaded keep σ.installs j (σ.rep j)).view ∧ (v = (reloaded keep σ.installs j (σ.rep j)).view → _)
          have hle' : v ≤ lastActive σ.installs j := hle
          exact ⟨by omega, fun h1 => by omega⟩
        · intro s d hx
          rw [setRep_core_same] at hx
          have hle := hH.asg _ s d hx
          have hle' : (reloaded keep σ.installs j (σ.rep j)).view ≤ lastActive σ.installs j := hle
          omega
        · exact hL.aUniq
        · exact hL.shareA
    · exact (h.lite j hj).frame (setRep_core_ne σ _ _ hij) (fun x _ => Iff.rfl) (fun x hx _ => hx)
  · by_cases hij : j = i
    · subst hij
      refine ⟨?_, ?_, ?_, hH.asg⟩
      all_goals rw [setRep_core_same]
      · show lastActive σ.installs j ≤ (reloaded keep σ.installs j (σ.rep j)).view
        cases ha : (σ.rep j).active with
        | true => rw [hview.1 ha]; exact hH.le
        | false => exact Nat.le_of_lt (hview.2 ha)
      · intro h1
        have ha : (σ.rep j).active = true := by rw [← hla]; exact h1
        show (reloaded keep σ.installs j (σ.rep j)).view = lastActive σ.installs j
        rw [hview.1 ha]; exact hH.act ha
      · intro h1
        exact hview.2 (by rw [← hla]; exact h1)
    · exact (h.hist j hj).frame (by rw [setRep_core_ne σ _ _ hij]) (by rw [setRep_core_ne σ _ _ hij]) rfl
        (fun x hx _ => hx)

theorem base_reachable {P : Params} {keep : Bool} {σ : State} (h : ReachableR P keep σ) : Base P σ := by
  induction h with
  | init =>
    refine ⟨fun j _ => ?_, fun j _ => ?_, fun e he => by cases he⟩
    · constructor <;> simp [State.init, State.core, Replica.core, Replica.init, Asg]
    · constructor <;> simp [State.init, State.core, Replica.core, Replica.init, Asg, lastActive, lastInstall]
  | step a _ hs ih =>
    have via : ∀ {τ τ' : State}, Base P τ → Eff P τ.core τ'.core → Base P τ' := fun hb he =>
      ⟨lite_eff hb.lite he, hist_eff hb.hist he, commits_eff (c := State.core _) hb.commits he⟩
    cases a with
    | act a => exact via ih (step_eff hs)
    | restart i => exact base_restart ih hs
    | refast i s o => exact via ih (refast_eff hs)

theorem exec_reachableR {P : Params} {keep : Bool} {σ : State} (h : ReachableR P keep σ) : ExecInv σ := by
  induction h with
  | init => constructor <;> simp [State.init, Replica.init]
  | step a _ hs ih =>
    cases a with
    | act a => exact exec_step ih hs
    | restart i =>
      obtain ⟨hok, rfl⟩ := restart_some hs
      refine ih.upd (i := i) (r := reloaded keep _ i _) rfl rfl (fun x hx => hx) ?_ ?_
      · unfold reloaded; split <;> exact Nat.le_refl _
      · intro s sl hsl hcm
        unfold reloaded at hsl ⊢
        split at hsl
        · next ha =>
          rw [if_pos ha]
          obtain ⟨y, hy, rfl⟩ := Option.map_eq_some_iff.1 hsl
          exact ih.slots i s y hy hcm
        · cases hsl
    | refast i s o =>
      simp only [stepR?] at hs
      split at hs
      · split at hs
        · cases hs; exact ih.same rfl rfl rfl
        · cases hs
      · cases hs

/-! ## The theorems -/

/-- C01 inside one view, with crashes of any replicas at any time: two honest replicas that commit at the same
sequence number in the same view commit the same digest. -/
theorem agreement_same_view_with_crashes {P : Params} {keep : Bool} {σ : State} (hf : FewFaulty P.cfg P.honest)
    (hr : ReachableR P keep σ) {e e' : Ev} (he : e ∈ σ.commits) (he' : e' ∈ σ.commits) (hs : e.seq = e'.seq)
    (hv : e.view = e'.view) : e.digest = e'.digest := by
  have hB := base_reachable hr
  have h1 := hB.commits e he
  have h2 := hB.commits e' he'
  rw [← hs, ← hv] at h2
  obtain ⟨A, a1, a2, a3, a4⟩ := CommitEv.quorumLite (c := σ.core) hB.lite h1
  obtain ⟨B, b1, b2, b3, b4⟩ := CommitEv.quorumLite (c := σ.core) hB.lite h2
  obtain ⟨x, hx1, hx2, hok⟩ := quorums_meet hf a1 b1 a2 b2 a3 b3
  exact (hB.lite x hok).aUniq _ _ _ _ (a4 x hx1 hok) (b4 x hx2 hok)

/-- A crash does not make an honest replica contradict itself: all shares it ever signs for one view and one
sequence number, of whatever kind and before or after any number of crashes, are for one digest. -/
theorem no_equivocation_with_crashes {P : Params} {keep : Bool} {σ : State} (hr : ReachableR P keep σ)
    {i : Nat} (hi : P.ok i = true) {k k' : Kind} {v s d d' : Nat} (h : (⟨k, v, s, d, i⟩ : Share) ∈ σ.shares)
    (h' : (⟨k', v, s, d', i⟩ : Share) ∈ σ.shares) : d = d' :=
  ((base_reachable hr).lite i hi).aUniq v s d d' (((base_reachable hr).lite i hi).shareA _ _ _ _ h)
    (((base_reachable hr).lite i hi).shareA _ _ _ _ h')

/-- C01 across views with crashes (partial: without the time service, for runs in which every entry into a view
satisfies `GoodInstall` and no crash brings a replica back to a lower view).  The last hypothesis is needed:
`agreement_fails_with_restart`. -/
theorem agreement_with_crashes_partial {P : Params} {keep : Bool} {σ : State} (hf : FewFaulty P.cfg P.honest)
    (hFC : 1 ≤ P.cfg.F + P.cfg.C) (hT : P.timeService = false) (hr : ReachableSafe P keep σ)
    (hgood : ∀ I ∈ σ.installs, GoodInstall P I)
    {e e' : Ev} (he : e ∈ σ.commits) (he' : e' ∈ σ.commits) (hs : e.seq = e'.seq) : e.digest = e'.digest := by
  have hI := inv_safe hT hr
  have h1 := hI.commits e he
  have h2 := hI.commits e' he'
  rw [← hs] at h2
  rcases Nat.lt_trichotomy e.view e'.view with h | h | h
  · exact (agree_lt hI hf hFC hgood h h1 h2).symm
  · rw [← h] at h2; exact agree_same hI hf h1 h2
  · exact agree_lt hI hf hFC hgood h h2 h1

/-- A program that also stores its current view: crashes at any time do no harm (same other conditions). -/
theorem agreement_with_stored_view_partial {P : Params} {σ : State} (hf : FewFaulty P.cfg P.honest)
    (hFC : 1 ≤ P.cfg.F + P.cfg.C) (hT : P.timeService = false) (hr : ReachableR P true σ)
    (hgood : ∀ I ∈ σ.installs, GoodInstall P I)
    {e e' : Ev} (he : e ∈ σ.commits) (he' : e' ∈ σ.commits) (hs : e.seq = e'.seq) : e.digest = e'.digest :=
  agreement_with_crashes_partial hf hFC hT (keep_safe hr) hgood he he' hs

/-- The batches handed to the application agree, with crashes (conditions of `agreement_with_crashes_partial`). -/
theorem executed_agreement_with_crashes_partial {P : Params} {keep : Bool} {σ : State}
    (hf : FewFaulty P.cfg P.honest)
    (hFC : 1 ≤ P.cfg.F + P.cfg.C) (hT : P.timeService = false) (hr : ReachableSafe P keep σ)
    (hgood : ∀ I ∈ σ.installs, GoodInstall P I)
    {e e' : Ev} (he : e ∈ σ.executed) (he' : e' ∈ σ.executed) (hs : e.seq = e'.seq) : e.digest = e'.digest :=
  agreement_with_crashes_partial hf hFC hT hr hgood ((exec_reachableR hr.weaken).exec e he)
    ((exec_reachableR hr.weaken).exec e' he') hs

/-- With crashes, a replica still hands every sequence number to the application at most once and in order,
and only batches it committed. -/
theorem executed_once_with_crashes {P : Params} {keep : Bool} {σ : State} (hr : ReachableR P keep σ) (i : Nat) :
    (σ.executed.filter (fun e => e.rep = i)).Pairwise (fun a b => a.seq < b.seq) ∧ ∀ e ∈ σ.executed, e ∈ σ.commits :=
  ⟨(exec_reachableR hr).sorted i, (exec_reachableR hr).exec⟩

/-- Which starts bring a replica back (`keep = false`, the code): never inside an active view; outside of one
exactly if the replica had moved on beyond the view after its last active one. -/
theorem restart_regress {P : Params} {σ : State} (hr : ReachableR P false σ) {i : Nat} (hi : P.ok i = true) :
    ((σ.rep i).active = true → (reloaded false σ.installs i (σ.rep i)).view = (σ.rep i).view) ∧
    ((σ.rep i).active = false → (reloaded false σ.installs i (σ.rep i)).view = lastActive σ.installs i + 1 ∧
      lastActive σ.installs i + 1 ≤ (σ.rep i).view) := by
  refine ⟨fun ha => ?_, fun ha => ⟨?_, ((base_reachable hr).hist i hi).lt ha⟩⟩
  · unfold reloaded; rw [if_pos ha]
  · unfold reloaded; rw [if_neg (by rw [ha]; exact Bool.false_ne_true)]; rfl

end Concord.Protocol
