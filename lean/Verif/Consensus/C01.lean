import Verif.Consensus.Agreement
/-!
C01, property theorems: agreement between honest replicas.

`agreement_same_view` holds for every configuration.  Agreement across views is proved under
`GoodInstall` and without the time service (`agreement_partial`): `C01Examples` has executions of the model in
which agreement fails when one of these conditions is dropped.
-/
namespace Concord.Protocol
open Concord.VC Concord.VC.Spec

/-! ## agreement inside a view, with or without the time service -/

structure Lite (c : Core) (i : Nat) : Prop where
  slotA : ∀ s sl, (c.rep i).slot s = some sl → (c.rep i).active = true ∧ Asg c i (c.rep i).view s sl.digest
  aView : ∀ v s d, Asg c i v s d → v ≤ (c.rep i).view ∧ (v = (c.rep i).view → (c.rep i).active = true)
  aCur : ∀ s d, Asg c i (c.rep i).view s d → (∃ sl, (c.rep i).slot s = some sl ∧ sl.digest = d) ∨ s ≤ (c.rep i).lastStable
  aUniq : ∀ v s d d', Asg c i v s d → Asg c i v s d' → d = d'
  shareA : ∀ k v s d, (⟨k, v, s, d, i⟩ : Share) ∈ c.shares → Asg c i v s d

theorem Lite.frame {c c' : Core} {j : Nat} (h : Lite c j) (hr : c'.rep j = c.rep j)
    (ha : ∀ x, x.rep = j → (x ∈ c'.assigned ↔ x ∈ c.assigned))
    (hs : ∀ x ∈ c'.shares, x.signer = j → x ∈ c.shares) : Lite c' j := by
  have hasg : ∀ v s d, Asg c' j v s d ↔ Asg c j v s d := fun v s d => ha ⟨j, v, s, d⟩ rfl
  constructor
  · intro s sl h1; rw [hr] at h1 ⊢; rw [hasg]; exact h.slotA s sl h1
  · intro v s d h1; rw [hasg] at h1; rw [hr]; exact h.aView v s d h1
  · intro s d h1; rw [hasg, hr] at h1; rw [hr]; exact h.aCur s d h1
  · intro v s d d' h1 h2; rw [hasg] at h1 h2; exact h.aUniq v s d d' h1 h2
  · intro k v s d h1; rw [hasg]; exact h.shareA k v s d (hs _ h1 rfl)

theorem lite_eff {P : Params} {c c' : Core} (h : ∀ j, P.ok j = true → Lite c j) (he : Eff P c c') :
    ∀ j, P.ok j = true → Lite c' j := by
  intro j hj
  have hL := h j hj
  cases he with
  | idle => exact hL
  | assign i s d sl ok act lo hi emp nn dig cert time =>
    by_cases hij : j = i
    · subst hij
      constructor
      all_goals simp only [upd_same, Asg, List.mem_cons, Ev.mk.injEq, true_and]
      · intro t x hx
        refine ⟨act, ?_⟩
        by_cases ht : t = s
        · subst ht; rw [upd_same] at hx; cases hx; exact Or.inl ⟨rfl, dig⟩
        · rw [upd_ne _ _ ht] at hx; exact Or.inr (hL.slotA t x hx).2
      · rintro v t x (⟨rfl, rfl, rfl⟩ | hx)
        · exact ⟨Nat.le_refl _, fun _ => act⟩
        · exact hL.aView v t x hx
      · rintro t x (⟨rfl, rfl⟩ | hx)
        · exact Or.inl ⟨sl, by rw [upd_same], dig⟩
        · rcases hL.aCur t x hx with ⟨y, hy, hd⟩ | h1
          · refine Or.inl ⟨y, ?_, hd⟩
            rw [upd_ne]; exact hy
            rintro rfl; rw [emp] at hy; cases hy
          · exact Or.inr h1
      · have fresh : ∀ x, (⟨j, (c.rep j).view, s, x⟩ : Ev) ∈ c.assigned → False := by
          intro x hx
          rcases hL.aCur s x hx with ⟨y, hy, _⟩ | h1
          · rw [emp] at hy; cases hy
          · omega
        rintro v t x y (⟨rfl, rfl, rfl⟩ | hx) (⟨h1, h2, rfl⟩ | hy)
        · rfl
        · exact (fresh _ hy).elim
        · subst h1 h2; exact (fresh _ hx).elim
        · exact hL.aUniq v t x y hx hy
      · intro k v t x hx; exact Or.inr (hL.shareA k v t x hx)
    · refine hL.frame (upd_ne _ _ hij) ?_ (fun x hx _ => hx)
      intro x hx
      simp only [List.mem_cons]
      constructor
      · rintro (rfl | h1)
        · exact absurd hx.symm hij
        · exact h1
      · exact Or.inr
  | slot i s sl sl' com ok act old dig time slow cert hcom =>
    by_cases hij : j = i
    · subst hij
      constructor
      all_goals simp only [upd_same]
      · intro t x hx
        refine ⟨act, ?_⟩
        by_cases ht : t = s
        · subst ht; rw [upd_same] at hx; cases hx; rw [dig]; exact (hL.slotA _ _ old).2
        · rw [upd_ne _ _ ht] at hx; exact (hL.slotA t x hx).2
      · exact hL.aView
      · intro t x hx
        rcases hL.aCur t x hx with ⟨y, hy, hd⟩ | h1
        · by_cases ht : t = s
          · subst ht; rw [old] at hy; cases hy; exact Or.inl ⟨sl', by rw [upd_same], by rw [dig, hd]⟩
          · exact Or.inl ⟨y, by rw [upd_ne _ _ ht]; exact hy, hd⟩
        · exact Or.inr h1
      · exact hL.aUniq
      · exact hL.shareA
    · exact hL.frame (upd_ne _ _ hij) (fun x _ => Iff.rfl) (fun x hx _ => hx)
  | share i s sl k ok act old hc hf =>
    by_cases hij : j = i
    · subst hij
      refine ⟨hL.slotA, hL.aView, hL.aCur, hL.aUniq, ?_⟩
      intro k' v t x hx
      rcases List.mem_cons.1 hx with h1 | h1
      · simp only [Share.mk.injEq] at h1
        obtain ⟨_, rfl, rfl, rfl, _⟩ := h1
        exact (hL.slotA _ _ old).2
      · exact hL.shareA k' v t x h1
    · refine hL.frame rfl (fun x _ => Iff.rfl) ?_
      intro x hx hxj
      rcases List.mem_cons.1 hx with rfl | h1
      · exact absurd hxj.symm hij
      · exact h1
  | stable i s ok ge =>
    by_cases hij : j = i
    · subst hij
      constructor
      all_goals simp only [upd_same]
      · intro t x hx
        by_cases ht : s < t
        · rw [if_pos ht] at hx; exact hL.slotA t x hx
        · rw [if_neg ht] at hx; cases hx
      · exact hL.aView
      · intro t x hx
        by_cases ht : s < t
        · rw [if_pos ht]
          rcases hL.aCur t x hx with h1 | h1
          · exact Or.inl h1
          · omega
        · exact Or.inr (by omega)
      · exact hL.aUniq
      · exact hL.shareA
    · exact hL.frame (upd_ne _ _ hij) (fun x _ => Iff.rfl) (fun x hx _ => hx)
  | leaveActive i next m ok act lt hm =>
    by_cases hij : j = i
    · subst hij
      constructor
      all_goals simp only [upd_same]
      · intro t x hx; cases hx
      · intro v s d ha
        have := hL.aView v s d ha
        exact ⟨by omega, by omega⟩
      · intro s d ha
        have := hL.aView _ s d ha
        omega
      · exact hL.aUniq
      · exact hL.shareA
    · exact hL.frame (upd_ne _ _ hij) (fun x _ => Iff.rfl) (fun x hx _ => hx)
  | leaveInactive i next m0 ok act lt my =>
    by_cases hij : j = i
    · subst hij
      constructor
      all_goals simp only [upd_same]
      · intro t x hx; cases hx
      · intro v s d ha
        have := hL.aView v s d ha
        exact ⟨by omega, by omega⟩
      · intro s d ha
        have := hL.aView _ s d ha
        omega
      · exact hL.aUniq
      · exact hL.shareA
    · exact hL.frame (upd_ne _ _ hij) (fun x _ => Iff.rfl) (fun x hx _ => hx)
  | pend i arr lb ok act q nv =>
    by_cases hij : j = i
    · subst hij
      constructor
      all_goals simp only [upd_same]
      · exact hL.slotA
      · exact hL.aView
      · exact hL.aCur
      · exact hL.aUniq
      · exact hL.shareA
    · exact hL.frame (upd_ne _ _ hij) (fun x _ => Iff.rfl) (fun x hx _ => hx)
  | enter i arr rs filled ok act pen lb hr hfill =>
    by_cases hij : j = i
    · subst hij
      have none_before : ∀ s d, (⟨j, (c.rep j).view, s, d⟩ : Ev) ∈ c.assigned → False := by
        intro s d ha
        have := (hL.aView _ s d ha).2 rfl
        rw [act] at this; cases this
      have hmax := computeRestrictions_max hr
      constructor
      all_goals simp only [upd_same, Asg, List.mem_append]
      · intro t x hx
        refine ⟨trivial, Or.inl ((hfill _).2 ⟨t, x, ?_, ?_, hx, rfl⟩)⟩
        · unfold initialSlot at hx; split at hx
          · next hc => exact hc
          · cases hx
        · unfold initialSlot at hx; split at hx
          · cases hat : rs.at? t with
            | none => rw [hat] at hx; cases hx
            | some y => have := (restr_at_bound hat).2; omega
          · cases hx
      · rintro v s d (hx | hx)
        · obtain ⟨t, y, _, _, _, heq⟩ := (hfill _).1 hx
          simp only [Ev.mk.injEq] at heq
          exact ⟨by omega, fun _ => trivial⟩
        · exact ⟨(hL.aView v s d hx).1, fun _ => trivial⟩
      · rintro s d (hx | hx)
        · obtain ⟨t, y, _, _, h3, heq⟩ := (hfill _).1 hx
          simp only [Ev.mk.injEq] at heq
          obtain ⟨_, _, rfl, rfl⟩ := heq
          exact Or.inl ⟨y, h3, rfl⟩
        · exact (none_before _ _ hx).elim
      · rintro v s d d' (hx | hx) (hy | hy)
        · obtain ⟨t, y, _, _, h3, heq⟩ := (hfill _).1 hx
          obtain ⟨t', y', _, _, h3', heq'⟩ := (hfill _).1 hy
          simp only [Ev.mk.injEq] at heq heq'
          obtain ⟨_, _, rfl, rfl⟩ := heq
          obtain ⟨_, _, rfl, rfl⟩ := heq'
          rw [h3] at h3'; cases h3'; rfl
        · obtain ⟨t, y, _, _, _, heq⟩ := (hfill _).1 hx
          simp only [Ev.mk.injEq] at heq
          obtain ⟨_, rfl, _, _⟩ := heq
          exact (none_before _ _ hy).elim
        · obtain ⟨t, y, _, _, _, heq⟩ := (hfill _).1 hy
          simp only [Ev.mk.injEq] at heq
          obtain ⟨_, rfl, _, _⟩ := heq
          exact (none_before _ _ hx).elim
        · exact hL.aUniq v s d d' hx hy
      · intro k v s d hx; exact Or.inr (hL.shareA k v s d hx)
    · refine hL.frame (upd_ne _ _ hij) ?_ (fun x hx _ => hx)
      intro x hx
      simp only [List.mem_append]
      constructor
      · rintro (h1 | h1)
        · obtain ⟨t, y, _, _, _, rfl⟩ := (hfill _).1 h1
          exact absurd hx.symm hij
        · exact h1
      · exact Or.inr
  | byzShare sh bad =>
    refine hL.frame rfl (fun x _ => Iff.rfl) ?_
    intro x hx hxj
    rcases List.mem_cons.1 hx with rfl | h1
    · rw [hxj, hj] at bad; cases bad
    · exact h1
  | byzVC m bad hb => exact hL.frame rfl (fun x _ => Iff.rfl) (fun x hx _ => hx)
  | restart i lb ok =>
    by_cases hij : j = i
    · subst hij
      constructor
      all_goals simp only [upd_same]
      · intro t x hx
        rw [Option.map_eq_some_iff] at hx
        obtain ⟨y, hy, rfl⟩ := hx
        exact hL.slotA t y hy
      · exact hL.aView
      · intro s d hx
        rcases hL.aCur s d hx with ⟨y, hy, hd⟩ | h1
        · exact Or.inl ⟨y.reload, by rw [hy]; rfl, hd⟩
        · exact Or.inr h1
      · exact hL.aUniq
      · exact hL.shareA
    · exact hL.frame (upd_ne _ _ hij) (fun x _ => Iff.rfl) (fun x hx _ => hx)

theorem commits_eff {P : Params} {c c' : Core} (h : ∀ e ∈ c.commits, CommitEv P c.shares e.view e.seq e.digest)
    (he : Eff P c c') : ∀ e ∈ c'.commits, CommitEv P c'.shares e.view e.seq e.digest := by
  cases he with
  | slot i s sl sl' com ok act old dig time slow cert hcom =>
    rcases hcom with rfl | ⟨rfl, hce⟩
    · exact h
    · intro e he
      rcases List.mem_cons.1 he with rfl | he
      · exact hce
      · exact h e he
  | share i s sl k => exact fun e he => CommitEv_mono (fun x hx => List.mem_cons_of_mem _ hx) (h e he)
  | byzShare sh => exact fun e he => CommitEv_mono (fun x hx => List.mem_cons_of_mem _ hx) (h e he)
  | _ => exact h

theorem lite_reachable {P : Params} {σ : State} (h : Reachable P σ) :
    (∀ j, P.ok j = true → Lite σ.core j) ∧ ∀ e ∈ σ.commits, CommitEv P σ.shares e.view e.seq e.digest := by
  induction h with
  | init =>
    refine ⟨fun j _ => ?_, fun e he => by cases he⟩
    constructor <;> simp [State.init, State.core, Replica.core, Replica.init, Asg]
  | step a _ hs ih =>
    have := step_eff hs
    exact ⟨lite_eff ih.1 this, commits_eff ih.2 this⟩

theorem CommitEv.quorumLite {P : Params} {c : Core} {v s d : Nat} (hI : ∀ j, P.ok j = true → Lite c j)
    (h : CommitEv P c.shares v s d) :
    ∃ A : List Nat, A.Nodup ∧ (∀ x ∈ A, x < P.cfg.N) ∧ P.slowQ ≤ A.length ∧
      ∀ x ∈ A, P.ok x = true → Asg c x v s d := by
  rcases h.signers with ⟨A, h1, h2, h3, h4⟩ | ⟨A, k, _, h1, h2, h3, h4⟩
  · exact ⟨A, h1, h2, h3, fun x hx hok => (hI x hok).shareA _ _ _ _ (h4 x hx)⟩
  · exact ⟨A, h1, h2, by unfold Params.slowQ; omega, fun x hx hok => (hI x hok).shareA _ _ _ _ (h4 x hx)⟩

/-! ## what is executed was committed -/

structure ExecInv (σ : State) : Prop where
  slots : ∀ i s sl, (σ.rep i).slot s = some sl → sl.committed = true →
    (⟨i, (σ.rep i).view, s, sl.digest⟩ : Ev) ∈ σ.commits
  exec : ∀ e ∈ σ.executed, e ∈ σ.commits
  le : ∀ e ∈ σ.executed, e.seq ≤ (σ.rep e.rep).lastExec
  sorted : ∀ i, (σ.executed.filter (fun e => e.rep = i)).Pairwise (fun a b => a.seq < b.seq)

/-- a step that changes one replica without executing anything -/
theorem ExecInv.upd {σ σ' : State} {i : Nat} {r : Replica} (h : ExecInv σ)
    (hr : σ'.rep = fun j => if j = i then r else σ.rep j) (hex : σ'.executed = σ.executed)
    (hc : ∀ x ∈ σ.commits, x ∈ σ'.commits) (hle : (σ.rep i).lastExec ≤ r.lastExec)
    (hs : ∀ s sl, r.slot s = some sl → sl.committed = true → (⟨i, r.view, s, sl.digest⟩ : Ev) ∈ σ'.commits) :
    ExecInv σ' := by
  constructor
  · intro j s sl hsl hcm
    rw [hr] at hsl ⊢
    simp only at hsl ⊢
    split at hsl
    · next hj => subst hj; simp only [if_true]; exact hs s sl hsl hcm
    · next hj => simp only [hj, if_false]; exact hc _ (h.slots j s sl hsl hcm)
  · intro e he; rw [hex] at he; exact hc _ (h.exec e he)
  · intro e he; rw [hex] at he
    have := h.le e he
    rw [hr]; simp only
    split
    · next hj => rw [hj] at this; omega
    · exact this
  · intro j; rw [hex]; exact h.sorted j

theorem ExecInv.same {σ σ' : State} (h : ExecInv σ) (hr : σ'.rep = σ.rep) (hex : σ'.executed = σ.executed)
    (hc : σ'.commits = σ.commits) : ExecInv σ' := by
  constructor
  · intro j s sl; rw [hr, hc]; exact h.slots j s sl
  · rw [hex, hc]; exact h.exec
  · rw [hex, hr]; exact h.le
  · rw [hex]; exact h.sorted

theorem setSlot_slots {cs : List Ev} {i s : Nat} {r : Replica} {sl : Slot}
    (h : ∀ t x, r.slot t = some x → x.committed = true → (⟨i, r.view, t, x.digest⟩ : Ev) ∈ cs)
    (h1 : sl.committed = true → (⟨i, r.view, s, sl.digest⟩ : Ev) ∈ cs) :
    ∀ t x, (r.setSlot s sl).slot t = some x → x.committed = true → (⟨i, (r.setSlot s sl).view, t, x.digest⟩ : Ev) ∈ cs := by
  intro t x hx hcm
  unfold Replica.setSlot at hx ⊢
  simp only at hx ⊢
  split at hx
  · next ht => cases hx; subst ht; exact h1 hcm
  · exact h t x hx hcm

theorem advance_slots {cs : List Ev} {i s : Nat} {r : Replica}
    (h : ∀ t x, r.slot t = some x → x.committed = true → (⟨i, r.view, t, x.digest⟩ : Ev) ∈ cs) :
    ∀ t x, (r.advanceStable s).slot t = some x → x.committed = true →
      (⟨i, (r.advanceStable s).view, t, x.digest⟩ : Ev) ∈ cs := by
  intro t x hx hcm
  unfold Replica.advanceStable at hx ⊢
  simp only at hx ⊢
  split at hx
  · exact h t x hx hcm
  · cases hx

theorem exec_step {P : Params} {σ σ' : State} {a : Action} (h : ExecInv σ) (hs : step? P σ a = some σ') : ExecInv σ' := by
  have hsl := fun i => h.slots i
  cases a with
  | propose i s d slow timeOk =>
    simp only [step?] at hs; split at hs
    · cases hs
      exact h.upd (i := i) rfl rfl (fun x hx => hx) (Nat.le_refl _)
        (setSlot_slots (hsl i) (by intro hh; cases hh))
    · cases hs
  | accept i s d slow timeOk =>
    simp only [step?] at hs; split at hs
    · cases hs
      exact h.upd (i := i) rfl rfl (fun x hx => hx) (Nat.le_refl _)
        (setSlot_slots (hsl i) (by intro hh; cases hh))
    · cases hs
  | startSlow i s =>
    simp only [step?] at hs; split at hs
    · next sl hsl' =>
      split at hs
      · cases hs
        exact h.upd (i := i) rfl rfl (fun x hx => hx) (Nat.le_refl _)
          (setSlot_slots (hsl i) (fun hh => hsl i s sl hsl' hh))
      · cases hs
    · cases hs
  | sendPrepare i s =>
    simp only [step?] at hs; split at hs
    · split at hs
      · cases hs; exact h.same rfl rfl rfl
      · cases hs
    · cases hs
  | sendFast i s o =>
    simp only [step?] at hs; split at hs
    · split at hs
      · cases hs; exact h.same rfl rfl rfl
      · cases hs
    · cases hs
  | prepareFull i s sig =>
    simp only [step?] at hs; split at hs
    · next sl hsl' =>
      split at hs
      · cases hs
        exact h.upd (i := i) rfl rfl (fun x hx => hx) (Nat.le_refl _)
          (setSlot_slots (hsl i) (fun hh => hsl i s sl hsl' hh))
      · cases hs
    · cases hs
  | sendCommit i s =>
    simp only [step?] at hs; split at hs
    · split at hs
      · cases hs; exact h.same rfl rfl rfl
      · cases hs
    · cases hs
  | commit i s =>
    simp only [step?] at hs; split at hs
    · next sl hsl' =>
      split at hs
      · cases hs
        exact h.upd (i := i) rfl rfl (fun x hx => List.mem_cons_of_mem _ hx) (Nat.le_refl _)
          (setSlot_slots (fun t x hx hcm => List.mem_cons_of_mem _ (hsl i t x hx hcm))
            (fun _ => List.mem_cons_self ..))
      · cases hs
    · cases hs
  | execute i =>
    simp only [step?] at hs; split at hs
    · next sl hsl' =>
      split at hs
      · next hg =>
        simp only [Bool.and_eq_true] at hg
        cases hs
        constructor
        · intro j s x hx hcm
          simp only [State.setRep] at hx ⊢
          split at hx
          · next hj => subst hj; simp only [if_true]; exact hsl j s x hx hcm
          · next hj => simp only [hj, if_false]; exact hsl j s x hx hcm
        · intro e he
          rcases List.mem_append.1 he with he | he
          · exact h.exec e he
          · rw [List.mem_singleton] at he; subst he
            exact hsl i _ sl hsl' hg.2
        · intro e he
          simp only [State.setRep]
          rcases List.mem_append.1 he with he | he
          · have := h.le e he
            split
            · next hj => rw [hj] at this; simp only; omega
            · exact this
          · rw [List.mem_singleton] at he; subst he
            simp
        · intro j
          simp only [List.filter_append]
          rw [List.pairwise_append]
          refine ⟨h.sorted j, ?_, ?_⟩
          · exact List.Pairwise.sublist List.filter_sublist (List.pairwise_singleton _ _)
          · intro a ha b hb
            rw [List.mem_filter] at ha hb
            have hb1 := List.mem_singleton.1 hb.1
            have := h.le a ha.1
            have h1 : a.rep = j := by simpa using ha.2
            have h2 : b.rep = j := by simpa using hb.2
            subst hb1
            simp only at h2 ⊢
            rw [h1, ← h2] at this; omega
      · cases hs
    · cases hs
  | checkpoint i =>
    simp only [step?] at hs; split at hs
    · cases hs; exact h.same rfl rfl rfl
    · cases hs
  | stable i s =>
    simp only [step?] at hs; split at hs
    · cases hs
      exact h.upd (i := i) rfl rfl (fun x hx => hx) (Nat.le_refl _) (advance_slots (hsl i))
    · cases hs
  | stableFast i =>
    simp only [step?] at hs; split at hs
    · split at hs
      · cases hs
        exact h.upd (i := i) rfl rfl (fun x hx => hx) (Nat.le_refl _) (advance_slots (hsl i))
      · cases hs
    · cases hs
  | stateTransfer i s =>
    simp only [step?] at hs; split at hs
    · next hg =>
      simp only [Bool.and_eq_true, decide_eq_true_eq] at hg
      cases hs
      refine h.upd (i := i) rfl rfl (fun x hx => hx) ?_ ?_
      · split
        · simp only [Replica.advanceStable]; omega
        · simp only; omega
      · split
        · exact advance_slots (hsl i)
        · exact hsl i
    · cases hs
  | leaveView i next =>
    simp only [step?] at hs; split at hs
    · split at hs
      · cases hs
        exact h.upd (i := i) rfl rfl (fun x hx => hx) (Nat.le_refl _) (by intro t x hx; cases hx)
      · cases hs
    · cases hs
  | pend i arr =>
    simp only [step?] at hs; split at hs
    · split at hs
      · cases hs
        exact h.upd (i := i) rfl rfl (fun x hx => hx) (Nat.le_refl _) (hsl i)
      · cases hs
    · cases hs
  | enter i =>
    simp only [step?] at hs; split at hs
    · split at hs
      · split at hs
        · cases hs
          refine h.upd (i := i) rfl rfl (fun x hx => hx) (Nat.le_refl _) ?_
          intro t x hx hcm
          simp only [initialSlot] at hx
          split at hx
          · rw [Option.map_eq_some_iff] at hx
            obtain ⟨_, _, rfl⟩ := hx; cases hcm
          · cases hx
        · cases hs
      · cases hs
    · cases hs
  | byzShare sh =>
    simp only [step?] at hs; split at hs
    · cases hs; exact h.same rfl rfl rfl
    · cases hs
  | byzPP e =>
    simp only [step?] at hs; split at hs
    · cases hs; exact h.same rfl rfl rfl
    · cases hs
  | byzVC m =>
    simp only [step?] at hs; split at hs
    · cases hs; exact h.same rfl rfl rfl
    · cases hs
  | byzCkpt i s =>
    simp only [step?] at hs; split at hs
    · cases hs; exact h.same rfl rfl rfl
    · cases hs

theorem exec_reachable {P : Params} {σ : State} (h : Reachable P σ) : ExecInv σ := by
  induction h with
  | init => constructor <;> simp [State.init, Replica.init]
  | step a _ hs ih => exact exec_step ih hs

/-! ## The theorems -/

/-- C01 inside one view: two honest replicas that commit at the same sequence number in the same view, by
whatever path, commit the same digest.  No assumption beyond at most `F` faulty replicas. -/
theorem agreement_same_view {P : Params} {σ : State} (hf : FewFaulty P.cfg P.honest) (hr : Reachable P σ)
    {e e' : Ev} (he : e ∈ σ.commits) (he' : e' ∈ σ.commits) (hs : e.seq = e'.seq) (hv : e.view = e'.view) :
    e.digest = e'.digest := by
  obtain ⟨hL, hC⟩ := lite_reachable hr
  have h1 := hC e he
  have h2 := hC e' he'
  rw [← hs, ← hv] at h2
  obtain ⟨A, a1, a2, a3, a4⟩ := CommitEv.quorumLite (c := σ.core) hL h1
  obtain ⟨B, b1, b2, b3, b4⟩ := CommitEv.quorumLite (c := σ.core) hL h2
  obtain ⟨x, hx1, hx2, hok⟩ := quorums_meet hf a1 b1 a2 b2 a3 b3
  exact (hL x hok).aUniq _ _ _ _ (a4 x hx1 hok) (b4 x hx2 hok)

/-- C01 across views (partial: without the time service, and for runs in which every entry into a view
satisfies `GoodInstall`).  Two honest replicas that commit at the same sequence number commit the same
digest.  The full statement has neither hypothesis; it is false of the code (`C01Examples`). -/
theorem agreement_partial {P : Params} {σ : State} (hf : FewFaulty P.cfg P.honest) (hFC : 1 ≤ P.cfg.F + P.cfg.C)
    (hT : P.timeService = false) (hr : Reachable P σ) (hgood : ∀ I ∈ σ.installs, GoodInstall P I)
    {e e' : Ev} (he : e ∈ σ.commits) (he' : e' ∈ σ.commits) (hs : e.seq = e'.seq) : e.digest = e'.digest := by
  have hI := inv_reachable hT hr
  have h1 := hI.commits e he
  have h2 := hI.commits e' he'
  rw [← hs] at h2
  rcases Nat.lt_trichotomy e.view e'.view with h | h | h
  · exact (agree_lt hI hf hFC hgood h h1 h2).symm
  · rw [← h] at h2; exact agree_same hI hf h1 h2
  · exact agree_lt hI hf hFC hgood h h2 h1

/-- The batches handed to the application agree (same conditions as `agreement_partial`). -/
theorem executed_agreement_partial {P : Params} {σ : State} (hf : FewFaulty P.cfg P.honest)
    (hFC : 1 ≤ P.cfg.F + P.cfg.C)
    (hT : P.timeService = false) (hr : Reachable P σ) (hgood : ∀ I ∈ σ.installs, GoodInstall P I)
    {e e' : Ev} (he : e ∈ σ.executed) (he' : e' ∈ σ.executed) (hs : e.seq = e'.seq) : e.digest = e'.digest :=
  agreement_partial hf hFC hT hr hgood ((exec_reachable hr).exec e he) ((exec_reachable hr).exec e' he') hs

/-- Every batch handed to the application was committed by that replica in that view. -/
theorem executed_committed {P : Params} {σ : State} (hr : Reachable P σ) {e : Ev} (he : e ∈ σ.executed) :
    e ∈ σ.commits := (exec_reachable hr).exec e he

/-- A replica hands batches to the application in increasing order of sequence numbers: none twice. -/
theorem executed_increasing {P : Params} {σ : State} (hr : Reachable P σ) (i : Nat) :
    (σ.executed.filter (fun e => e.rep = i)).Pairwise (fun a b => a.seq < b.seq) := (exec_reachable hr).sorted i

/-- A commit is backed by a quorum of signature shares of distinct replicas for that view, number and digest. -/
theorem commit_has_quorum {P : Params} {σ : State} (hr : Reachable P σ) {e : Ev} (he : e ∈ σ.commits) :
    ∃ (A : List Nat) (k : Kind), k ≠ .prepare ∧ A.Nodup ∧ (∀ x ∈ A, x < P.cfg.N) ∧
      2 * P.cfg.F + P.cfg.C + 1 ≤ A.length ∧ ∀ x ∈ A, (⟨k, e.view, e.seq, e.digest, x⟩ : Share) ∈ σ.shares := by
  rcases ((lite_reachable hr).2 e he).signers with ⟨A, h1, h2, h3, h4⟩ | ⟨A, k, hk, h1, h2, h3, h4⟩
  · exact ⟨A, .commit, by decide, h1, h2, h3, h4⟩
  · exact ⟨A, k, (by rintro rfl; rcases hk with h | h <;> cases h), h1, h2, by omega, h4⟩

end Concord.Protocol
