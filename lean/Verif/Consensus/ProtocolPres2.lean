import Verif.Consensus.ProtocolPres
namespace Concord.Protocol
open Concord.VC Concord.VC.Spec

theorem inv_eff {P : Params} (hT : P.timeService = false) {c c' : Core} (h : Inv P c) (e : Eff P c c') : Inv P c' := by
  cases e with
  | idle => exact h
  | assign i s d sl ok act lo hi emp nn dig cert time =>
    have hR := h.reps i ok
    have hnew : ∀ v s' d', Asg
        { c with rep := upd c.rep i { c.rep i with slot := upd (c.rep i).slot s (some sl) },
                 assigned := ⟨i, (c.rep i).view, s, d⟩ :: c.assigned } i v s' d' ↔
        (v = (c.rep i).view ∧ s' = s ∧ d' = d) ∨ Asg c i v s' d' := by
      intro v s' d'; unfold Asg; simp only [List.mem_cons, Ev.mk.injEq, true_and]
    refine inv_assemble h ok ?_ (fun x hx => hx) (fun x hx => hx) (fun x hx => List.mem_cons_of_mem _ hx) ?_
      (fun x hx => hx) (fun x hx => Or.inl hx) ?_ ?_ ?_ ?_ (fun m hm => Or.inl hm) (fun I hI => Or.inl hI)
      (fun e he => Or.inl he)
    · intro j hj; exact upd_ne _ _ hj
    · intro x hx
      rcases List.mem_cons.1 hx with rfl | hx
      · exact Or.inr ⟨rfl, rfl⟩
      · exact Or.inl hx
    · simp
    · simp
    · intro _ _; simpa using act
    · constructor
      all_goals simp only [upd_same]
      · intro t sl' ht
        rw [hnew]
        by_cases hts : t = s
        · subst hts
          simp only [upd_same, Option.some.injEq] at ht
          subst ht
          exact ⟨act, Or.inl ⟨rfl, rfl, dig⟩⟩
        · rw [upd_ne _ _ hts] at ht
          have := hR.slotA t sl' ht
          exact ⟨this.1, Or.inr this.2⟩
      · intro t sl' ht
        by_cases hts : t = s
        · subst hts; exact ⟨lo, hi⟩
        · rw [upd_ne _ _ hts] at ht; exact hR.slotWin t sl' ht
      · intro t sl' sig ht hc
        by_cases hts : t = s
        · subst hts
          simp only [upd_same, Option.some.injEq] at ht
          subst ht; rw [cert] at hc; cases hc
        · rw [upd_ne _ _ hts] at ht; exact hR.slotCert t sl' sig ht hc
      · intro t sl' ht
        by_cases hts : t = s
        · subst hts
          simp only [upd_same, Option.some.injEq] at ht
          subst ht; rw [dig]; exact fun _ => nn
        · rw [upd_ne _ _ hts] at ht; exact hR.slotFast t sl' ht
      · intro t sl' ht
        by_cases hts : t = s
        · subst hts
          simp only [upd_same, Option.some.injEq] at ht
          subst ht; exact time hT
        · rw [upd_ne _ _ hts] at ht; exact hR.slotTime t sl' ht
      · intro v s' d' ha
        rw [hnew] at ha
        rcases ha with ⟨rfl, _, _⟩ | ha
        · exact ⟨Nat.le_refl _, fun _ => act⟩
        · exact hR.aView v s' d' ha
      · intro s' d' ha
        rw [hnew] at ha
        rcases ha with ⟨_, rfl, rfl⟩ | ha
        · exact Or.inl ⟨sl, by simp, dig⟩
        · by_cases hts : s' = s
          · subst hts
            rcases hR.aCur s' d' ha with ⟨sl', h1, _⟩ | h1
            · rw [emp] at h1; cases h1
            · omega
          · rw [upd_ne _ _ hts]; exact hR.aCur s' d' ha
      · intro v s' d1 d2 h1 h2
        rw [hnew] at h1 h2
        have key : ∀ d', Asg c i (c.rep i).view s d' → False := by
          intro d' ha
          rcases hR.aCur s d' ha with ⟨sl', h1, _⟩ | h1
          · rw [emp] at h1; cases h1
          · omega
        rcases h1 with ⟨rfl, rfl, rfl⟩ | h1 <;> rcases h2 with ⟨h2a, h2b, h2c⟩ | h2
        · exact h2c.symm
        · exact absurd h2 (key _)
        · subst h2a; subst h2b; exact absurd h1 (key _)
        · exact hR.aUniq v s' d1 d2 h1 h2
      · intro v s' d' ha
        rw [hnew] at ha
        rcases ha with ⟨_, rfl, _⟩ | ha
        · exact hi
        · exact hR.aWin v s' d' ha
      · intro v s' d' ha h0
        rw [hnew] at ha
        rcases ha with ⟨rfl, rfl, _⟩ | ha
        · obtain ⟨I, h1, h2, h3, h4⟩ := hR.instCur act h0
          exact ⟨I, h1, h2, h3, by omega⟩
        · exact hR.aInst v s' d' ha h0
      · intro k v s' d' hs
        rw [hnew]; exact Or.inr (hR.shareA k v s' d' hs)
      · intro s' d' hs
        by_cases hts : s' = s
        · subst hts
          rcases hR.shareCommit s' d' hs with ⟨sl', h1, _⟩ | h1
          · rw [emp] at h1; cases h1
          · exact Or.inr h1
        · rw [upd_ne _ _ hts]; exact hR.shareCommit s' d' hs
      · exact hR.shareFast
      · exact hR.view0
      · exact hR.myVC
      · exact hR.hasVC
      · exact hR.instCur
      · exact hR.pend
  | slot i s sl sl' com ok act old dig time slow cert hcom =>
    have hR := h.reps i ok
    refine inv_assemble h ok ?_ (fun x hx => hx) (fun x hx => hx) (fun x hx => hx) (fun x hx => Or.inl hx)
      (fun x hx => hx) (fun x hx => Or.inl hx) ?_ ?_ ?_ ?_ (fun m hm => Or.inl hm) (fun I hI => Or.inl hI) ?_
    · intro j hj; exact upd_ne _ _ hj
    · simp
    · simp
    · intro _ _; simpa using act
    · -- slots
      have hslot : ∀ t x, upd (c.rep i).slot s (some sl') t = some x →
          ∃ y, (c.rep i).slot t = some y ∧ x.digest = y.digest ∧ x.timeOk = y.timeOk ∧ (x.slow = false → y.slow = false) ∧
          (∀ sig, x.cert = some sig → y.cert = some sig ∨
            (P.cfg.valid (c.rep i).view t x.digest sig = true ∧ backed P c.shares (c.rep i).view t x.digest)) := by
        intro t x hx
        by_cases hts : t = s
        · subst hts
          simp only [upd_same, Option.some.injEq] at hx
          subst hx
          refine ⟨sl, old, dig, time, slow, ?_⟩
          intro sig hsig
          rcases cert with hc | ⟨sig', h1, h2, h3⟩
          · exact Or.inl (by rw [← hc]; exact hsig)
          · rw [h1] at hsig; cases hsig
            rw [dig]; exact Or.inr ⟨h2, h3⟩
        · rw [upd_ne _ _ hts] at hx
          exact ⟨x, hx, rfl, rfl, fun h => h, fun sig h => Or.inl h⟩
      have hslot' : ∀ t y, (c.rep i).slot t = some y → ∃ x, upd (c.rep i).slot s (some sl') t = some x ∧
          x.digest = y.digest ∧ (y.cert.isSome = true → x.cert.isSome = true) := by
        intro t y hy
        by_cases hts : t = s
        · subst hts
          rw [old] at hy; cases hy
          refine ⟨sl', by simp, dig, ?_⟩
          intro hs
          rcases cert with hc | ⟨sig', h1, _⟩
          · rw [hc]; exact hs
          · rw [h1]; rfl
        · exact ⟨y, by rw [upd_ne _ _ hts]; exact hy, rfl, fun h => h⟩
      constructor
      all_goals simp only [upd_same]
      · intro t x hx
        obtain ⟨y, h1, h2, _⟩ := hslot t x hx
        rw [h2]; exact hR.slotA t y h1
      · intro t x hx
        obtain ⟨y, h1, _⟩ := hslot t x hx
        exact hR.slotWin t y h1
      · intro t x sig hx hc
        obtain ⟨y, h1, h2, h3, h4, h5⟩ := hslot t x hx
        rcases h5 sig hc with h6 | h6
        · rw [h2]; exact hR.slotCert t y sig h1 h6
        · exact h6
      · intro t x hx hsl
        obtain ⟨y, h1, h2, h3, h4, h5⟩ := hslot t x hx
        rw [h2]; exact hR.slotFast t y h1 (h4 hsl)
      · intro t x hx
        obtain ⟨y, h1, h2, h3, h4, h5⟩ := hslot t x hx
        rw [h3]; exact hR.slotTime t y h1
      · exact hR.aView
      · intro s' d' ha
        rcases hR.aCur s' d' ha with ⟨y, h1, h2⟩ | h1
        · obtain ⟨x, g1, g2, _⟩ := hslot' s' y h1
          exact Or.inl ⟨x, g1, by rw [g2, h2]⟩
        · exact Or.inr h1
      · exact hR.aUniq
      · exact hR.aWin
      · exact hR.aInst
      · exact hR.shareA
      · intro s' d' ha
        rcases hR.shareCommit s' d' ha with ⟨y, h1, h2, h3⟩ | h1
        · obtain ⟨x, g1, g2, g3⟩ := hslot' s' y h1
          exact Or.inl ⟨x, g1, by rw [g2, h2], g3 h3⟩
        · exact Or.inr h1
      · exact hR.shareFast
      · exact hR.view0
      · exact hR.myVC
      · exact hR.hasVC
      · exact hR.instCur
      · exact hR.pend
    · intro e he
      rcases hcom with rfl | ⟨rfl, hc⟩
      · exact Or.inl he
      · rcases List.mem_cons.1 he with rfl | he
        · exact Or.inr hc
        · exact Or.inl he
  | share i s sl k ok act old hc hf =>
    have hR := h.reps i ok
    have hmono : ∀ x ∈ c.shares, x ∈ (⟨k, (c.rep i).view, s, sl.digest, i⟩ : Share) :: c.shares :=
      fun x hx => List.mem_cons_of_mem _ hx
    refine inv_assemble h ok (fun j hj => rfl) (fun x hx => hx) (fun x hx => hx) (fun x hx => hx) (fun x hx => Or.inl hx)
      hmono ?_ (Nat.le_refl _) (Nat.le_refl _) (fun _ h => h) ?_ (fun m hm => Or.inl hm) (fun I hI => Or.inl hI)
      (fun e he => Or.inl he)
    · intro x hx
      rcases List.mem_cons.1 hx with rfl | hx
      · exact Or.inr ⟨rfl, rfl⟩
      · exact Or.inl hx
    · constructor
      · exact hR.slotA
      · exact hR.slotWin
      · intro t x sig hx hcx
        exact ⟨(hR.slotCert t x sig hx hcx).1, backed_mono hmono (hR.slotCert t x sig hx hcx).2⟩
      · exact hR.slotFast
      · exact hR.slotTime
      · exact hR.aView
      · exact hR.aCur
      · exact hR.aUniq
      · exact hR.aWin
      · exact hR.aInst
      · intro k' v s' d' hs
        rcases List.mem_cons.1 hs with heq | hs
        · cases heq; exact (hR.slotA s sl old).2
        · exact hR.shareA k' v s' d' hs
      · intro s' d' hs
        rcases List.mem_cons.1 hs with heq | hs
        · cases heq; exact Or.inl ⟨sl, old, rfl, hc rfl⟩
        · exact hR.shareCommit s' d' hs
      · intro k' v s' d' hs hk
        rcases List.mem_cons.1 hs with heq | hs
        · cases heq; rcases hf hk with h1 | h1
          · exact hR.slotFast s sl old h1
          · exact h1
        · exact hR.shareFast k' v s' d' hs hk
      · exact hR.view0
      · exact hR.myVC
      · exact hR.hasVC
      · exact hR.instCur
      · exact hR.pend
  | stable i s ok ge =>
    have hR := h.reps i ok
    refine inv_assemble h ok (fun j hj => upd_ne _ _ hj) (fun x hx => hx) (fun x hx => hx) (fun x hx => hx)
      (fun x hx => Or.inl hx) (fun x hx => hx) (fun x hx => Or.inl hx) (by simp) (by simpa using ge) (by simp) ?_
      (fun m hm => Or.inl hm) (fun I hI => Or.inl hI) (fun e he => Or.inl he)
    have hslot : ∀ t x, (if s < t then (c.rep i).slot t else none) = some x → s < t ∧ (c.rep i).slot t = some x := by
      intro t x hx
      split at hx
      · next hlt => exact ⟨hlt, hx⟩
      · cases hx
    constructor
    all_goals simp only [upd_same]
    · intro t x hx; exact hR.slotA t x (hslot t x hx).2
    · intro t x hx
      have := hR.slotWin t x (hslot t x hx).2
      exact ⟨(hslot t x hx).1, by omega⟩
    · intro t x sig hx; exact hR.slotCert t x sig (hslot t x hx).2
    · intro t x hx; exact hR.slotFast t x (hslot t x hx).2
    · intro t x hx; exact hR.slotTime t x (hslot t x hx).2
    · exact hR.aView
    · intro s' d' ha
      by_cases hlt : s < s'
      · rw [if_pos hlt]
        rcases hR.aCur s' d' ha with h1 | h1
        · exact Or.inl h1
        · omega
      · exact Or.inr (by omega)
    · exact hR.aUniq
    · intro v s' d' ha; have := hR.aWin v s' d' ha; omega
    · exact hR.aInst
    · exact hR.shareA
    · intro s' d' ha
      by_cases hlt : s < s'
      · rw [if_pos hlt]
        rcases hR.shareCommit s' d' ha with h1 | h1
        · exact Or.inl h1
        · omega
      · exact Or.inr (by omega)
    · exact hR.shareFast
    · exact hR.view0
    · exact hR.myVC
    · exact hR.hasVC
    · intro h1 h2
      obtain ⟨I, g1, g2, g3, g4⟩ := hR.instCur h1 h2
      exact ⟨I, g1, g2, g3, by omega⟩
    · exact hR.pend
  | leaveActive i next m ok act lt hm =>
    have hR := h.reps i ok
    have hfact := leave_fact
      (c' := { c with vcs := m :: c.vcs, rep := upd c.rep i { c.rep i with view := next, active := false, slot := fun _ => none, myVC := some m, pending := none } })
      h ok act lt hm (by simp) (by simp) rfl rfl rfl rfl
    have msend : m.sender = i := by rw [hm]
    refine inv_assemble h ok (fun j hj => upd_ne _ _ hj) (fun x hx => List.mem_cons_of_mem _ hx) (fun x hx => hx)
      (fun x hx => hx) (fun x hx => Or.inl hx) (fun x hx => hx) (fun x hx => Or.inl hx)
      (by simpa using Nat.le_of_lt lt) (by simp) (by intro heq; simp at heq; omega) ?_ ?_ (fun I hI => Or.inl hI)
      (fun e he => Or.inl he)
    · constructor
      all_goals simp only [upd_same]
      · intro t x hx; cases hx
      · intro t x hx; cases hx
      · intro t x sig hx; cases hx
      · intro t x hx; cases hx
      · intro t x hx; cases hx
      · intro v s d ha
        have := hR.aView v s d ha
        exact ⟨by omega, by omega⟩
      · intro s d ha
        have := hR.aView _ s d ha
        omega
      · exact hR.aUniq
      · exact hR.aWin
      · exact hR.aInst
      · exact hR.shareA
      · intro s d hs
        have := hR.aView _ s d (hR.shareA _ _ _ _ hs)
        omega
      · exact hR.shareFast
      · intro h0; omega
      · intro m' hm'
        simp only [Option.some.injEq] at hm'
        subst hm'
        exact ⟨by simp, msend, by rw [hm]⟩
      · intro _; exact ⟨m, rfl⟩
      · intro h1; cases h1
      · intro arr h1; cases h1
    · intro m' hm'
      rcases List.mem_cons.1 hm' with rfl | hm'
      · refine Or.inr ⟨msend, ⟨_, hfact⟩, ?_⟩
        intro e he ct hct hval
        have hmem := (mem_exitElems (nullD := P.cfg.nullDigest) (u := (c.rep i).view) (slot := (c.rep i).slot)
          (it0 := prevElems (c.rep i).myVC) (e := e) 300 ((c.rep i).lastStable + 1) _ (fun b _ => rfl)).1
          (by rw [hm] at he; exact he)
        obtain ⟨t, sl, h1, h2, h3, h4, h5⟩ := hmem
        obtain ⟨e1, e2, e3, e4⟩ := slotElem_some h5
        rcases e4 ct hct with ⟨sig, hc, rfl⟩ | ⟨hc, e0, hm0, hs0, hd0, hc0⟩
        · rw [e1, e2]; exact (hR.slotCert t sl sig h3 hc).2
        · cases hmy : (c.rep i).myVC with
          | none => rw [hmy] at hm0; cases hm0
          | some m0 =>
            rw [hmy] at hm0
            have hin := (hR.myVC m0 hmy).1
            have := h.vcBacked m0 hin e0 hm0 ct hc0
            rw [hs0, hd0] at this
            rw [e1, e2] at hval ⊢
            exact this hval
      · exact Or.inl hm'
  | leaveInactive i next m0 ok act lt my =>
    have hR := h.reps i ok
    have hmy := hR.myVC m0 my
    obtain ⟨u, hu⟩ := h.vcf m0 hmy.1 (by rw [hmy.2.1]; exact ok)
    refine inv_assemble h ok (fun j hj => upd_ne _ _ hj) (fun x hx => List.mem_cons_of_mem _ hx) (fun x hx => hx)
      (fun x hx => hx) (fun x hx => Or.inl hx) (fun x hx => hx) (fun x hx => Or.inl hx)
      (by simpa using Nat.le_of_lt lt) (by simp) (by intro heq; simp at heq; omega) ?_ ?_ (fun I hI => Or.inl hI)
      (fun e he => Or.inl he)
    · constructor
      all_goals simp only [upd_same]
      · intro t x hx; cases hx
      · intro t x hx; cases hx
      · intro t x sig hx; cases hx
      · intro t x hx; cases hx
      · intro t x hx; cases hx
      · intro v s d ha
        have := hR.aView v s d ha
        exact ⟨by omega, by omega⟩
      · intro s d ha
        have := hR.aView _ s d ha
        omega
      · exact hR.aUniq
      · exact hR.aWin
      · exact hR.aInst
      · exact hR.shareA
      · intro s d hs
        have := hR.aView _ s d (hR.shareA _ _ _ _ hs)
        omega
      · exact hR.shareFast
      · intro h0; omega
      · intro m' hm'
        simp only [Option.some.injEq] at hm'
        subst hm'
        exact ⟨by simp, hmy.2.1, rfl⟩
      · intro _; exact ⟨_, rfl⟩
      · intro h1; cases h1
      · intro arr h1; cases h1
    · intro m' hm'
      rcases List.mem_cons.1 hm' with rfl | hm'
      · refine Or.inr ⟨hmy.2.1, ⟨u, ?_⟩, fun e he ct hct hval => h.vcBacked m0 hmy.1 e he ct hct hval⟩
        have hnv := hmy.2.2
        have hsend := hmy.2.1
        -- no assignment of `i` in the views between
        have old : ∀ x s d, Asg c i x s d → x < next → x < m0.newView := by
          intro x s d ha _
          have h1 := hR.aView x s d ha
          rw [hnv]
          rcases Nat.lt_or_eq_of_le h1.1 with h2 | h2
          · exact h2
          · have := h1.2 h2; rw [act] at this; cases this
        constructor
        · have := hu.lt; simp only; omega
        · simp only [hsend, upd_same]; exact Nat.le_refl _
        · have := hu.st; simp only [hsend, upd_same] at this ⊢; exact this
        · refine ⟨hu.valid.sorted, hu.valid.range, ?_, hu.valid.cert⟩
          intro e he; have := hu.valid.origin e he; simp only; omega
        · exact hu.elems
        · intro x s d ha hx
          have ha' : Asg c i x s d := by rw [← hsend]; exact ha
          exact hu.skip x s d ha (old x s d ha' hx)
        · intro x s d ha hx
          have ha' : Asg c i x s d := by rw [← hsend]; exact ha
          exact hu.win x s d ha (old x s d ha' hx)
        · exact hu.q1
        · exact hu.q2
        · intro h0
          obtain ⟨m', g1, g2, g3⟩ := hu.q3 h0
          exact ⟨m', List.mem_cons_of_mem _ g1, g2, g3⟩
        · exact hu.inst
      · exact Or.inl hm'
  | pend i arr lb ok act q nv =>
    have hR := h.reps i ok
    refine inv_assemble h ok (fun j hj => upd_ne _ _ hj) (fun x hx => hx) (fun x hx => hx) (fun x hx => hx)
      (fun x hx => Or.inl hx) (fun x hx => hx) (fun x hx => Or.inl hx) (by simp) (by simp) (by simp) ?_
      (fun m hm => Or.inl hm) (fun I hI => Or.inl hI) (fun e he => Or.inl he)
    constructor
    all_goals simp only [upd_same]
    · exact hR.slotA
    · exact hR.slotWin
    · exact hR.slotCert
    · exact hR.slotFast
    · exact hR.slotTime
    · exact hR.aView
    · exact hR.aCur
    · exact hR.aUniq
    · exact hR.aWin
    · exact hR.aInst
    · exact hR.shareA
    · exact hR.shareCommit
    · exact hR.shareFast
    · exact hR.view0
    · exact hR.myVC
    · exact hR.hasVC
    · exact hR.instCur
    · intro arr' h1
      simp only [Option.some.injEq] at h1
      subst h1
      exact ⟨act, q, nv⟩
  | enter i arr rs filled ok act pen lb hr hfill =>
    have hR := h.reps i ok
    obtain ⟨_, hq, hnv⟩ := hR.pend arr pen
    have noA : ∀ s d, ¬ Asg c i (c.rep i).view s d := by
      intro s d ha
      have := (hR.aView _ s d ha).2 rfl
      rw [act] at this; cases this
    have hnew : ∀ j v s' d', (⟨j, v, s', d'⟩ : Ev) ∈ filled ++ c.assigned ↔
        (j = i ∧ v = (c.rep i).view ∧ ∃ sl, (c.rep i).lastStable < s' ∧ s' ≤ (c.rep i).lastStable + 300 ∧
          initialSlot P.cfg.nullDigest rs (c.rep i).lastStable s' = some sl ∧ d' = sl.digest) ∨ Asg c j v s' d' := by
      intro j v s' d'
      rw [List.mem_append, hfill]
      constructor
      · rintro (⟨s, sl, h1, h2, h3, h4⟩ | h1)
        · cases h4; exact Or.inl ⟨rfl, rfl, sl, h1, h2, h3, rfl⟩
        · exact Or.inr h1
      · rintro (⟨rfl, rfl, sl, h1, h2, h3, rfl⟩ | h1)
        · exact Or.inl ⟨s', sl, h1, h2, h3, rfl⟩
        · exact Or.inr h1
    have hslot : ∀ s sl, initialSlot P.cfg.nullDigest rs (c.rep i).lastStable s = some sl →
        (c.rep i).lastStable < s ∧ s ≤ (c.rep i).lastStable + 300 ∧ sl.cert = none ∧ sl.slow = true ∧ sl.timeOk = true := by
      intro s sl hs
      unfold initialSlot at hs
      split at hs
      · next hlt =>
        obtain ⟨x, hx, hsl⟩ := Option.map_eq_some_iff.1 hs
        have := (restr_at_bound hx).2
        have := computeRestrictions_max hr
        subst hsl
        exact ⟨hlt, by omega, rfl, rfl, rfl⟩
      · cases hs
    refine inv_assemble h ok (fun j hj => upd_ne _ _ hj) (fun x hx => hx) (fun x hx => List.mem_cons_of_mem _ hx)
      (fun x hx => List.mem_append_right _ hx) ?_ (fun x hx => hx) (fun x hx => Or.inl hx) (by simp) (by simp)
      (by simp) ?_ (fun m hm => Or.inl hm) ?_ (fun e he => Or.inl he)
    · intro x hx
      obtain ⟨j, v, s', d'⟩ := x
      rcases (hnew j v s' d').1 hx with ⟨h1, h2, _⟩ | h1
      · exact Or.inr ⟨h1, h2⟩
      · exact Or.inl h1
    · have hasg : ∀ v s' d', Asg
             { c with rep := upd c.rep i
                         { c.rep i with active := true, pending := none,
                                        slot := initialSlot P.cfg.nullDigest rs (c.rep i).lastStable },
                      assigned := filled ++ c.assigned,
                      installs := ⟨i, (c.rep i).view, arr, (c.rep i).lbPending, (c.rep i).lastStable⟩ :: c.installs }
          i v s' d' ↔ (v = (c.rep i).view ∧ ∃ sl, (c.rep i).lastStable < s' ∧ s' ≤ (c.rep i).lastStable + 300 ∧
          initialSlot P.cfg.nullDigest rs (c.rep i).lastStable s' = some sl ∧ d' = sl.digest) ∨ Asg c i v s' d' := by
        intro v s' d'
        unfold Asg; simp only; rw [hnew]
        simp only [true_and, Asg]
      constructor
      all_goals simp only [upd_same]
      · intro s sl hs
        have := hslot s sl hs
        rw [hasg]
        exact ⟨trivial, Or.inl ⟨rfl, sl, this.1, this.2.1, hs, rfl⟩⟩
      · intro s sl hs; exact ⟨(hslot s sl hs).1, (hslot s sl hs).2.1⟩
      · intro s sl sig hs hc; rw [(hslot s sl hs).2.2.1] at hc; cases hc
      · intro s sl hs hc; rw [(hslot s sl hs).2.2.2.1] at hc; cases hc
      · intro s sl hs; exact (hslot s sl hs).2.2.2.2
      · intro v s d ha
        rw [hasg] at ha
        refine ⟨?_, fun _ => trivial⟩
        rcases ha with ⟨rfl, _⟩ | ha
        · exact Nat.le_refl _
        · exact (hR.aView v s d ha).1
      · intro s d ha
        rw [hasg] at ha
        rcases ha with ⟨_, sl, _, _, h3, h4⟩ | ha
        · exact Or.inl ⟨sl, h3, h4.symm⟩
        · exact absurd ha (noA s d)
      · intro v s d d' h1 h2
        rw [hasg] at h1 h2
        rcases h1 with ⟨rfl, sl, _, _, h3, rfl⟩ | h1 <;> rcases h2 with ⟨h2v, sl', _, _, h3', rfl⟩ | h2
        · rw [h3] at h3'; cases h3'; rfl
        · exact absurd h2 (noA _ _)
        · subst h2v; exact absurd h1 (noA _ _)
        · exact hR.aUniq v s d d' h1 h2
      · intro v s d ha
        rw [hasg] at ha
        rcases ha with ⟨_, sl, _, h2, _⟩ | ha
        · exact h2
        · exact hR.aWin v s d ha
      · intro v s d ha h0
        rw [hasg] at ha
        rcases ha with ⟨rfl, sl, h1, _⟩ | ha
        · exact ⟨_, List.mem_cons_self, rfl, rfl, h1⟩
        · obtain ⟨I, g1, g2⟩ := hR.aInst v s d ha h0
          exact ⟨I, List.mem_cons_of_mem _ g1, g2⟩
      · intro k v s d hs; rw [hasg]; exact Or.inr (hR.shareA k v s d hs)
      · intro s d hs; exact absurd (hR.shareA _ _ _ _ hs) (noA s d)
      · exact hR.shareFast
      · intro h0; have := (hR.view0 h0).1; rw [act] at this; cases this
      · exact hR.myVC
      · exact hR.hasVC
      · intro _ _; exact ⟨_, List.mem_cons_self, rfl, rfl, Nat.le_refl _⟩
      · intro arr' h1; cases h1
    · intro I hI
      rcases List.mem_cons.1 hI with rfl | hI
      · refine Or.inr ⟨rfl, ?_⟩
        refine ⟨by simp, by simp, hq, hnv, lb, rs, hr, ?_⟩
        intro s x hs hx hw
        unfold Asg; simp only; rw [hnew]
        refine Or.inl ⟨rfl, rfl, ?_⟩
        have hin : initialSlot P.cfg.nullDigest rs (c.rep i).lastStable s =
          some ⟨x.getD P.cfg.nullDigest, none, true, true, false⟩ := by
          unfold initialSlot; simp only at hs; rw [if_pos hs, hx]; rfl
        exact ⟨_, hs, hw, hin, rfl⟩
      · exact Or.inl hI
  | byzShare sh bad =>
    have hmono : ∀ x ∈ c.shares, x ∈ sh :: c.shares := fun x hx => List.mem_cons_of_mem _ hx
    have hs' : ∀ j, P.ok j = true → ∀ x ∈ sh :: c.shares, x.signer = j → x ∈ c.shares := by
      intro j hj x hx hxj
      rcases List.mem_cons.1 hx with rfl | hx
      · rw [hxj, hj] at bad; cases bad
      · exact hx
    have grow : ∀ j, P.ok j = true → Grow c { c with shares := sh :: c.shares } j := fun j hj =>
      grow_other rfl (fun x hx => hx) (fun x hx => hx) (fun x hx => hx) (fun x hx _ => hx) (hs' j hj)
    constructor
    · intro j hj
      exact (h.reps j hj).frame rfl (fun x hx => hx) (fun x hx => hx) (fun x _ => Iff.rfl) hmono (hs' j hj)
    · intro m hm hok
      obtain ⟨u, hu⟩ := h.vcf m hm hok
      exact ⟨u, hu.grow (grow _ hok)⟩
    · intro I hI
      exact ⟨(h.insts I hI).1, (h.insts I hI).2.grow (grow _ (h.insts I hI).1) (fun _ hx => hx)⟩
    · intro m hm e he ct hct hv; exact backed_mono hmono (h.vcBacked m hm e he ct hct hv)
    · intro e he; exact CommitEv_mono hmono (h.commits e he)
  | byzVC m bad hb =>
    have hmono : ∀ x ∈ c.vcs, x ∈ m :: c.vcs := fun x hx => List.mem_cons_of_mem _ hx
    have grow : ∀ j, Grow c { c with vcs := m :: c.vcs } j := fun j =>
      grow_other rfl hmono (fun x hx => hx) (fun x hx => hx) (fun x hx _ => hx) (fun x hx _ => hx)
    constructor
    · intro j hj
      exact (h.reps j hj).frame rfl hmono (fun x hx => hx) (fun x _ => Iff.rfl) (fun x hx => hx) (fun x hx _ => hx)
    · intro m' hm hok
      rcases List.mem_cons.1 hm with rfl | hm
      · rw [hok] at bad; cases bad
      · obtain ⟨u, hu⟩ := h.vcf m' hm hok
        exact ⟨u, hu.grow (grow _)⟩
    · intro I hI
      exact ⟨(h.insts I hI).1, (h.insts I hI).2.grow (grow _) (fun _ hx => hx)⟩
    · intro m' hm e he ct hct hv
      rcases List.mem_cons.1 hm with rfl | hm
      · exact hb e he ct hct hv
      · exact h.vcBacked m' hm e he ct hct hv
    · exact h.commits
  | restart i lb ok =>
    have hR := h.reps i ok
    have hsl : ∀ t x, ((c.rep i).slot t).map Slot.reload = some x →
        ∃ y, (c.rep i).slot t = some y ∧ x.digest = y.digest ∧ x.cert = y.cert ∧ x.slow = y.slow ∧ x.timeOk = true := by
      intro t x hx
      rw [Option.map_eq_some_iff] at hx
      obtain ⟨y, hy, rfl⟩ := hx
      exact ⟨y, hy, rfl, rfl, rfl, rfl⟩
    refine inv_assemble h ok (fun j hj => upd_ne _ _ hj) (fun x hx => hx) (fun x hx => hx) (fun x hx => hx)
      (fun x hx => Or.inl hx) (fun x hx => hx) (fun x hx => Or.inl hx) (by simp) (by simp) (by simp) ?_
      (fun m hm => Or.inl hm) (fun I hI => Or.inl hI) (fun e he => Or.inl he)
    constructor
    all_goals simp only [upd_same]
    · intro t x hx
      obtain ⟨y, hy, hd, _⟩ := hsl t x hx
      rw [hd]; exact hR.slotA t y hy
    · intro t x hx
      obtain ⟨y, hy, _⟩ := hsl t x hx
      exact hR.slotWin t y hy
    · intro t x sig hx hcx
      obtain ⟨y, hy, hd, hce, _⟩ := hsl t x hx
      rw [hce] at hcx; rw [hd]
      exact hR.slotCert t y sig hy hcx
    · intro t x hx hs
      obtain ⟨y, hy, hd, _, hw, _⟩ := hsl t x hx
      rw [hd]; exact hR.slotFast t y hy (by rw [← hw]; exact hs)
    · intro t x hx
      obtain ⟨y, hy, _, _, _, ht⟩ := hsl t x hx
      exact ht
    · exact hR.aView
    · intro s d hx
      rcases hR.aCur s d hx with ⟨y, hy, hd⟩ | h1
      · exact Or.inl ⟨y.reload, by rw [hy]; rfl, hd⟩
      · exact Or.inr h1
    · exact hR.aUniq
    · exact hR.aWin
    · exact hR.aInst
    · exact hR.shareA
    · intro s d hx
      rcases hR.shareCommit s d hx with ⟨y, hy, hd, hc⟩ | h1
      · exact Or.inl ⟨y.reload, by rw [hy]; rfl, hd, hc⟩
      · exact Or.inr h1
    · exact hR.shareFast
    · exact hR.view0
    · exact hR.myVC
    · exact hR.hasVC
    · exact hR.instCur
    · intro arr ha; cases ha

theorem inv_reachable {P : Params} (hT : P.timeService = false) {σ : State} (h : Reachable P σ) : Inv P σ.core := by
  induction h with
  | init => exact inv_init P
  | step a _ hs ih => exact inv_eff hT ih (step_eff hs)

end Concord.Protocol
