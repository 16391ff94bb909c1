import Verif.Consensus.ProtocolInv
/-!
Preservation of the invariant.
-/
namespace Concord.Protocol
open Concord.VC Concord.VC.Spec

theorem restr_at_bound {r : Restrictions} {s : Nat} {x : Option Nat} (h : r.at? s = some x) : r.min ≤ s ∧ s ≤ r.max := by
  unfold Restrictions.at? at h
  split at h
  · next hc => exact ⟨hc.1, hc.2.1⟩
  · cases h

theorem computeRestrictions_max {g : Cfg} {arr : List (Option VCMsg)} {lb : Nat} {r : Restrictions}
    (h : computeRestrictions g arr lb = some r) : r.max ≤ lb + 300 := by
  unfold computeRestrictions at h
  simp only at h
  split at h
  · cases h
  · simp only [Option.some.injEq] at h
    subst h
    unfold restrictedRange
    split
    · simp
    · have : checkpointWindowSize = 150 := rfl
      have : kWorkWindowSize = 300 := rfl
      split <;> (dsimp only; omega)

theorem inv_init (P : Params) : Inv P State.init.core := by
  constructor
  · intro i _
    constructor <;> simp [State.init, State.core, Replica.core, Replica.init, Asg]
  · intro m hm; simp [State.init, State.core] at hm
  · intro I hI; simp [State.init, State.core] at hI
  · intro m hm; simp [State.init, State.core] at hm
  · intro e he; simp [State.init, State.core] at he

/-- A view-change message built on leaving an active view satisfies its facts. -/
theorem leave_fact {P : Params} {c c' : Core} {i next : Nat} {m : VCMsg}
    (h : Inv P c) (ok : P.ok i = true) (act : (c.rep i).active = true) (lt : (c.rep i).view < next)
    (hm : m = { sender := i, newView := next, lastStable := (c.rep i).lastStable,
                elems := exitElems P.cfg.nullDigest (c.rep i).view (c.rep i).slot 300 ((c.rep i).lastStable + 1)
                    (prevElems (c.rep i).myVC) })
    (hv : (c'.rep i).view = next) (hst : (c'.rep i).lastStable = (c.rep i).lastStable)
    (ha : c'.assigned = c.assigned) (hs : c'.shares = c.shares) (hvc : c'.vcs = m :: c.vcs)
    (hi : c'.installs = c.installs) : VCFact P c' m (c.rep i).view := by
  have hR := h.reps i ok
  have hasg : ∀ v s d, Asg c' i v s d ↔ Asg c i v s d := by intro v s d; unfold Asg; rw [ha]
  -- the previous message
  have prev : ∀ m', (c.rep i).myVC = some m' → m' ∈ c.vcs ∧ m'.sender = i ∧ m'.newView = (c.rep i).view ∧
      ∃ u', VCFact P c m' u' := by
    intro m' hm'
    have h1 := hR.myVC m' hm'
    exact ⟨h1.1, h1.2.1, h1.2.2, h.vcf m' h1.1 (by rw [h1.2.1]; exact ok)⟩
  have hmem := fun e => mem_exitElems (nullD := P.cfg.nullDigest) (u := (c.rep i).view) (slot := (c.rep i).slot)
    (it0 := (prevElems (c.rep i).myVC)) (e := e) 300 ((c.rep i).lastStable + 1) _
    (fun b _ => rfl)
  have hel : ∀ e, e ∈ m.elems ↔ ∃ t sl, (c.rep i).lastStable + 1 ≤ t ∧ t < (c.rep i).lastStable + 1 + 300 ∧
      (c.rep i).slot t = some sl ∧ sl.timeOk = true ∧
      slotElem P.cfg.nullDigest (c.rep i).view (prevElems (c.rep i).myVC) t sl = some e := fun e => by
    rw [hm]; exact hmem e
  have hsort := exitElems_sorted (nullD := P.cfg.nullDigest) (u := (c.rep i).view) (slot := (c.rep i).slot) 300
    ((c.rep i).lastStable + 1) (prevElems (c.rep i).myVC)
  have msend : m.sender = i := by rw [hm]
  have mnv : m.newView = next := by rw [hm]
  have mst : m.lastStable = (c.rep i).lastStable := by rw [hm]
  -- elements of the previous message
  have prevElem : ∀ e0 ∈ (prevElems (c.rep i).myVC), ∀ ct, e0.cert = some ct →
      P.cfg.valid ct.view e0.seq e0.digest ct.sig = true ∧ ct.view < (c.rep i).view := by
    intro e0 he0 ct hct
    cases hmy : (c.rep i).myVC with
    | none => rw [hmy] at he0; cases he0
    | some m' =>
      rw [hmy] at he0
      obtain ⟨h1, h2, h3, u', h4⟩ := prev m' hmy
      refine ⟨(h4.elems e0 he0).2.2 ct hct, ?_⟩
      have := h4.valid.cert e0 he0 ct hct
      have := h4.valid.origin e0 he0
      omega
  have certs : ∀ e ∈ m.elems, ∀ ct, e.cert = some ct →
      P.cfg.valid ct.view e.seq e.digest ct.sig = true ∧ ct.view ≤ (c.rep i).view := by
    intro e he ct hct
    obtain ⟨t, sl, h1, h2, h3, h4, h5⟩ := (hel e).1 he
    obtain ⟨e1, e2, e3, e4⟩ := slotElem_some h5
    rcases e4 ct hct with ⟨sig, hc, rfl⟩ | ⟨hc, e0, hm0, hs0, hd0, hc0⟩
    · refine ⟨?_, Nat.le_refl _⟩
      rw [e1, e2]
      exact (hR.slotCert t sl sig h3 hc).1
    · have := prevElem e0 hm0 ct hc0
      rw [hs0, hd0] at this
      rw [e1, e2]
      exact ⟨this.1, Nat.le_of_lt this.2⟩
  constructor
  · rw [mnv]; exact lt
  · rw [mnv, msend, hv]; exact Nat.le_refl _
  · rw [mst, msend, hst]; exact Nat.le_refl _
  · refine ⟨?_, ?_, ?_, ?_⟩
    · rw [hm]; exact hsort.1
    · intro e he
      have : e ∈ exitElems P.cfg.nullDigest (c.rep i).view (c.rep i).slot 300 ((c.rep i).lastStable + 1)
        (prevElems (c.rep i).myVC) := by rw [hm] at he; exact he
      have := hsort.2 e this
      rw [mst]; omega
    · intro e he
      obtain ⟨t, sl, h1, h2, h3, h4, h5⟩ := (hel e).1 he
      rw [(slotElem_some h5).2.2.1, mnv]; exact lt
    · intro e he ct hct
      obtain ⟨t, sl, h1, h2, h3, h4, h5⟩ := (hel e).1 he
      rw [(slotElem_some h5).2.2.1]
      exact (certs e he ct hct).2
  · intro e he
    obtain ⟨t, sl, h1, h2, h3, h4, h5⟩ := (hel e).1 he
    obtain ⟨e1, e2, e3, e4⟩ := slotElem_some h5
    refine ⟨e3, ?_, fun ct hct => (certs e he ct hct).1⟩
    rw [msend, hasg, e1, e2]
    exact (hR.slotA t sl h3).2
  · intro x s d hx _
    rw [msend, hasg] at hx
    exact (hR.aView x s d hx).1
  · intro x s d hx _
    rw [msend, hasg] at hx
    rw [mst]; exact hR.aWin x s d hx
  · intro s d hx hlo hnn
    rw [msend, hasg] at hx
    rw [mst] at hlo
    rcases hR.aCur s d hx with ⟨sl, h1, h2⟩ | h1
    · obtain ⟨e, he⟩ := slotElem_nonnull (nullD := P.cfg.nullDigest) (u := (c.rep i).view) (s := s) (sl := sl)
        (it0 := (prevElems (c.rep i).myVC)) (by rw [h2]; exact hnn)
      obtain ⟨e1, e2, _⟩ := slotElem_some he
      have hw := hR.slotWin s sl h1
      exact ⟨e, (hel e).2 ⟨s, sl, by omega, by omega, h1, hR.slotTime s sl h1, he⟩, e1, by rw [e2, h2]⟩
    · omega
  · intro s d hx hlo
    rw [msend, hs] at hx
    rw [mst] at hlo
    rcases hR.shareCommit s d hx with ⟨sl, h1, h2, h3⟩ | h1
    · obtain ⟨sig, hsig⟩ := Option.isSome_iff_exists.1 h3
      have he := slotElem_cert (nullD := P.cfg.nullDigest) (u := (c.rep i).view) (s := s)
        (it0 := (prevElems (c.rep i).myVC)) hsig
      have hw := hR.slotWin s sl h1
      exact ⟨_, (hel _).2 ⟨s, sl, by omega, by omega, h1, hR.slotTime s sl h1, he⟩, rfl, h2, _, rfl, Nat.le_refl _⟩
    · omega
  · intro hu
    obtain ⟨m', hm'⟩ := hR.hasVC hu
    obtain ⟨h1, h2, h3, u', h4⟩ := prev m' hm'
    refine ⟨m', by rw [hvc]; exact List.mem_cons_of_mem _ h1, by rw [msend, h2], h3, ?_, ?_⟩
    · have := h4.st; rw [h2] at this; rw [mst]; exact this
    · intro e' he' ct' hct' hlo hx
      rw [msend, hasg] at hx
      rw [mst] at hlo
      rcases hR.aCur e'.seq e'.digest hx with ⟨sl, g1, g2⟩ | g1
      · have hp' : (prevElems (c.rep i).myVC) = m'.elems := by rw [hm']; rfl
        obtain ⟨e, f1, f2, f3, ct, f4, f5⟩ := slotElem_prev (nullD := P.cfg.nullDigest) (u := (c.rep i).view)
          (s := e'.seq) (sl := sl) (it0 := m'.elems) h4.valid.sorted he' rfl g2.symm hct' (by
            have := prevElem e' (by rw [hp']; exact he') ct' hct'; omega)
        have hw := hR.slotWin e'.seq sl g1
        exact ⟨e, (hel e).2 ⟨e'.seq, sl, by omega, by omega, g1, hR.slotTime _ sl g1, by rw [hp']; exact f1⟩,
          f2, by rw [f3, g2], ct, f4, f5⟩
      · omega
  · intro hu
    obtain ⟨I, h1, h2, h3, h4⟩ := hR.instCur act hu
    exact ⟨I, by rw [hi]; exact h1, by rw [msend, h2], h3, by rw [mst]; exact h4⟩

theorem grow_other {c c' : Core} {j : Nat} (hr : c'.rep j = c.rep j) (hv : ∀ x ∈ c.vcs, x ∈ c'.vcs)
    (hi : ∀ x ∈ c.installs, x ∈ c'.installs) (ha : ∀ x ∈ c.assigned, x ∈ c'.assigned)
    (ha' : ∀ x ∈ c'.assigned, x.rep = j → x ∈ c.assigned) (hs' : ∀ x ∈ c'.shares, x.signer = j → x ∈ c.shares) :
    Grow c c' j :=
  ⟨by rw [hr]; exact Nat.le_refl _, by rw [hr]; exact Nat.le_refl _, hv, hi, ha,
   fun x hx e => Or.inl (ha' x hx e), fun x hx e => Or.inl (hs' x hx e)⟩

/-- Assemble the invariant after a step of replica `i`. -/
theorem inv_assemble {P : Params} {c c' : Core} {i : Nat} (h : Inv P c) (ok : P.ok i = true)
    (hr : ∀ j, j ≠ i → c'.rep j = c.rep j)
    (hv : ∀ x ∈ c.vcs, x ∈ c'.vcs) (hi : ∀ x ∈ c.installs, x ∈ c'.installs)
    (ha : ∀ x ∈ c.assigned, x ∈ c'.assigned)
    (ha' : ∀ x ∈ c'.assigned, x ∈ c.assigned ∨ (x.rep = i ∧ x.view = (c.rep i).view))
    (hs : ∀ x ∈ c.shares, x ∈ c'.shares)
    (hs' : ∀ x ∈ c'.shares, x ∈ c.shares ∨ (x.signer = i ∧ x.view = (c.rep i).view))
    (gv : (c.rep i).view ≤ (c'.rep i).view) (gs : (c.rep i).lastStable ≤ (c'.rep i).lastStable)
    (gact : (c'.rep i).view = (c.rep i).view → (c.rep i).active = true → (c'.rep i).active = true)
    (rep : RepFact P c' i)
    (newVC : ∀ m ∈ c'.vcs, m ∈ c.vcs ∨ (m.sender = i ∧ (∃ u, VCFact P c' m u) ∧
      ∀ e ∈ m.elems, ∀ ct, e.cert = some ct → P.cfg.valid ct.view e.seq e.digest ct.sig = true →
        backed P c.shares ct.view e.seq e.digest))
    (newI : ∀ I ∈ c'.installs, I ∈ c.installs ∨ (I.rep = i ∧ InstFact P c' I))
    (newC : ∀ e ∈ c'.commits, e ∈ c.commits ∨ CommitEv P c.shares e.view e.seq e.digest) : Inv P c' := by
  have grow : ∀ j, Grow c c' j := by
    intro j
    by_cases hj : j = i
    · subst hj
      refine ⟨gv, gs, hv, hi, ha, ?_, ?_⟩
      · intro x hx hxj
        rcases ha' x hx with h1 | ⟨_, h1⟩
        · exact Or.inl h1
        · exact Or.inr (by omega)
      · intro x hx hxj
        rcases hs' x hx with h1 | ⟨_, h1⟩
        · exact Or.inl h1
        · exact Or.inr (by omega)
    · refine grow_other (hr j hj) hv hi ha ?_ ?_
      · intro x hx hxj
        rcases ha' x hx with h1 | ⟨h1, _⟩
        · exact h1
        · omega
      · intro x hx hxj
        rcases hs' x hx with h1 | ⟨h1, _⟩
        · exact h1
        · omega
  constructor
  · intro j hj
    by_cases hji : j = i
    · subst hji; exact rep
    · refine (h.reps j hj).frame (hr j hji) hv hi ?_ hs ?_
      · intro x hx
        constructor
        · intro h1
          rcases ha' x h1 with h2 | ⟨h2, _⟩
          · exact h2
          · omega
        · exact ha x
      · intro x hx hxj
        rcases hs' x hx with h1 | ⟨h1, _⟩
        · exact h1
        · omega
  · intro m hm hok
    rcases newVC m hm with h1 | ⟨_, h1, _⟩
    · obtain ⟨u, hu⟩ := h.vcf m h1 hok
      exact ⟨u, hu.grow (grow _)⟩
    · exact h1
  · intro I hI
    rcases newI I hI with h1 | ⟨h1, h2⟩
    · refine ⟨(h.insts I h1).1, (h.insts I h1).2.grow (grow _) ?_⟩
      by_cases hj : I.rep = i
      · rw [hj]; exact gact
      · rw [hr _ hj]; exact fun _ hx => hx
    · exact ⟨by rw [h1]; exact ok, h2⟩
  · intro m hm e he ct hct hval
    rcases newVC m hm with h1 | ⟨_, _, h1⟩
    · exact backed_mono hs (h.vcBacked m h1 e he ct hct hval)
    · exact backed_mono hs (h1 e he ct hct hval)
  · intro e he
    rcases newC e he with h1 | h1
    · exact CommitEv_mono hs (h.commits e h1)
    · exact CommitEv_mono hs h1

end Concord.Protocol
