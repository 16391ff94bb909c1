import Verif.Consensus.ExitLemmas
/-!
Invariants of the protocol (without the time service).
-/
namespace Concord.Protocol
open Concord.VC Concord.VC.Spec

/-- replica `i` bound digest `d` to `s` in view `v` -/
def Asg (c : Core) (i v s d : Nat) : Prop := (⟨i, v, s, d⟩ : Ev) ∈ c.assigned

/-- facts about a view-change message of an honest replica that left view `u` -/
structure VCFact (P : Params) (c : Core) (m : VCMsg) (u : Nat) : Prop where
  lt : u < m.newView
  nv : m.newView ≤ (c.rep m.sender).view
  st : m.lastStable ≤ (c.rep m.sender).lastStable
  valid : ValidVC m
  elems : ∀ e ∈ m.elems, e.originView = u ∧ Asg c m.sender u e.seq e.digest ∧
    ∀ ct, e.cert = some ct → P.cfg.valid ct.view e.seq e.digest ct.sig = true
  skip : ∀ x s d, Asg c m.sender x s d → x < m.newView → x ≤ u
  win : ∀ x s d, Asg c m.sender x s d → x < m.newView → s ≤ m.lastStable + 300
  q1 : ∀ s d, Asg c m.sender u s d → m.lastStable < s → d ≠ P.cfg.nullDigest →
    ∃ e ∈ m.elems, e.seq = s ∧ e.digest = d
  q2 : ∀ s d, (⟨.commit, u, s, d, m.sender⟩ : Share) ∈ c.shares → m.lastStable < s →
    ∃ e ∈ m.elems, e.seq = s ∧ e.digest = d ∧ ∃ ct, e.cert = some ct ∧ u ≤ ct.view
  q3 : 0 < u → ∃ m' ∈ c.vcs, m'.sender = m.sender ∧ m'.newView = u ∧ m'.lastStable ≤ m.lastStable ∧
    ∀ e' ∈ m'.elems, ∀ ct', e'.cert = some ct' → m.lastStable < e'.seq → Asg c m.sender u e'.seq e'.digest →
      ∃ e ∈ m.elems, e.seq = e'.seq ∧ e.digest = e'.digest ∧ ∃ ct, e.cert = some ct ∧ ct'.view ≤ ct.view
  inst : 0 < u → ∃ I ∈ c.installs, I.rep = m.sender ∧ I.view = u ∧ I.stable ≤ m.lastStable

/-- facts about an entry into a view -/
structure InstFact (P : Params) (c : Core) (I : Install) : Prop where
  view : I.view ≤ (c.rep I.rep).view
  cur : I.view = (c.rep I.rep).view → (c.rep I.rep).active = true
  q : VCQuorum P.cfg (msgs I.arr)
  nv : ∀ m ∈ msgs I.arr, m.newView = I.view ∧ m ∈ c.vcs
  lb : I.lb ≤ I.stable
  fill : ∃ rs, computeRestrictions P.cfg I.arr I.lb = some rs ∧
    ∀ s x, I.stable < s → rs.at? s = some x → s ≤ I.stable + 300 → Asg c I.rep I.view s (x.getD P.cfg.nullDigest)

/-- facts about the state and the history of an honest replica -/
structure RepFact (P : Params) (c : Core) (i : Nat) : Prop where
  slotA : ∀ s sl, (c.rep i).slot s = some sl → (c.rep i).active = true ∧ Asg c i (c.rep i).view s sl.digest
  slotWin : ∀ s sl, (c.rep i).slot s = some sl → (c.rep i).lastStable < s ∧ s ≤ (c.rep i).lastStable + 300
  slotCert : ∀ s sl sig, (c.rep i).slot s = some sl → sl.cert = some sig →
    P.cfg.valid (c.rep i).view s sl.digest sig = true ∧ backed P c.shares (c.rep i).view s sl.digest
  slotFast : ∀ s sl, (c.rep i).slot s = some sl → sl.slow = false → sl.digest ≠ P.cfg.nullDigest
  slotTime : ∀ s sl, (c.rep i).slot s = some sl → sl.timeOk = true
  aView : ∀ v s d, Asg c i v s d → v ≤ (c.rep i).view ∧ (v = (c.rep i).view → (c.rep i).active = true)
  aCur : ∀ s d, Asg c i (c.rep i).view s d → (∃ sl, (c.rep i).slot s = some sl ∧ sl.digest = d) ∨ s ≤ (c.rep i).lastStable
  aUniq : ∀ v s d d', Asg c i v s d → Asg c i v s d' → d = d'
  aWin : ∀ v s d, Asg c i v s d → s ≤ (c.rep i).lastStable + 300
  aInst : ∀ v s d, Asg c i v s d → 0 < v → ∃ I ∈ c.installs, I.rep = i ∧ I.view = v ∧ I.stable < s
  shareA : ∀ k v s d, (⟨k, v, s, d, i⟩ : Share) ∈ c.shares → Asg c i v s d
  shareCommit : ∀ s d, (⟨.commit, (c.rep i).view, s, d, i⟩ : Share) ∈ c.shares →
    (∃ sl, (c.rep i).slot s = some sl ∧ sl.digest = d ∧ sl.cert.isSome = true) ∨ s ≤ (c.rep i).lastStable
  shareFast : ∀ k v s d, (⟨k, v, s, d, i⟩ : Share) ∈ c.shares → k = .fastThr ∨ k = .fastOpt → d ≠ P.cfg.nullDigest
  view0 : (c.rep i).view = 0 → (c.rep i).active = true ∧ (c.rep i).myVC = none
  myVC : ∀ m, (c.rep i).myVC = some m → m ∈ c.vcs ∧ m.sender = i ∧ m.newView = (c.rep i).view
  hasVC : 0 < (c.rep i).view → ∃ m, (c.rep i).myVC = some m
  instCur : (c.rep i).active = true → 0 < (c.rep i).view →
    ∃ I ∈ c.installs, I.rep = i ∧ I.view = (c.rep i).view ∧ I.stable ≤ (c.rep i).lastStable
  pend : ∀ arr, (c.rep i).pending = some arr → (c.rep i).active = false ∧ VCQuorum P.cfg (msgs arr) ∧
    ∀ m ∈ msgs arr, m.newView = (c.rep i).view ∧ m ∈ c.vcs

/-- the invariant -/
structure Inv (P : Params) (c : Core) : Prop where
  reps : ∀ i, P.ok i = true → RepFact P c i
  vcf : ∀ m ∈ c.vcs, P.ok m.sender = true → ∃ u, VCFact P c m u
  insts : ∀ I ∈ c.installs, P.ok I.rep = true ∧ InstFact P c I
  vcBacked : ∀ m ∈ c.vcs, ∀ e ∈ m.elems, ∀ ct, e.cert = some ct →
    P.cfg.valid ct.view e.seq e.digest ct.sig = true → backed P c.shares ct.view e.seq e.digest
  commits : ∀ e ∈ c.commits, CommitEv P c.shares e.view e.seq e.digest

theorem numShares_mono {P : Params} {sh sh' : List Share} (h : ∀ x ∈ sh, x ∈ sh') (k : Kind) (v s d : Nat) :
    numShares P sh k v s d ≤ numShares P sh' k v s d := by
  unfold numShares
  rw [← List.countP_eq_length_filter, ← List.countP_eq_length_filter]
  apply List.countP_mono_left
  intro x _ hx
  rw [List.contains_iff_mem] at hx ⊢
  exact h _ hx

theorem backed_mono {P : Params} {sh sh' : List Share} (h : ∀ x ∈ sh, x ∈ sh') {v s d : Nat}
    (hb : backed P sh v s d) : backed P sh' v s d := Nat.le_trans hb (numShares_mono h _ _ _ _)

theorem CommitEv_mono {P : Params} {sh sh' : List Share} (h : ∀ x ∈ sh, x ∈ sh') {v s d : Nat}
    (hb : CommitEv P sh v s d) : CommitEv P sh' v s d := by
  rcases hb with hb | ⟨h0, hb⟩ | hb
  · exact Or.inl (Nat.le_trans hb (numShares_mono h _ _ _ _))
  · exact Or.inr (Or.inl ⟨h0, Nat.le_trans hb (numShares_mono h _ _ _ _)⟩)
  · exact Or.inr (Or.inr (Nat.le_trans hb (numShares_mono h _ _ _ _)))

/-- how a step may change the histories, seen from replica `j` -/
structure Grow (c c' : Core) (j : Nat) : Prop where
  view : (c.rep j).view ≤ (c'.rep j).view
  st : (c.rep j).lastStable ≤ (c'.rep j).lastStable
  vcs : ∀ x ∈ c.vcs, x ∈ c'.vcs
  insts : ∀ x ∈ c.installs, x ∈ c'.installs
  asg : ∀ x ∈ c.assigned, x ∈ c'.assigned
  asg' : ∀ x ∈ c'.assigned, x.rep = j → x ∈ c.assigned ∨ (c.rep j).view ≤ x.view
  sh' : ∀ x ∈ c'.shares, x.signer = j → x ∈ c.shares ∨ (c.rep j).view ≤ x.view

theorem VCFact.grow {P : Params} {c c' : Core} {m : VCMsg} {u : Nat} (h : VCFact P c m u) (g : Grow c c' m.sender) :
    VCFact P c' m u := by
  have old : ∀ x s d, Asg c' m.sender x s d → x < m.newView → Asg c m.sender x s d := by
    intro x s d ha hx
    rcases g.asg' _ ha rfl with h1 | h1
    · exact h1
    · have := h.nv; simp only at h1; omega
  constructor
  · exact h.lt
  · exact Nat.le_trans h.nv g.view
  · exact Nat.le_trans h.st g.st
  · exact h.valid
  · exact fun e he => ⟨(h.elems e he).1, g.asg _ (h.elems e he).2.1, (h.elems e he).2.2⟩
  · exact fun x s d ha hx => h.skip x s d (old x s d ha hx) hx
  · exact fun x s d ha hx => h.win x s d (old x s d ha hx) hx
  · exact fun s d ha => h.q1 s d (old u s d ha h.lt)
  · intro s d hsh
    refine h.q2 s d ?_
    rcases g.sh' _ hsh rfl with h1 | h1
    · exact h1
    · have := h.nv; have := h.lt; simp only at h1; omega
  · intro hu
    obtain ⟨m', h1, h2, h3, h4, h5⟩ := h.q3 hu
    exact ⟨m', g.vcs _ h1, h2, h3, h4, fun e' he ct' hc hl ha => h5 e' he ct' hc hl (old _ _ _ ha h.lt)⟩
  · intro hu
    obtain ⟨I, h1, h2⟩ := h.inst hu
    exact ⟨I, g.insts _ h1, h2⟩

/-- facts about a replica that took no part in a step -/
theorem RepFact.frame {P : Params} {c c' : Core} {j : Nat} (h : RepFact P c j) (hr : c'.rep j = c.rep j)
    (hv : ∀ x ∈ c.vcs, x ∈ c'.vcs) (hi : ∀ x ∈ c.installs, x ∈ c'.installs)
    (ha : ∀ x, x.rep = j → (x ∈ c'.assigned ↔ x ∈ c.assigned))
    (hs : ∀ x ∈ c.shares, x ∈ c'.shares) (hs' : ∀ x ∈ c'.shares, x.signer = j → x ∈ c.shares) :
    RepFact P c' j := by
  have hasg : ∀ v s d, Asg c' j v s d ↔ Asg c j v s d := fun v s d => ha ⟨j, v, s, d⟩ rfl
  constructor
  · intro s sl h1; rw [hr] at h1 ⊢; rw [hasg]; exact h.slotA s sl h1
  · intro s sl h1; rw [hr] at h1 ⊢; exact h.slotWin s sl h1
  · intro s sl sig h1 h2; rw [hr] at h1 ⊢
    exact ⟨(h.slotCert s sl sig h1 h2).1, backed_mono hs (h.slotCert s sl sig h1 h2).2⟩
  · intro s sl h1; rw [hr] at h1; exact h.slotFast s sl h1
  · intro s sl h1; rw [hr] at h1; exact h.slotTime s sl h1
  · intro v s d h1; rw [hasg] at h1; rw [hr]; exact h.aView v s d h1
  · intro s d h1; rw [hasg, hr] at h1; rw [hr]; exact h.aCur s d h1
  · intro v s d d' h1 h2; rw [hasg] at h1 h2; exact h.aUniq v s d d' h1 h2
  · intro v s d h1; rw [hasg] at h1; rw [hr]; exact h.aWin v s d h1
  · intro v s d h1 h0; rw [hasg] at h1
    obtain ⟨I, h2, h3⟩ := h.aInst v s d h1 h0
    exact ⟨I, hi _ h2, h3⟩
  · intro k v s d h1; rw [hasg]; exact h.shareA k v s d (hs' _ h1 rfl)
  · intro s d h1; rw [hr] at h1 ⊢; exact h.shareCommit s d (hs' _ h1 rfl)
  · intro k v s d h1; exact h.shareFast k v s d (hs' _ h1 rfl)
  · rw [hr]; exact h.view0
  · intro m h1; rw [hr] at h1 ⊢; have := h.myVC m h1; exact ⟨hv _ this.1, this.2⟩
  · rw [hr]; exact h.hasVC
  · rw [hr]; intro h1 h2; obtain ⟨I, h3, h4⟩ := h.instCur h1 h2; exact ⟨I, hi _ h3, h4⟩
  · intro arr h1; rw [hr] at h1 ⊢; obtain ⟨h2, h3, h4⟩ := h.pend arr h1
    exact ⟨h2, h3, fun m hm => ⟨(h4 m hm).1, hv _ (h4 m hm).2⟩⟩

theorem InstFact.grow {P : Params} {c c' : Core} {I : Install} (h : InstFact P c I) (g : Grow c c' I.rep)
    (hc : (c'.rep I.rep).view = (c.rep I.rep).view → (c.rep I.rep).active = true → (c'.rep I.rep).active = true) :
    InstFact P c' I := by
  obtain ⟨rs, h1, h2⟩ := h.fill
  refine ⟨Nat.le_trans h.view g.view, ?_, h.q, fun m hm => ⟨(h.nv m hm).1, g.vcs _ (h.nv m hm).2⟩, h.lb,
    rs, h1, fun s x hs hx hw => g.asg _ (h2 s x hs hx hw)⟩
  intro he
  have hv := h.view; have hg := g.view
  exact hc (by omega) (h.cur (by omega))

end Concord.Protocol
