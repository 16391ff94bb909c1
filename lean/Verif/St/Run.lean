import Verif.St.Inv
set_option linter.unusedVariables false
set_option linter.unusedSimpArgs false
/-!
# State transfer: the invariant holds in every run
-/
namespace Verif.St
open Verif.Bytes

variable {c : Cfg} {evs : List Ev} {d : Desc} {r : Nat} {s : S}

/-- every message of the certificate is from an event -/
def CertOk (c : Cfg) (evs : List Ev) (ct : Concord.Cert.St Summary) : Prop :=
  ∀ e ∈ ct.msgs, e.1 ≠ c.self ∧ ∃ reach o cut, Ev.summary e.1 e.2 reach o cut ∈ evs

theorem eqv_desc {a b : Summary} (h : a.eqv b = true) : a.desc = b.desc := by
  unfold Summary.eqv at h
  simp only [Bool.and_eq_true, beq_iff_eq] at h
  obtain ⟨⟨⟨⟨h1, h2⟩, h3⟩, h4⟩, h5⟩ := h
  cases ha : a.desc
  cases hb : b.desc
  rw [ha, hb] at h1 h2 h3 h4 h5
  simp only at h1 h2 h3 h4 h5
  subst h1; subst h2; subst h3; subst h4; subst h5
  rfl

theorem vouched_of {ct : Concord.Cert.St Summary} {m : Summary} (h : CertOk c evs ct) (hl : c.f + 1 ≤ (c.backers ct m).length) : Vouched c evs m.desc := by
  refine ⟨c.backers ct m, List.nodup_range.filter _, hl, fun r hr => ?_⟩
  unfold Cfg.backers at hr
  rw [List.mem_filter, List.mem_range] at hr
  obtain ⟨h1, h2⟩ := hr
  cases hm : ct.msgOf r with
  | none => rw [hm] at h2; cases h2
  | some x =>
    rw [hm] at h2
    have hmem : (r, x) ∈ ct.msgs := Concord.Cert.mem_of_find hm
    obtain ⟨g1, reach, o, cut, g2⟩ := h _ hmem
    exact ⟨h1, g1, x, reach, o, cut, g2, eqv_desc h2⟩

theorem setData_spec (hf : 0 < c.fetch) {rv rv' : Rvbm} {data : Bytes} {reach : Nat} {d : Desc} (hd : d.rvb = data) (h : rv.setData c data (reach + 1) d.maxBlock = some rv')
    (hs : rv.stored = []) : TreeOk c d reach rv'.tree ∧ rv'.stored = [] := by
  unfold Rvbm.setData at h
  split at h
  · rename_i e
    split at h
    · cases h
    · rename_i hn
      cases h
      refine ⟨.inr ⟨by rw [hd, e], fun j h1 h2 => ?_⟩, rfl⟩
      unfold Cfg.noSpan at hn
      simp only [Bool.and_true, Bool.or_eq_true, decide_eq_true_eq, not_or] at hn
      exact noRvb_of hf hn.1 h1 h2
  · rename_i e
    split at h
    · cases h
    · rename_i t ht
      split at h
      · cases h
      · cases h
        exact ⟨.inl ⟨by rw [hd]; exact e, by rw [hd]; exact ht⟩, hs⟩

theorem N.adopt (hf : 0 < c.fetch) (h : N c evs s) (hfs : s.fs = .summaries) {ct : Concord.Cert.St Summary} (hct : CertOk c evs ct) (reach : Nat) (o : Nat → Ora) (cut : Nat) :
    (s.adopt c ct reach o cut).All (Inv c evs) := by
  unfold S.adopt
  refine all_bind.2 (all_option.2 fun m _ => all_bind.2 (all_require.2 fun hr => ?_))
  cases hsd : s.rv.setData c m.desc.rvb (reach + 1) m.desc.maxBlock with
  | none => exact (restartCycle_spec h.good h.io _).mono fun s1 h1 => .inl h1
  | some rv =>
    dsimp only
    refine all_bind.2 (all_require.2 fun hb => all_bind.2 (all_require.2 fun _ => ?_))
    have hv := vouched_of hct hb
    obtain ⟨ht, hst⟩ := setData_spec hf rfl hsd (h.sums hfs)
    have hc := cycle_adopt s.log m.desc reach
    have hgood : Good c evs (s.log ++ [.adopt m.desc reach]) := h.good.snoc hv
    have hon : s.fetching = true ∧ s.finalizing = false := by
      unfold S.fs at hfs
      split at hfs
      · cases hfs
      · rename_i h1
        split at hfs
        · cases hfs
        · rename_i h2
          exact ⟨by simpa using h2, by simpa using h1⟩
    refine all_ite.2 ⟨fun hlt => all_bind.2 ?_, fun hge => all_bind.2 (all_require.2 fun hz => all_bind.2 ?_)⟩
    · unfold S.enterBlocks
      refine all_bind.2 (all_require.2 fun _ => all_bind.2 ((nextBatch_spec _ _).mono fun b hb => all_ok.2 ?_))
      refine Inv.process hf (.inr (.inl ⟨m.desc, reach, ?_⟩)) false 0 o cut
      refine B.ofBatch (fs := reach + 1) rfl rfl hon.1 hon.2 hgood (CertsOk.none c evs) ?_ rfl ?_ ?_ ht ?_ hb (by omega) hr.2.2.2.2.2 ?_ ?_
      · show (cycle _).head? = _
        rw [hc]; rfl
      · show 0 < m.desc.maxBlock
        omega
      · show reach < reach + 1
        omega
      · intro e he
        have he : e ∈ rv.stored := he
        rw [hst] at he; cases he
      · intro j q1 q2
        have q2 : j < reach + 1 := q2
        omega
      · intro j q1 q2; omega
    · unfold S.enterPages
      refine all_bind.2 (all_require.2 fun hz' => all_ok.2 ?_)
      refine Inv.process hf (.inr (.inr ⟨m.desc, reach, ?_⟩)) false 0 o cut
      refine ⟨rfl, hon.1, hon.2, hgood, CertsOk.none c evs, ?_, rfl, hz.2, hz.1, hr.2.2.2.2.2, rfl, ?_⟩
      · show (cycle _).head? = _
        rw [hc]; rfl
      · intro j q1 q2; omega

theorem addMsg_ok {ct : Concord.Cert.St Summary} {r : Nat} {m : Summary} {reach : Nat} {o : Nat → Ora} {cut : Nat} (h : CertOk c evs ct) (hr : r ≠ c.self)
    (he : Ev.summary r m reach o cut ∈ evs) : CertOk c evs (ct.addMsg c.cert r m).1 := by
  intro e hm
  rw [Concord.Cert.addMsg_msgs] at hm
  split at hm
  · exact h e hm
  · rcases List.mem_append.1 hm with hm | hm
    · exact h e hm
    · rw [List.mem_singleton.1 hm]
      exact ⟨hr, reach, o, cut, he⟩

theorem Inv.onSummary (hf : 0 < c.fetch) (h : Inv c evs s) {r : Nat} {m : Summary} {reach : Nat} {o : Nat → Ora} {cut : Nat} (hr : r ≠ c.self) (he : Ev.summary r m reach o cut ∈ evs) :
    (s.onSummary c r m reach o cut).All (Inv c evs) := by
  unfold S.onSummary
  refine all_ite.2 ⟨fun _ => all_ok.2 h, fun hfs => all_ite.2 ⟨fun _ => all_ok.2 h, fun _ => all_ite.2 ⟨fun _ => all_ok.2 h, fun _ => all_ite.2 ⟨fun _ => all_ok.2 h, fun _ => ?_⟩⟩⟩⟩
  have hfs : s.fs = .summaries := Decidable.not_not.1 hfs
  have hn : N c evs s := by
    rcases h with g | ⟨d, r, g⟩ | ⟨d, r, g⟩
    · exact g
    · rw [g.fs] at hfs; cases hfs
    · rw [g.fs] at hfs; cases hfs
  have hct : CertOk c evs ((s.certs m.desc.num).getD {}) := by
    cases hc : s.certs m.desc.num with
    | none => intro e hm; exact absurd hm (by simp)
    | some ct => exact hn.certs _ _ hc
  have hct' := addMsg_ok hct hr he
  have hn1 : N c evs (s.addSummary c r m).1 := by
    refine ⟨hn.cbf, hn.good, ?_, hn.io, hn.sums⟩
    intro k ct hk
    have hk : (if k = m.desc.num then some (((s.certs m.desc.num).getD {}).addMsg c.cert r m).1 else s.certs k) = some ct := hk
    split at hk
    · cases hk; exact hct'
    · exact hn.certs k ct hk
  show (if _ then _ else _ : R S).All _
  refine all_ite.2 ⟨fun _ => all_ok.2 (.inl hn1), fun _ => ?_⟩
  exact hn1.adopt hf hfs hct' reach o cut

theorem Inv.onItem (hf : 0 < c.fetch) (h : Inv c evs s) (r : Nat) (m : Item) (o : Nat → Ora) (cut : Nat) : (s.onItem c r m o cut).All (Inv c evs) := by
  unfold S.onItem
  refine all_ite.2 ⟨fun _ => all_ok.2 h, fun _ => all_ite.2 ⟨fun _ => all_ok.2 h, fun _ => all_ite.2 ⟨fun _ => all_ok.2 h, fun _ => all_ite.2 ⟨fun _ => all_abort, fun _ =>
    all_ite.2 ⟨fun _ => all_ok.2 h, fun _ => ?_⟩⟩⟩⟩⟩
  cases insertItem m s.pending with
  | none => exact all_ok.2 h
  | some l =>
    refine Inv.process hf ?_ _ _ o cut
    rcases h with g | ⟨d, r, g⟩ | ⟨d, r, g⟩
    · exact .inl ⟨g.cbf, g.good, g.certs, g.io, g.sums⟩
    · exact .inr (.inl ⟨d, r, g.other ..⟩)
    · exact .inr (.inr ⟨d, r, g.other ..⟩)

theorem Inv.onReject (hf : 0 < c.fetch) (h : Inv c evs s) (r seq : Nat) (nf : Bool) (o : Nat → Ora) (cut : Nat) : (s.onReject c r seq nf o cut).All (Inv c evs) := by
  unfold S.onReject
  refine all_ite.2 ⟨fun _ => all_ok.2 h, fun _ => all_ite.2 ⟨fun _ => all_ok.2 h, fun _ => all_ite.2 ⟨fun hp => ?_, fun _ => ?_⟩⟩⟩
  · rcases h with g | ⟨d, r, g⟩ | ⟨d, r, g⟩
    · exact absurd hp g.fs.2
    · rw [g.fs] at hp; cases hp
    · exact (restartCycle_spec (s := { s with
        src := none
        pref := [] }) g.good g.io _).mono fun s1 h1 => .inl h1
  · refine Inv.process hf ?_ _ _ o cut
    rcases h with g | ⟨d, r, g⟩ | ⟨d, r, g⟩
    · exact .inl ⟨g.cbf, g.good, g.certs, g.io, g.sums⟩
    · exact .inr (.inl ⟨d, r, g.other ..⟩)
    · exact .inr (.inr ⟨d, r, g.other ..⟩)

theorem N.finish (h : N c evs s) : s.finish.All (N c evs) := by
  unfold S.finish
  rw [reset_eq (s := { s with finalizing := false }) h.io]
  refine all_bind.2 (all_ok.2 (all_bind.2 (all_require.2 fun he => all_ok.2 ?_)))
  refine ⟨h.cbf, h.good, fun k ct hk => (by cases hk), rfl, fun e => ?_⟩
  have he : S.fs _ = .idle := he
  rw [he] at e; cases e

theorem Inv.onTimer (hf : 0 < c.fetch) (h : Inv c evs s) (go clear : Bool) (o : Nat → Ora) (cut : Nat) : (s.onTimer c go clear o cut).All (Inv c evs) := by
  unfold S.onTimer
  cases hfs : s.fs with
  | blocks => exact h.process hf _ _ o cut
  | pages => exact h.process hf _ _ o cut
  | idle => exact all_ok.2 h
  | finalizing =>
    refine all_ite.2 ⟨fun _ => ?_, fun _ => all_ok.2 h⟩
    rcases h with g | ⟨d, r, g⟩ | ⟨d, r, g⟩
    · exact g.finish.mono fun s1 h1 => .inl h1
    · rw [g.fs] at hfs; cases hfs
    · rw [g.fs] at hfs; cases hfs
  | summaries =>
    refine all_ok.2 ?_
    split
    · rcases h with g | ⟨d, r, g⟩ | ⟨d, r, g⟩
      · refine .inl ⟨g.cbf, g.good, ?_, g.io, g.sums⟩
        show CertsOk c evs (if clear then fun _ => none else s.certs)
        split
        · exact CertsOk.none c evs
        · exact g.certs
      · rw [g.fs] at hfs; cases hfs
      · rw [g.fs] at hfs; cases hfs
    · exact h

theorem Inv.crash (h : Inv c evs s) (reach : Nat) (tree : Rvt.Tree) (rubbish : Bytes) (early : Bool) : (s.crash c reach tree rubbish early).All (Inv c evs) := by
  unfold S.crash
  refine all_ite.2 ⟨fun _ => all_abort, fun _ => ?_⟩
  dsimp only
  have hc : cycle (s.log ++ [.restart reach]) = cycle s.log ++ [.restart reach] := cycle_snoc _ _ rfl
  have hsub : ∀ x ∈ cycle s.log, x ∈ cycle (s.log ++ [.restart reach]) := fun x hx => by rw [hc]; exact List.mem_append_left _ hx
  have hgood : Good c evs (s.log ++ [.restart reach]) := h.good.snoc trivial
  rcases h with g | ⟨d, r, g⟩ | ⟨d, r, g⟩
  · have hcbf : (s.boot c tree rubbish reach).cbf = none := g.cbf
    rw [hcbf]
    refine R.All.mono (p := N c evs) ?_ fun s1 h1 => .inl h1
    have hst : (s.boot c tree rubbish reach).rv.stored = [] := by
      show (match s.cbf with
        | some d => (⟨(if d.rvb = [] then tree else (c.parse d.rvb).getD tree), [], []⟩ : Rvbm)
        | none => ⟨tree, [], []⟩).stored = []
      rw [g.cbf]
    have : N c evs (s.boot c tree rubbish reach) := ⟨g.cbf, hgood, fun k ct hk => (by cases hk), rfl, fun _ => hst⟩
    cases (s.boot c tree rubbish reach).fs <;> exact all_ok.2 this
  · have hcbf : (s.boot c tree rubbish reach).cbf = some d := g.cbf
    have hfs : (s.boot c tree rubbish reach).fs = .blocks := by
      unfold S.fs
      show (if false = true then _ else if (!s.fetching) = true then _ else match s.cbf with | none => Fs.summaries | some _ => if 0 < s.last then Fs.blocks else Fs.pages) = _
      rw [g.on, g.cbf]
      simp [g.pos]
    have hrv : (s.boot c tree rubbish reach).rv = ⟨(if d.rvb = [] then tree else (c.parse d.rvb).getD tree), [], []⟩ := by
      show (match s.cbf with
        | some d => (⟨(if d.rvb = [] then tree else (c.parse d.rvb).getD tree), [], []⟩ : Rvbm)
        | none => ⟨tree, [], []⟩) = _
      rw [g.cbf]
    rw [hcbf, hfs]
    dsimp only
    unfold S.enterBlocks
    refine all_bind.2 (R.All.mono (p := fun s1 => B c evs d r s1 ∧ Out.restart reach ∈ cycle s1.log ∧ s1.io = [])
      (all_bind.2 (all_require.2 fun _ => all_bind.2 ((nextBatch_spec _ _).mono fun b hb => all_ok.2 ⟨?_, ?_, rfl⟩))) ?_)
    · refine B.ofBatch (fs := s.first) rfl g.cbf g.on rfl hgood (fun k ct hk => (by cases hk)) ?_ g.last g.pos g.first ?_ ?_ hb g.first rfl ?_ ?_
      · show (cycle (s.log ++ [.restart reach])).head? = _
        rw [hc]; exact head_append g.cyc
      · rw [hrv]
        rcases g.tree with ⟨z1, z2⟩ | ⟨z1, z2⟩
        · refine .inl ⟨z1, ?_⟩
          show _ = some (if d.rvb = [] then tree else (c.parse d.rvb).getD tree)
          rw [if_neg z1, z2]; rfl
        · exact .inr ⟨z1, z2⟩
      · intro e he
        rw [hrv] at he; cases he
      · exact fun j z1 z2 => (g.d1 j z1 z2).mono hsub
      · exact fun j z1 z2 => (g.d1 j z1 z2).mono hsub
    · show _ ∈ cycle (s.log ++ [.restart reach])
      rw [hc]; exact List.mem_append_right _ (List.mem_singleton.2 rfl)
    · rintro s1 ⟨h1, h2, h3⟩
      refine all_bind.2 (all_require.2 fun hle => all_ite.2 ⟨fun he => ?_, fun _ => all_ok.2 (.inr (.inl ⟨d, r, h1.other ..⟩))⟩)
      refine R.All.mono (B.endBlocks (c := c) (evs := evs) (d := d) (r := r) h1.cbf h1.on h1.fin h1.good h1.certs h1.cyc h1.target h3 ?_) fun s2 h2 => .inr (.inr ⟨d, r, h2⟩)
      intro j z1 z2
      refine .inr ⟨reach, h2, ?_⟩
      have he : reach = s1.last := he
      rw [he, h1.last]; exact z2
  · have hcbf : (s.boot c tree rubbish reach).cbf = some d := g.cbf
    have hfs : (s.boot c tree rubbish reach).fs = .pages := by
      unfold S.fs
      show (if false = true then _ else if (!s.fetching) = true then _ else match s.cbf with | none => Fs.summaries | some _ => if 0 < s.last then Fs.blocks else Fs.pages) = _
      rw [g.on, g.cbf]
      simp [g.last]
    rw [hcbf, hfs]
    dsimp only
    unfold S.enterPages
    refine all_bind.2 (all_bind.2 (all_require.2 fun _ => all_ok.2 (all_ok.2 (.inr (.inr ⟨d, r, ?_⟩)))))
    refine ⟨g.cbf, g.on, rfl, hgood, fun k ct hk => (by cases hk), ?_, rfl, g.last, g.first, rfl, rfl, ?_⟩
    · show (cycle (s.log ++ [.restart reach])).head? = _
      rw [hc]; exact head_append g.cyc
    · exact fun j z1 z2 => (g.all j z1 z2).mono hsub

theorem Inv.checkpoint (h : Inv c evs s) (num mb : Nat) (md rvb : Bytes) (tree : Rvt.Tree) (upd : List (Nat × Bytes)) : (s.checkpoint c num mb md rvb tree upd).All (Inv c evs) := by
  unfold S.checkpoint
  refine all_ite.2 ⟨fun _ => all_abort, fun hn => all_ite.2 ⟨fun _ => all_ok.2 h, fun _ => all_ite.2 ⟨fun _ => all_abort, fun _ => all_bind.2 fun pages _ => all_bind.2 (all_require.2 fun _ => all_ok.2 ?_)⟩⟩⟩
  rcases h with g | ⟨d, r, g⟩ | ⟨d, r, g⟩
  · refine .inl ⟨g.cbf, g.good, g.certs, g.io, fun e => ?_⟩
    exact g.sums e
  · exact absurd (.inl g.on) hn
  · exact absurd (.inl g.on) hn

theorem Inv.step (hf : 0 < c.fetch) (h : Inv c evs s) (e : Ev) : (s.step c e).All (Inv c (evs ++ [e])) := by
  have h' : Inv c (evs ++ [e]) s := h.mono (fun x hx => List.mem_append_left _ hx)
  have he : e ∈ evs ++ [e] := List.mem_append_right _ (List.mem_singleton.2 rfl)
  cases e with
  | start q =>
    refine all_ite.2 ⟨fun hfs => ?_, fun _ => all_ok.2 h'⟩
    rcases h' with g | ⟨d, r, g⟩ | ⟨d, r, g⟩
    · exact (start_spec g.cbf g.good g.io q).mono fun s1 h1 => .inl h1
    · rw [g.fs] at hfs; cases hfs
    · rw [g.fs] at hfs; cases hfs
  | summary r m reach o cut =>
    refine all_ite.2 ⟨fun hr => ?_, fun _ => all_ok.2 h'⟩
    exact h'.onSummary hf (of_decide_eq_true hr).2 he
  | item r m o cut => exact all_ite.2 ⟨fun _ => h'.onItem hf r m o cut, fun _ => all_ok.2 h'⟩
  | reject r q nf o cut => exact all_ite.2 ⟨fun _ => h'.onReject hf r q nf o cut, fun _ => all_ok.2 h'⟩
  | timer go clear o cut => exact h'.onTimer hf go clear o cut
  | crash reach tree rubbish early => exact h'.crash reach tree rubbish early
  | checkpoint num mb md rvb tree upd => exact h'.checkpoint num mb md rvb tree upd

theorem Inv.run (hf : 0 < c.fetch) : ∀ (es : List Ev) {evs : List Ev} {s : S}, Inv c evs s → (s.run c es).All (Inv c (evs ++ es)) := by
  intro es
  induction es with
  | nil => intro evs s h; rw [List.append_nil]; exact all_ok.2 h
  | cons e es ih =>
    intro evs s h
    show ((s.step c e) >>= (fun s => s.run c es)).All _
    refine all_bind.2 ((h.step hf e).mono fun s1 h1 => ?_)
    have := ih h1
    rwa [List.append_assoc, List.singleton_append] at this

theorem Inv.init (c : Cfg) (buf : Bytes) : Inv c [] (S.init c buf) :=
  .inl ⟨rfl, Good.nil c [], fun k ct hk => (by cases hk), rfl, fun _ => rfl⟩

end Verif.St
