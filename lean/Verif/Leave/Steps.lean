import Verif.Leave.Proofs
set_option linter.unusedSimpArgs false
set_option linter.unusedVariables false
namespace Concord.Leave

theorem RInv.good {cfg : Cfg} {N : Net} {i : Nat} {r : Rep} (h : RInv cfg N i r) : Good N.complaints r.view r.compl :=
  ⟨h.nodup, h.cview, h.csig⟩

theorem RInv.setCompl {cfg : Cfg} {N : Net} {i : Nat} {r : Rep} (h : RInv cfg N i r) {l : List Complaint}
    (hl : Good N.complaints r.view l) : RInv cfg N i { r with compl := l } where
  pend := h.pend
  act := h.act
  inact := h.inact
  nodup := hl.nodup
  cview := hl.cview
  csig := hl.csig
  vsig := h.vsig
  reach := h.reach
  go := h.go
  agr := h.agr
  lact := h.lact
  pq := h.pq
  own := h.own

theorem not_quorum_nil (cfg : Cfg) : ¬ quorum cfg [] = true := by
  unfold quorum; simp

/-- leaving with more than `f` complaints about my view -/
theorem goToNext_ok {cfg : Cfg} {i : Nat} {N0 : Net} {s : Net × Rep} (hf : FewFaulty cfg) (hi : i < cfg.n)
    (hh : cfg.honest i = true) (h : Ok cfg i N0 s) (hq : quorum cfg s.2.compl = true) :
    ∃ t, goToNext i s = some t ∧ Ok cfg i N0 t ∧ t.2.view = s.2.view + 1 ∧ t.2.compl = [] ∧ t.2.vcs = s.2.vcs ∧
      t.2.pend = s.2.pend ∧ t.2.shouldTry = s.2.shouldTry ∧ t.2.shouldGo = s.2.shouldGo ∧ t.2.active = false ∧
      t.2.executing = s.2.executing := by
  refine moveTo_ok hi hh h (Nat.lt_succ_self _) ?_
  intro u h1 h2
  have : u = s.2.view := by omega
  subst this
  exact Caused.mono (fun _ hx => List.mem_cons_of_mem _ hx) (Or.inl (h.r.good.suspected hf h.g hq).1)

theorem lim_up {cfg : Cfg} {i : Nat} {r r' : Rep} (h : (later cfg i r (r.view + 1)).length ≤ cfg.f) (hv : r'.vcs = r.vcs)
    (hw : r.view ≤ r'.view) : (later cfg i r' (r'.view + 1)).length ≤ cfg.f :=
  Nat.le_trans (later_anti hv (by omega)) h

theorem tryToGo_ok {cfg : Cfg} {i : Nat} {N0 : Net} {s : Net × Rep} (hf : FewFaulty cfg) (hi : i < cfg.n)
    (hh : cfg.honest i = true) (h : Ok cfg i N0 s) (hl : (later cfg i s.2 (s.2.view + 1)).length ≤ cfg.f) :
    ∃ t, tryToGo cfg i s = some t ∧ Ok cfg i N0 t ∧ ¬ quorum cfg t.2.compl = true ∧
      (later cfg i t.2 (t.2.view + 1)).length ≤ cfg.f := by
  unfold tryToGo
  by_cases hq : quorum cfg s.2.compl = true
  · rw [if_pos hq]
    obtain ⟨t, a, b, c, d, e, _⟩ := goToNext_ok hf hi hh h hq
    exact ⟨t, a, b, by rw [d]; exact not_quorum_nil cfg, lim_up hl e (by omega)⟩
  · rw [if_neg hq]
    exact ⟨s, rfl, h, hq, hl⟩

theorem onComplaint_ok {cfg : Cfg} {i : Nat} {k : Complaint} {N : Net} {r : Rep} (hf : FewFaulty cfg) (hi : i < cfg.n)
    (hh : cfg.honest i = true) (h : Ok cfg i N (N, r)) (hL : LInv cfg i r) (hk : k ∈ N.complaints) :
    ∃ t, onComplaint cfg i k (N, r) = some t ∧ Ok cfg i N t ∧ LInv cfg i t.2 := by
  show ∃ t, (if k.view = r.view then _ else _) = some t ∧ _
  by_cases hv : k.view = r.view
  · rw [if_pos hv]
    have h' : Ok cfg i N (N, { r with compl := store r.compl k }) :=
      ⟨h.g, h.r.setCompl (h.r.good.store hv hk), h.le⟩
    obtain ⟨t, a, b, c, d⟩ := tryToGo_ok hf hi hh h' hL.lim
    exact ⟨t, a, b, fun hq => absurd hq c, d⟩
  · rw [if_neg hv]
    exact ⟨_, rfl, h, hL⟩

theorem le_asked (N : Net) (i v : Nat) (why : Reason) :
    N.Le { N with complaints := ⟨i, v⟩ :: N.complaints, log := .asked i v why :: N.log } :=
  ⟨fun _ h => List.mem_cons_of_mem _ h, fun _ h => h, fun _ h => List.mem_cons_of_mem _ h⟩

theorem RInv.shouldTry {cfg : Cfg} {N : Net} {i : Nat} {r : Rep} (h : RInv cfg N i r) (b : Bool) :
    RInv cfg N i { r with shouldTry := b } :=
  ⟨h.pend, h.act, h.inact, h.nodup, h.cview, h.csig, h.vsig, h.reach, h.go, h.agr, h.lact, h.pq, h.own⟩

theorem RInv.executing {cfg : Cfg} {N : Net} {i : Nat} {r : Rep} (h : RInv cfg N i r) (b : Bool) :
    RInv cfg N i { r with executing := b } :=
  ⟨h.pend, h.act, h.inact, h.nodup, h.cview, h.csig, h.vsig, h.reach, h.go, h.agr, h.lact, h.pq, h.own⟩

theorem ask_ok {cfg : Cfg} {i : Nat} {why : Reason} {N : Net} {r : Rep} (hf : FewFaulty cfg) (hi : i < cfg.n)
    (hh : cfg.honest i = true) (h : Ok cfg i N (N, r)) (hL : LInv cfg i r) (hw : AskOk cfg N r.view why) :
    ∃ t, ask cfg i why (N, r) = some t ∧ Ok cfg i N t ∧ LInv cfg i t.2 := by
  have hle := le_asked N i r.view why
  have hG : GInv cfg { N with complaints := ⟨i, r.view⟩ :: N.complaints, log := .asked i r.view why :: N.log } := by
    constructor
    · intro k hk
      rcases List.mem_cons.1 hk with rfl | hk
      · exact hi
      · exact h.g.cid k hk
    · exact h.g.vid
    · intro m hx hg
      exact (h.g.vc m hx hg).mono hle.l
    · intro k hk hg
      rcases List.mem_cons.1 hk with rfl | hk
      · exact ⟨why, List.mem_cons_self⟩
      · obtain ⟨w, hx⟩ := h.g.cp k hk hg
        exact ⟨w, hle.l _ hx⟩
    · intro j u w hx
      rcases List.mem_cons.1 hx with h1 | hx
      · cases h1
        exact ⟨hi, hh, h.r.reach.mono hle.l, hw.mono hle⟩
      · obtain ⟨a, b, c, d⟩ := h.g.asked j u w hx
        exact ⟨a, b, c.mono hle.l, d.mono hle⟩
    · intro j u hx
      rcases List.mem_cons.1 hx with h1 | hx
      · cases h1
      · obtain ⟨a, b, c, d⟩ := h.g.rot j u hx
        exact ⟨a, b, c, d.imp id (·.mono hle)⟩
    · intro j w hj hjh hr u hu
      refine (h.g.caused j w hj hjh ?_ u hu).mono hle.l
      rcases hr with h0 | ⟨a, b, hx, hb⟩
      · exact Or.inl h0
      · rcases List.mem_cons.1 hx with h1 | hx
        · cases h1
        · exact Or.inr ⟨a, b, hx, hb⟩
    · intro j a b hx
      rcases List.mem_cons.1 hx with h1 | hx
      · cases h1
      · exact h.g.up j a b hx
  have hR : RInv cfg { N with complaints := ⟨i, r.view⟩ :: N.complaints, log := .asked i r.view why :: N.log } i
      { r with compl := store r.compl ⟨i, r.view⟩ } :=
    (h.r.mono hle).setCompl ((h.r.mono hle).good.store rfl List.mem_cons_self)
  show ∃ t, (if r.executing = true then _ else _) = some t ∧ _
  by_cases hx : r.executing = true
  · rw [if_pos hx]
    exact ⟨_, rfl, ⟨hG, hR.shouldTry true, hle⟩, fun _ => rfl, hL.lim⟩
  · rw [if_neg hx]
    obtain ⟨t, a, b, c, d⟩ := tryToGo_ok hf hi hh (s := ({ N with complaints := ⟨i, r.view⟩ :: N.complaints, log := .asked i r.view why :: N.log },
      { r with compl := store r.compl ⟨i, r.view⟩ })) (N0 := N) ⟨hG, hR, hle⟩ hL.lim
    exact ⟨t, a, b, fun hq => absurd hq c, d⟩

/-! ## a view-change message -/

theorem vcComplaints_ok {cfg : Cfg} {i nv : Nat} {ks : List Complaint} {N0 : Net} {s : Net × Rep} (hf : FewFaulty cfg)
    (hi : i < cfg.n) (hh : cfg.honest i = true) (h : Ok cfg i N0 s)  :
    ∃ t, vcComplaints cfg i nv ks s = some t ∧ Ok cfg i N0 t ∧ ¬ quorum cfg t.2.compl = true ∧ t.2.vcs = s.2.vcs ∧
      s.2.view ≤ t.2.view := by
  obtain ⟨g1, g2, g3⟩ := processAll_good (cfg := cfg) (C := s.1.complaints) (cur := s.2.view) (target := nv) (ks := ks)
    (m := 0) (b := ⟨s.2.compl, []⟩) h.r.good (Good.nil _ _) (fun _ => rfl) (fun _ => rfl)
  unfold vcComplaints
  generalize processAll cfg s.2.view nv (fun k => decide (k ∈ s.1.complaints)) 0 ks ⟨s.2.compl, []⟩ = b at g1 g2 g3 ⊢
  show ∃ t, (if quorum cfg b.compl = true then _ else _) = some t ∧ _
  by_cases hq : quorum cfg b.compl = true
  · rw [if_pos hq]
    obtain ⟨t, a, b', c, d, e, _⟩ := goToNext_ok hf hi hh (s := (s.1, { s.2 with compl := b.compl }))
      ⟨h.g, h.r.setCompl g1, h.le⟩ hq
    refine ⟨t, a, b', by rw [d]; exact not_quorum_nil cfg, e, ?_⟩
    have c' : t.2.view = s.2.view + 1 := c
    omega
  · rw [if_neg hq]
    by_cases hq2 : quorum cfg b.higher = true
    · rw [if_pos hq2]
      have hnv : s.2.view + 1 < nv := by
        apply Classical.byContradiction
        intro hc
        rw [g3 (by omega)] at hq2
        exact not_quorum_nil cfg hq2
      rw [if_pos hnv]
      obtain ⟨s1, j, hj, hjh, hjr⟩ := g2.suspected hf h.g hq2
      have hmv := moveTo_ok (next := nv) (s := (s.1, { s.2 with compl := [] })) (N0 := N0) hi hh
        ⟨h.g, h.r.setCompl (Good.nil _ _), h.le⟩ (by show s.2.view < nv; omega) (by
          intro u h1 h2
          have hm : ∀ e ∈ s.1.log, e ∈ Ev.moved i s.2.view nv :: s.1.log := fun _ hx => List.mem_cons_of_mem _ hx
          by_cases hu : u = nv - 1
          · subst hu
            exact Caused.mono hm (Or.inl s1)
          · exact Caused.mono hm (h.g.caused j (nv - 1) hj hjh hjr u (by omega)))
      obtain ⟨t, a, b', c, d, e, _⟩ := hmv
      have a' : moveTo i nv (s.1, { s.2 with compl := b.higher }) = some t := by
        rw [← a]; rfl
      refine ⟨t, a', b', by rw [d]; exact not_quorum_nil cfg, e, ?_⟩
      rw [c]; omega
    · rw [if_neg hq2]
      exact ⟨_, rfl, ⟨h.g, h.r.setCompl g1, h.le⟩, hq, rfl, Nat.le_refl _⟩

theorem vcPrimary_ok {cfg : Cfg} {i gen nv : Nat} {N0 : Net} {s : Net × Rep} (hi : i < cfg.n) (hh : cfg.honest i = true)
    (h : Ok cfg i N0 s) (hm : (⟨gen, nv⟩ : VC) ∈ N0.vcs) (hq : ¬ quorum cfg s.2.compl = true) :
    ∃ t, vcPrimary cfg i gen nv s = some t ∧ Ok cfg i N0 t ∧ ¬ quorum cfg t.2.compl = true ∧ t.2.vcs = s.2.vcs := by
  unfold vcPrimary
  by_cases hg : gen = cfg.primary s.2.view ∧ s.2.view < nv
  · rw [if_pos hg]
    have hmv := moveTo_ok (next := s.2.view + 1) hi hh h (Nat.lt_succ_self _) (by
      intro u h1 h2
      have : u = s.2.view := by omega
      subst this
      have hm' := h.le.v _ hm
      have hgn : gen < cfg.n := h.g.vid _ hm'
      cases hgh : cfg.honest gen with
      | true =>
        have hr := h.g.vc _ hm' hgh
        exact (h.g.caused gen nv hgn hgh hr _ hg.2).mono (fun _ hx => List.mem_cons_of_mem _ hx)
      | false =>
        refine Or.inr (Or.inr ⟨by rw [← hg.1]; exact hgh, i, hi, hh, List.mem_cons_self⟩))
    obtain ⟨t, a, b, c, d, e, _⟩ := hmv
    exact ⟨t, a, b, by rw [d]; exact not_quorum_nil cfg, e⟩
  · rw [if_neg hg]
    exact ⟨s, rfl, h, hq, rfl⟩

theorem later_signed {cfg : Cfg} {i : Nat} {N : Net} {r : Rep} (h : RInv cfg N i r) (w : Nat) {q : Nat}
    (hl : q ≤ (later cfg i r w).length) : Signed cfg N q w := by
  refine Signed.of_list (List.nodup_range.filter _) hl ?_
  intro j hj
  obtain ⟨h1, h2⟩ := List.mem_filter.1 hj
  refine ⟨List.mem_range.1 h1, ?_⟩
  simp only [Bool.and_eq_true] at h2
  cases hx : r.vcs j with
  | none => rw [hx] at h2; simp at h2
  | some v =>
    rw [hx] at h2
    simp only [Option.any_some, decide_eq_true_eq] at h2
    exact ⟨v, h2.2, h.vsig j v hx⟩

/-- more than `f` signers: a correct replica was there -/
theorem Signed.honest {cfg : Cfg} {N : Net} (hf : FewFaulty cfg) (hG : GInv cfg N) {q w : Nat} (hq : cfg.f < q)
    (hs : Signed cfg N q w) : ∃ j, j < cfg.n ∧ cfg.honest j = true ∧ Reached N.log j w := by
  obtain ⟨Q, a, b, c⟩ := hs
  obtain ⟨j, hj, hh⟩ := honest_among hf a (by omega) (fun j hj => (c j hj).1)
  obtain ⟨v, hv, hm⟩ := (c j hj).2
  exact ⟨j, (c j hj).1, hh, (hG.vc _ hm hh).le hv⟩

theorem vcCorrect_ok {cfg : Cfg} {i : Nat} {N0 : Net} {s : Net × Rep} (hf : FewFaulty cfg) (hi : i < cfg.n)
    (hh : cfg.honest i = true) (h : Ok cfg i N0 s) (hq : ¬ quorum cfg s.2.compl = true) :
    ∃ t, vcCorrect cfg i s = some t ∧ Ok cfg i N0 t ∧ ¬ quorum cfg t.2.compl = true ∧
      (later cfg i t.2 (t.2.view + 1)).length ≤ cfg.f := by
  have hp : s.2.pend ≤ s.2.view := h.r.pend
  unfold vcCorrect
  by_cases hg : s.2.view < correctView cfg i s.2
  · rw [if_pos hg]
    have hc1 : cfg.f + 1 ≤ (later cfg i s.2 (correctView cfg i s.2)).length := by
      rw [← ahead_eq_later (by omega) hg]
      exact (le_correct_iff (by omega)).1 (Nat.le_refl _)
    have hc2 : (later cfg i s.2 (correctView cfg i s.2 + 1)).length ≤ cfg.f := by
      rw [← ahead_eq_later (by omega) (by omega)]
      apply Classical.byContradiction
      intro hc
      have := (le_correct_iff (cfg := cfg) (i := i) (r := s.2) (w := correctView cfg i s.2 + 1) (by omega)).2 (by omega)
      omega
    obtain ⟨j, hj, hjh, hjr⟩ := (later_signed h.r _ hc1).honest hf h.g (Nat.lt_succ_self _)
    obtain ⟨t, a, b, c, d, e, _⟩ := moveTo_ok (next := correctView cfg i s.2) hi hh h hg (by
      intro u h1 h2
      exact (h.g.caused j _ hj hjh hjr u h2).mono (fun _ hx => List.mem_cons_of_mem _ hx))
    refine ⟨t, a, b, by rw [d]; exact not_quorum_nil cfg, ?_⟩
    rw [c]
    exact Nat.le_trans (later_anti e (Nat.le_refl _)) hc2
  · rw [if_neg hg]
    refine ⟨s, rfl, h, hq, ?_⟩
    rw [← ahead_eq_later (by omega) (by omega)]
    apply Classical.byContradiction
    intro hc
    have := (le_correct_iff (cfg := cfg) (i := i) (r := s.2) (w := s.2.view + 1) (by omega)).2 (by omega)
    omega

theorem ahead_signed {cfg : Cfg} {i : Nat} {N : Net} {r : Rep} (h : RInv cfg N i r) (w : Nat) {q : Nat}
    (hl : q ≤ (ahead cfg i r w).length) : Signed cfg N q w := by
  refine Signed.of_list (List.nodup_range.filter _) hl ?_
  intro j hj
  obtain ⟨h1, h2⟩ := List.mem_filter.1 hj
  refine ⟨List.mem_range.1 h1, ?_⟩
  unfold known at h2
  by_cases hji : j = i
  · subst hji
    rw [if_pos rfl] at h2
    cases ha : r.active with
    | true => rw [ha] at h2; simp at h2
    | false =>
      rw [ha] at h2
      simp at h2
      exact ⟨r.view, h2.2, h.own ha⟩
  · rw [if_neg hji] at h2
    cases hx : r.vcs j with
    | none => rw [hx] at h2; simp at h2
    | some v =>
      rw [hx] at h2
      simp at h2
      exact ⟨v, h2.2, h.vsig j v hx⟩

theorem vcAgreed_ok {cfg : Cfg} {i : Nat} {N0 : Net} {s : Net × Rep} (h : Ok cfg i N0 s)
    (hL : LInv cfg i s.2) : Ok cfg i N0 (vcAgreed cfg i s) ∧ LInv cfg i (vcAgreed cfg i s).2 := by
  unfold vcAgreed
  split
  · next hg =>
    refine ⟨⟨h.g, ?_, h.le⟩, hL.few, hL.lim⟩
    have hr := h.r
    refine ⟨hr.pend, hr.act, hr.inact, hr.nodup, hr.cview, hr.csig, hr.vsig, hr.reach, hr.go, ?_, hr.lact, hr.pq, hr.own⟩
    show s.2.view = 0 ∨ Signed cfg s.1 _ s.2.view
    by_cases hp : s.2.pend < s.2.view
    · exact Or.inr (ahead_signed hr _ ((le_agreed_iff hp).1 (by omega)))
    · have hp' : s.2.pend ≤ s.2.view := hr.pend
      have : s.2.view = s.2.pend := by omega
      rw [this]; exact hr.pq
  · exact ⟨h, hL⟩

theorem onVC_ok {cfg : Cfg} {i gen nv : Nat} {ks : List Complaint} {N : Net} {r : Rep} (hf : FewFaulty cfg) (hi : i < cfg.n)
    (hh : cfg.honest i = true) (h : Ok cfg i N (N, r)) (hL : LInv cfg i r) (hm : (⟨gen, nv⟩ : VC) ∈ N.vcs) :
    ∃ t, onVC cfg i gen nv ks (N, r) = some t ∧ Ok cfg i N t ∧ LInv cfg i t.2 := by
  show ∃ t, (if nv ≤ r.pend then _ else _) = some t ∧ _
  by_cases hn : nv ≤ r.pend
  · rw [if_pos hn]; exact ⟨_, rfl, h, hL⟩
  · rw [if_neg hn]
    have h1 : Ok cfg i N (N, { r with vcs := fun j => if j = gen then some nv else r.vcs j }) := by
      have hr := h.r
      refine ⟨h.g, ⟨hr.pend, hr.act, hr.inact, hr.nodup, hr.cview, hr.csig, ?_, hr.reach, hr.go, hr.agr, hr.lact, hr.pq, hr.own⟩, h.le⟩
      intro j v hv
      have hv' : (if j = gen then some nv else r.vcs j) = some v := hv
      by_cases hj : j = gen
      · rw [if_pos hj] at hv'; cases hv'; rw [hj]; exact hm
      · rw [if_neg hj] at hv'; exact hr.vsig j v hv'
    obtain ⟨t1, a1, b1, c1, d1, e1⟩ := vcComplaints_ok (nv := nv) (ks := ks) hf hi hh h1
    obtain ⟨t2, a2, b2, c2, d2⟩ := vcPrimary_ok (gen := gen) (nv := nv) hi hh b1 hm c1
    obtain ⟨t3, a3, b3, c3, d3⟩ := vcCorrect_ok hf hi hh b2 c2
    obtain ⟨b4, c4⟩ := vcAgreed_ok b3 ⟨fun hq => absurd hq c3, d3⟩
    refine ⟨vcAgreed cfg i t3, ?_, b4, c4⟩
    show ((vcComplaints cfg i nv ks _).bind _).bind _ = _
    rw [a1]
    show (vcPrimary cfg i gen nv t1).bind _ = _
    rw [a2]
    show (vcCorrect cfg i t2).map _ = _
    rw [a3]; rfl

/-! ## rotation, end of execution, restart -/

theorem onRotate_ok {cfg : Cfg} {i : Nat} {N : Net} {r : Rep} (hi : i < cfg.n)
    (hh : cfg.honest i = true) (h : Ok cfg i N (N, r)) (hL : LInv cfg i r) (hrot : cfg.rotation = true)
    (ha : r.active = true) :
    ∃ t, onRotate i (N, r) = some t ∧ Ok cfg i N t ∧ LInv cfg i t.2 := by
  have hle : N.Le { N with log := .rotated i r.view :: N.log } :=
    ⟨fun _ h => h, fun _ h => h, fun _ h => List.mem_cons_of_mem _ h⟩
  have hG : GInv cfg { N with log := .rotated i r.view :: N.log } := by
    constructor
    · exact h.g.cid
    · exact h.g.vid
    · intro m hx hg
      exact (h.g.vc m hx hg).mono hle.l
    · intro k hk hg
      obtain ⟨w, hx⟩ := h.g.cp k hk hg
      exact ⟨w, hle.l _ hx⟩
    · intro j u w hx
      rcases List.mem_cons.1 hx with h1 | hx
      · cases h1
      · obtain ⟨a, b, c, d⟩ := h.g.asked j u w hx
        exact ⟨a, b, c.mono hle.l, d.mono hle⟩
    · intro j u hx
      rcases List.mem_cons.1 hx with h1 | hx
      · cases h1
        refine ⟨hi, hh, hrot, ?_⟩
        have := (h.r.mono hle).lact
        rw [(h.r.mono hle).act ha] at this
        exact this
      · obtain ⟨a, b, c, d⟩ := h.g.rot j u hx
        exact ⟨a, b, c, d.imp id (·.mono hle)⟩
    · intro j w hj hjh hr u hu
      refine (h.g.caused j w hj hjh ?_ u hu).mono hle.l
      rcases hr with h0 | ⟨a, b, hx, hb⟩
      · exact Or.inl h0
      · rcases List.mem_cons.1 hx with h1 | hx
        · cases h1
        · exact Or.inr ⟨a, b, hx, hb⟩
    · intro j a b hx
      rcases List.mem_cons.1 hx with h1 | hx
      · cases h1
      · exact h.g.up j a b hx
  have hR := h.r.mono hle
  show ∃ t, (if r.executing = true then _ else _) = some t ∧ _
  by_cases hx : r.executing = true
  · rw [if_pos hx]
    refine ⟨_, rfl, ⟨hG, ⟨hR.pend, hR.act, hR.inact, hR.nodup, hR.cview, hR.csig, hR.vsig, hR.reach, ?_, hR.agr, hR.lact,
      hR.pq, hR.own⟩, hle⟩, hL.few, hL.lim⟩
    intro _
    exact ⟨r.view, Nat.le_refl _, List.mem_cons_self⟩
  · rw [if_neg hx]
    obtain ⟨t, a, b, c, d, e, f1, f2, _⟩ := moveTo_ok (next := r.view + 1)
      (s := ({ N with log := .rotated i r.view :: N.log }, r)) (N0 := N) hi hh ⟨hG, hR, hle⟩ (Nat.lt_succ_self _) (by
        intro u h1 h2
        have : u = r.view := by have h1' : r.view ≤ u := h1; omega
        subst this
        exact Or.inr (Or.inl ⟨i, r.view, hi, hh, Nat.le_refl _, by simp, List.mem_cons_self⟩))
    refine ⟨t, a, b, fun hq => ?_, lim_up hL.lim e (by omega)⟩
    rw [d] at hq
    exact absurd hq (not_quorum_nil cfg)

theorem onExecEnd_ok {cfg : Cfg} {i : Nat} {col : Bool} {N : Net} {r : Rep} (hf : FewFaulty cfg) (hi : i < cfg.n)
    (hh : cfg.honest i = true) (h : Ok cfg i N (N, r)) (hL : LInv cfg i r) :
    ∃ t, onExecEnd cfg i col (N, r) = some t ∧ Ok cfg i N t ∧ LInv cfg i t.2 := by
  have h1 : Ok cfg i N (N, { r with executing := false }) := ⟨h.g, h.r.executing false, h.le⟩
  show ∃ t, (if col = true then _ else if r.shouldGo = true then _ else if r.shouldTry = true then _ else _) = some t ∧ _
  by_cases hc : col = true
  · rw [if_pos hc]; exact ⟨_, rfl, h1, hL.few, hL.lim⟩
  · rw [if_neg hc]
    by_cases hg : r.shouldGo = true
    · rw [if_pos hg]
      obtain ⟨u', hu, hrot⟩ := h.r.go hg
      obtain ⟨t, a, b, c, d, e, f1, f2, f3, f4, f5⟩ := moveTo_ok (next := r.view + 1)
        (s := (N, { r with executing := false })) (N0 := N) hi hh h1 (Nat.lt_succ_self _) (by
          intro u g1 g2
          have : u = r.view := by have g1' : r.view ≤ u := g1; omega
          subst this
          exact Or.inr (Or.inl ⟨i, u', hi, hh, hu, List.mem_cons_of_mem _ hrot, List.mem_cons_self⟩))
      refine ⟨(t.1, { t.2 with shouldGo := false, shouldTry := false }), ?_, ⟨b.g, ?_, b.le⟩, ?_, ?_⟩
      · show (moveTo i (r.view + 1) _).map _ = _
        rw [a]; rfl
      · have q := b.r
        exact ⟨q.pend, q.act, q.inact, q.nodup, q.cview, q.csig, q.vsig, q.reach, fun h => (by cases h), q.agr, q.lact, q.pq, q.own⟩
      · intro hq
        have hq' : quorum cfg t.2.compl = true := hq
        rw [d] at hq'
        exact absurd hq' (not_quorum_nil cfg)
      · exact lim_up hL.lim e (by show r.view ≤ t.2.view; omega)
    · rw [if_neg hg]
      by_cases ht : r.shouldTry = true
      · rw [if_pos ht]
        obtain ⟨t, a, b, c, d⟩ := tryToGo_ok hf hi hh h1 hL.lim
        refine ⟨(t.1, { t.2 with shouldTry := false }), ?_, ⟨b.g, b.r.shouldTry false, b.le⟩, fun hq => absurd hq c, d⟩
        rw [a]; rfl
      · rw [if_neg ht]
        exact ⟨_, rfl, h1, hL.few, hL.lim⟩

theorem later_none {cfg : Cfg} {i : Nat} {r : Rep} (h : r.vcs = fun _ => none) (w : Nat) : later cfg i r w = [] := by
  unfold later
  rw [h]
  simp

theorem onRestart_ok {cfg : Cfg} {i : Nat} {N : Net} {r : Rep} (hi : i < cfg.n) (hh : cfg.honest i = true)
    (h : Ok cfg i N (N, r)) : Ok cfg i N (onRestart i (N, r)) ∧ LInv cfg i (onRestart i (N, r)).2 := by
  have hla : r.lastActive ≤ r.view := by
    cases ha : r.active with
    | true => exact Nat.le_of_eq (h.r.act ha)
    | false => exact Nat.le_of_lt (h.r.inact ha)
  have hvle : (if r.active then r.view else r.lastActive + 1) ≤ r.view := by
    cases ha : r.active with
    | true => exact Nat.le_refl _
    | false => exact h.r.inact ha
  have hvge : r.lastActive ≤ (if r.active then r.view else r.lastActive + 1) := by
    cases ha : r.active with
    | true => exact hla
    | false => exact Nat.le_succ _
  have hact : r.active = false → (if r.active then r.view else r.lastActive + 1) = r.lastActive + 1 := by
    intro ha; rw [ha]; rfl
  unfold onRestart
  show Ok cfg i N ({ N with vcs := _, log := _ }, _) ∧ _
  generalize hv : (if r.active then r.view else r.lastActive + 1) = v at hvle hvge hact
  have hle : N.Le { N with vcs := (if r.active then N.vcs else ⟨i, v⟩ :: N.vcs), log := .restarted i r.view v :: N.log } := by
    refine ⟨fun _ h => h, fun m hm => ?_, fun _ h => List.mem_cons_of_mem _ h⟩
    show m ∈ (if r.active then N.vcs else ⟨i, v⟩ :: N.vcs)
    split
    · exact hm
    · exact List.mem_cons_of_mem _ hm
  have hvc : ∀ m, m ∈ (if r.active then N.vcs else (⟨i, v⟩ : VC) :: N.vcs) → m = ⟨i, v⟩ ∨ m ∈ N.vcs := by
    intro m hm
    split at hm
    · exact Or.inr hm
    · exact List.mem_cons.1 hm
  refine ⟨⟨?_, ?_, hle⟩, ?_, ?_⟩
  · show GInv cfg { N with vcs := (if r.active then N.vcs else ⟨i, v⟩ :: N.vcs), log := .restarted i r.view v :: N.log }
    constructor
    · exact h.g.cid
    · intro m hm
      rcases hvc m hm with rfl | hm
      · exact hi
      · exact h.g.vid m hm
    · intro m hm hg
      rcases hvc m hm with rfl | hm
      · exact (h.r.reach.mono hle.l).le hvle
      · exact (h.g.vc m hm hg).mono hle.l
    · intro k hk hg
      obtain ⟨w, hx⟩ := h.g.cp k hk hg
      exact ⟨w, hle.l _ hx⟩
    · intro j u w hx
      rcases List.mem_cons.1 hx with h1 | hx
      · cases h1
      · obtain ⟨a, b, c, d⟩ := h.g.asked j u w hx
        exact ⟨a, b, c.mono hle.l, d.mono hle⟩
    · intro j u hx
      rcases List.mem_cons.1 hx with h1 | hx
      · cases h1
      · obtain ⟨a, b, c, d⟩ := h.g.rot j u hx
        exact ⟨a, b, c, d.imp id (·.mono hle)⟩
    · intro j w hj hjh hr u hu
      refine (h.g.caused j w hj hjh ?_ u hu).mono hle.l
      rcases hr with h0 | ⟨a, b, hx, hb⟩
      · exact Or.inl h0
      · rcases List.mem_cons.1 hx with h1 | hx
        · cases h1
        · exact Or.inr ⟨a, b, hx, hb⟩
    · intro j a b hx
      rcases List.mem_cons.1 hx with h1 | hx
      · cases h1
      · exact h.g.up j a b hx
  · have hR := h.r.mono hle
    refine ⟨hvge, ?_, ?_, List.nodup_nil, fun _ h => (by cases h), fun _ h => (by cases h), fun _ _ h => (by cases h),
      hR.reach.le hvle, fun h => (by cases h), hR.lact, hR.lact, hR.lact, ?_⟩
    · intro ha
      have ha' : r.active = true := ha
      show r.lastActive = v
      have : v = r.view := by rw [← hv, ha']; rfl
      rw [this]; exact h.r.act ha'
    · intro ha
      show r.lastActive < v
      rw [hact ha]; exact Nat.lt_succ_self _
    · intro ha
      have ha' : r.active = false := ha
      show (⟨i, v⟩ : VC) ∈ (if r.active then N.vcs else ⟨i, v⟩ :: N.vcs)
      rw [ha']; exact List.mem_cons_self
  · intro hq
    exact absurd hq (not_quorum_nil cfg)
  · rw [later_none rfl]; exact Nat.zero_le _

theorem votes_signed {cfg : Cfg} {i : Nat} {N : Net} {r : Rep} (h : RInv cfg N i r) {q : Nat}
    (hl : q ≤ (votesFor cfg i r).length) : Signed cfg N q r.view := by
  refine Signed.of_list (List.nodup_range.filter _) hl ?_
  intro j hj
  obtain ⟨h1, h2⟩ := List.mem_filter.1 hj
  refine ⟨List.mem_range.1 h1, r.view, Nat.le_refl _, ?_⟩
  rw [decide_eq_true_eq] at h2
  unfold known at h2
  by_cases hji : j = i
  · subst hji
    rw [if_pos rfl] at h2
    cases ha : r.active with
    | true => rw [ha] at h2; cases h2
    | false => exact h.own ha
  · rw [if_neg hji] at h2
    exact h.vsig j _ h2

end Concord.Leave
