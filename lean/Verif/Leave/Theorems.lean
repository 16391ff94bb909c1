import Verif.Leave.Steps
/-! C46: a correct replica leaves its view only for cause. -/
set_option linter.unusedSimpArgs false
set_option linter.unusedVariables false
namespace Concord.Leave

structure Inv (cfg : Cfg) (σ : Sys) : Prop where
  g : GInv cfg σ.net
  r : ∀ i, i < cfg.n → cfg.honest i = true → RInv cfg σ.net i (σ.rep i)
  l : ∀ i, i < cfg.n → cfg.honest i = true → LInv cfg i (σ.rep i)

theorem inv_init (cfg : Cfg) : Inv cfg Sys.init := by
  constructor
  · constructor
    · intro k hk; cases hk
    · intro k hk; cases hk
    · intro k hk; cases hk
    · intro k hk; cases hk
    · intro i u w hk; cases hk
    · intro i u hk; cases hk
    · intro i w _ _ hr u hu
      rcases hr with h0 | ⟨a, b, hx, _⟩
      · omega
      · cases hx
    · intro i a b hx; cases hx
  · intro i _ _
    exact ⟨Nat.le_refl _, fun _ => rfl, fun h => (by cases h), List.nodup_nil, fun _ h => (by cases h), fun _ h => (by cases h),
      fun _ _ h => (by cases h), Or.inl rfl, fun h => (by cases h), Or.inl rfl, Or.inl rfl, Or.inl rfl, fun h => (by cases h)⟩
  · intro i _ _
    exact ⟨fun h => absurd h (not_quorum_nil cfg), by rw [later_none rfl]; exact Nat.zero_le _⟩

/-- what a step at a correct replica gives -/
theorem local_ok {cfg : Cfg} (hf : FewFaulty cfg) {σ : Sys} (hI : Inv cfg σ) {a : Act} (he : enabled cfg σ a = true)
    (hi : a.at < cfg.n) (hh : cfg.honest a.at = true) :
    ∃ t, local? cfg (σ.net, σ.rep a.at) a = some t ∧ Ok cfg a.at σ.net t ∧ LInv cfg a.at t.2 := by
  have hO : Ok cfg a.at σ.net (σ.net, σ.rep a.at) := ⟨hI.g, hI.r _ hi hh, Net.Le.refl _⟩
  have hL := hI.l _ hi hh
  cases a with
  | vc i gen nv ks =>
    simp only [enabled, Bool.and_eq_true, decide_eq_true_eq] at he
    exact onVC_ok hf hi hh hO hL he.2
  | complaint i k =>
    simp only [enabled, Bool.and_eq_true, decide_eq_true_eq] at he
    exact onComplaint_ok hf hi hh hO hL he.2
  | requestTimeout i =>
    simp only [enabled, Bool.and_eq_true, decide_eq_true_eq] at he
    refine ask_ok hf hi hh hO hL ?_
    have ha : (σ.rep i).active = true := he.1.1.2
    have := hO.r.lact
    rw [hO.r.act ha] at this
    exact this
  | notInCharge i =>
    simp only [enabled, Bool.and_eq_true, decide_eq_true_eq] at he
    refine ask_ok hf hi hh hO hL ?_
    have ha : (σ.rep i).agreed = (σ.rep i).view := he.1.2
    have h1 : (σ.rep i).agreed = 0 ∨ Signed cfg σ.net (2 * cfg.f + 2 * cfg.c + 1) (σ.rep i).agreed := hO.r.agr
    rw [ha] at h1
    exact h1
  | badBatch i sender view =>
    simp only [enabled, Bool.and_eq_true, decide_eq_true_eq, Bool.or_eq_true, Bool.not_eq_true', decide_eq_true_eq] at he
    refine ask_ok hf hi hh hO hL ⟨he.1.1.2, he.1.2, fun hc => ?_⟩
    rcases he.2 with h1 | h1
    · rw [hc] at h1; cases h1
    · exact h1.1
  | rotate i =>
    simp only [enabled, Bool.and_eq_true, decide_eq_true_eq] at he
    exact onRotate_ok hi hh hO hL he.1.2 he.2
  | execStart i => exact ⟨_, rfl, ⟨hO.g, hO.r.executing true, hO.le⟩, hL.few, hL.lim⟩
  | execEnd i col => exact onExecEnd_ok hf hi hh hO hL
  | pend i =>
    simp only [enabled, Bool.and_eq_true, Bool.or_eq_true, decide_eq_true_eq] at he
    refine ⟨_, rfl, ⟨hO.g, ?_, hO.le⟩, hL.few, hL.lim⟩
    have q := hO.r
    refine ⟨Nat.le_refl _, q.act, q.inact, q.nodup, q.cview, q.csig, q.vsig, q.reach, q.go, q.agr, q.lact, ?_, q.own⟩
    rcases he.2 with h1 | h1
    · have := q.pq
      show (σ.rep i).view = 0 ∨ Signed cfg σ.net _ (σ.rep i).view
      rw [← h1]; exact this
    · exact Or.inr (votes_signed q h1)
  | enter i =>
    simp only [enabled, Bool.and_eq_true, Bool.or_eq_true, decide_eq_true_eq] at he
    have hle : σ.net.Le { σ.net with log := .entered i (σ.rep i).view :: σ.net.log } :=
      ⟨fun _ h => h, fun _ h => h, fun _ h => List.mem_cons_of_mem _ h⟩
    have hq : (σ.rep i).view = 0 ∨ Signed cfg σ.net (2 * cfg.f + 2 * cfg.c + 1) (σ.rep i).view := by
      rcases he.2 with h1 | h1
      · have := hO.r.pq
        rw [← h1]; exact this
      · exact Or.inr (votes_signed hO.r h1)
    have hq' := hq.imp id (·.mono hle)
    have q := hO.r.mono hle
    refine ⟨_, rfl, ⟨?_, ?_, hle⟩, hL.few, hL.lim⟩
    · have hG := hI.g
      constructor
      · exact hG.cid
      · exact hG.vid
      · intro m hx hg; exact (hG.vc m hx hg).mono hle.l
      · intro k hk hg
        obtain ⟨w, hx⟩ := hG.cp k hk hg
        exact ⟨w, hle.l _ hx⟩
      · intro j u w hx
        rcases List.mem_cons.1 hx with h1 | hx
        · cases h1
        · obtain ⟨a, b, c, d⟩ := hG.asked j u w hx
          exact ⟨a, b, c.mono hle.l, d.mono hle⟩
      · intro j u hx
        rcases List.mem_cons.1 hx with h1 | hx
        · cases h1
        · obtain ⟨a, b, c, d⟩ := hG.rot j u hx
          exact ⟨a, b, c, d.imp id (·.mono hle)⟩
      · intro j w hj hjh hr u hu
        refine (hG.caused j w hj hjh ?_ u hu).mono hle.l
        rcases hr with h0 | ⟨a, b, hx, hb⟩
        · exact Or.inl h0
        · rcases List.mem_cons.1 hx with h1 | hx
          · cases h1
          · exact Or.inr ⟨a, b, hx, hb⟩
      · intro j a b hx
        rcases List.mem_cons.1 hx with h1 | hx
        · cases h1
        · exact hG.up j a b hx
    · exact ⟨Nat.le_refl _, fun _ => rfl, fun h => (by cases h), q.nodup, q.cview, q.csig, q.vsig, q.reach, q.go, q.agr, hq', hq',
        fun h => (by cases h)⟩
  | restart i =>
    obtain ⟨h1, h2⟩ := onRestart_ok hi hh hO
    exact ⟨_, rfl, h1, h2⟩
  | forgeComplaint k =>
    simp only [enabled, Bool.and_eq_true, Bool.not_eq_true', decide_eq_true_eq] at he
    have : cfg.honest k.gen = true := hh
    rw [he.2] at this; cases this
  | forgeVC m =>
    simp only [enabled, Bool.and_eq_true, Bool.not_eq_true', decide_eq_true_eq] at he
    have : cfg.honest m.gen = true := hh
    rw [he.2] at this; cases this

theorem enabled_id {cfg : Cfg} {σ : Sys} {a : Act} (he : enabled cfg σ a = true) : a.at < cfg.n := by
  cases a <;> simp only [enabled, Bool.and_eq_true, decide_eq_true_eq] at he <;> simp only [Act.at] <;> omega

theorem inv_step {cfg : Cfg} (hf : FewFaulty cfg) {σ σ' : Sys} (hI : Inv cfg σ) {a : Act} (he : enabled cfg σ a = true)
    (hs : effect cfg σ a = some σ') : Inv cfg σ' := by
  have hi := enabled_id he
  obtain ⟨t, ht, rfl⟩ := Option.map_eq_some_iff.1 hs
  cases hh : cfg.honest a.at with
  | true =>
    obtain ⟨t', ht', hO, hL⟩ := local_ok hf hI he hi hh
    rw [ht] at ht'; cases ht'
    refine ⟨hO.g, fun j hj hjh => ?_, fun j hj hjh => ?_⟩
    · show RInv cfg t.1 j (if j = a.at then t.2 else σ.rep j)
      by_cases h : j = a.at
      · rw [if_pos h, h]; exact hO.r
      · rw [if_neg h]; exact (hI.r j hj hjh).mono hO.le
    · show LInv cfg j (if j = a.at then t.2 else σ.rep j)
      by_cases h : j = a.at
      · rw [if_pos h, h]; exact hL
      · rw [if_neg h]; exact hI.l j hj hjh
  | false =>
    have hother : ∀ j, cfg.honest j = true → j ≠ a.at := fun j hj h => by rw [h, hh] at hj; cases hj
    have key : σ.net.Le t.1 ∧ GInv cfg t.1 := by
      cases a with
      | forgeComplaint k =>
        cases ht
        have hle : σ.net.Le { σ.net with complaints := k :: σ.net.complaints } :=
          ⟨fun _ h => List.mem_cons_of_mem _ h, fun _ h => h, fun _ h => h⟩
        refine ⟨hle, ?_⟩
        have hG := hI.g
        refine ⟨?_, hG.vid, hG.vc, ?_, ?_, ?_, hG.caused, hG.up⟩
        · intro x hx
          rcases List.mem_cons.1 hx with rfl | hx
          · exact hi
          · exact hG.cid x hx
        · intro x hx hg
          rcases List.mem_cons.1 hx with rfl | hx
          · have : cfg.honest x.gen = false := hh
            rw [this] at hg; cases hg
          · exact hG.cp x hx hg
        · intro j u w hx
          obtain ⟨a, b, c, d⟩ := hG.asked j u w hx
          exact ⟨a, b, c, d.mono hle⟩
        · intro j u hx
          obtain ⟨a, b, c, d⟩ := hG.rot j u hx
          exact ⟨a, b, c, d.imp id (·.mono hle)⟩
      | forgeVC m =>
        cases ht
        have hle : σ.net.Le { σ.net with vcs := m :: σ.net.vcs } :=
          ⟨fun _ h => h, fun _ h => List.mem_cons_of_mem _ h, fun _ h => h⟩
        refine ⟨hle, ?_⟩
        have hG := hI.g
        refine ⟨hG.cid, ?_, ?_, hG.cp, ?_, ?_, hG.caused, hG.up⟩
        · intro x hx
          rcases List.mem_cons.1 hx with rfl | hx
          · exact hi
          · exact hG.vid x hx
        · intro x hx hg
          rcases List.mem_cons.1 hx with rfl | hx
          · have : cfg.honest x.gen = false := hh
            rw [this] at hg; cases hg
          · exact hG.vc x hx hg
        · intro j u w hx
          obtain ⟨a, b, c, d⟩ := hG.asked j u w hx
          exact ⟨a, b, c, d.mono hle⟩
        · intro j u hx
          obtain ⟨a, b, c, d⟩ := hG.rot j u hx
          exact ⟨a, b, c, d.imp id (·.mono hle)⟩
      | _ =>
        exfalso
        simp only [enabled, Bool.and_eq_true] at he
        simp only [Act.at] at hh
        simp only [hh, Bool.false_eq_true, and_false, false_and] at he
    refine ⟨key.2, fun j hj hjh => ?_, fun j hj hjh => ?_⟩
    · show RInv cfg t.1 j (if j = a.at then t.2 else σ.rep j)
      rw [if_neg (hother j hjh)]; exact (hI.r j hj hjh).mono key.1
    · show LInv cfg j (if j = a.at then t.2 else σ.rep j)
      rw [if_neg (hother j hjh)]; exact hI.l j hj hjh

theorem inv_reachable {cfg : Cfg} (hf : FewFaulty cfg) {σ : Sys} (h : Reachable cfg σ) : Inv cfg σ := by
  induction h with
  | init => exact inv_init cfg
  | step a _ he hs ih => exact inv_step hf ih he hs

/-! ## the statements -/

/-- No assertion on the way fails: every event that can happen is handled. -/
theorem never_aborts {cfg : Cfg} (hf : FewFaulty cfg) {σ : Sys} (h : Reachable cfg σ) {a : Act}
    (he : enabled cfg σ a = true) : ∃ σ', effect cfg σ a = some σ' := by
  have hi := enabled_id he
  cases hh : cfg.honest a.at with
  | true =>
    obtain ⟨t, ht, _⟩ := local_ok hf (inv_reachable hf h) he hi hh
    exact ⟨_, by unfold effect; rw [ht]; rfl⟩
  | false =>
    cases a with
    | forgeComplaint k => exact ⟨_, rfl⟩
    | forgeVC m => exact ⟨_, rfl⟩
    | _ =>
      exfalso
      simp only [enabled, Bool.and_eq_true] at he
      simp only [Act.at] at hh
      simp only [hh, Bool.false_eq_true, and_false, false_and] at he

/-- Every view below a view that a correct replica reached was left for a reason: a correct replica inside that view
asked to leave it, or its rotation timer had run out, or the primary of that view is faulty.  So no view is skipped
either: a correct replica was in each of them. -/
theorem left_for_cause {cfg : Cfg} (hf : FewFaulty cfg) {σ : Sys} (h : Reachable cfg σ) {i w u : Nat} (hi : i < cfg.n)
    (hh : cfg.honest i = true) (hr : Reached σ.net.log i w) (hu : u < w) : Caused cfg σ.net.log u :=
  (inv_reachable hf h).g.caused i w hi hh hr u hu

/-- the same about the view a correct replica is in -/
theorem view_for_cause {cfg : Cfg} (hf : FewFaulty cfg) {σ : Sys} (h : Reachable cfg σ) {i u : Nat} (hi : i < cfg.n)
    (hh : cfg.honest i = true) (hu : u < (σ.rep i).view) : Caused cfg σ.net.log u :=
  left_for_cause hf h hi hh ((inv_reachable hf h).r i hi hh).reach hu

/-- As long as nobody correct asks to leave view `u` and no rotation timer of a correct replica has run out, and the
primary of `u` is correct, no correct replica is in a view above `u`: the faulty ones cannot bring this about. -/
theorem stays {cfg : Cfg} (hf : FewFaulty cfg) {σ : Sys} (h : Reachable cfg σ) {u : Nat}
    (hp : cfg.honest (cfg.primary u) = true) (ha : ∀ i why, cfg.honest i = true → Ev.asked i u why ∉ σ.net.log)
    (hrot : cfg.rotation = false) {i : Nat} (hi : i < cfg.n) (hh : cfg.honest i = true) : (σ.rep i).view ≤ u := by
  apply Classical.byContradiction
  intro hc
  rcases view_for_cause hf h hi hh (show u < (σ.rep i).view by omega) with ⟨j, why, _, b, c⟩ | ⟨j, u', a, b, c, d, _⟩ | ⟨a, _⟩
  · exact ha j why b c
  · have := ((inv_reachable hf h).g.rot j u' d).2.2.1
    rw [hrot] at this; cases this
  · rw [hp] at a; cases a

/-- Why a correct replica asks: it was in that view and (for the two timeouts) 2f+2c+1 replicas had signed a
view-change message for that view or above; or a faulty replica sent a bad batch. -/
theorem asked_why {cfg : Cfg} (hf : FewFaulty cfg) {σ : Sys} (h : Reachable cfg σ) {i u : Nat} {why : Reason}
    (ha : Ev.asked i u why ∈ σ.net.log) : Reached σ.net.log i u ∧
      (u = 0 ∨ Signed cfg σ.net (2 * cfg.f + 2 * cfg.c + 1) u ∨ ∃ s, why = .badBatch s ∧ s < cfg.n ∧ cfg.honest s = false) := by
  obtain ⟨_, _, c, d⟩ := (inv_reachable hf h).g.asked i u why ha
  refine ⟨c, ?_⟩
  cases why with
  | requestTimeout => rcases d with d | d; exact Or.inl d; exact Or.inr (Or.inl d)
  | primaryNotInCharge => rcases d with d | d; exact Or.inl d; exact Or.inr (Or.inl d)
  | badBatch s => exact Or.inr (Or.inr ⟨s, rfl, d.1, d.2.1⟩)

/-- In a program that looks at the sender of a bad batch, a complaint about a bad batch in view `u` means that the
primary of `u` is faulty. -/
theorem bad_batch_primary {cfg : Cfg} (hf : FewFaulty cfg) (hc : cfg.checkSender = true) {σ : Sys} (h : Reachable cfg σ)
    {i u s : Nat} (ha : Ev.asked i u (.badBatch s) ∈ σ.net.log) : cfg.honest (cfg.primary u) = false := by
  obtain ⟨_, _, _, d⟩ := (inv_reachable hf h).g.asked i u _ ha
  rw [← d.2.2 hc]; exact d.2.1

theorem filter_honest {cfg : Cfg} (hf : FewFaulty cfg) {Q : List Nat} (hn : Q.Nodup) (hid : ∀ j ∈ Q, j < cfg.n) :
    Q.length ≤ (Q.filter cfg.honest).length + cfg.f := by
  have h1 := hf (Q.filter (fun j => !cfg.honest j)) (hn.filter _) (fun j hj => by
    obtain ⟨a, b⟩ := List.mem_filter.1 hj
    exact ⟨hid j a, by simpa using b⟩)
  have h2 : ∀ L : List Nat, L.length = (L.filter cfg.honest).length + (L.filter (fun j => !cfg.honest j)).length := by
    intro L
    induction L with
    | nil => rfl
    | cons a L ih =>
      rw [List.filter_cons, List.filter_cons]
      cases cfg.honest a <;> simp <;> omega
  have := h2 Q
  omega

/-- `q+f` signatures are by `q` correct replicas that were there -/
theorem Signed.correct {cfg : Cfg} (hf : FewFaulty cfg) {N : Net} (hG : GInv cfg N) {q w : Nat}
    (hs : Signed cfg N (q + cfg.f) w) : CorrectReached cfg N.log q w := by
  obtain ⟨Q, a, b, c⟩ := hs
  have := filter_honest hf a (fun j hj => (c j hj).1)
  refine ⟨Q.filter cfg.honest, a.filter _, by omega, fun j hj => ?_⟩
  obtain ⟨h1, h2⟩ := List.mem_filter.1 hj
  obtain ⟨w', hw, hm⟩ := (c j h1).2
  exact ⟨(c j h1).1, h2, (hG.vc _ hm h2).le hw⟩

/-- Views do not run ahead: when a correct replica is above view `u > 0` whose primary is correct, f+2c+1 correct
replicas have already reached `u` (no rotation; bad batches count only when they come from the primary). -/
theorem no_running_ahead {cfg : Cfg} (hf : FewFaulty cfg) (hrot : cfg.rotation = false) (hcs : cfg.checkSender = true)
    {σ : Sys} (h : Reachable cfg σ) {i u : Nat} (hi : i < cfg.n) (hh : cfg.honest i = true) (h0 : 0 < u)
    (hu : u < (σ.rep i).view) (hp : cfg.honest (cfg.primary u) = true) :
    CorrectReached cfg σ.net.log (cfg.f + 2 * cfg.c + 1) u := by
  have hI := inv_reachable hf h
  rcases view_for_cause hf h hi hh hu with ⟨j, why, _, b, c⟩ | ⟨j, u', a, b, c, d, _⟩ | ⟨a, _⟩
  · rcases (asked_why hf h c).2 with h1 | h1 | ⟨s, rfl, _⟩
    · omega
    · exact Signed.correct hf hI.g (by
        have : cfg.f + 2 * cfg.c + 1 + cfg.f = 2 * cfg.f + 2 * cfg.c + 1 := by omega
        rw [this]; exact h1)
    · rw [bad_batch_primary hf hcs h c] at hp; cases hp
  · have := (hI.g.rot j u' d).2.2.1
    rw [hrot] at this; cases this
  · rw [a] at hp; cases hp

/-- A replica works in a view only after 2f+2c+1 replicas signed a view-change message for it or a later one. -/
theorem active_quorum {cfg : Cfg} (hf : FewFaulty cfg) {σ : Sys} (h : Reachable cfg σ) {i : Nat} (hi : i < cfg.n)
    (hh : cfg.honest i = true) (ha : (σ.rep i).active = true) (h0 : 0 < (σ.rep i).view) :
    Signed cfg σ.net (2 * cfg.f + 2 * cfg.c + 1) (σ.rep i).view := by
  have hR := (inv_reachable hf h).r i hi hh
  have := hR.lact
  rw [hR.act ha] at this
  rcases this with h1 | h1
  · omega
  · exact h1

/-- The complaints a replica holds: about its view, of different replicas, each signed by its writer. -/
theorem complaints_genuine {cfg : Cfg} (hf : FewFaulty cfg) {σ : Sys} (h : Reachable cfg σ) {i : Nat} (hi : i < cfg.n)
    (hh : cfg.honest i = true) : ((σ.rep i).compl.map Complaint.gen).Nodup ∧
      ∀ k ∈ (σ.rep i).compl, k.view = (σ.rep i).view ∧ k ∈ σ.net.complaints ∧
        (cfg.honest k.gen = true → ∃ why, Ev.asked k.gen (σ.rep i).view why ∈ σ.net.log) := by
  have hI := inv_reachable hf h
  have hR := hI.r i hi hh
  refine ⟨hR.nodup, fun k hk => ⟨hR.cview k hk, hR.csig k hk, fun hg => ?_⟩⟩
  obtain ⟨why, hw⟩ := hI.g.cp k (hR.csig k hk) hg
  exact ⟨why, by rw [← hR.cview k hk]; exact hw⟩

/-- The f+1-st complaint makes a replica leave: it never holds more than `f`, except while it waits for the end of an
execution. -/
theorem complaints_act {cfg : Cfg} (hf : FewFaulty cfg) {σ : Sys} (h : Reachable cfg σ) {i : Nat} (hi : i < cfg.n)
    (hh : cfg.honest i = true) (hq : cfg.f < (σ.rep i).compl.length) : (σ.rep i).shouldTry = true :=
  ((inv_reachable hf h).l i hi hh).few (by unfold quorum; rw [decide_eq_true_eq]; omega)

/-- A replica does not stay behind: if f+1 other replicas are, as far as it knows, in view `w` or above, so is it. -/
theorem catches_up {cfg : Cfg} (hf : FewFaulty cfg) {σ : Sys} (h : Reachable cfg σ) {i w : Nat} (hi : i < cfg.n)
    (hh : cfg.honest i = true) {L : List Nat} (hn : L.Nodup) (hl : cfg.f < L.length)
    (hL : ∀ j ∈ L, j < cfg.n ∧ j ≠ i ∧ ∃ v, w ≤ v ∧ (σ.rep i).vcs j = some v) : w ≤ (σ.rep i).view := by
  apply Classical.byContradiction
  intro hc
  have h1 := ((inv_reachable hf h).l i hi hh).lim
  have h2 : L.length ≤ (later cfg i (σ.rep i) ((σ.rep i).view + 1)).length := by
    refine Verif.ListU.nodup_subset_length hn (fun j hj => ?_)
    obtain ⟨a, b, v, hv, e⟩ := hL j hj
    refine List.mem_filter.2 ⟨List.mem_range.2 a, ?_⟩
    rw [e]
    have : (σ.rep i).view + 1 ≤ v := by omega
    simp [b, this]
  omega

/-- Only a start of the process brings a replica to a lower view. -/
theorem view_grows {cfg : Cfg} (hf : FewFaulty cfg) {σ σ' : Sys} (h : Reachable cfg σ) {a : Act}
    (he : enabled cfg σ a = true) (hs : effect cfg σ a = some σ') (hr : ∀ i, a ≠ .restart i) {i : Nat} (hi : i < cfg.n)
    (hh : cfg.honest i = true) : (σ.rep i).view ≤ (σ'.rep i).view := by
  obtain ⟨t, ht, rfl⟩ := Option.map_eq_some_iff.1 hs
  show _ ≤ (if i = a.at then t.2 else σ.rep i).view
  by_cases hia : i = a.at
  · rw [if_pos hia]
    have hmv : ∀ {j next : Nat} {s t : Net × Rep}, moveTo j next s = some t → s.2.view ≤ t.2.view := by
      intro j next s t hm
      unfold moveTo at hm
      split at hm
      · cases hm; show s.2.view ≤ next; omega
      · cases hm
    have htg : ∀ {j : Nat} {s t : Net × Rep}, tryToGo cfg j s = some t → s.2.view ≤ t.2.view := by
      intro j s t hm
      unfold tryToGo at hm
      split at hm
      · exact hmv hm
      · cases hm; exact Nat.le_refl _
    have hask : ∀ {j : Nat} {w : Reason} {s t : Net × Rep}, ask cfg j w s = some t → s.2.view ≤ t.2.view := by
      intro j w s t hm
      unfold ask at hm
      dsimp only at hm
      split at hm
      · cases hm; exact Nat.le_refl _
      · have h0 := htg hm; exact h0
    rw [hia]
    cases a with
    | vc i gen nv ks =>
      have ht : onVC cfg i gen nv ks (σ.net, σ.rep i) = some t := ht
      unfold onVC at ht
      split at ht
      · cases ht; exact Nat.le_refl _
      · obtain ⟨s2, h2, ht⟩ := Option.bind_eq_some_iff.1 ht
        obtain ⟨s1, h1, h2⟩ := Option.bind_eq_some_iff.1 h2
        obtain ⟨s3, h3, rfl⟩ := Option.map_eq_some_iff.1 ht
        have q1 : (σ.rep i).view ≤ s1.2.view := by
          unfold vcComplaints at h1
          dsimp only at h1
          split at h1
          · have h0 := hmv h1; exact h0
          · split at h1
            · split at h1
              · have h0 := hmv h1; exact h0
              · cases h1
            · cases h1; exact Nat.le_refl _
        have q2 : s1.2.view ≤ s2.2.view := by
          unfold vcPrimary at h2
          split at h2
          · exact hmv h2
          · cases h2; exact Nat.le_refl _
        have q3 : s2.2.view ≤ s3.2.view := by
          unfold vcCorrect at h3
          split at h3
          · exact hmv h3
          · cases h3; exact Nat.le_refl _
        have q4 : (vcAgreed cfg i s3).2.view = s3.2.view := by
          unfold vcAgreed; split <;> rfl
        rw [q4]
        exact Nat.le_trans q1 (Nat.le_trans q2 q3)
    | complaint i k =>
      have ht : onComplaint cfg i k (σ.net, σ.rep i) = some t := ht
      unfold onComplaint at ht
      split at ht
      · have h0 := htg ht; exact h0
      · cases ht; exact Nat.le_refl _
    | requestTimeout i => exact hask ht
    | notInCharge i => exact hask ht
    | badBatch i s v => exact hask ht
    | rotate i =>
      have ht : onRotate i (σ.net, σ.rep i) = some t := ht
      unfold onRotate at ht
      dsimp only at ht
      split at ht
      · cases ht; exact Nat.le_refl _
      · have h0 := hmv ht; exact h0
    | execStart i => cases ht; exact Nat.le_refl _
    | execEnd i col =>
      have ht : onExecEnd cfg i col (σ.net, σ.rep i) = some t := ht
      unfold onExecEnd at ht
      dsimp only at ht
      split at ht
      · cases ht; exact Nat.le_refl _
      · split at ht
        · obtain ⟨s1, h1, rfl⟩ := Option.map_eq_some_iff.1 ht
          have h0 := hmv h1; exact h0
        · split at ht
          · obtain ⟨s1, h1, rfl⟩ := Option.map_eq_some_iff.1 ht
            have h0 := htg h1; exact h0
          · cases ht; exact Nat.le_refl _
    | pend i => cases ht; exact Nat.le_refl _
    | enter i => cases ht; exact Nat.le_refl _
    | restart i => exact absurd rfl (hr i)
    | forgeComplaint k => cases ht; exact Nat.le_refl _
    | forgeVC m => cases ht; exact Nat.le_refl _
  · rw [if_neg hia]; exact Nat.le_refl _

end Concord.Leave
