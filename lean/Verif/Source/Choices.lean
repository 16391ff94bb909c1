/-
C55: among enough successive sources there is a correct one, and a set of sources is gone through without
repetition.
-/
import Verif.Source.Theorems

set_option linter.unusedSimpArgs false
set_option linter.unusedVariables false

namespace Verif.Source

/-- how many bad choices are possible still -/
def phi (bad : Nat → Bool) (f : Nat) (l : List Nat) : Nat :=
  badIn bad l + (if badIn (fun x => !bad x) l = 0 then f else 0)

theorem rem_congr {s t : Sel} (h1 : t.pref = s.pref) (h2 : t.cur = s.cur) : rem t = rem s := by
  unfold rem; rw [h1, h2]

theorem addPreferred_pref (r : Nat) (s : Sel) : (addPreferred r s).pref = if s.pref.contains r then s.pref else r :: s.pref := by
  unfold addPreferred; split <;> simp_all

theorem addPreferred_rest (r : Nat) (s : Sel) :
    (addPreferred r s).cur = s.cur ∧ (addPreferred r s).prim = s.prim ∧ (addPreferred r s).log = s.log := by
  unfold addPreferred; split <;> simp

theorem removePreferred_rest (c : Cfg) (r : Nat) (s : Sel) :
    (removePreferred c r s).cur = s.cur ∧ (removePreferred c r s).prim = s.prim ∧ (removePreferred c r s).log = s.log := by
  unfold removePreferred; split
  · obtain ⟨a, b, d, _⟩ := refill_rest (c := c) (s := { s with pref := s.pref.erase r })
    exact ⟨a, b, d⟩
  · simp

theorem adopt_rest (c : Cfg) (p : Nat) (s : Sel) :
    (adopt c p s).cur = s.cur ∧ (adopt c p s).prim = p ∧ (adopt c p s).log = s.log := by
  unfold adopt
  obtain ⟨a, b, d⟩ := removePreferred_rest c p (if s.prim ≠ noReplica then addPreferred s.prim (resetNom s) else resetNom s)
  refine ⟨a.trans ?_, rfl, d.trans ?_⟩
  · split
    · exact (addPreferred_rest _ _).1
    · rfl
  · split
    · exact (addPreferred_rest _ _).2.2
    · rfl

/-- a set with more than `f + 1` replicas of which at most `f` are bad contains two good ones -/
theorem good_full {c : Cfg} (hc : c.Ok) {bad : Nat → Bool} {f : Nat} (hb : badIn bad c.others ≤ f)
    (hl : f + 2 ≤ c.others.length) (s : Sel) :
    badIn bad (full c s) ≤ f ∧ 1 ≤ badIn (fun x => !bad x) (full c s) := by
  have h1 := badIn_sub (bad := bad) (full_nodup hc s) (full_sub s)
  have h2 := badIn_all bad (full c s)
  have h3 := full_len (c := c) s
  omega

theorem adopt_phi {c : Cfg} (hc : c.Ok) {bad : Nat → Bool} {f : Nat} (hb : badIn bad c.others ≤ f)
    (hl : f + 2 ≤ c.others.length) {s : Sel} (h : Inv c s) {p : Nat} (hp : p ∈ c.others) (hne : s.prim ≠ p) :
    phi bad f (rem (adopt c p s)) ≤ phi bad f (rem s) + (f + 1) := by
  have hcur := (adopt_rest c p s).1
  have hinv := h.adopt hc hp
  have hnop : p ≠ noReplica := fun e => hc.real (e ▸ hp)
  by_cases hn : s.prim = noReplica
  · -- no primary before
    have hpre : (adopt c p s).pref = (removePreferred c p (resetNom s)).pref := by
      unfold adopt; simp [hn]
    by_cases hm : p ∈ s.pref
    · have e1 : (removePreferred c p (resetNom s)).pref = if s.pref.erase p = [] then c.others else s.pref.erase p := by
        unfold removePreferred
        have : (resetNom s).pref.contains p = true := by simpa [resetNom] using hm
        rw [if_pos this, refill_pref]
        simp [resetNom, full, hn]
      by_cases he : s.pref.erase p = []
      · -- filled again, with everybody
        have e2 : rem (adopt c p s) = c.others.erase s.cur := by
          unfold rem; rw [hpre, e1, if_pos he, hcur]
        rw [e2]
        have h1 := badIn_erase_le (bad := bad) (l := c.others) (x := s.cur)
        have h2 := badIn_all bad (c.others.erase s.cur)
        have h3 := erase_len (l := c.others) (x := s.cur)
        unfold phi
        have : badIn (fun x => !bad x) (c.others.erase s.cur) ≠ 0 := by omega
        rw [if_neg this]; omega
      · have e2 : rem (adopt c p s) = (rem s).erase p := by
          unfold rem; rw [hpre, e1, if_neg he, hcur, List.erase_comm]
        rw [e2]
        have h1 := badIn_erase_le (bad := bad) (l := rem s) (x := p)
        unfold phi; split <;> split <;> omega
    · have e1 : (removePreferred c p (resetNom s)).pref = s.pref := by
        unfold removePreferred
        have : ¬ (resetNom s).pref.contains p = true := by simpa [resetNom] using hm
        rw [if_neg this]; rfl
      rw [rem_congr (hpre.trans e1) hcur]; omega
  · -- the old primary is put back, so that the set is not filled
    have hpre : (adopt c p s).pref = (removePreferred c p (addPreferred s.prim (resetNom s))).pref := by
      unfold adopt; simp [hn]
    have hq : s.prim ∈ (addPreferred s.prim (resetNom s)).pref := by
      rw [addPreferred_pref]; split
      · simp_all [resetNom]
      · simp
    have e1 : (adopt c p s).pref = (addPreferred s.prim (resetNom s)).pref.erase p := by
      rw [hpre]; unfold removePreferred
      by_cases hm : (addPreferred s.prim (resetNom s)).pref.contains p
      · rw [if_pos hm, refill_pref]
        have : ¬ (addPreferred s.prim (resetNom s)).pref.erase p = [] := by
          intro e
          have := (List.mem_erase_of_ne hne).2 hq
          rw [e] at this; cases this
        rw [if_neg this]
      · rw [if_neg hm, List.erase_of_not_mem (by simpa using hm)]
    have e2 : rem (adopt c p s) = (((addPreferred s.prim (resetNom s)).pref).erase s.cur).erase p := by
      unfold rem; rw [e1, hcur, List.erase_comm]
    rw [e2]
    have h1 := badIn_erase_le (bad := bad) (l := ((addPreferred s.prim (resetNom s)).pref).erase s.cur) (x := p)
    have h2 : badIn bad (((addPreferred s.prim (resetNom s)).pref).erase s.cur) ≤ badIn bad (rem s) + 1 := by
      rw [addPreferred_pref]
      split
      · have : ((resetNom s).pref).erase s.cur = rem s := rfl
        rw [this]; omega
      · rw [List.erase_cons]
        split
        · rename_i hnc heq
          have hpc : s.prim = s.cur := by simpa using heq
          have hno : rem s = s.pref := by
            unfold rem; apply List.erase_of_not_mem
            rw [← hpc]; simpa [resetNom] using hnc
          rw [hno]; show badIn bad s.pref ≤ _; omega
        · have : ((resetNom s).pref).erase s.cur = rem s := rfl
          rw [this]
          unfold badIn
          rw [List.filter_cons]
          split
          · simp
          · omega
    unfold phi; split <;> split <;> omega

/-- one call while fetching: a bad choice uses up the potential, a change of the primary gives at most
`f + 1` back -/
theorem step_phi {c : Cfg} (hc : c.Ok) {bad : Nat → Bool} {f : Nat} (hb : badIn bad c.others ≤ f)
    (hl : f + 2 ≤ c.others.length) {s s' : Sel} (h : Inv c s) {o : Op} (ho : o.Fetching) (hs : step c o s = some s') :
    ∃ ks, s'.log = s.log ++ ks ∧ ((∀ k ∈ ks, bad k = true) →
      ks.length + phi bad f (rem s') ≤ phi bad f (rem s) + (if s'.prim = s.prim then 0 else 1) * (f + 1)) := by
  cases o with
  | reset => exact ho.elim
  | add r => exact ho.elim
  | refillAll => exact ho.elim
  | removeCurrent =>
    cases hs
    refine ⟨[], ?_, fun _ => ?_⟩
    · simp [removeCurrent, refill_rest.2.2.1]
    · have hcur : (removeCurrent c s).cur = noReplica := by simp [removeCurrent, refill_rest.1]
      have e : rem (removeCurrent c s) = if rem s = [] then full c s else rem s := by
        have hi : Inv c (removeCurrent c s) := h.step hc (o := .removeCurrent) trivial rfl
        rw [erase_no hc hi hcur]
        show (refill c _).pref = _
        rw [refill_pref]; rfl
      have hp : (removeCurrent c s).prim = s.prim := by simp [removeCurrent, refill_rest.2.1]
      rw [e, if_pos hp]
      split
      · rename_i hr
        have := good_full hc hb hl s
        rw [hr]
        unfold phi
        have h0 : badIn (fun x => !bad x) (full c s) ≠ 0 := by omega
        rw [if_neg h0]
        simp [badIn] at this ⊢; omega
      · simp
  | stamp now b =>
    cases hs
    exact ⟨[], by simp [setFetching], fun _ => by simp [setFetching, rem]⟩
  | ask now b l =>
    cases hs
    obtain ⟨e1, e2, e3, e4⟩ := ask_rest (c := c) (now := now) (b := b) (l := l) (s := s)
    refine ⟨[], by simp [e4], fun _ => ?_⟩
    rw [rem_congr e1 e2]; simp
  | update now rnd =>
    obtain ⟨x, hx, hu⟩ := update_spec hc h now rnd
    simp only [Source.step, hu] at hs
    cases hs
    refine ⟨[x], rfl, fun hk => ?_⟩
    have hxb : bad x = true := hk x (by simp)
    have e : ∀ (v : Sel), v.pref = (if rem s = [] then full c s else rem s) → v.cur = x →
        rem v = (if rem s = [] then full c s else rem s).erase x := by
      intro v h1 h2; unfold rem at *; rw [h1, h2]
    rw [e _ rfl rfl]
    have h1 := badIn_erase (bad := bad) hx
    have h2 := badIn_erase (bad := fun x => !bad x) hx
    simp only [hxb, if_pos, Bool.not_true, Bool.false_eq_true, if_false] at h1 h2
    split at h1
    · rename_i hr
      rw [if_pos hr] at h2 ⊢
      have := good_full hc hb hl s
      rw [hr]
      unfold phi
      rw [if_neg (show ¬ badIn (fun x => !bad x) ((full c s).erase x) = 0 by omega)]
      simp [badIn] at this h1 ⊢; omega
    · rename_i hr
      rw [if_neg hr] at h2 ⊢
      unfold phi
      rw [show badIn (fun x => !bad x) ((rem s).erase x) = badIn (fun x => !bad x) (rem s) by omega]
      simp; omega
  | block =>
    simp only [Source.step, validBlock] at hs
    split at hs
    · cases hs
    · split at hs <;> cases hs
      · exact ⟨[], by simp, fun _ => by simp⟩
      · exact ⟨[], by simp, fun _ => by simp [rem]⟩
  | prePrepare p =>
    cases hs
    rcases updatePrimary_cases (c := c) (p := p) (s := s) with ⟨n, k, e⟩ | ⟨e, hp, hne⟩
    · rw [e]; exact ⟨[], by simp, fun _ => by simp [rem]⟩
    · rw [e]
      obtain ⟨e1, e2, e3⟩ := adopt_rest c p s
      refine ⟨[], by simp [e3], fun _ => ?_⟩
      rw [e2, if_neg (fun e => hne e.symm)]
      have := adopt_phi hc hb hl h hp hne
      simp; omega

theorem fair_of_fetching {c : Cfg} {o : Op} (h : o.Fetching) : o.Fair c := by
  cases o <;> first | exact trivial | exact h.elim

theorem run_phi {c : Cfg} (hc : c.Ok) {bad : Nat → Bool} {f : Nat} (hb : badIn bad c.others ≤ f)
    (hl : f + 2 ≤ c.others.length) {ops : List Op} {s s' : Sel} (h : Inv c s) (ho : ∀ o ∈ ops, o.Fetching)
    (hr : run c ops s = some s') :
    ∃ ks, s'.log = s.log ++ ks ∧ ((∀ k ∈ ks, bad k = true) →
      ks.length + phi bad f (rem s') ≤ phi bad f (rem s) + changes c ops s * (f + 1)) := by
  induction ops generalizing s with
  | nil => cases hr; exact ⟨[], by simp, fun _ => by simp [changes]⟩
  | cons o os ih =>
    simp only [run] at hr
    split at hr
    · cases hr
    · rename_i s1 h1
      have ho1 := ho o (by simp)
      obtain ⟨k1, hk1, hp1⟩ := step_phi hc hb hl h ho1 h1
      obtain ⟨k2, hk2, hp2⟩ := ih (h.step hc (fair_of_fetching ho1) h1) (fun o' ho' => ho o' (by simp [ho'])) hr
      refine ⟨k1 ++ k2, by rw [hk2, hk1, List.append_assoc], fun hk => ?_⟩
      have a1 := hp1 (fun k hk' => hk k (by simp [hk']))
      have a2 := hp2 (fun k hk' => hk k (by simp [hk']))
      simp only [changes, h1, List.length_append, Nat.add_mul]
      omega

/-- C55: among any `2f + 1` successive sources of a fetch there is one that is not bad, if at most `f` of the
other replicas are bad; each change of the primary that is known in between can put it off by `f + 1`
sources more. -/
theorem good_source_comes (c : Cfg) (hc : c.Ok) (bad : Nat → Bool) (f : Nat) (hb : badIn bad c.others ≤ f)
    (hl : f + 2 ≤ c.others.length) (before ops : List Op) (s s' : Sel) (hf : ∀ o ∈ before, o.Fair c)
    (hs : run c before Sel.init = some s) (ho : ∀ o ∈ ops, o.Fetching) (hr : run c ops s = some s') :
    ∃ ks, s'.log = s.log ++ ks ∧
      (2 * f + changes c ops s * (f + 1) < ks.length → ∃ k ∈ ks, bad k = false) := by
  have h := (Inv.init c).run hc hf hs
  obtain ⟨ks, hk, hp⟩ := run_phi hc hb hl h ho hr
  refine ⟨ks, hk, fun hlen => ?_⟩
  apply Classical.byContradiction
  intro hno
  have hall : ∀ k ∈ ks, bad k = true := by
    intro k hk'
    cases hbk : bad k with
    | true => rfl
    | false => exact absurd ⟨k, hk', hbk⟩ hno
  have a := hp hall
  have h1 : badIn bad (rem s) ≤ f :=
    Nat.le_trans (badIn_sub (h.nodup.erase _) (rem_sub h)) hb
  have h2 : phi bad f (rem s) ≤ f + f := by unfold phi; split <;> omega
  omega

/-- C55: at the start of a fetch, when the preferred sources are `f + 1` or more replicas that vouched for the
state to be fetched and at most `f` are bad, one of the first `f + 1` sources is not bad. -/
theorem good_source_first (c : Cfg) (hc : c.Ok) (bad : Nat → Bool) (f : Nat) (hb : badIn bad c.others ≤ f)
    (hl : f + 2 ≤ c.others.length) (before ops : List Op) (s s' : Sel) (hf : ∀ o ∈ before, o.Fair c)
    (hs : run c before Sel.init = some s) (hn : s.cur = noReplica) (hv : f + 1 ≤ s.pref.length)
    (ho : ∀ o ∈ ops, o.Fetching) (hr : run c ops s = some s') :
    ∃ ks, s'.log = s.log ++ ks ∧
      (f + changes c ops s * (f + 1) < ks.length → ∃ k ∈ ks, bad k = false) := by
  have h := (Inv.init c).run hc hf hs
  obtain ⟨ks, hk, hp⟩ := run_phi hc hb hl h ho hr
  refine ⟨ks, hk, fun hlen => ?_⟩
  apply Classical.byContradiction
  intro hno
  have hall : ∀ k ∈ ks, bad k = true := by
    intro k hk'
    cases hbk : bad k with
    | true => rfl
    | false => exact absurd ⟨k, hk', hbk⟩ hno
  have a := hp hall
  have h1 : badIn bad (rem s) ≤ f :=
    Nat.le_trans (badIn_sub (h.nodup.erase _) (rem_sub h)) hb
  have h3 := badIn_all bad (rem s)
  have h4 : (rem s).length = s.pref.length := by rw [erase_no hc h hn]
  have h2 : phi bad f (rem s) ≤ f := by
    unfold phi
    rw [if_neg (show ¬ badIn (fun x => !bad x) (rem s) = 0 by omega)]; omega
  omega

/-- The calls that do not touch the primary. -/
def Op.Plain : Op → Prop
  | .removeCurrent => True
  | .stamp _ _ => True
  | .ask _ _ _ => True
  | .update _ _ => True
  | .block => True
  | _ => False

theorem tour_aux {c : Cfg} (hc : c.Ok) {ops : List Op} {s s' : Sel} (h : Inv c s) (ho : ∀ o ∈ ops, o.Plain)
    (hr : run c ops s = some s') :
    ∃ ks, s'.log = s.log ++ ks ∧ (ks.length ≤ (rem s).length → ks.Nodup ∧ ∀ k ∈ ks, k ∈ rem s) := by
  induction ops generalizing s with
  | nil => cases hr; exact ⟨[], by simp, fun _ => by simp⟩
  | cons o os ih =>
    simp only [run] at hr
    split at hr
    · cases hr
    · rename_i s1 h1
      have ho1 := ho o (by simp)
      have hfair : o.Fair c := by cases o <;> first | exact trivial | exact ho1.elim
      have hi1 := h.step hc hfair h1
      obtain ⟨ks, hk, hp⟩ := ih hi1 (fun o' ho' => ho o' (by simp [ho'])) hr
      have quiet : s1.log = s.log → rem s1 = rem s →
          ∃ ks, s'.log = s.log ++ ks ∧ (ks.length ≤ (rem s).length → ks.Nodup ∧ ∀ k ∈ ks, k ∈ rem s) := by
        intro e1 e2; rw [e2] at hp; rw [e1] at hk; exact ⟨ks, hk, hp⟩
      cases o with
      | reset => exact ho1.elim
      | add r => exact ho1.elim
      | refillAll => exact ho1.elim
      | prePrepare p => exact ho1.elim
      | stamp now b => cases h1; exact quiet rfl rfl
      | ask now b l =>
        cases h1
        obtain ⟨e1, e2, e3, e4⟩ := ask_rest (c := c) (now := now) (b := b) (l := l) (s := s)
        exact quiet e4 (rem_congr e1 e2)
      | block =>
        simp only [Source.step, validBlock] at h1
        split at h1
        · cases h1
        · split at h1 <;> cases h1 <;> exact quiet rfl rfl
      | removeCurrent =>
        cases h1
        have hcur : (removeCurrent c s).cur = noReplica := by simp [removeCurrent, refill_rest.1]
        have hlog : (removeCurrent c s).log = s.log := by simp [removeCurrent, refill_rest.2.2.1]
        have e : rem (removeCurrent c s) = if rem s = [] then full c s else rem s := by
          rw [erase_no hc hi1 hcur]
          show (refill c _).pref = _
          rw [refill_pref]; rfl
        by_cases hr0 : rem s = []
        · rw [hlog] at hk
          refine ⟨ks, hk, fun hlen => ?_⟩
          have : ks = [] := by
            apply List.eq_nil_of_length_eq_zero; rw [hr0] at hlen; simpa using hlen
          subst this; simp
        · rw [if_neg hr0] at e; exact quiet hlog e
      | update now rnd =>
        obtain ⟨x, hx, hu⟩ := update_spec hc h now rnd
        simp only [Source.step, hu] at h1
        cases h1
        refine ⟨x :: ks, by rw [hk]; simp, fun hlen => ?_⟩
        by_cases hr0 : rem s = []
        · rw [hr0] at hlen; simp at hlen
        · simp only [if_neg hr0] at hx hp
          have e : ∀ (v : Sel), v.pref = rem s → v.cur = x → rem v = (rem s).erase x := by
            intro v h1 h2; unfold rem at *; rw [h1, h2]
          rw [e _ rfl rfl] at hp
          have hl1 : ((rem s).erase x).length = (rem s).length - 1 := List.length_erase_of_mem hx
          simp only [List.length_cons] at hlen
          obtain ⟨p1, p2⟩ := hp (by omega)
          have hnd : (rem s).Nodup := h.nodup.erase _
          refine ⟨List.nodup_cons.2 ⟨?_, p1⟩, ?_⟩
          · intro hm
            exact (hnd.mem_erase_iff.1 (p2 x hm)).1 rfl
          · intro k hk'
            rcases List.mem_cons.1 hk' with e | e
            · exact e ▸ hx
            · exact List.mem_of_mem_erase (p2 k e)

/-- C55: the preferred sources are gone through without repetition: as many sources as there are in the set
are all different, and all of the set. -/
theorem no_repetition (c : Cfg) (hc : c.Ok) (before ops : List Op) (s s' : Sel) (hf : ∀ o ∈ before, o.Fair c)
    (hs : run c before Sel.init = some s) (hn : s.cur = noReplica) (ho : ∀ o ∈ ops, o.Plain)
    (hr : run c ops s = some s') :
    ∃ ks, s'.log = s.log ++ ks ∧ (ks.length ≤ s.pref.length → ks.Nodup ∧ ∀ k ∈ ks, k ∈ s.pref) := by
  have h := (Inv.init c).run hc hf hs
  have := tour_aux hc h ho hr
  rwa [erase_no hc h hn] at this

end Verif.Source
