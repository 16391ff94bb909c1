import Verif.Ckpt.Spec
/-!
C42: what is needed about one checkpoint certificate, whose `complete` flag can also be forced.
-/
set_option linter.unusedSimpArgs false
set_option linter.unusedVariables false
namespace Verif.Ckpt
open Concord Concord.Cert

variable {g : Cfg}

theorem eqv_isEqv : IsEqv eqv where
  refl a := by simp [eqv]
  symm a b h := by simp only [eqv, Bool.and_eq_true, beq_iff_eq] at *; exact ⟨h.1.symm, h.2.symm⟩
  trans a b c h1 h2 := by
    simp only [eqv, Bool.and_eq_true, beq_iff_eq] at *; exact ⟨h1.1.trans h2.1, h1.2.trans h2.2⟩

theorem Cfg.Ok.p (h : g.Ok) : g.p.Ok where
  eqv := eqv_isEqv
  req := by have := h.f; show 2 ≤ 2 * g.F + g.C + 1; omega
  reqn := by show 2 * g.F + g.C + 1 ≤ 3 * g.F + 2 * g.C + 1; omega
  selfOk := fun _ => rfl

theorem p_n : g.p.n = g.n := rfl
theorem p_self : g.p.self = g.self := rfl
theorem p_req : g.p.required = 2 * g.F + g.C + 1 := rfl

/-- a certificate that only `addMsg` touched -/
def Base (g : Cfg) (c : Cert.St Msg) : Prop :=
  (∃ C, PInv g.p C c) ∨ (∃ b sm C, b ≤ 1 ∧ SInv g.p b sm C c)

/-- a certificate whose `complete` flag may have been forced -/
def Good (g : Cfg) (c : Cert.St Msg) : Prop :=
  ∃ c0 x, Base g c0 ∧ c = { c0 with complete := x } ∧ (c0.complete = true → x = true)

theorem base_init (hg : g.Ok) : Base g {} := .inl ⟨[], pinv_init hg.p⟩

theorem base_add (hg : g.Ok) {c : Cert.St Msg} (h : Base g c) {id : Nat} (m : Msg) (hid : id < g.n) :
    Base g (c.addMsg g.p id m).1 := by
  rcases h with ⟨C, h⟩ | ⟨b, sm, C, hb, h⟩
  · by_cases hs : id = g.self
    · subst hs
      obtain ⟨C', h'⟩ := sinv_start hg.p rfl rfl h m
      exact .inr ⟨_, _, C', by split <;> omega, h'⟩
    · obtain ⟨C', h'⟩ := pinv_step hg.p h (id := id) (m := m) hid (fun _ => hs)
      exact .inl ⟨C', h'⟩
  · obtain ⟨C', h'⟩ := sinv_step h id m
    exact .inr ⟨b, sm, C', hb, h'⟩

theorem base_keys {c : Cert.St Msg} (h : Base g c) : keysNodup c.msgs := by
  rcases h with ⟨C, h⟩ | ⟨b, sm, C, hb, h⟩
  · exact h.keys
  · exact h.keys

theorem base_full_complete (hg : g.Ok) {c : Cert.St Msg} (h : Base g c) (hf : c.full = true) : c.complete = true := by
  rcases h with ⟨C, h⟩ | ⟨b, sm, C, hb, h⟩
  · have := (h.ful.1 hf).1; cases this
  · have := h.ful.1 hf
    have := hg.p.reqn
    exact h.comp.2 (by omega)

theorem base_complete {c : Cert.St Msg} (h : Base g c) (hc : c.complete = true) :
    ∃ sm, (g.self, sm) ∈ c.msgs ∧ 2 * g.F + g.C ≤ cnt eqv c.msgs sm := by
  rcases h with ⟨C, h⟩ | ⟨b, sm, C, hb, h⟩
  · have := (h.comp.1 hc).1; cases this
  · refine ⟨sm, h.sub.subset h.selfIn, ?_⟩
    have h1 := h.comp.1 hc
    rw [p_req, h.size] at h1
    have h2 : cnt g.p.eqv C sm ≤ cnt g.p.eqv c.msgs sm := h.sub.countP_le
    have h3 : cnt g.p.eqv c.msgs sm = cnt eqv c.msgs sm := rfl
    omega

theorem base_full {c : Cert.St Msg} (h : Base g c) (hc : c.full = true) :
    ∃ sm, (g.self, sm) ∈ c.msgs ∧ g.n - 1 ≤ cnt eqv c.msgs sm := by
  rcases h with ⟨C, h⟩ | ⟨b, sm, C, hb, h⟩
  · have := (h.ful.1 hc).1; cases this
  · refine ⟨sm, h.sub.subset h.selfIn, ?_⟩
    have h1 := h.ful.1 hc
    rw [p_n, h.size] at h1
    have h2 : cnt g.p.eqv C sm ≤ cnt g.p.eqv c.msgs sm := h.sub.countP_le
    have h3 : cnt g.p.eqv c.msgs sm = cnt eqv c.msgs sm := rfl
    omega

theorem base_hasSelf {c : Cert.St Msg} (h : Base g c) {m : Msg} (hm : (g.self, m) ∈ c.msgs) :
    ∃ b C, b ≤ 1 ∧ SInv g.p b m C c := by
  rcases h with ⟨C, h⟩ | ⟨b, sm, C, hb, h⟩
  · have h1 := h.absent rfl
    have h2 : c.hasMsg g.p.self = true := hasMsg_iff.2 ⟨m, hm⟩
    rw [h2] at h1; cases h1
  · have : m = sm := keys_inj h.keys hm (h.sub.subset h.selfIn)
    subst this
    exact ⟨b, C, hb, h⟩

theorem base_quorum {c : Cert.St Msg} (h : Base g c) {m : Msg} (hm : (g.self, m) ∈ c.msgs)
    (hq : 2 * g.F + g.C + 1 ≤ cnt eqv c.msgs m) : c.complete = true := by
  obtain ⟨b, C, hb, h⟩ := base_hasSelf h hm
  by_cases hc : c.complete = true
  · exact hc
  · have h1 := h.count (by simp [hc])
    apply h.comp.2
    rw [p_req, h.size, h1]
    have : cnt g.p.eqv c.msgs m = cnt eqv c.msgs m := rfl
    omega

theorem tryComplete_eq0 {c : Cert.St Msg} : c.tryComplete g.p = (if c.hasMsg g.self then { c with complete := true } else c) := by
  unfold St.tryComplete
  show (if (!true || c.hasMsg g.self) = true then _ else _) = _
  simp

theorem force_tryComplete (c : Cert.St Msg) : ({ c with complete := true } : Cert.St Msg).tryComplete g.p =
    { c.tryComplete g.p with complete := true } := by
  rw [tryComplete_eq0, tryComplete_eq0]
  have : ({ c with complete := true } : Cert.St Msg).hasMsg g.self = c.hasMsg g.self := rfl
  rw [this]
  split <;> rfl

theorem tryFull_eq (c : Cert.St Msg) : c.tryFull g.p =
    (if c.hasMsg g.self then { c with full := true } else c) := by
  unfold St.tryFull
  show (if (!true || c.hasMsg g.self) = true then _ else _) = _
  simp

theorem force_tryFull (c : Cert.St Msg) : ({ c with complete := true } : Cert.St Msg).tryFull g.p =
    { c.tryFull g.p with complete := true } := by
  rw [tryFull_eq, tryFull_eq]
  have : ({ c with complete := true } : Cert.St Msg).hasMsg g.self = c.hasMsg g.self := rfl
  rw [this]
  split <;> rfl

theorem force_ite (P : Prop) [Decidable P] (a b : Cert.St Msg) :
    { (if P then a else b) with complete := true } =
      (if P then { a with complete := true } else { b with complete := true } : Cert.St Msg) := by
  split <;> rfl

/-- the part of `peerExisting` after the update of the best class -/
def tailPeer (g : Cfg) (i : Nat) (c : Cert.St Msg) : Cert.St Msg :=
  let c := if c.best = some i ∧ g.p.required ≤ c.sizeBest then c.tryComplete g.p else c
  if c.best = some i ∧ g.p.n ≤ c.sizeBest then c.tryFull g.p else c

theorem force_tailPeer (i : Nat) (c : Cert.St Msg) :
    tailPeer g i { c with complete := true } = { tailPeer g i c with complete := true } := by
  unfold tailPeer
  simp only
  by_cases h1 : c.best = some i ∧ g.p.required ≤ c.sizeBest
  · rw [if_pos h1, if_pos h1]
    rw [force_tryComplete]
    generalize c.tryComplete g.p = d
    by_cases h2 : d.best = some i ∧ g.p.n ≤ d.sizeBest
    · rw [if_pos h2, if_pos h2, force_tryFull]
    · rw [if_neg h2, if_neg h2]
  · rw [if_neg h1, if_neg h1]
    by_cases h2 : c.best = some i ∧ g.p.n ≤ c.sizeBest
    · rw [if_pos h2, if_pos h2, force_tryFull]
    · rw [if_neg h2, if_neg h2]

theorem peerExisting_tail (c : Cert.St Msg) (i z : Nat)
    (hz : z = match c.classes[i]? with | some k => k.size | none => 0) :
    c.peerExisting g.p i =
      tailPeer g i (if c.sizeBest < z then { c with best := some i, sizeBest := z } else c) := by
  subst hz; rfl

theorem force_peerExisting (c : Cert.St Msg) (i : Nat) :
    ({ c with complete := true } : Cert.St Msg).peerExisting g.p i = { c.peerExisting g.p i with complete := true } := by
  rw [peerExisting_tail c i _ rfl, peerExisting_tail { c with complete := true } i _ rfl]
  simp only
  generalize (match c.classes[i]? with | some k => k.size | none => 0) = z
  rw [← force_tailPeer]
  split <;> rfl

theorem force_addSelf (c : Cert.St Msg) (m : Msg) :
    ({ c with complete := true } : Cert.St Msg).addSelf g.p m = { c.addSelf g.p m with complete := true } := by
  unfold St.addSelf
  have : ({ c with complete := true } : Cert.St Msg).selfSize g.p m = c.selfSize g.p m := rfl
  rw [this]
  generalize c.selfSize g.p m = z
  simp only
  by_cases h1 : g.p.required ≤ z
  · rw [if_pos h1, if_pos h1]
    by_cases h2 : g.p.n ≤ z
    · rw [if_pos h2, if_pos h2, ← force_tryFull, ← force_tryComplete]
    · rw [if_neg h2, if_neg h2, ← force_tryComplete]
  · rw [if_neg h1, if_neg h1]
    by_cases h2 : g.p.n ≤ z
    · rw [if_pos h2, if_pos h2, ← force_tryFull]
    · rw [if_neg h2, if_neg h2]

theorem force_addPeer (c : Cert.St Msg) (m : Msg) (id : Nat) :
    ({ c with complete := true } : Cert.St Msg).addPeer g.p m id = { c.addPeer g.p m id with complete := true } := by
  unfold St.addPeer
  simp only
  by_cases hs : c.hasSelf = true
  · rw [if_pos hs, if_pos hs]
    obtain ⟨msgs, classes, complete, full, best, sizeBest, hasSelf⟩ := c
    cases classes with
    | nil => rfl
    | cons k ks =>
      simp only
      by_cases hk : St.inClass g.p ({ msgs, classes := k :: ks, complete, full, best, sizeBest, hasSelf } : Cert.St Msg) m k = true
      · rw [if_pos hk, ← force_peerExisting]
        exact if_pos hk
      · rw [if_neg hk]
        exact if_neg hk
  · rw [if_neg hs, if_neg hs]
    have : ({ c with complete := true } : Cert.St Msg).findClass g.p m = c.findClass g.p m := rfl
    have h2 : ∀ X : Cert.St Msg, ({ X with complete := true } : Cert.St Msg).complete = true := fun _ => rfl
    cases hf : c.findClass g.p m with
    | some i =>
      rw [this.trans hf]
      simp only
      rw [← force_peerExisting]
    | none =>
      rw [this.trans hf]
      simp only
      split
      · rfl
      · split <;> rfl

/-- forcing `complete` commutes with adding messages -/
theorem addMsg_forced {c : Cert.St Msg} (hcf : c.full = true → c.complete = true) {x : Bool}
    (hx : c.complete = true → x = true) (id : Nat) (m : Msg) :
    ∃ y, ({ c with complete := x }).addMsg g.p id m = ({ (c.addMsg g.p id m).1 with complete := y }, (c.addMsg g.p id m).2)
      ∧ ((c.addMsg g.p id m).1.complete = true → y = true) ∧ (x = true → y = true) := by
  by_cases hx' : x = true
  · subst hx'
    refine ⟨true, ?_, fun _ => rfl, fun _ => rfl⟩
    have hcond : ((g.p.keepAll && !c.full) || !c.complete) = !c.full := by
      cases hf : c.full
      · rfl
      · rw [hcf hf]; rfl
    have hsc : ∀ (d : Cert.St Msg), { d with complete := true }.hasMsg = d.hasMsg := fun _ => rfl
    unfold St.addMsg
    rw [hsc]
    by_cases hh : c.hasMsg id = true
    · rw [if_pos hh, if_pos hh]
    rw [if_neg hh, if_neg hh]
    simp only [hcond]
    by_cases hf : c.full = true
    · simp [hf]
    · have hf : c.full = false := by simpa using hf
      simp only [hf, Bool.not_false, if_true]
      have h1 : (g.p.keepAll && true || !true) = true := rfl
      rw [if_pos h1]
      by_cases hs : (g.p.selfTrust && id == g.p.self) = true
      · rw [if_pos hs, if_pos hs]
        rw [← force_addSelf]
      · rw [if_neg hs, if_neg hs]
        rw [← force_addPeer]
  · have hx' : x = false := by simpa using hx'
    subst hx'
    have : c.complete = false := by
      cases h : c.complete
      · rfl
      · exact (hx h).symm
    refine ⟨(c.addMsg g.p id m).1.complete, ?_, fun h => h, by simp⟩
    have h2 : ({ c with complete := false } : Cert.St Msg) = c := by rw [← this]
    rw [h2]

theorem good_of_base {c : Cert.St Msg} (h : Base g c) : Good g c := ⟨c, c.complete, h, rfl, id⟩

theorem good_add (hg : g.Ok) {c : Cert.St Msg} (h : Good g c) {id : Nat} (m : Msg) (hid : id < g.n) :
    Good g (c.addMsg g.p id m).1 := by
  obtain ⟨c0, x, hb, rfl, hx⟩ := h
  obtain ⟨y, h1, h2, h3⟩ := addMsg_forced (g := g) (base_full_complete hg hb) hx id m
  rw [h1]
  exact ⟨_, y, base_add hg hb m hid, rfl, h2⟩

theorem good_keys {c : Cert.St Msg} (h : Good g c) : keysNodup c.msgs := by
  obtain ⟨c0, x, hb, rfl, hx⟩ := h
  exact base_keys (c := c0) hb

theorem good_full_complete (hg : g.Ok) {c : Cert.St Msg} (h : Good g c) (hf : c.full = true) : c.complete = true := by
  obtain ⟨c0, x, hb, rfl, hx⟩ := h
  exact hx (base_full_complete hg hb hf)

theorem good_full {c : Cert.St Msg} (h : Good g c) (hc : c.full = true) :
    ∃ sm, (g.self, sm) ∈ c.msgs ∧ g.n - 1 ≤ cnt eqv c.msgs sm := by
  obtain ⟨c0, x, hb, rfl, hx⟩ := h
  exact base_full (c := c0) hb hc

theorem tryComplete_eq {c : Cert.St Msg} : c.tryComplete g.p = c ∨ c.tryComplete g.p = { c with complete := true } := by
  unfold St.tryComplete
  split
  · exact .inr rfl
  · exact .inl rfl

theorem tryComplete_self {c : Cert.St Msg} {m : Msg} (hm : (g.self, m) ∈ c.msgs) :
    c.tryComplete g.p = { c with complete := true } := by
  unfold St.tryComplete
  have : c.hasMsg g.p.self = true := hasMsg_iff.2 ⟨m, hm⟩
  rw [if_pos (by rw [this]; simp)]

theorem good_mark {c : Cert.St Msg} (h : Good g c) : Good g (c.tryComplete g.p) := by
  rcases tryComplete_eq (g := g) (c := c) with h1 | h1
  · rw [h1]; exact h
  · rw [h1]
    obtain ⟨c0, x, hb, rfl, hx⟩ := h
    exact ⟨c0, true, hb, rfl, fun _ => rfl⟩

theorem mark_msgs {c : Cert.St Msg} : (c.tryComplete g.p).msgs = c.msgs := by
  rcases tryComplete_eq (g := g) (c := c) with h1 | h1 <;> rw [h1]

theorem mark_full {c : Cert.St Msg} : (c.tryComplete g.p).full = c.full := by
  rcases tryComplete_eq (g := g) (c := c) with h1 | h1 <;> rw [h1]

/-- the agreeing senders of a certificate, as a list -/
theorem cnt_list {l : List (Nat × Msg)} (hk : keysNodup l) (m : Msg) :
    ∃ rs : List Nat, rs.Nodup ∧ rs.length = cnt eqv l m ∧ ∀ r ∈ rs, ∃ m', (r, m') ∈ l ∧ eqv m m' = true := by
  refine ⟨(l.filter (fun e => eqv m e.2)).map (·.1), ?_, ?_, ?_⟩
  · exact (List.filter_sublist.map _).nodup hk
  · rw [List.length_map, cnt, List.countP_eq_length_filter]
  · intro r hr
    obtain ⟨⟨a, m'⟩, h1, h2⟩ := List.mem_map.1 hr
    simp only at h2; subst h2
    obtain ⟨h3, h4⟩ := List.mem_filter.1 h1
    exact ⟨m', h3, h4⟩

theorem addMsg_cases (c : Cert.St Msg) (id : Nat) (m : Msg) :
    (c.hasMsg id = true ∧ c.addMsg g.p id m = (c, false)) ∨
    (c.hasMsg id = false ∧ (c.addMsg g.p id m).1.msgs = c.msgs ++ [(id, m)] ∧ (c.addMsg g.p id m).2 = true) := by
  have h := addMsg_msgs (p := g.p) c id m
  by_cases hh : c.hasMsg id = true
  · left
    refine ⟨hh, ?_⟩
    unfold St.addMsg; rw [if_pos hh]
  · right
    rw [if_neg hh] at h
    refine ⟨by simpa using hh, h, ?_⟩
    unfold St.addMsg; rw [if_neg hh]
    simp only
    split
    · split <;> rfl
    · rfl

end Verif.Ckpt
