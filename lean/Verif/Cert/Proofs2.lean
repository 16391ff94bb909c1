import Verif.Cert.Proofs
/-!
The certificate once the replica's own message is in (`hasTrustedSelfClass`), and the link to the sequence of calls.
-/
namespace Concord.Cert

variable {M : Type} {p : Params M}

/-- Invariant with a trusted self class: the counter is `bonus` ahead of the number of counted messages. -/
structure SInv (p : Params M) (bonus : Nat) (sm : M) (C : List (Nat × M)) (s : St M) : Prop where
  hasSelf : s.hasSelf = true
  keys : keysNodup s.msgs
  sub : C.Sublist s.msgs
  count : ((p.keepAll && !s.full) || !s.complete) = true → C = s.msgs
  selfIn : (p.self, sm) ∈ C
  classes : s.classes = [⟨s.sizeBest, p.self⟩]
  size : s.sizeBest = cnt p.eqv C sm + bonus
  best : s.best = some 0
  comp : s.complete = true ↔ p.required ≤ s.sizeBest
  ful : s.full = true ↔ p.n ≤ s.sizeBest

theorem sinv_step {b : Nat} {sm : M} {C : List (Nat × M)} {s : St M} (h : SInv p b sm C s)
    (id : Nat) (m : M) : ∃ C', SInv p b sm C' (s.addMsg p id m).1 := by
  unfold St.addMsg
  by_cases hh : s.hasMsg id = true
  · rw [if_pos hh]; exact ⟨C, h⟩
  rw [if_neg hh]
  have hnot : ∀ m', (id, m') ∉ s.msgs := fun m' hm => hh (hasMsg_iff.2 ⟨m', hm⟩)
  have hk := keysNodup_snoc (m := m) h.keys hnot
  have hne : id ≠ p.self := by
    intro he; subst he; exact hnot _ (h.sub.subset h.selfIn)
  simp only
  by_cases hcnt : ((p.keepAll && !s.full) || !s.complete) = true
  · rw [if_pos hcnt]
    have hb : (p.selfTrust && id == p.self) = false := by simp [hne]
    rw [hb]
    simp only [Bool.false_eq_true, if_false]
    have hCm := h.count hcnt
    subst hCm
    refine ⟨s.msgs ++ [(id, m)], ?_⟩
    unfold St.addPeer
    rw [if_pos (by simp [h.hasSelf])]
    simp only [h.classes]
    have hmo : ({ s with msgs := s.msgs ++ [(id, m)] } : St M).msgOf p.self = some sm :=
      (msgOf_iff hk).2 (List.mem_append_left _ h.selfIn)
    have hin : ({ s with msgs := s.msgs ++ [(id, m)] } : St M).inClass p m ⟨s.sizeBest, p.self⟩ = p.eqv sm m := by
      unfold St.inClass; rw [hmo]
    have hsub : ∀ {x}, x ∈ s.msgs → x ∈ s.msgs ++ [(id, m)] := fun hx => List.mem_append_left _ hx
    have hin' : ({ s with msgs := s.msgs ++ [(id, m)], classes := [⟨s.sizeBest, p.self⟩] } : St M).inClass p m ⟨s.sizeBest, p.self⟩ = p.eqv sm m := hin
    by_cases he : p.eqv sm m = true
    · have hhas : ∀ cl : List Cls, ({ s with msgs := s.msgs ++ [(id, m)], classes := cl } : St M).hasMsg p.self = true :=
        fun cl => hasMsg_iff.2 ⟨sm, hsub h.selfIn⟩
      rw [if_pos (hin'.trans he), peerExisting_eq _ 0 (bump ⟨s.sizeBest, p.self⟩) rfl]
      have e1 : max s.sizeBest (bump ⟨s.sizeBest, p.self⟩).size = s.sizeBest + 1 := by
        simp [bump]
      have e2 : (if s.sizeBest < (bump ⟨s.sizeBest, p.self⟩).size then some 0 else s.best) = some 0 := by
        simp [bump]
      simp only [e1, e2, hhas, Bool.or_true, Bool.and_true, true_and]
      refine
        { hasSelf := h.hasSelf, keys := hk, sub := List.Sublist.refl _, count := fun _ => rfl
          selfIn := hsub h.selfIn, classes := rfl, size := ?_, best := rfl, comp := ?_, ful := ?_ }
      · simp only [cnt_append, if_pos he, h.size]; omega
      · simp only [Bool.or_eq_true, h.comp, decide_eq_true_eq]; omega
      · simp only [Bool.or_eq_true, h.ful, decide_eq_true_eq]; omega
    · rw [if_neg (by rw [hin']; exact he)]
      exact
        { hasSelf := h.hasSelf, keys := hk, sub := List.Sublist.refl _, count := fun _ => rfl
          selfIn := hsub h.selfIn, classes := rfl
          size := by simp only [cnt_append, if_neg he, h.size]; omega
          best := h.best, comp := h.comp, ful := h.ful }
  · rw [if_neg hcnt]
    exact ⟨C,
      { hasSelf := h.hasSelf, keys := hk, sub := h.sub.trans (List.sublist_append_left _ _)
        count := fun hc => absurd hc hcnt
        selfIn := h.selfIn, classes := h.classes, size := h.size, best := h.best, comp := h.comp, ful := h.ful }⟩

/-- the transition: the replica's own message arrives -/
theorem sinv_start (hp : p.Ok) (hst : p.selfTrust = true) (hsr : p.selfRequired = true)
    {C : List (Nat × M)} {s : St M} (h : PInv p C s) (m : M) :
    ∃ C', SInv p (if 0 < cnt p.eqv s.msgs m then 1 else 0) m C' (s.addMsg p p.self m).1 := by
  unfold St.addMsg
  have hh := h.absent hst
  rw [if_neg (show ¬ s.hasMsg p.self = true by rw [hh]; decide)]
  have hnot : ∀ m', (p.self, m') ∉ s.msgs := fun m' hm => by
    rw [hasMsg_iff.2 ⟨m', hm⟩] at hh; cases hh
  have hk := keysNodup_snoc (m := m) h.keys hnot
  have hnc : s.complete = false := by
    cases hc : s.complete
    · rfl
    · have := (h.comp.1 hc).1; rw [hsr] at this; cases this
  have hnf : s.full = false := by
    cases hc : s.full
    · rfl
    · have := (h.ful.1 hc).1; rw [hsr] at this; cases this
  have hCm := h.count (by simp [hnc])
  subst hCm
  simp only [hnc, hst, Bool.not_false, Bool.or_true, if_true, Bool.true_and, beq_self_eq_true]
  have hsub : s.msgs ⊆ s.msgs ++ [(p.self, m)] := fun x hx => List.mem_append_left _ hx
  have hhas : ∀ (cl : List Cls) c f b z hs, ({ msgs := s.msgs ++ [(p.self, m)], classes := cl, complete := c, full := f, best := b, sizeBest := z, hasSelf := hs } : St M).hasMsg p.self = true :=
    fun _ _ _ _ _ _ => hasMsg_iff.2 ⟨m, by simp⟩
  refine ⟨s.msgs ++ [(p.self, m)], ?_⟩
  -- the size computed by the code
  have key : ({ s with msgs := s.msgs ++ [(p.self, m)], complete := false } : St M).selfSize p m
      = cnt p.eqv (s.msgs ++ [(p.self, m)]) m + (if 0 < cnt p.eqv s.msgs m then 1 else 0) := by
    unfold St.selfSize
    rw [cnt_append, if_pos (hp.eqv.refl m)]
    cases hf : ({ s with msgs := s.msgs ++ [(p.self, m)], complete := false } : St M).findClass p m with
    | some i =>
      obtain ⟨c, r, hci, hcr, hcs, hcm⟩ := findClass_some (C := s.msgs) hk hsub rfl hf h.reps
      have hci' : s.classes[i]? = some c := hci
      have : cnt p.eqv s.msgs r = cnt p.eqv s.msgs m := cnt_eqv hp.eqv hcm _
      have hpos : 0 < cnt p.eqv s.msgs r := by
        unfold cnt; rw [List.countP_pos_iff]; exact ⟨_, hcr, hp.eqv.refl r⟩
      have hmod : (s.classes.modify i bump)[i]? = some (bump c) := by
        rw [List.getElem?_modify_eq, hci']; rfl
      simp only [hmod]
      rw [if_pos (by omega)]
      have : c.size = cnt p.eqv s.msgs r := hcs
      simp only [bump]; omega
    | none =>
      have hno := findClass_none (C := s.msgs) hk hsub rfl hf
      have hno' : ∀ c ∈ s.classes, ∀ r, (c.rep, r) ∈ s.msgs → ¬ p.eqv r m = true := hno
      have hz : cnt p.eqv s.msgs m = 0 := by
        unfold cnt
        rw [List.countP_eq_zero]
        intro e he hem
        obtain ⟨c, hc, r, hr, hre⟩ := h.cover e he
        exact hno' c hc r hr (hp.eqv.trans _ _ _ hre (hp.eqv.symm _ _ hem))
      simp [hz]
  unfold St.addSelf
  simp only [key]
  generalize hz : cnt p.eqv (s.msgs ++ [(p.self, m)]) m + (if 0 < cnt p.eqv s.msgs m then 1 else 0) = z
  unfold St.tryComplete St.tryFull
  have base : ∀ c f : Bool, (c = true ↔ p.required ≤ z) → (f = true ↔ p.n ≤ z) →
      SInv p (if 0 < cnt p.eqv s.msgs m then 1 else 0) m (s.msgs ++ [(p.self, m)])
        { msgs := s.msgs ++ [(p.self, m)], classes := [⟨z, p.self⟩], complete := c, full := f, best := some 0,
          sizeBest := z, hasSelf := true } := by
    intro c f hc hf
    exact
      { hasSelf := rfl, keys := hk, sub := List.Sublist.refl _, count := fun _ => rfl, selfIn := by simp
        classes := rfl, size := hz.symm, best := rfl, comp := hc, ful := hf }
  by_cases h1 : p.required ≤ z <;> by_cases h2 : p.n ≤ z <;>
    simp only [h1, h2, if_true, if_false, hhas, Bool.or_true, hnf] <;>
    exact base (decide (p.required ≤ z)) (decide (p.n ≤ z)) (by simp) (by simp) |> (by simpa [h1, h2] using ·)

/-! link between the stored messages and the calls -/

theorem peerExisting_msgs (s : St M) (i : Nat) : (s.peerExisting p i).msgs = s.msgs := by
  unfold St.peerExisting St.tryComplete St.tryFull
  repeat' (first | split | rfl | simp only)

theorem addPeer_msgs (s : St M) (m : M) (id : Nat) : (s.addPeer p m id).msgs = s.msgs := by
  unfold St.addPeer
  split
  · split
    · rfl
    · split
      · rw [peerExisting_msgs]
      · rfl
  · split
    · rw [peerExisting_msgs]
    · split
      · rfl
      · simp only; split <;> rfl

theorem addSelf_msgs (s : St M) (m : M) : (s.addSelf p m).msgs = s.msgs := by
  unfold St.addSelf St.tryComplete St.tryFull
  simp only
  repeat' (first | rfl | split)

theorem addMsg_msgs (s : St M) (id : Nat) (m : M) :
    (s.addMsg p id m).1.msgs = if s.hasMsg id then s.msgs else s.msgs ++ [(id, m)] := by
  unfold St.addMsg
  split
  · rfl
  · simp only
    split
    · split
      · rw [addSelf_msgs]
      · rw [addPeer_msgs]
    · rfl

theorem firstOf_run (s : St M) (ops : List (Nat × M)) (id : Nat) :
    firstOf (run p s ops).msgs id = firstOf (s.msgs ++ ops) id := by
  induction ops generalizing s with
  | nil => simp [run]
  | cons e ops ih =>
    obtain ⟨a, m⟩ := e
    rw [run, ih, addMsg_msgs]
    split
    · next h =>
      obtain ⟨m', hm'⟩ := hasMsg_iff.1 h
      unfold firstOf
      rw [List.find?_append, List.find?_append]
      cases hf : s.msgs.find? (fun e => e.1 == id) with
      | some x => rfl
      | none =>
        have : a ≠ id := by
          intro he; subst he
          have := List.find?_eq_none.1 hf _ hm'
          simp at this
        simp [this]
    · rw [List.append_assoc]; rfl

theorem run_append (s : St M) (a b : List (Nat × M)) : run p s (a ++ b) = run p (run p s a) b := by
  induction a generalizing s with
  | nil => rfl
  | cons e a ih => exact ih _

theorem card_support {eqv : M → M → Bool} {ops l : List (Nat × M)} (hk : keysNodup l)
    (hl : ∀ id, firstOf l id = firstOf ops id) (m : M) : (support eqv ops m).card = cnt eqv l m := by
  have : support eqv ops m = ((l.filter (fun e => eqv m e.2)).map (·.1)).toFinset := by
    ext id
    simp only [support, senders, Finset.mem_filter, List.mem_toFinset, List.mem_map, List.mem_filter]
    constructor
    · rintro ⟨-, m', h1, h2⟩
      rw [← hl] at h1
      exact ⟨(id, m'), ⟨mem_of_find h1, h2⟩, rfl⟩
    · rintro ⟨⟨a, m'⟩, ⟨h1, h2⟩, h3⟩
      simp only at h3 h2; subst h3
      have h4 : firstOf ops a = some m' := by
        rw [← hl]; unfold firstOf; rw [find_of_mem hk h1]; rfl
      exact ⟨⟨_, mem_of_find h4, rfl⟩, m', h4, h2⟩
  rw [this, List.toFinset_card_of_nodup, List.length_map, cnt, List.countP_eq_length_filter]
  have hs : ((l.filter (fun e => eqv m e.2)).map (·.1)).Sublist (l.map (·.1)) := List.filter_sublist.map _
  exact hs.nodup hk

theorem pinv_run (hp : p.Ok) {C : List (Nat × M)} {s : St M} (h : PInv p C s) (ops : List (Nat × M))
    (hids : ∀ e ∈ ops, e.1 < p.n) (hself : p.selfTrust = true → ∀ e ∈ ops, e.1 ≠ p.self) :
    ∃ C', PInv p C' (run p s ops) := by
  induction ops generalizing C s with
  | nil => exact ⟨C, h⟩
  | cons e ops ih =>
    obtain ⟨a, m⟩ := e
    obtain ⟨C', h'⟩ := pinv_step hp h (id := a) (m := m) (hids (a, m) (by simp))
      (fun hs => hself hs (a, m) (by simp))
    exact ih h' (fun e he => hids e (by simp [he])) (fun hs e he => hself hs e (by simp [he]))

theorem sinv_run {b : Nat} {sm : M} {C : List (Nat × M)} {s : St M} (h : SInv p b sm C s)
    (ops : List (Nat × M)) : ∃ C', SInv p b sm C' (run p s ops) := by
  induction ops generalizing C s with
  | nil => exact ⟨C, h⟩
  | cons e ops ih =>
    obtain ⟨C', h'⟩ := sinv_step h e.1 e.2
    exact ih h'

end Concord.Cert
