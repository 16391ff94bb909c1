import Verif.Wire.Restart
/-!
# New-view messages
-/
set_option linter.unusedVariables false
set_option linter.unusedSimpArgs false
set_option maxRecDepth 4000
namespace Verif.Wire
open Verif.Bytes

/-- the elements fit into their bytes -/
def FitsE (l : List (Nat × Nat)) : Prop := ∀ p ∈ l, p.1 < 256 ^ 2 ∧ p.2 < 256 ^ 32

theorem encElems_length (l : List (Nat × Nat)) : (encElems l).length = 34 * l.length := by
  induction l with
  | nil => rfl
  | cons p l ih => simp only [encElems, List.length_append, leEncode_length, ih, List.length_cons]; omega

/-- bytes that are long enough are elements -/
theorem split_elems : ∀ (k : Nat) (b : Bytes), 34 * k ≤ b.length →
    ∃ l junk, l.length = k ∧ FitsE l ∧ b = encElems l ++ junk := by
  intro k
  induction k with
  | zero => intro b h; exact ⟨[], b, rfl, (by intro p hp; cases hp), rfl⟩
  | succ k ih =>
    intro b h
    obtain ⟨i, r, hi, e1⟩ := peel 2 b (by omega)
    have hr : 32 ≤ r.length := by rw [e1] at h; simp at h; omega
    obtain ⟨d, r2, hd, e2⟩ := peel 32 r hr
    have hr2 : 34 * k ≤ r2.length := by rw [e1, e2] at h; simp at h; omega
    obtain ⟨l, junk, hl, hf, e3⟩ := ih r2 hr2
    refine ⟨(i, d) :: l, junk, by simp [hl], ?_, ?_⟩
    · intro p hp
      rcases List.mem_cons.mp hp with rfl | hp
      · exact ⟨hi, hd⟩
      · exact hf p hp
    · rw [e1, e2, e3]; simp [encElems]

theorem rd_mid {s : Nat} {pre post : Bytes} {off k v : Nat} (ho : off = pre.length) (hv : v < 256 ^ k) :
    rd ⟨s, pre ++ (leEncode k v ++ post)⟩ off k = .ok v := by
  have : slice (pre ++ (leEncode k v ++ post)) off k = some (leEncode k v) :=
    slice_mid (a := pre) (b := leEncode k v) (c := post) (by simp) ho (by simp)
  simp only [rd, this, leDecode_leEncode k v hv]

/-- ordered, with digests -/
def elemsOk : Option Nat → List (Nat × Nat) → Bool
  | _, [] => true
  | prev, p :: l => sortedOk prev p.1 && decide (p.2 ≠ 0) && elemsOk (some p.1) l

theorem elemsOk_cons (prev : Option Nat) (p : Nat × Nat) (l : List (Nat × Nat)) :
    elemsOk prev (p :: l) = (sortedOk prev p.1 && decide (p.2 ≠ 0) && elemsOk (some p.1) l) := by
  cases prev <;> rfl

theorem checkElems_eq (s : Nat) (junk : Bytes) : ∀ (l : List (Nat × Nat)) (pre : Bytes) (prev : Option Nat) (off : Nat), FitsE l → off = pre.length →
    NewView.checkElems ⟨s, pre ++ (encElems l ++ junk)⟩ l.length prev off = if elemsOk prev l = true then .ok () else .error .reject := by
  intro l
  induction l with
  | nil => intro pre prev off hf ho; simp [NewView.checkElems, elemsOk]
  | cons p l ih =>
    intro pre prev off hf ho
    obtain ⟨i, d⟩ := p
    have hp := hf (i, d) (by simp)
    simp only at hp
    have e1 : pre ++ (encElems ((i, d) :: l) ++ junk) = pre ++ (leEncode 2 i ++ (leEncode 32 d ++ (encElems l ++ junk))) := by
      simp [encElems]
    have e2 : pre ++ (encElems ((i, d) :: l) ++ junk) = (pre ++ leEncode 2 i) ++ (leEncode 32 d ++ (encElems l ++ junk)) := by
      simp [encElems]
    have e3 : pre ++ (encElems ((i, d) :: l) ++ junk) = (pre ++ leEncode 2 i ++ leEncode 32 d) ++ (encElems l ++ junk) := by
      simp [encElems]
    have r1 : rd ⟨s, pre ++ (encElems ((i, d) :: l) ++ junk)⟩ off 2 = .ok i := by
      rw [e1]; exact rd_mid ho hp.1
    have r2 : rd ⟨s, pre ++ (encElems ((i, d) :: l) ++ junk)⟩ (off + 2) 32 = .ok d := by
      rw [e2]; exact rd_mid (by simp [ho]) hp.2
    have r3 : NewView.checkElems ⟨s, pre ++ (encElems ((i, d) :: l) ++ junk)⟩ l.length (some i) (off + 34) =
        if elemsOk (some i) l = true then .ok () else .error .reject := by
      rw [e3]
      exact ih _ _ _ (fun q hq => hf q (List.mem_cons_of_mem _ hq)) (by simp [ho])
    rw [List.length_cons]
    unfold NewView.checkElems
    rw [r1, bind_ok, require_bind, r2, bind_ok, require_bind, r3]
    rw [elemsOk_cons, ite_ite, ite_ite]
    by_cases h1 : sortedOk prev i = true
    · by_cases h2 : d ≠ 0
      · by_cases h3 : elemsOk (some i) l = true
        · rw [if_pos ⟨⟨h1, h2⟩, h3⟩, if_pos (by simp [h1, h2, h3])]
        · rw [if_neg (fun h => h3 h.2), if_neg (by simp [h3])]
      · rw [if_neg (fun h => h2 h.1.2), if_neg (by simp [h2])]
    · rw [if_neg (fun h => h1 h.1.1), if_neg (by simp [h1])]

theorem readElems_eq (s : Nat) (junk : Bytes) : ∀ (l : List (Nat × Nat)) (pre : Bytes) (off : Nat), FitsE l → off = pre.length →
    NewView.readElems ⟨s, pre ++ (encElems l ++ junk)⟩ l.length off = .ok l := by
  intro l
  induction l with
  | nil => intro pre off hf ho; rfl
  | cons p l ih =>
    intro pre off hf ho
    obtain ⟨i, d⟩ := p
    have hp := hf (i, d) (by simp)
    simp only at hp
    have e1 : pre ++ (encElems ((i, d) :: l) ++ junk) = pre ++ (leEncode 2 i ++ (leEncode 32 d ++ (encElems l ++ junk))) := by
      simp [encElems]
    have e2 : pre ++ (encElems ((i, d) :: l) ++ junk) = (pre ++ leEncode 2 i) ++ (leEncode 32 d ++ (encElems l ++ junk)) := by
      simp [encElems]
    have e3 : pre ++ (encElems ((i, d) :: l) ++ junk) = (pre ++ leEncode 2 i ++ leEncode 32 d) ++ (encElems l ++ junk) := by
      simp [encElems]
    have r1 : rd ⟨s, pre ++ (encElems ((i, d) :: l) ++ junk)⟩ off 2 = .ok i := by
      rw [e1]; exact rd_mid ho hp.1
    have r2 : rd ⟨s, pre ++ (encElems ((i, d) :: l) ++ junk)⟩ (off + 2) 32 = .ok d := by
      rw [e2]; exact rd_mid (by simp [ho]) hp.2
    have r3 : NewView.readElems ⟨s, pre ++ (encElems ((i, d) :: l) ++ junk)⟩ l.length (off + 34) = .ok l := by
      rw [e3]
      exact ih _ _ (fun q hq => hf q (List.mem_cons_of_mem _ hq)) (by simp [ho])
    rw [List.length_cons]
    unfold NewView.readElems
    rw [r1, bind_ok, r2, bind_ok, r3, bind_ok]

/-- the replicas in increasing order, every digest is one -/
def Ordered (l : List (Nat × Nat)) : Prop := l.Pairwise (fun a b => a.1 < b.1) ∧ ∀ p ∈ l, p.2 ≠ 0

theorem elemsOk_iff : ∀ (l : List (Nat × Nat)) (prev : Option Nat),
    elemsOk prev l = true ↔ Ordered l ∧ ∀ q, prev = some q → ∀ p ∈ l, q < p.1 := by
  intro l
  induction l with
  | nil => intro prev; simp [elemsOk, Ordered]
  | cons p l ih =>
    intro prev
    rw [elemsOk_cons, Bool.and_eq_true, Bool.and_eq_true, ih]
    constructor
    · rintro ⟨⟨h1, h2⟩, ⟨h3, h4⟩, h5⟩
      refine ⟨⟨List.pairwise_cons.mpr ⟨fun a ha => h5 _ rfl a ha, h3⟩, ?_⟩, ?_⟩
      · intro a ha
        rcases List.mem_cons.mp ha with rfl | ha
        · simpa using h2
        · exact h4 a ha
      · intro q hq a ha
        subst hq
        have hqp : q < p.1 := by simpa [sortedOk] using h1
        rcases List.mem_cons.mp ha with rfl | ha
        · exact hqp
        · exact Nat.lt_trans hqp (h5 _ rfl a ha)
    · rintro ⟨⟨h1, h2⟩, h3⟩
      rw [List.pairwise_cons] at h1
      refine ⟨⟨?_, by simpa using h2 p (by simp)⟩, ⟨h1.2, fun a ha => h2 a (List.mem_cons_of_mem _ ha)⟩, ?_⟩
      · cases prev with
        | none => rfl
        | some q => simpa [sortedOk] using h3 q rfl p (by simp)
      · intro q hq a ha
        cases hq
        exact h1.1 a ha

/-- the number of elements and the sizes as they are computed, when 16 bits are enough -/
theorem NewView.receive_opened (e : Env) (s t sp v ep cnt : Nat) (span junk : Bytes) (l : List (Nat × Nat))
    (hf : Fits [(2, t), (4, sp), (8, v), (8, ep), (2, cnt)]) (hfe : FitsE l) (hl : l.length = expected e) (hsp : span.length = sp)
    (hw : 24 + expected e * 34 + sp < 65536) :
    NewView.receive e (opened s [(2, t), (4, sp), (8, v), (8, ep), (2, cnt)] (span ++ (encElems l ++ junk))) =
      if s < e.n ∧ e.me ≠ s ∧ e.primary v = s ∧ ep = e.epoch ∧ cnt = expected e ∧ elemsOk none l = true then .ok ⟨v, ep, span, l⟩
      else .error .reject := by
  have hpre : (encF [(2, t), (4, sp), (8, v), (8, ep), (2, cnt)] ++ span).length = 24 + sp := by
    simp [encF_length, width, hsp]
  have ebody : encF [(2, t), (4, sp), (8, v), (8, ep), (2, cnt)] ++ (span ++ (encElems l ++ junk)) =
      (encF [(2, t), (4, sp), (8, v), (8, ep), (2, cnt)] ++ span) ++ (encElems l ++ junk) := by simp
  have hc : NewView.checkElems (opened s [(2, t), (4, sp), (8, v), (8, ep), (2, cnt)] (span ++ (encElems l ++ junk))) (expected e) none (24 + sp) =
      if elemsOk none l = true then .ok () else .error .reject := by
    show NewView.checkElems ⟨s, _⟩ _ _ _ = _
    rw [ebody, ← hl]
    exact checkElems_eq s junk l _ _ _ hfe hpre.symm
  have hr : NewView.readElems (opened s [(2, t), (4, sp), (8, v), (8, ep), (2, cnt)] (span ++ (encElems l ++ junk))) (expected e) (24 + sp) = .ok l := by
    show NewView.readElems ⟨s, _⟩ _ _ = _
    rw [ebody, ← hl]
    exact readElems_eq s junk l _ _ hfe hpre.symm
  unfold NewView.receive NewView.validate
  wire [opened_span hf, opened_rd hf (off := 6) (k := 8) (v := v) rfl, opened_rd hf (off := 14) (k := 8) (v := ep) rfl,
    opened_rd hf (off := 22) (k := 2) (v := cnt) rfl, hc]
  have hz : (24 + expected e * 34 + sp) % 65536 ≤ width [(2, t), (4, sp), (8, v), (8, ep), (2, cnt)] + (span ++ (encElems l ++ junk)).length := by
    rw [Nat.mod_eq_of_lt hw]
    simp only [width, List.length_append, encElems_length, hl, hsp]
    omega
  simp only [hz, true_and]
  apply ite_congr_pos
  rintro ⟨_, _, _, _, h5, _⟩
  subst h5
  rw [opened_rdB 0 (by simp only [width]) (by simp [hsp]), bind_ok, hr, bind_ok]
  rw [List.drop_zero, List.take_left' hsp]

/-- what a new-view message must say to be accepted -/
structure NewView.Valid (e : Env) (sender : Nat) (a : NewView) : Prop where
  replica : sender < e.n
  other : sender ≠ e.me
  primary : e.primary a.view = sender
  epoch : a.epoch = e.epoch
  /-- one element of each of `2f + 2c + 1` replicas -/
  count : a.elems.length = 2 * e.f + 2 * e.c + 1
  ordered : Ordered a.elems
  fits : Fits (hdr codeNewView a.span a.fields)
  fitsE : FitsE a.elems

/-- the sum that the code computes in 16 bits -/
def NewView.noWrap (e : Env) (m : Msg) : Prop :=
  2 * e.f + 2 * e.c + 1 < 65536 ∧ ∀ sp, m.span = .ok sp → 24 + (2 * e.f + 2 * e.c + 1) * 34 + sp < 65536

theorem expected_of {e : Env} (h : 2 * e.f + 2 * e.c + 1 < 65536) : expected e = 2 * e.f + 2 * e.c + 1 := Nat.mod_eq_of_lt h

theorem NewView.receive_short (e : Env) (m : Msg) (h6 : 6 ≤ m.size) (sp : Nat) (hsp : m.span = .ok sp)
    (hw : NewView.noWrap e m) (hs : m.size < 24 + (2 * e.f + 2 * e.c + 1) * 34 + sp) : NewView.receive e m = .error .reject := by
  unfold NewView.receive NewView.validate
  rw [bind_assoc', hsp, bind_ok, bind_assoc', require_bind, if_neg]
  rw [expected_of hw.1, Nat.mod_eq_of_lt (hw.2 sp hsp)]
  omega

/-- a long message, taken apart -/
theorem NewView.open_long (e : Env) (m : Msg) (sp : Nat) (hsp : m.span = .ok sp) (hw : NewView.noWrap e m)
    (hs : 24 + (2 * e.f + 2 * e.c + 1) * 34 + sp ≤ m.size) :
    ∃ t v ep cnt span l junk, Fits [(2, t), (4, sp), (8, v), (8, ep), (2, cnt)] ∧ FitsE l ∧ l.length = expected e ∧ span.length = sp ∧
      m = opened m.sender [(2, t), (4, sp), (8, v), (8, ep), (2, cnt)] (span ++ (encElems l ++ junk)) := by
  obtain ⟨vs, rest, hl, hf, em⟩ := open_msg [2, 4, 8, 8, 2] m (by simp; omega)
  match vs, hl with
  | [t, sp', v, ep, cnt], _ =>
    rw [em] at hsp hs
    simp only [zipF] at hf hsp hs
    rw [opened_span hf] at hsp
    cases hsp
    rw [opened_size] at hs
    simp only [width] at hs
    obtain ⟨l, junk, h1, h2, h3⟩ := split_elems (expected e) (rest.drop sp) (by rw [expected_of hw.1]; simp; omega)
    refine ⟨t, v, ep, cnt, rest.take sp, l, junk, hf, h2, h1, by simp; omega, ?_⟩
    rw [← h3, List.take_append_drop]
    exact em

/-- messages for which the 16 bits are enough are handled without reading outside of them -/
theorem NewView.receive_safe_partial (e : Env) (m : Msg) (h6 : 6 ≤ m.size) (hw : NewView.noWrap e m) : Safe (NewView.receive e m) := by
  have hsp : ∃ sp, m.span = .ok sp :=
    ⟨leDecode ((m.body.drop 2).take 4), by unfold Msg.span; simp only [rd, slice_some (b := m.body) (off := 2) (len := 4) h6]⟩
  obtain ⟨sp, hsp⟩ := hsp
  by_cases hs : m.size < 24 + (2 * e.f + 2 * e.c + 1) * 34 + sp
  · rw [NewView.receive_short e m h6 sp hsp hw hs]; exact safe_reject
  · obtain ⟨t, v, ep, cnt, span, l, junk, h1, h2, h3, h4, em⟩ := NewView.open_long e m sp hsp hw (by omega)
    rw [em, NewView.receive_opened e _ _ _ _ _ _ _ _ _ h1 h2 h3 h4 (by rw [expected_of hw.1]; exact hw.2 sp hsp)]
    exact safe_of_ite

theorem NewView.receive_iff (e : Env) (m : Msg) (a : NewView) (h6 : 6 ≤ m.size) (ht : IsA m codeNewView) (hw : NewView.noWrap e m) :
    NewView.receive e m = .ok a ↔ a.Valid e m.sender ∧ Carries m a.encode := by
  constructor
  · intro h
    have hsp : ∃ sp, m.span = .ok sp :=
      ⟨leDecode ((m.body.drop 2).take 4), by unfold Msg.span; simp only [rd, slice_some (b := m.body) (off := 2) (len := 4) h6]⟩
    obtain ⟨sp, hsp⟩ := hsp
    by_cases hs : m.size < 24 + (2 * e.f + 2 * e.c + 1) * 34 + sp
    · rw [NewView.receive_short e m h6 sp hsp hw hs] at h; cases h
    · obtain ⟨t, v, ep, cnt, span, l, junk, h1, h2, h3, h4, em⟩ := NewView.open_long e m sp hsp hw (by omega)
      rw [em] at ht
      rw [isA_opened h1] at ht
      subst ht
      rw [em, NewView.receive_opened e _ _ _ _ _ _ _ _ _ h1 h2 h3 h4 (by rw [expected_of hw.1]; exact hw.2 sp hsp), ite_ok] at h
      obtain ⟨⟨c1, c2, c3, c4, c5, c6⟩, hh⟩ := h
      cases hh
      subst h4
      refine ⟨⟨c1, fun h => c2 h.symm, c3, c4, by rw [h3, expected_of hw.1], ((elemsOk_iff _ _).mp c6).1, ?_, h2⟩, junk, ?_⟩
      · simp only [NewView.fields, h3, ← c5]
        exact h1
      · rw [em]
        unfold NewView.encode frame
        simp only [NewView.fields, h3, ← c5, List.append_assoc]
  · rintro ⟨hv, hc⟩
    obtain ⟨junk, em⟩ := carries_frame hc
    have hf := hv.fits
    unfold NewView.fields at hf em
    have hl : a.elems.length = expected e := by rw [expected_of hw.1]; exact hv.count
    have hspan : m.span = .ok a.span.length := by rw [em]; exact opened_span hf
    rw [em, NewView.receive_opened e _ _ _ _ _ _ _ _ _ hf hv.fitsE hl rfl (by rw [expected_of hw.1]; exact hw.2 _ hspan), if_pos]
    exact ⟨hv.replica, fun h => hv.other h.symm, hv.primary, hv.epoch, hl, (elemsOk_iff _ _).mpr ⟨hv.ordered, fun q hq => by cases hq⟩⟩

/-- a span context size that makes the sum wrap: the elements are read wherever it points, far outside of the message -/
theorem NewView.receive_oob (e : Env) (s v ep cnt sp : Nat) (rest : Bytes)
    (hf : Fits [(2, codeNewView), (4, sp), (8, v), (8, ep), (2, cnt)])
    (h1 : (24 + expected e * 34 + sp) % 65536 ≤ 24 + rest.length) (h2 : s < e.n) (h3 : e.me ≠ s) (h4 : e.primary v = s) (h5 : ep = e.epoch)
    (h6 : cnt = expected e) (h7 : 0 < expected e) (h8 : rest.length < sp + 2) :
    NewView.receive e (opened s [(2, codeNewView), (4, sp), (8, v), (8, ep), (2, cnt)] rest) = .error .oob := by
  unfold NewView.receive NewView.validate
  wire [opened_span hf, opened_rd hf (off := 6) (k := 8) (v := v) rfl, opened_rd hf (off := 14) (k := 8) (v := ep) rfl,
    opened_rd hf (off := 22) (k := 2) (v := cnt) rfl]
  rw [if_pos ⟨by simp only [width]; omega, h2, h3, h4, h5, h6⟩]
  obtain ⟨k, hk⟩ : ∃ k, expected e = k + 1 := ⟨expected e - 1, by omega⟩
  rw [hk]
  unfold NewView.checkElems
  rw [rd_short (by rw [opened_size]; simp only [width]; omega), bind_err, bind_err]

end Verif.Wire
