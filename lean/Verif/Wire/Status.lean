import Verif.Wire.NewView
/-!
# Status reports
-/
set_option linter.unusedVariables false
set_option linter.unusedSimpArgs false
set_option maxRecDepth 4000
namespace Verif.Wire
open Verif.Bytes

theorem calcSize_ge (e : Env) (a b c d : Bool) : 39 ≤ calcSize e a b c d := by
  unfold calcSize
  repeat' split
  all_goals omega

theorem Status.receive_opened (e : Env) (s t sp v ls le ep fl : Nat) (rest : Bytes)
    (hf : Fits [(2, t), (4, sp), (8, v), (8, ls), (8, le), (8, ep), (1, fl)]) :
    Status.receive e (opened s [(2, t), (4, sp), (8, v), (8, ls), (8, le), (8, ep), (1, fl)] rest) =
      if sp ≤ rest.length ∧ s ≠ e.me ∧ s < e.n ∧ Int.tmod (toInt64 ls) 150 = 0 ∧ toInt64 ls ≤ toInt64 le ∧
          Status.flagsOk ⟨0, ls, le, 0, fl⟩ = true ∧
          rest.length = calcSize e (fl.testBit 0) (fl.testBit 2) (fl.testBit 3) (fl.testBit 4) - 39 + sp then
        .ok ⟨v, ls, le, ep, fl⟩ else .error .reject := by
  unfold Status.receive Status.validate
  wire [opened_span hf,
    opened_rd hf (off := 6) (k := 8) (v := v) rfl, opened_rd hf (off := 14) (k := 8) (v := ls) rfl,
    opened_rd hf (off := 22) (k := 8) (v := le) rfl, opened_rd hf (off := 30) (k := 8) (v := ep) rfl,
    opened_rd hf (off := 38) (k := 1) (v := fl) rfl]
  have hz : (39 + sp ≤ width [(2, t), (4, sp), (8, v), (8, ls), (8, le), (8, ep), (1, fl)] + rest.length) ↔ sp ≤ rest.length := by
    simp only [width]; omega
  simp only [hz]
  have hz : (width [(2, t), (4, sp), (8, v), (8, ls), (8, le), (8, ep), (1, fl)] + rest.length =
      calcSize e (fl.testBit 0) (fl.testBit 2) (fl.testBit 3) (fl.testBit 4) + sp) ↔
      rest.length = calcSize e (fl.testBit 0) (fl.testBit 2) (fl.testBit 3) (fl.testBit 4) - 39 + sp := by
    have := calcSize_ge e (fl.testBit 0) (fl.testBit 2) (fl.testBit 3) (fl.testBit 4)
    simp only [width]; omega
  simp only [hz]

theorem Status.receive_short (e : Env) (m : Msg) (h6 : 6 ≤ m.size) (h : m.size < 39) : Status.receive e m = .error .reject := by
  obtain ⟨vs, rest, hl, hf, em⟩ := open_msg [2, 4] m (by simp; omega)
  match vs, hl with
  | [t, sp], _ =>
    rw [em] at h ⊢
    simp only [zipF] at hf h ⊢
    simp only [opened_size, width] at h
    unfold Status.receive Status.validate
    wire [opened_span hf, width]
    rw [if_neg (by omega)]

theorem Status.receive_safe (e : Env) (m : Msg) (h6 : 6 ≤ m.size) : Safe (Status.receive e m) := by
  by_cases hs : m.size < 39
  · rw [Status.receive_short e m h6 hs]; exact safe_reject
  · obtain ⟨vs, rest, hl, hf, em⟩ := open_msg [2, 4, 8, 8, 8, 8, 1] m (by simp; omega)
    match vs, hl with
    | [t, sp, v, ls, le, ep, fl], _ =>
      rw [em]
      simp only [zipF] at hf ⊢
      rw [Status.receive_opened e _ _ _ _ _ _ _ _ _ hf]
      exact safe_of_ite

/-- what a report must say to be accepted -/
structure Status.Valid (e : Env) (sender : Nat) (a : Status) : Prop where
  other : sender ≠ e.me
  replica : sender < e.n
  multiple : Int.tmod (toInt64 a.stable) 150 = 0
  order : toInt64 a.stable ≤ toInt64 a.executed
  /-- in an active view the new-view message is known -/
  newView : a.active = true → a.hasNewView = true
  activeVCs : a.active = true → a.hasVCs = false
  activeMissing : a.active = true → a.hasMissing = false
  inactivePPs : a.active = false → a.hasPPs = false
  oneList : ¬ (a.hasVCs = true ∧ a.hasMissing = true)
  fits : Fits (hdr codeReplicaStatus [] a.fields)

theorem Status.flagsOk_iff (a : Status) : a.flagsOk = true ↔
    (a.active = true → a.hasNewView = true) ∧ (a.active = true → a.hasVCs = false) ∧ (a.active = true → a.hasMissing = false) ∧
      (a.active = false → a.hasPPs = false) ∧ ¬ (a.hasVCs = true ∧ a.hasMissing = true) := by
  unfold Status.flagsOk
  cases a.active <;> cases a.hasNewView <;> cases a.hasPPs <;> cases a.hasVCs <;> cases a.hasMissing <;> decide

/-- the report as it must be on the wire: nothing else may follow the lists -/
def Status.IsOn (e : Env) (m : Msg) (a : Status) (span bits : Bytes) : Prop :=
  m.body = a.encode span bits ∧ bits.length = a.listSize e ∧ span.length < 256 ^ 4

theorem fits_span {code n k : Nat} {l : List (Nat × Nat)} (h : Fits ((2, code) :: (4, n) :: l)) (hk : k < 256 ^ 4) :
    Fits ((2, code) :: (4, k) :: l) := by
  intro p hp
  rcases List.mem_cons.mp hp with rfl | hp
  · exact h _ (by simp)
  · rcases List.mem_cons.mp hp with rfl | hp
    · exact hk
    · exact h _ (by simp [hp])

theorem Status.receive_iff (e : Env) (m : Msg) (a : Status) (h6 : 6 ≤ m.size) (ht : IsA m codeReplicaStatus) :
    Status.receive e m = .ok a ↔ a.Valid e m.sender ∧ ∃ span bits, Status.IsOn e m a span bits := by
  constructor
  · intro h
    by_cases hs : m.size < 39
    · rw [Status.receive_short e m h6 hs] at h; cases h
    · obtain ⟨vs, rest, hl, hf, em⟩ := open_msg [2, 4, 8, 8, 8, 8, 1] m (by simp; omega)
      match vs, hl with
      | [t, sp, v, ls, le, ep, fl], _ =>
        rw [em] at h ht
        simp only [zipF] at hf h ht
        rw [isA_opened hf] at ht
        subst ht
        rw [Status.receive_opened e _ _ _ _ _ _ _ _ _ hf, ite_ok] at h
        obtain ⟨⟨h0, h1, h2, h3, h4, h5, h7⟩, h8⟩ := h
        cases h8
        have h5' := (Status.flagsOk_iff ⟨v, ls, le, ep, fl⟩).mp h5
        refine ⟨⟨h1, h2, h3, h4, h5'.1, h5'.2.1, h5'.2.2.1, h5'.2.2.2.1, h5'.2.2.2.2, fits_span hf (Nat.pow_pos (by omega))⟩,
          rest.take sp, rest.drop sp, ?_, ?_, ?_⟩
        · rw [em]
          unfold Status.encode frame
          rw [List.length_take_of_le h0, List.append_assoc, List.take_append_drop]
          rfl
        · rw [List.length_drop, h7]
          unfold Status.listSize Status.active Status.hasPPs Status.hasVCs Status.hasMissing
          simp only
          omega
        · rw [List.length_take_of_le h0]
          exact hf (4, sp) (by simp)
  · rintro ⟨hv, span, bits, hb, hl, hsp⟩
    have em : m = opened m.sender (hdr codeReplicaStatus span a.fields) (span ++ bits) := by
      cases m
      simp only at hb
      rw [hb]
      simp only [Status.encode, frame, List.append_assoc]
    have hf := fits_span (k := span.length) hv.fits hsp
    unfold Status.fields at hf em
    rw [em, Status.receive_opened e _ _ _ _ _ _ _ _ _ hf, if_pos]
    refine ⟨by simp, hv.other, hv.replica, hv.multiple, hv.order, ?_, ?_⟩
    · have := (Status.flagsOk_iff a).mpr ⟨hv.newView, hv.activeVCs, hv.activeMissing, hv.inactivePPs, hv.oneList⟩
      exact this
    · rw [List.length_append, hl]
      unfold Status.listSize Status.active Status.hasPPs Status.hasVCs Status.hasMissing
      omega

/-! ## The lists -/

/-- a bit of the lists -/
def bitOf (bits : Bytes) (shift index : Nat) : Bool := (bits.getD (shift + index / 8) 0).toNat.testBit (index % 8)

theorem slice_one {b : Bytes} {i : Nat} (h : i < b.length) : slice b i 1 = some [b.getD i 0] := by
  rw [slice_some (by omega)]
  congr 1
  rw [List.drop_eq_getElem_cons h, List.take_succ_cons, List.take_zero]
  simp [List.getD, h]

theorem rdBit_on {e : Env} {m : Msg} {a : Status} {span bits : Bytes} (hv : a.Valid e m.sender) (h : Status.IsOn e m a span bits)
    {shift index : Nat} (hi : shift + index / 8 < bits.length) : rdBit m shift index = .ok (bitOf bits shift index) := by
  obtain ⟨hb, hl, hsp⟩ := h
  have em : m = opened m.sender (hdr codeReplicaStatus span a.fields) (span ++ bits) := by
    cases m
    simp only at hb
    rw [hb]
    simp only [Status.encode, frame, List.append_assoc]
  have hf := fits_span (k := span.length) hv.fits hsp
  have hspan : m.span = .ok span.length := by rw [em]; exact opened_span hf
  unfold rdBit
  rw [hspan, bind_ok]
  have hw : width (hdr codeReplicaStatus span a.fields) = 39 := rfl
  have hs : slice m.body (39 + span.length + shift + index / 8) 1 = some [bits.getD (shift + index / 8) 0] := by
    have e1 : m.body = (encF (hdr codeReplicaStatus span a.fields) ++ span) ++ bits := by rw [hb]; rfl
    have hpre : (encF (hdr codeReplicaStatus span a.fields) ++ span).length = 39 + span.length := by rw [List.length_append, encF_length, hw]
    have h1 := slice_one hi
    rw [slice_some (by omega)] at h1
    rw [slice_some (by rw [e1, List.length_append, hpre]; omega), e1, List.drop_append, hpre]
    rw [List.drop_of_length_le (by omega), List.nil_append]
    rw [show 39 + span.length + shift + index / 8 - (39 + span.length) = shift + index / 8 by omega]
    exact h1
  unfold rd
  rw [hs]
  show Except.ok _ = _
  unfold bitOf
  simp [leDecode]

theorem flags_on {e : Env} {m : Msg} {a : Status} {span bits : Bytes} (hv : a.Valid e m.sender) (h : Status.IsOn e m a span bits) :
    rd m 38 1 = .ok a.flags ∧ rd m 14 8 = .ok a.stable := by
  obtain ⟨hb, hl, hsp⟩ := h
  have em : m = opened m.sender (hdr codeReplicaStatus span a.fields) (span ++ bits) := by
    cases m
    simp only at hb
    rw [hb]
    simp only [Status.encode, frame, List.append_assoc]
  have hf := fits_span (k := span.length) hv.fits hsp
  rw [em]
  exact ⟨opened_rd hf rfl, opened_rd hf rfl⟩

theorem listSize_pps {e : Env} {s : Nat} {a : Status} (hv : a.Valid e s) (h : a.hasPPs = true) : a.listSize e = windowMask + e.mask := by
  have ha : a.active = true := by
    cases hx : a.active
    · rw [hv.inactivePPs hx] at h; cases h
    · rfl
  unfold Status.listSize calcSize
  rw [h, ha]
  simp
  try omega

theorem listSize_vcs {e : Env} {s : Nat} {a : Status} (hv : a.Valid e s) (h : a.hasVCs = true) : a.listSize e = 2 * e.mask := by
  have ha : a.active = false := by
    cases hx : a.active
    · rfl
    · rw [hv.activeVCs hx] at h; cases h
  unfold Status.listSize calcSize
  rw [h, ha]
  simp
  try omega

theorem listSize_missing {e : Env} {s : Nat} {a : Status} (hv : a.Valid e s) (h : a.hasMissing = true) : a.listSize e = windowMask + e.mask := by
  have ha : a.active = false := by
    cases hx : a.active
    · rfl
    · rw [hv.activeMissing hx] at h; cases h
  have hb : a.hasVCs = false := by
    cases hx : a.hasVCs
    · rfl
    · exact absurd ⟨hx, h⟩ hv.oneList
  unfold Status.listSize calcSize
  rw [h, ha, hb]
  simp
  omega

theorem listSize_ge (e : Env) (a : Status) : e.mask ≤ a.listSize e := by
  unfold Status.listSize calcSize
  repeat' split
  all_goals omega

theorem div8_lt_mask {e : Env} {r : Nat} (h : r < e.maxReplicas) : r / 8 < e.mask := by
  unfold Env.mask; omega

/-- complaints: every replica may be asked for -/
theorem hasComplaint_on {e : Env} {m : Msg} {a : Status} {span bits : Bytes} (hv : a.Valid e m.sender) (h : Status.IsOn e m a span bits)
    {r : Nat} (hr : r < e.maxReplicas) : hasComplaint e m r = .ok (bitOf bits 0 r) := by
  have := div8_lt_mask hr
  have := listSize_ge e a
  have hb := h.2.1
  unfold hasComplaint
  rw [assert_bind, if_pos hr]
  exact rdBit_on hv h (by omega)

/-- view changes that are missing -/
theorem isMissingViewChange_on {e : Env} {m : Msg} {a : Status} {span bits : Bytes} (hv : a.Valid e m.sender) (h : Status.IsOn e m a span bits)
    {r : Nat} (hr : r < e.maxReplicas) (hl : a.hasVCs = true) : isMissingViewChange e m r = .ok (bitOf bits e.mask r) := by
  have := div8_lt_mask hr
  have := listSize_vcs hv hl
  have hb := h.2.1
  unfold isMissingViewChange
  rw [(flags_on hv h).1, bind_ok, assert_bind, if_pos (show a.flags.testBit 3 = true from hl), assert_bind, if_pos hr]
  exact rdBit_on hv h (by omega)

/-- PrePrepare messages of the window that the sender has -/
theorem isPrePrepareInWindow_on {e : Env} {m : Msg} {a : Status} {span bits : Bytes} (hv : a.Valid e m.sender) (h : Status.IsOn e m a span bits)
    {q : Int} (h1 : toInt64 a.stable < q) (h2 : q ≤ toInt64 a.stable + 300) (hl : a.hasPPs = true) :
    isPrePrepareInWindow e m q = .ok (bitOf bits e.mask (q - toInt64 a.stable - 1).toNat) := by
  have := listSize_pps hv hl
  have hb := h.2.1
  have hw : windowMask = 38 := rfl
  unfold isPrePrepareInWindow
  rw [(flags_on hv h).1, bind_ok, assert_bind, if_pos (show a.flags.testBit 2 = true from hl), (flags_on hv h).2, bind_ok, assert_bind, if_pos h1, assert_bind, if_pos h2]
  exact rdBit_on hv h (by omega)

/-- PrePrepare messages that the sender misses for a view change -/
theorem isMissingPrePrepare_on {e : Env} {m : Msg} {a : Status} {span bits : Bytes} (hv : a.Valid e m.sender) (h : Status.IsOn e m a span bits)
    {q : Int} (h1 : toInt64 a.stable < q) (h2 : q ≤ toInt64 a.stable + 300) (hl : a.hasMissing = true) :
    isMissingPrePrepare e m q = .ok (bitOf bits e.mask (q - toInt64 a.stable - 1).toNat) := by
  have := listSize_missing hv hl
  have hb := h.2.1
  have hw : windowMask = 38 := rfl
  unfold isMissingPrePrepare
  rw [(flags_on hv h).1, bind_ok, assert_bind, if_pos (show a.flags.testBit 4 = true from hl), (flags_on hv h).2, bind_ok, assert_bind, if_pos h1, assert_bind, if_pos h2]
  exact rdBit_on hv h (by omega)

/-! ## Marking -/

theorem setBit_length (bits : Bytes) (shift index : Nat) : (setBit bits shift index).length = bits.length := by
  simp [setBit]

theorem testBit_mark (b : UInt8) (i j : Nat) (hi : i < 8) :
    (UInt8.ofNat (b.toNat ||| 2 ^ i)).toNat.testBit j = (b.toNat.testBit j || decide (i = j)) := by
  have h1 : b.toNat < 2 ^ 8 := b.toNat_lt
  have h2 : 2 ^ i < 2 ^ 8 := Nat.pow_lt_pow_right (by omega) hi
  have h3 := Nat.or_lt_two_pow h1 h2
  rw [UInt8.toNat_ofNat_of_lt' h3, Nat.testBit_or, Nat.testBit_two_pow]

/-- one bit is set and no other -/
theorem bitOf_setBit (bits : Bytes) (s1 i s2 j : Nat) (h : s1 + i / 8 < bits.length) :
    bitOf (setBit bits s1 i) s2 j = (bitOf bits s2 j || decide (s1 + i / 8 = s2 + j / 8 ∧ i % 8 = j % 8)) := by
  unfold bitOf setBit
  by_cases hb : s1 + i / 8 = s2 + j / 8
  · rw [← hb]
    have e1 : (List.modify bits (s1 + i / 8) fun b => UInt8.ofNat (b.toNat ||| 2 ^ (i % 8))).getD (s1 + i / 8) 0 =
        UInt8.ofNat ((bits.getD (s1 + i / 8) 0).toNat ||| 2 ^ (i % 8)) := by
      simp [List.getD, h]
    rw [e1, testBit_mark _ _ _ (Nat.mod_lt _ (by omega))]
    simp
  · have e1 : (List.modify bits (s1 + i / 8) fun b => UInt8.ofNat (b.toNat ||| 2 ^ (i % 8))).getD (s2 + j / 8) 0 = bits.getD (s2 + j / 8) 0 := by
      simp [List.getD, List.getElem?_modify, hb]
    rw [e1]
    simp [hb]

/-- marks of one list -/
def marked (bits : Bytes) (shift : Nat) : List Nat → Bytes
  | [] => bits
  | i :: l => setBit (marked bits shift l) shift i

theorem marked_length (bits : Bytes) (shift : Nat) (l : List Nat) : (marked bits shift l).length = bits.length := by
  induction l with
  | nil => rfl
  | cons i l ih => simp [marked, setBit_length, ih]

theorem bitOf_marked (bits : Bytes) (s1 s2 j : Nat) : ∀ (l : List Nat), (∀ i ∈ l, s1 + i / 8 < bits.length) →
    bitOf (marked bits s1 l) s2 j = (bitOf bits s2 j || decide (∃ i ∈ l, s1 + i / 8 = s2 + j / 8 ∧ i % 8 = j % 8)) := by
  intro l
  induction l with
  | nil => intro h; simp [marked]
  | cons i l ih =>
    intro h
    unfold marked
    rw [bitOf_setBit _ _ _ _ _ (by rw [marked_length]; exact h i (by simp)), ih (fun k hk => h k (List.mem_cons_of_mem _ hk))]
    rw [Bool.eq_iff_iff]
    simp only [Bool.or_eq_true, decide_eq_true_eq, List.mem_cons, exists_eq_or_imp]
    exact ⟨fun h => h.elim (fun h => h.elim Or.inl (fun h => Or.inr (Or.inr h))) (fun h => Or.inr (Or.inl h)),
      fun h => h.elim (fun h => Or.inl (Or.inl h)) (fun h => h.elim Or.inr (fun h => Or.inl (Or.inr h)))⟩

/-- the lists of a report as its sender fills them: complaints and, in the second list, `ms` -/
def lists (e : Env) (size : Nat) (cs ms : List Nat) : Bytes := marked (marked (List.replicate size 0) e.mask ms) 0 cs

theorem lists_length (e : Env) (size : Nat) (cs ms : List Nat) : (lists e size cs ms).length = size := by
  simp [lists, marked_length]

theorem bitOf_zero (n s j : Nat) : bitOf (List.replicate n 0) s j = false := by
  unfold bitOf
  have : (List.replicate n (0 : UInt8)).getD (s + j / 8) 0 = 0 := by
    simp only [List.getD, List.getElem?_replicate]
    split <;> rfl
  rw [this]
  simp

/-- what is read of the complaints is what was written -/
theorem lists_complaints (e : Env) (size : Nat) (cs ms : List Nat) (hc : ∀ c ∈ cs, c < e.maxReplicas) (hs : e.mask ≤ size)
    (hm : ∀ i ∈ ms, e.mask + i / 8 < size) (r : Nat) (hr : r < e.maxReplicas) :
    bitOf (lists e size cs ms) 0 r = decide (r ∈ cs) := by
  unfold lists
  rw [bitOf_marked _ _ _ _ _ (by
    intro i hi
    have := div8_lt_mask (hc i hi)
    rw [marked_length, List.length_replicate]; omega), bitOf_marked _ _ _ _ _ (by intro i hi; rw [List.length_replicate]; exact hm i hi), bitOf_zero]
  rw [Bool.eq_iff_iff]
  have := div8_lt_mask hr
  simp only [Bool.or_eq_true, decide_eq_true_eq, Bool.false_eq_true, false_or]
  constructor
  · rintro (⟨i, hi, h1, h2⟩ | ⟨i, hi, h1, h2⟩)
    · omega
    · have : i = r := by omega
      rw [← this]; exact hi
  · intro h
    exact Or.inr ⟨r, h, rfl, rfl⟩

/-- and of the other list -/
theorem lists_second (e : Env) (size : Nat) (cs ms : List Nat) (hc : ∀ c ∈ cs, c < e.maxReplicas) (hs : e.mask ≤ size)
    (hm : ∀ i ∈ ms, e.mask + i / 8 < size) (j : Nat) :
    bitOf (lists e size cs ms) e.mask j = decide (j ∈ ms) := by
  unfold lists
  rw [bitOf_marked _ _ _ _ _ (by
    intro i hi
    have := div8_lt_mask (hc i hi)
    rw [marked_length, List.length_replicate]; omega), bitOf_marked _ _ _ _ _ (by intro i hi; rw [List.length_replicate]; exact hm i hi), bitOf_zero]
  rw [Bool.eq_iff_iff]
  simp only [Bool.or_eq_true, decide_eq_true_eq, Bool.false_eq_true, false_or]
  constructor
  · rintro (⟨i, hi, h1, h2⟩ | ⟨i, hi, h1, h2⟩)
    · have : i = j := by omega
      rw [← this]; exact hi
    · have := div8_lt_mask (hc i hi)
      omega
  · intro h
    exact Or.inl ⟨j, h, rfl, rfl⟩

/-- complaints reach the receiver as the sender listed them -/
theorem Status.complaints_arrive (e : Env) (m : Msg) (a : Status) (span : Bytes) (cs ms : List Nat) (hv : a.Valid e m.sender)
    (hb : m.body = a.encode span (lists e (a.listSize e) cs ms)) (hsp : span.length < 256 ^ 4)
    (hc : ∀ c ∈ cs, c < e.maxReplicas) (hm : ∀ i ∈ ms, e.mask + i / 8 < a.listSize e) (r : Nat) (hr : r < e.maxReplicas) :
    hasComplaint e m r = .ok (decide (r ∈ cs)) := by
  have hon : Status.IsOn e m a span (lists e (a.listSize e) cs ms) := ⟨hb, lists_length _ _ _ _, hsp⟩
  rw [hasComplaint_on hv hon hr, lists_complaints e _ cs ms hc (listSize_ge e a) hm r hr]

/-- missing view changes reach the receiver as the sender listed them -/
theorem Status.viewChanges_arrive (e : Env) (m : Msg) (a : Status) (span : Bytes) (cs ms : List Nat) (hv : a.Valid e m.sender)
    (hl : a.hasVCs = true)
    (hb : m.body = a.encode span (lists e (a.listSize e) cs ms)) (hsp : span.length < 256 ^ 4)
    (hc : ∀ c ∈ cs, c < e.maxReplicas) (hm : ∀ i ∈ ms, i < e.maxReplicas) (r : Nat) (hr : r < e.maxReplicas) :
    isMissingViewChange e m r = .ok (decide (r ∈ ms)) := by
  have hon : Status.IsOn e m a span (lists e (a.listSize e) cs ms) := ⟨hb, lists_length _ _ _ _, hsp⟩
  have hm' : ∀ i ∈ ms, e.mask + i / 8 < a.listSize e := by
    intro i hi
    have := div8_lt_mask (hm i hi)
    rw [listSize_vcs hv hl]; omega
  rw [isMissingViewChange_on hv hon hr hl, lists_second e _ cs ms hc (listSize_ge e a) hm' r]

/-- the place of a number in a list of the window -/
def place (stable : Nat) (q : Int) : Nat := (q - toInt64 stable - 1).toNat

/-- PrePrepare messages that the sender has or misses reach the receiver as the sender listed them: `qs` are sequence numbers -/
theorem Status.window_arrives (e : Env) (m : Msg) (a : Status) (span : Bytes) (cs : List Nat) (qs : List Int) (hv : a.Valid e m.sender)
    (hb : m.body = a.encode span (lists e (a.listSize e) cs (qs.map (place a.stable)))) (hsp : span.length < 256 ^ 4)
    (hc : ∀ c ∈ cs, c < e.maxReplicas) (hq : ∀ q ∈ qs, toInt64 a.stable < q ∧ q ≤ toInt64 a.stable + 300)
    (q : Int) (h1 : toInt64 a.stable < q) (h2 : q ≤ toInt64 a.stable + 300) :
    (a.hasPPs = true → isPrePrepareInWindow e m q = .ok (decide (q ∈ qs))) ∧
      (a.hasMissing = true → isMissingPrePrepare e m q = .ok (decide (q ∈ qs))) := by
  have hon : Status.IsOn e m a span (lists e (a.listSize e) cs (qs.map (place a.stable))) := ⟨hb, lists_length _ _ _ _, hsp⟩
  have hin : decide (place a.stable q ∈ qs.map (place a.stable)) = decide (q ∈ qs) := by
    rw [Bool.eq_iff_iff, decide_eq_true_eq, decide_eq_true_eq, List.mem_map]
    constructor
    · rintro ⟨x, hx, ex⟩
      have := hq x hx
      have : x = q := by unfold place at ex; omega
      rw [← this]; exact hx
    · intro h; exact ⟨q, h, rfl⟩
  have hw : windowMask = 38 := rfl
  have hm' : a.listSize e = windowMask + e.mask → ∀ i ∈ qs.map (place a.stable), e.mask + i / 8 < a.listSize e := by
    intro he i hi
    obtain ⟨x, hx, ex⟩ := List.mem_map.mp hi
    have := hq x hx
    unfold place at ex
    omega
  constructor
  · intro hl
    rw [isPrePrepareInWindow_on hv hon h1 h2 hl]
    rw [← hin]
    exact congrArg Except.ok (lists_second e _ cs _ hc (listSize_ge e a) (hm' (listSize_pps hv hl)) _)
  · intro hl
    rw [isMissingPrePrepare_on hv hon h1 h2 hl]
    rw [← hin]
    exact congrArg Except.ok (lists_second e _ cs _ hc (listSize_ge e a) (hm' (listSize_missing hv hl)) _)

end Verif.Wire
