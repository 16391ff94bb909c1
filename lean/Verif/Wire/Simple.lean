import Verif.Wire.Basic
/-!
# Messages with fixed fields: acknowledgements, slow path, missing data, signature shares
-/
set_option linter.unusedVariables false
set_option linter.unusedSimpArgs false
namespace Verif.Wire
open Verif.Bytes

theorem zip2 (a b : Nat) : zipF [a] [b] = [(a, b)] := rfl

/-- a message that begins with the given fields -/
abbrev opened (s : Nat) (l : List (Nat × Nat)) (rest : Bytes) : Msg := ⟨s, encF l ++ rest⟩

theorem opened_size (s : Nat) (l : List (Nat × Nat)) (rest : Bytes) : (opened s l rest).size = width l + rest.length := by
  simp [opened, Msg.size, encF_length]

theorem opened_rd {s : Nat} {l : List (Nat × Nat)} {rest : Bytes} {off k v : Nat} (hf : Fits l) (h : look l off k = some v) :
    rd (opened s l rest) off k = .ok v := rd_look hf h

theorem opened_rdB {s : Nat} {l : List (Nat × Nat)} {rest : Bytes} {off n : Nat} (k : Nat) (ho : off = width l + k)
    (h : k + n ≤ rest.length) : rdB (opened s l rest) off n = .ok ((rest.drop k).take n) := rdB_rest k ho h

theorem opened_type {s t sp : Nat} {l : List (Nat × Nat)} {rest : Bytes} (hf : Fits ((2, t) :: (4, sp) :: l)) :
    (opened s ((2, t) :: (4, sp) :: l) rest).type = .ok t := opened_rd hf rfl

theorem opened_span {s t sp : Nat} {l : List (Nat × Nat)} {rest : Bytes} (hf : Fits ((2, t) :: (4, sp) :: l)) :
    (opened s ((2, t) :: (4, sp) :: l) rest).span = .ok sp := opened_rd hf rfl

/-- a message that is long enough for its fields -/
theorem open_msg (ws : List Nat) (m : Msg) (h : ws.sum ≤ m.size) :
    ∃ vs rest, vs.length = ws.length ∧ Fits (zipF ws vs) ∧ m = opened m.sender (zipF ws vs) rest := by
  obtain ⟨vs, r, hl, hf, e⟩ := peels ws m.body h
  exact ⟨vs, r, hl, hf, by cases m; simp only [opened]; simp only at e; rw [← e]⟩

/-- the sender announces the type and the handler is chosen by it -/
def IsA (m : Msg) (code : Nat) : Prop := m.type = .ok code

theorem isA_opened {s t sp code : Nat} {l : List (Nat × Nat)} {rest : Bytes} (hf : Fits ((2, t) :: (4, sp) :: l)) :
    IsA (opened s ((2, t) :: (4, sp) :: l) rest) code ↔ t = code := by
  unfold IsA; rw [opened_type hf]; simp

/-- run a receiver on a message with known fields -/
syntax "wire" "[" Lean.Parser.Tactic.simpLemma,* "]" : tactic
macro_rules
  | `(tactic| wire [$xs,*]) =>
    `(tactic| simp only [bind_assoc', require_bind, assert_bind, ite_bind, bind_err, bind_ok, opened_size, ite_ite, and_assoc, $xs,*])

/-- the fields of a header -/
abbrev hdr (code : Nat) (span : Bytes) (fields : List (Nat × Nat)) : List (Nat × Nat) := (2, code) :: (4, span.length) :: fields

/-- the message is these bytes, and perhaps more -/
def Carries (m : Msg) (b : Bytes) : Prop := ∃ junk, m.body = b ++ junk

theorem carries_frame {m : Msg} {code : Nat} {fields : List (Nat × Nat)} {span tail : Bytes} (h : Carries m (frame code fields span tail)) :
    ∃ junk, m = opened m.sender (hdr code span fields) (span ++ (tail ++ junk)) := by
  obtain ⟨junk, e⟩ := h
  refine ⟨junk, ?_⟩
  cases m
  simp only at e
  simp only [e, frame, List.append_assoc]

theorem frame_carries {s code sp k : Nat} {fields : List (Nat × Nat)} {rest : Bytes} (h : sp + k ≤ rest.length) :
    Carries (opened s ((2, code) :: (4, sp) :: fields) rest) (frame code fields (rest.take sp) ((rest.drop sp).take k)) := by
  refine ⟨rest.drop (sp + k), ?_⟩
  have hl : (rest.take sp).length = sp := by simp; omega
  simp only [frame, hl, List.append_assoc]
  congr 1
  rw [← List.drop_drop, List.take_append_drop, List.take_append_drop]

theorem ite_congr_pos {α : Type} {p : Prop} [Decidable p] {x x' y : α} (h : p → x = x') :
    (if p then x else y) = if p then x' else y := by
  split
  · exact h (by assumption)
  · rfl

theorem safe_of_ite {α : Type} {p : Prop} [Decidable p] {a : α} : Safe (if p then .ok a else .error .reject : R α) := by
  split
  · exact safe_ok a
  · exact safe_reject

theorem hdr_take {code sp : Nat} {fields : List (Nat × Nat)} {rest : Bytes} (h : sp ≤ rest.length) :
    hdr code (rest.take sp) fields = (2, code) :: (4, sp) :: fields := by
  simp only [hdr, List.length_take_of_le h]

/-- the header and what follows, as it is signed -/
theorem opened_rdB0 {s : Nat} {l : List (Nat × Nat)} {rest : Bytes} {n : Nat} (k : Nat) (ho : n = width l + k) (h : k ≤ rest.length) :
    rdB (opened s l rest) 0 n = .ok (encF l ++ rest.take k) := by
  have h1 : 0 + n ≤ (encF l ++ rest).length := by simp [encF_length, ho]; omega
  simp only [rdB, slice_some h1]
  rw [ho, ← encF_length, List.drop_zero, List.take_length_add_append]

/-- verification of the header and `k` bytes, with a signature `j` bytes after the header -/
theorem opened_verify {e : Env} {s : Nat} {l : List (Nat × Nat)} {rest : Bytes} {g n o len : Nat} (k j : Nat)
    (hn : n = width l + k) (ho : o = width l + j) (h1 : k ≤ rest.length) (h2 : j + len ≤ rest.length) :
    verifyAt e (opened s l rest) g 0 n o len =
      .ok (e.known g && e.verify g (encF l ++ rest.take k) ((rest.drop j).take len)) := by
  unfold verifyAt
  rw [opened_rdB0 k hn h1, opened_rdB j ho h2]
  cases hk : e.known g
  · rfl
  · simp only [if_true, bind_ok, Bool.true_and]

theorem length_pick {b : Bytes} {i j : Nat} (h : i + j ≤ b.length) : ((b.drop i).take j).length = j := by
  simp; omega

/-! ## Acknowledgements -/

theorem Ack.receive_short (e : Env) (m : Msg) (h : m.size < 38) : Ack.receive e m = .error .reject := by
  unfold Ack.receive Ack.validate
  rw [bind_assoc', require_bind, if_neg (by omega)]

theorem Ack.receive_opened (e : Env) (s t sp sq v ep d : Nat) (rest : Bytes)
    (hf : Fits [(2, t), (4, sp), (8, sq), (8, v), (8, ep), (8, d)]) :
    Ack.receive e (opened s [(2, t), (4, sp), (8, sq), (8, v), (8, ep), (8, d)] rest) =
      if ep = e.epoch ∧ s ≠ e.me ∧ s < e.n then .ok ⟨sp, sq, v, ep, d⟩ else .error .reject := by
  unfold Ack.receive Ack.validate
  wire [opened_span hf,
    opened_rd hf (off := 6) (k := 8) (v := sq) rfl, opened_rd hf (off := 14) (k := 8) (v := v) rfl,
    opened_rd hf (off := 22) (k := 8) (v := ep) rfl, opened_rd hf (off := 30) (k := 8) (v := d) rfl]
  have : 38 ≤ width [(2, t), (4, sp), (8, sq), (8, v), (8, ep), (8, d)] + rest.length := by simp only [width]; omega
  simp only [this, true_and]

/-- what an acknowledgement must say to be accepted -/
structure Ack.Valid (e : Env) (sender : Nat) (a : Ack) : Prop where
  epoch : a.epoch = e.epoch
  other : sender ≠ e.me
  replica : sender < e.n
  fits : Fits a.header

theorem Ack.receive_iff (e : Env) (m : Msg) (a : Ack) (ht : IsA m codeSimpleAck) :
    Ack.receive e m = .ok a ↔ a.Valid e m.sender ∧ Carries m a.encode := by
  constructor
  · intro h
    by_cases hs : m.size < 38
    · rw [Ack.receive_short e m hs] at h; cases h
    · obtain ⟨vs, rest, hl, hf, em⟩ := open_msg [2, 4, 8, 8, 8, 8] m (by simp; omega)
      match vs, hl with
      | [t, sp, sq, v, ep, d], _ =>
        rw [em] at h ht
        simp only [zipF] at hf h ht
        rw [isA_opened hf] at ht
        rw [Ack.receive_opened e _ _ _ _ _ _ _ _ hf, ite_ok] at h
        obtain ⟨⟨h1, h2, h3⟩, h4⟩ := h
        cases h4
        subst ht
        exact ⟨⟨h1, h2, h3, hf⟩, rest, by rw [em]; rfl⟩
  · rintro ⟨⟨h1, h2, h3, hf⟩, junk, e1⟩
    have em : m = opened m.sender a.header junk := by cases m; simp only at e1; rw [e1]; rfl
    rw [em]
    unfold Ack.header at hf ⊢
    rw [Ack.receive_opened e _ _ _ _ _ _ _ _ hf, if_pos ⟨h1, h2, h3⟩]

theorem Ack.receive_safe (e : Env) (m : Msg) : Safe (Ack.receive e m) := by
  by_cases hs : m.size < 38
  · rw [Ack.receive_short e m hs]; exact safe_reject
  · obtain ⟨vs, rest, hl, hf, em⟩ := open_msg [2, 4, 8, 8, 8, 8] m (by simp; omega)
    match vs, hl with
    | [t, sp, sq, v, ep, d], _ =>
      rw [em]
      simp only [zipF] at hf ⊢
      rw [Ack.receive_opened e _ _ _ _ _ _ _ _ hf]
      exact safe_of_ite

/-! ## The slow path -/

theorem Slow.receive_opened (e : Env) (s t sp v sq ep : Nat) (rest : Bytes)
    (hf : Fits [(2, t), (4, sp), (8, v), (8, sq), (8, ep)]) :
    Slow.receive e (opened s [(2, t), (4, sp), (8, v), (8, sq), (8, ep)] rest) =
      if sp ≤ rest.length ∧ ep = e.epoch ∧ e.primary v = s then .ok ⟨v, sq, ep, rest.take sp⟩ else .error .reject := by
  unfold Slow.receive Slow.validate
  wire [opened_span hf,
    opened_rd hf (off := 6) (k := 8) (v := v) rfl,
    opened_rd hf (off := 14) (k := 8) (v := sq) rfl,
    opened_rd hf (off := 22) (k := 8) (v := ep) rfl]
  have hz : (30 + sp ≤ width [(2, t), (4, sp), (8, v), (8, sq), (8, ep)] + rest.length) ↔ sp ≤ rest.length := by simp only [width]; omega
  simp only [hz, and_assoc]
  clear hz
  apply ite_congr_pos
  rintro hh
  rw [opened_rdB (0) (by simp only [width]; try omega) (by omega)]
  rfl

theorem Slow.receive_short (e : Env) (m : Msg) (h6 : 6 ≤ m.size) (h : m.size < 30) : Slow.receive e m = .error .reject := by
  obtain ⟨vs, rest, hl, hf, em⟩ := open_msg [2, 4] m (by simp; omega)
  match vs, hl with
  | [t, sp], _ =>
    rw [em] at h ⊢
    simp only [zipF] at hf h ⊢
    simp only [opened_size, width] at h
    unfold Slow.receive Slow.validate
    wire [opened_span hf, width]
    rw [if_neg (by omega)]

/-- what a message must say to be accepted -/
structure Slow.Valid (e : Env) (sender : Nat) (a : Slow) : Prop where
  epoch : a.epoch = e.epoch
  primary : e.primary a.view = sender
  fits : Fits (hdr codeStartSlowCommit a.span a.fields)

theorem Slow.receive_iff (e : Env) (m : Msg) (a : Slow) (h6 : 6 ≤ m.size) (ht : IsA m codeStartSlowCommit) :
    Slow.receive e m = .ok a ↔ Slow.Valid e m.sender a ∧ Carries m a.encode := by
  constructor
  · intro h
    by_cases hs : m.size < 30
    · rw [Slow.receive_short e m h6 hs] at h; cases h
    · obtain ⟨vs, rest, hl, hf, em⟩ := open_msg [2, 4, 8, 8, 8] m (by simp; omega)
      match vs, hl with
      | [t, sp, v, sq, ep], _ =>
        rw [em] at h ht
        simp only [zipF] at hf h ht
        rw [isA_opened hf] at ht
        subst ht
        rw [Slow.receive_opened e _ _ _ _ _ _ _ hf, ite_ok] at h
        obtain ⟨⟨h0, h1, h2⟩, h4⟩ := h
        cases h4
        have hl : (rest.take sp).length = sp := by simp; omega
        refine ⟨⟨h1, h2, ?_⟩, ?_⟩
        · simp only [Slow.fields]
          rw [hdr_take (by omega)]
          exact hf
        · rw [em]
          have := frame_carries (s := m.sender) (code := codeStartSlowCommit) (fields := [(8, v), (8, sq), (8, ep)]) (k := 0) (rest := rest) (sp := sp) (by omega)
          rw [List.take_zero] at this
          exact this
  · rintro ⟨⟨h1, h2, hf⟩, hc⟩
    obtain ⟨junk, em⟩ := carries_frame hc
    rw [em]
    unfold Slow.fields at hf ⊢
    rw [Slow.receive_opened e _ _ _ _ _ _ _ hf, if_pos ⟨by simp, h1, h2⟩]
    simp

theorem Slow.receive_safe (e : Env) (m : Msg) (h6 : 6 ≤ m.size) : Safe (Slow.receive e m) := by
  by_cases hs : m.size < 30
  · rw [Slow.receive_short e m h6 hs]; exact safe_reject
  · obtain ⟨vs, rest, hl, hf, em⟩ := open_msg [2, 4, 8, 8, 8] m (by simp; omega)
    match vs, hl with
    | [t, sp, v, sq, ep], _ =>
      rw [em]
      simp only [zipF] at hf ⊢
      rw [Slow.receive_opened e _ _ _ _ _ _ _ hf]
      exact safe_of_ite

/-! ## Missing data -/

theorem Missing.receive_opened (e : Env) (s t sp v sq ep fl : Nat) (rest : Bytes)
    (hf : Fits [(2, t), (4, sp), (8, v), (8, sq), (8, ep), (2, fl)]) :
    Missing.receive e (opened s [(2, t), (4, sp), (8, v), (8, sq), (8, ep), (2, fl)] rest) =
      if sp ≤ rest.length ∧ s ≠ e.me ∧ s < e.n ∧ ep = e.epoch then .ok ⟨v, sq, ep, fl, rest.take sp⟩ else .error .reject := by
  unfold Missing.receive Missing.validate
  wire [opened_span hf,
    opened_rd hf (off := 6) (k := 8) (v := v) rfl,
    opened_rd hf (off := 14) (k := 8) (v := sq) rfl,
    opened_rd hf (off := 22) (k := 8) (v := ep) rfl,
    opened_rd hf (off := 30) (k := 2) (v := fl) rfl]
  have hz : (32 + sp ≤ width [(2, t), (4, sp), (8, v), (8, sq), (8, ep), (2, fl)] + rest.length) ↔ sp ≤ rest.length := by simp only [width]; omega
  simp only [hz, and_assoc]
  clear hz
  apply ite_congr_pos
  rintro hh
  rw [opened_rdB (0) (by simp only [width]; try omega) (by omega)]
  rfl

theorem Missing.receive_short (e : Env) (m : Msg) (h6 : 6 ≤ m.size) (h : m.size < 32) : Missing.receive e m = .error .reject := by
  obtain ⟨vs, rest, hl, hf, em⟩ := open_msg [2, 4] m (by simp; omega)
  match vs, hl with
  | [t, sp], _ =>
    rw [em] at h ⊢
    simp only [zipF] at hf h ⊢
    simp only [opened_size, width] at h
    unfold Missing.receive Missing.validate
    wire [opened_span hf, width]
    rw [if_neg (by omega)]

/-- what a message must say to be accepted -/
structure Missing.Valid (e : Env) (sender : Nat) (a : Missing) : Prop where
  other : sender ≠ e.me
  replica : sender < e.n
  epoch : a.epoch = e.epoch
  fits : Fits (hdr codeReqMissingData a.span a.fields)

theorem Missing.receive_iff (e : Env) (m : Msg) (a : Missing) (h6 : 6 ≤ m.size) (ht : IsA m codeReqMissingData) :
    Missing.receive e m = .ok a ↔ Missing.Valid e m.sender a ∧ Carries m a.encode := by
  constructor
  · intro h
    by_cases hs : m.size < 32
    · rw [Missing.receive_short e m h6 hs] at h; cases h
    · obtain ⟨vs, rest, hl, hf, em⟩ := open_msg [2, 4, 8, 8, 8, 2] m (by simp; omega)
      match vs, hl with
      | [t, sp, v, sq, ep, fl], _ =>
        rw [em] at h ht
        simp only [zipF] at hf h ht
        rw [isA_opened hf] at ht
        subst ht
        rw [Missing.receive_opened e _ _ _ _ _ _ _ _ hf, ite_ok] at h
        obtain ⟨⟨h0, h1, h2, h3⟩, h4⟩ := h
        cases h4
        have hl : (rest.take sp).length = sp := by simp; omega
        refine ⟨⟨h1, h2, h3, ?_⟩, ?_⟩
        · simp only [Missing.fields]
          rw [hdr_take (by omega)]
          exact hf
        · rw [em]
          have := frame_carries (s := m.sender) (code := codeReqMissingData) (fields := [(8, v), (8, sq), (8, ep), (2, fl)]) (k := 0) (rest := rest) (sp := sp) (by omega)
          rw [List.take_zero] at this
          exact this
  · rintro ⟨⟨h1, h2, h3, hf⟩, hc⟩
    obtain ⟨junk, em⟩ := carries_frame hc
    rw [em]
    unfold Missing.fields at hf ⊢
    rw [Missing.receive_opened e _ _ _ _ _ _ _ _ hf, if_pos ⟨by simp, h1, h2, h3⟩]
    simp

theorem Missing.receive_safe (e : Env) (m : Msg) (h6 : 6 ≤ m.size) : Safe (Missing.receive e m) := by
  by_cases hs : m.size < 32
  · rw [Missing.receive_short e m h6 hs]; exact safe_reject
  · obtain ⟨vs, rest, hl, hf, em⟩ := open_msg [2, 4, 8, 8, 8, 2] m (by simp; omega)
    match vs, hl with
    | [t, sp, v, sq, ep, fl], _ =>
      rw [em]
      simp only [zipF] at hf ⊢
      rw [Missing.receive_opened e _ _ _ _ _ _ _ _ hf]
      exact safe_of_ite

/-! ## Signature shares and combined signatures -/

theorem Share.receivePartial_opened (e : Env) (code : Nat) (s sp v sq ep sl : Nat) (rest : Bytes)
    (hf : Fits [(2, code), (4, sp), (8, v), (8, sq), (8, ep), (2, sl)]) :
    Share.receivePartial e code (opened s [(2, code), (4, sp), (8, v), (8, sq), (8, ep), (2, sl)] rest) =
      if sp ≤ rest.length ∧ sl + sp ≤ rest.length ∧ s ≠ e.me ∧ ep = e.epoch ∧ s < e.n ∧ e.me = e.primary v then .ok ⟨v, sq, ep, rest.take sp, (rest.drop sp).take sl⟩ else .error .reject := by
  unfold Share.receivePartial Share.validatePartial Share.validateBase Share.access
  wire [opened_type hf, opened_span hf,
    opened_rd hf (off := 6) (k := 8) (v := v) rfl,
    opened_rd hf (off := 14) (k := 8) (v := sq) rfl,
    opened_rd hf (off := 22) (k := 8) (v := ep) rfl,
    opened_rd hf (off := 30) (k := 2) (v := sl) rfl]
  simp only [if_true]
  have hz : (32 + sp ≤ width [(2, code), (4, sp), (8, v), (8, sq), (8, ep), (2, sl)] + rest.length) ↔ sp ≤ rest.length := by simp only [width]; omega
  simp only [hz, and_assoc]
  clear hz
  have hz : (32 + sl + sp ≤ width [(2, code), (4, sp), (8, v), (8, sq), (8, ep), (2, sl)] + rest.length) ↔ sl + sp ≤ rest.length := by simp only [width]; omega
  simp only [hz, and_assoc]
  clear hz
  apply ite_congr_pos
  rintro hh
  rw [opened_rdB (0) (by simp only [width]; try omega) (by omega)]
  rw [opened_rdB (sp) (by simp only [width]; try omega) (by omega)]
  rfl

theorem Share.receivePartial_short (e : Env) (code : Nat) (m : Msg) (h6 : 6 ≤ m.size) (ht : IsA m code) (h : m.size < 32) : Share.receivePartial e code m = .error .reject := by
  obtain ⟨vs, rest, hl, hf, em⟩ := open_msg [2, 4] m (by simp; omega)
  match vs, hl with
  | [t, sp], _ =>
    rw [em] at h ht ⊢
    simp only [zipF] at hf h ht ⊢
    rw [isA_opened hf] at ht
    subst ht
    simp only [opened_size, width] at h
    unfold Share.receivePartial Share.validatePartial Share.validateBase Share.access
    wire [opened_type hf, opened_span hf, width]
    simp only [if_true]
    rw [if_neg (by omega)]

/-- what a message must say to be accepted -/
structure Share.ValidPartial (e : Env) (code : Nat) (sender : Nat) (a : Share) : Prop where
  other : sender ≠ e.me
  epoch : a.epoch = e.epoch
  replica : sender < e.n
  primary : e.me = e.primary a.view
  fits : Fits (hdr code a.span a.fields)

theorem Share.receivePartial_iff (e : Env) (code : Nat) (m : Msg) (a : Share) (h6 : 6 ≤ m.size) (ht : IsA m code) :
    Share.receivePartial e code m = .ok a ↔ Share.ValidPartial e code m.sender a ∧ Carries m (Share.encode code a) := by
  constructor
  · intro h
    by_cases hs : m.size < 32
    · rw [Share.receivePartial_short e code m h6 ht hs] at h; cases h
    · obtain ⟨vs, rest, hl, hf, em⟩ := open_msg [2, 4, 8, 8, 8, 2] m (by simp; omega)
      match vs, hl with
      | [t, sp, v, sq, ep, sl], _ =>
        rw [em] at h ht
        simp only [zipF] at hf h ht
        rw [isA_opened hf] at ht
        subst ht
        rw [Share.receivePartial_opened e _ _ _ _ _ _ _ _ hf, ite_ok] at h
        obtain ⟨⟨h0, h0b, h1, h2, h3, h5⟩, h4⟩ := h
        cases h4
        have hl : (rest.take sp).length = sp := by simp; omega
        have hg : ((rest.drop (sp)).take (sl)).length = sl := length_pick (by omega)
        refine ⟨⟨h1, h2, h3, h5, ?_⟩, ?_⟩
        · simp only [Share.fields, hg]
          rw [hdr_take (by omega)]
          exact hf
        · rw [em]
          have := frame_carries (s := m.sender) (code := t) (fields := [(8, v), (8, sq), (8, ep), (2, sl)]) (k := sl) (rest := rest) (sp := sp) (by omega)
          unfold Share.encode
          simp only [Share.fields, hg]
          exact this
  · rintro ⟨⟨h1, h2, h3, h5, hf⟩, hc⟩
    obtain ⟨junk, em⟩ := carries_frame hc
    rw [em]
    unfold Share.fields at hf ⊢
    rw [Share.receivePartial_opened e _ _ _ _ _ _ _ _ hf, if_pos ⟨by simp, by simp; omega, h1, h2, h3, h5⟩]
    simp

theorem Share.receivePartial_safe (e : Env) (code : Nat) (m : Msg) (h6 : 6 ≤ m.size) (ht : IsA m code) : Safe (Share.receivePartial e code m) := by
  by_cases hs : m.size < 32
  · rw [Share.receivePartial_short e code m h6 ht hs]; exact safe_reject
  · obtain ⟨vs, rest, hl, hf, em⟩ := open_msg [2, 4, 8, 8, 8, 2] m (by simp; omega)
    match vs, hl with
    | [t, sp, v, sq, ep, sl], _ =>
      rw [em] at ht ⊢
      simp only [zipF] at hf ht ⊢
      rw [isA_opened hf] at ht
      subst ht
      rw [Share.receivePartial_opened e _ _ _ _ _ _ _ _ hf]
      exact safe_of_ite

theorem Share.receiveFull_opened (e : Env) (code : Nat) (s sp v sq ep sl : Nat) (rest : Bytes)
    (hf : Fits [(2, code), (4, sp), (8, v), (8, sq), (8, ep), (2, sl)]) :
    Share.receiveFull e code (opened s [(2, code), (4, sp), (8, v), (8, sq), (8, ep), (2, sl)] rest) =
      if sp ≤ rest.length ∧ sl + sp ≤ rest.length ∧ s ≠ e.me ∧ ep = e.epoch ∧ s < e.n then .ok ⟨v, sq, ep, rest.take sp, (rest.drop sp).take sl⟩ else .error .reject := by
  unfold Share.receiveFull Share.validateBase Share.access
  wire [opened_type hf, opened_span hf,
    opened_rd hf (off := 6) (k := 8) (v := v) rfl,
    opened_rd hf (off := 14) (k := 8) (v := sq) rfl,
    opened_rd hf (off := 22) (k := 8) (v := ep) rfl,
    opened_rd hf (off := 30) (k := 2) (v := sl) rfl]
  simp only [if_true]
  have hz : (32 + sp ≤ width [(2, code), (4, sp), (8, v), (8, sq), (8, ep), (2, sl)] + rest.length) ↔ sp ≤ rest.length := by simp only [width]; omega
  simp only [hz, and_assoc]
  clear hz
  have hz : (32 + sl + sp ≤ width [(2, code), (4, sp), (8, v), (8, sq), (8, ep), (2, sl)] + rest.length) ↔ sl + sp ≤ rest.length := by simp only [width]; omega
  simp only [hz, and_assoc]
  clear hz
  apply ite_congr_pos
  rintro hh
  rw [opened_rdB (0) (by simp only [width]; try omega) (by omega)]
  rw [opened_rdB (sp) (by simp only [width]; try omega) (by omega)]
  rfl

theorem Share.receiveFull_short (e : Env) (code : Nat) (m : Msg) (h6 : 6 ≤ m.size) (ht : IsA m code) (h : m.size < 32) : Share.receiveFull e code m = .error .reject := by
  obtain ⟨vs, rest, hl, hf, em⟩ := open_msg [2, 4] m (by simp; omega)
  match vs, hl with
  | [t, sp], _ =>
    rw [em] at h ht ⊢
    simp only [zipF] at hf h ht ⊢
    rw [isA_opened hf] at ht
    subst ht
    simp only [opened_size, width] at h
    unfold Share.receiveFull Share.validateBase Share.access
    wire [opened_type hf, opened_span hf, width]
    simp only [if_true]
    rw [if_neg (by omega)]

/-- what a message must say to be accepted -/
structure Share.ValidFull (e : Env) (code : Nat) (sender : Nat) (a : Share) : Prop where
  other : sender ≠ e.me
  epoch : a.epoch = e.epoch
  replica : sender < e.n
  fits : Fits (hdr code a.span a.fields)

theorem Share.receiveFull_iff (e : Env) (code : Nat) (m : Msg) (a : Share) (h6 : 6 ≤ m.size) (ht : IsA m code) :
    Share.receiveFull e code m = .ok a ↔ Share.ValidFull e code m.sender a ∧ Carries m (Share.encode code a) := by
  constructor
  · intro h
    by_cases hs : m.size < 32
    · rw [Share.receiveFull_short e code m h6 ht hs] at h; cases h
    · obtain ⟨vs, rest, hl, hf, em⟩ := open_msg [2, 4, 8, 8, 8, 2] m (by simp; omega)
      match vs, hl with
      | [t, sp, v, sq, ep, sl], _ =>
        rw [em] at h ht
        simp only [zipF] at hf h ht
        rw [isA_opened hf] at ht
        subst ht
        rw [Share.receiveFull_opened e _ _ _ _ _ _ _ _ hf, ite_ok] at h
        obtain ⟨⟨h0, h0b, h1, h2, h3⟩, h4⟩ := h
        cases h4
        have hl : (rest.take sp).length = sp := by simp; omega
        have hg : ((rest.drop (sp)).take (sl)).length = sl := length_pick (by omega)
        refine ⟨⟨h1, h2, h3, ?_⟩, ?_⟩
        · simp only [Share.fields, hg]
          rw [hdr_take (by omega)]
          exact hf
        · rw [em]
          have := frame_carries (s := m.sender) (code := t) (fields := [(8, v), (8, sq), (8, ep), (2, sl)]) (k := sl) (rest := rest) (sp := sp) (by omega)
          unfold Share.encode
          simp only [Share.fields, hg]
          exact this
  · rintro ⟨⟨h1, h2, h3, hf⟩, hc⟩
    obtain ⟨junk, em⟩ := carries_frame hc
    rw [em]
    unfold Share.fields at hf ⊢
    rw [Share.receiveFull_opened e _ _ _ _ _ _ _ _ hf, if_pos ⟨by simp, by simp; omega, h1, h2, h3⟩]
    simp

theorem Share.receiveFull_safe (e : Env) (code : Nat) (m : Msg) (h6 : 6 ≤ m.size) (ht : IsA m code) : Safe (Share.receiveFull e code m) := by
  by_cases hs : m.size < 32
  · rw [Share.receiveFull_short e code m h6 ht hs]; exact safe_reject
  · obtain ⟨vs, rest, hl, hf, em⟩ := open_msg [2, 4, 8, 8, 8, 2] m (by simp; omega)
    match vs, hl with
    | [t, sp, v, sq, ep, sl], _ =>
      rw [em] at ht ⊢
      simp only [zipF] at hf ht ⊢
      rw [isA_opened hf] at ht
      subst ht
      rw [Share.receiveFull_opened e _ _ _ _ _ _ _ _ hf]
      exact safe_of_ite

/-! ## Commit proofs of the fast path -/

theorem PartialProof.receive_opened (e : Env) (s t sp v sq ep cp sl : Nat) (rest : Bytes)
    (hf : Fits [(2, t), (4, sp), (8, v), (8, sq), (8, ep), (1, cp), (2, sl)]) :
    PartialProof.receive e (opened s [(2, t), (4, sp), (8, v), (8, sq), (8, ep), (1, cp), (2, sl)] rest) =
      if sp ≤ rest.length ∧ ep = e.epoch ∧ s ≠ e.me ∧ s < e.n ∧ (cp = 0 ∨ (cp = 1 ∧ 0 < e.c)) ∧ sl + sp ≤ rest.length ∧ e.collector v sq = true then .ok ⟨v, sq, ep, cp, rest.take sp, (rest.drop sp).take sl⟩ else .error .reject := by
  unfold PartialProof.receive PartialProof.validate
  wire [opened_span hf,
    opened_rd hf (off := 6) (k := 8) (v := v) rfl,
    opened_rd hf (off := 14) (k := 8) (v := sq) rfl,
    opened_rd hf (off := 22) (k := 8) (v := ep) rfl,
    opened_rd hf (off := 30) (k := 1) (v := cp) rfl,
    opened_rd hf (off := 31) (k := 2) (v := sl) rfl]
  have hz : (33 + sp ≤ width [(2, t), (4, sp), (8, v), (8, sq), (8, ep), (1, cp), (2, sl)] + rest.length) ↔ sp ≤ rest.length := by simp only [width]; omega
  simp only [hz, and_assoc]
  clear hz
  have hz : (33 + sl + sp ≤ width [(2, t), (4, sp), (8, v), (8, sq), (8, ep), (1, cp), (2, sl)] + rest.length) ↔ sl + sp ≤ rest.length := by simp only [width]; omega
  simp only [hz, and_assoc]
  clear hz
  apply ite_congr_pos
  rintro hh
  rw [opened_rdB (0) (by simp only [width]; try omega) (by omega)]
  rw [opened_rdB (sp) (by simp only [width]; try omega) (by omega)]
  rfl

theorem PartialProof.receive_short (e : Env) (m : Msg) (h6 : 6 ≤ m.size) (h : m.size < 33) : PartialProof.receive e m = .error .reject := by
  obtain ⟨vs, rest, hl, hf, em⟩ := open_msg [2, 4] m (by simp; omega)
  match vs, hl with
  | [t, sp], _ =>
    rw [em] at h ⊢
    simp only [zipF] at hf h ⊢
    simp only [opened_size, width] at h
    unfold PartialProof.receive PartialProof.validate
    wire [opened_span hf, width]
    rw [if_neg (by omega)]

/-- what a message must say to be accepted -/
structure PartialProof.Valid (e : Env) (sender : Nat) (a : PartialProof) : Prop where
  epoch : a.epoch = e.epoch
  other : sender ≠ e.me
  replica : sender < e.n
  path : a.path = 0 ∨ (a.path = 1 ∧ 0 < e.c)
  collector : e.collector a.view a.seq = true
  fits : Fits (hdr codePartialCommitProof a.span a.fields)

theorem PartialProof.receive_iff (e : Env) (m : Msg) (a : PartialProof) (h6 : 6 ≤ m.size) (ht : IsA m codePartialCommitProof) :
    PartialProof.receive e m = .ok a ↔ PartialProof.Valid e m.sender a ∧ Carries m a.encode := by
  constructor
  · intro h
    by_cases hs : m.size < 33
    · rw [PartialProof.receive_short e m h6 hs] at h; cases h
    · obtain ⟨vs, rest, hl, hf, em⟩ := open_msg [2, 4, 8, 8, 8, 1, 2] m (by simp; omega)
      match vs, hl with
      | [t, sp, v, sq, ep, cp, sl], _ =>
        rw [em] at h ht
        simp only [zipF] at hf h ht
        rw [isA_opened hf] at ht
        subst ht
        rw [PartialProof.receive_opened e _ _ _ _ _ _ _ _ _ hf, ite_ok] at h
        obtain ⟨⟨h0, h1, h2, h3, h5, h0b, h6⟩, h4⟩ := h
        cases h4
        have hl : (rest.take sp).length = sp := by simp; omega
        have hg : ((rest.drop (sp)).take (sl)).length = sl := length_pick (by omega)
        refine ⟨⟨h1, h2, h3, h5, h6, ?_⟩, ?_⟩
        · simp only [PartialProof.fields, hg]
          rw [hdr_take (by omega)]
          exact hf
        · rw [em]
          have := frame_carries (s := m.sender) (code := codePartialCommitProof) (fields := [(8, v), (8, sq), (8, ep), (1, cp), (2, sl)]) (k := sl) (rest := rest) (sp := sp) (by omega)
          unfold PartialProof.encode
          simp only [PartialProof.fields, hg]
          exact this
  · rintro ⟨⟨h1, h2, h3, h5, h6, hf⟩, hc⟩
    obtain ⟨junk, em⟩ := carries_frame hc
    rw [em]
    unfold PartialProof.fields at hf ⊢
    rw [PartialProof.receive_opened e _ _ _ _ _ _ _ _ _ hf, if_pos ⟨by simp, h1, h2, h3, h5, by simp; omega, h6⟩]
    simp

theorem PartialProof.receive_safe (e : Env) (m : Msg) (h6 : 6 ≤ m.size) : Safe (PartialProof.receive e m) := by
  by_cases hs : m.size < 33
  · rw [PartialProof.receive_short e m h6 hs]; exact safe_reject
  · obtain ⟨vs, rest, hl, hf, em⟩ := open_msg [2, 4, 8, 8, 8, 1, 2] m (by simp; omega)
    match vs, hl with
    | [t, sp, v, sq, ep, cp, sl], _ =>
      rw [em]
      simp only [zipF] at hf ⊢
      rw [PartialProof.receive_opened e _ _ _ _ _ _ _ _ _ hf]
      exact safe_of_ite

theorem FullProof.receive_opened (e : Env) (s t sp v sq ep sl : Nat) (rest : Bytes)
    (hf : Fits [(2, t), (4, sp), (8, v), (8, sq), (8, ep), (2, sl)]) :
    FullProof.receive e (opened s [(2, t), (4, sp), (8, v), (8, sq), (8, ep), (2, sl)] rest) =
      if s ≠ e.me ∧ s < e.n ∧ ep = e.epoch ∧ sl + sp ≤ rest.length then .ok ⟨v, sq, ep, rest.take sp, (rest.drop sp).take sl⟩ else .error .reject := by
  unfold FullProof.receive FullProof.validate Share.access
  wire [opened_span hf,
    opened_rd hf (off := 6) (k := 8) (v := v) rfl,
    opened_rd hf (off := 14) (k := 8) (v := sq) rfl,
    opened_rd hf (off := 22) (k := 8) (v := ep) rfl,
    opened_rd hf (off := 30) (k := 2) (v := sl) rfl]
  have hz : (32 ≤ width [(2, t), (4, sp), (8, v), (8, sq), (8, ep), (2, sl)] + rest.length) ↔ True := by simp only [width]; simp
  simp only [hz, true_and]
  clear hz
  have hz : (32 + sl + sp ≤ width [(2, t), (4, sp), (8, v), (8, sq), (8, ep), (2, sl)] + rest.length) ↔ sl + sp ≤ rest.length := by simp only [width]; omega
  simp only [hz, and_assoc]
  clear hz
  apply ite_congr_pos
  rintro hh
  rw [opened_rdB (0) (by simp only [width]; try omega) (by omega)]
  rw [opened_rdB (sp) (by simp only [width]; try omega) (by omega)]
  rfl

theorem FullProof.receive_short (e : Env) (m : Msg) (h6 : 6 ≤ m.size) (h : m.size < 32) : FullProof.receive e m = .error .reject := by
  obtain ⟨vs, rest, hl, hf, em⟩ := open_msg [2, 4] m (by simp; omega)
  match vs, hl with
  | [t, sp], _ =>
    rw [em] at h ⊢
    simp only [zipF] at hf h ⊢
    simp only [opened_size, width] at h
    unfold FullProof.receive FullProof.validate Share.access
    wire [opened_span hf, width]
    rw [if_neg (by omega)]

/-- what a message must say to be accepted -/
structure FullProof.Valid (e : Env) (sender : Nat) (a : Share) : Prop where
  other : sender ≠ e.me
  replica : sender < e.n
  epoch : a.epoch = e.epoch
  fits : Fits (hdr codeFullCommitProof a.span a.fields)

theorem FullProof.receive_iff (e : Env) (m : Msg) (a : Share) (h6 : 6 ≤ m.size) (ht : IsA m codeFullCommitProof) :
    FullProof.receive e m = .ok a ↔ FullProof.Valid e m.sender a ∧ Carries m (FullProof.encode a) := by
  constructor
  · intro h
    by_cases hs : m.size < 32
    · rw [FullProof.receive_short e m h6 hs] at h; cases h
    · obtain ⟨vs, rest, hl, hf, em⟩ := open_msg [2, 4, 8, 8, 8, 2] m (by simp; omega)
      match vs, hl with
      | [t, sp, v, sq, ep, sl], _ =>
        rw [em] at h ht
        simp only [zipF] at hf h ht
        rw [isA_opened hf] at ht
        subst ht
        rw [FullProof.receive_opened e _ _ _ _ _ _ _ _ hf, ite_ok] at h
        obtain ⟨⟨h1, h2, h3, h0⟩, h4⟩ := h
        cases h4
        have hl : (rest.take sp).length = sp := by simp; omega
        have hg : ((rest.drop (sp)).take (sl)).length = sl := length_pick (by omega)
        refine ⟨⟨h1, h2, h3, ?_⟩, ?_⟩
        · simp only [Share.fields, hg]
          rw [hdr_take (by omega)]
          exact hf
        · rw [em]
          have := frame_carries (s := m.sender) (code := codeFullCommitProof) (fields := [(8, v), (8, sq), (8, ep), (2, sl)]) (k := sl) (rest := rest) (sp := sp) (by omega)
          unfold FullProof.encode
          simp only [Share.fields, hg]
          exact this
  · rintro ⟨⟨h1, h2, h3, hf⟩, hc⟩
    obtain ⟨junk, em⟩ := carries_frame hc
    rw [em]
    unfold Share.fields at hf ⊢
    rw [FullProof.receive_opened e _ _ _ _ _ _ _ _ hf, if_pos ⟨h1, h2, h3, by simp; omega⟩]
    simp

theorem FullProof.receive_safe (e : Env) (m : Msg) (h6 : 6 ≤ m.size) : Safe (FullProof.receive e m) := by
  by_cases hs : m.size < 32
  · rw [FullProof.receive_short e m h6 hs]; exact safe_reject
  · obtain ⟨vs, rest, hl, hf, em⟩ := open_msg [2, 4, 8, 8, 8, 2] m (by simp; omega)
    match vs, hl with
    | [t, sp, v, sq, ep, sl], _ =>
      rw [em]
      simp only [zipF] at hf ⊢
      rw [FullProof.receive_opened e _ _ _ _ _ _ _ _ hf]
      exact safe_of_ite

end Verif.Wire
