import Verif.Wire.Simple
/-!
# Signed messages: checkpoints, complaints
-/
set_option linter.unusedVariables false
set_option linter.unusedSimpArgs false
set_option maxRecDepth 4000
namespace Verif.Wire
open Verif.Bytes

/-! ## Checkpoints -/

theorem Ckpt.receive_opened (e : Env) (s sp q ep st d1 d2 d3 g fl : Nat) (rest : Bytes)
    (hf : Fits [(2, codeCheckpoint), (4, sp), (8, q), (8, ep), (8, st), (32, d1), (32, d2), (32, d3), (2, g), (1, fl)]) (hme : s ≠ e.me) :
    Ckpt.receive e (opened s [(2, codeCheckpoint), (4, sp), (8, q), (8, ep), (8, st), (32, d1), (32, d2), (32, d3), (2, g), (1, fl)] rest) =
      if sp ≤ rest.length ∧ s < e.n ∧ g < e.n ∧ Int.tmod (toInt64 q) 150 = 0 ∧ (¬ (d1 = 0 ∧ d2 = 0 ∧ d3 = 0)) ∧ sp + e.sigLen g ≤ rest.length ∧ (e.known g && e.verify g (encF [(2, codeCheckpoint), (4, sp), (8, q), (8, ep), (8, st), (32, d1), (32, d2), (32, d3), (2, g), (1, fl)] ++ rest.take 0) ((rest.drop sp).take (e.sigLen g))) = true then .ok ⟨q, ep, st, d1, d2, d3, g, fl, rest.take sp, (rest.drop sp).take (e.sigLen g)⟩ else .error .reject := by
  unfold Ckpt.receive Ckpt.validate
  wire [opened_type hf, opened_span hf,
    opened_rd hf (off := 6) (k := 8) (v := q) rfl,
    opened_rd hf (off := 14) (k := 8) (v := ep) rfl,
    opened_rd hf (off := 22) (k := 8) (v := st) rfl,
    opened_rd hf (off := 30) (k := 32) (v := d1) rfl,
    opened_rd hf (off := 62) (k := 32) (v := d2) rfl,
    opened_rd hf (off := 94) (k := 32) (v := d3) rfl,
    opened_rd hf (off := 126) (k := 2) (v := g) rfl,
    opened_rd hf (off := 128) (k := 1) (v := fl) rfl]
  rw [if_pos ⟨trivial, hme⟩]
  have hz : (129 + sp ≤ width [(2, codeCheckpoint), (4, sp), (8, q), (8, ep), (8, st), (32, d1), (32, d2), (32, d3), (2, g), (1, fl)] + rest.length) ↔ sp ≤ rest.length := by simp only [width]; omega
  simp only [hz, and_assoc]
  clear hz
  have hz : (129 + sp + e.sigLen g ≤ width [(2, codeCheckpoint), (4, sp), (8, q), (8, ep), (8, st), (32, d1), (32, d2), (32, d3), (2, g), (1, fl)] + rest.length) ↔ sp + e.sigLen g ≤ rest.length := by simp only [width]; omega
  simp only [hz, and_assoc]
  clear hz
  rw [ite_congr_pos (x' := if (e.known g && e.verify g (encF [(2, codeCheckpoint), (4, sp), (8, q), (8, ep), (8, st), (32, d1), (32, d2), (32, d3), (2, g), (1, fl)] ++ rest.take 0) ((rest.drop sp).take (e.sigLen g))) = true then .ok ⟨q, ep, st, d1, d2, d3, g, fl, rest.take sp, (rest.drop sp).take (e.sigLen g)⟩ else .error .reject) ?_]
  · simp only [ite_ite, and_assoc]
  rintro hh
  rw [opened_verify 0 sp (by simp only [width]; try omega) (by simp only [width]; try omega) (by omega) (by omega)]
  simp only [bind_ok]
  apply ite_congr_pos
  rintro _
  rw [opened_rdB (0) (by simp only [width]; try omega) (by omega)]
  rw [opened_rdB (sp) (by simp only [width]; try omega) (by omega)]
  rfl

theorem Ckpt.receive_short (e : Env) (m : Msg) (h6 : 6 ≤ m.size) (ht : IsA m codeCheckpoint) (hme : m.sender ≠ e.me) (h : m.size < 129) : Ckpt.receive e m = .error .reject := by
  obtain ⟨vs, rest, hl, hf, em⟩ := open_msg [2, 4] m (by simp; omega)
  match vs, hl with
  | [t, sp], _ =>
    rw [em] at h ht ⊢
    simp only [zipF] at hf h ht ⊢
    rw [isA_opened hf] at ht
    subst ht
    simp only [opened_size, width] at h
    unfold Ckpt.receive Ckpt.validate
    wire [opened_type hf, opened_span hf, width]
    rw [if_pos ⟨trivial, hme⟩]
    rw [if_neg (by omega)]

/-- what a message must say to be accepted -/
structure Ckpt.Valid (e : Env) (sender : Nat) (a : Ckpt) : Prop where
  replica : sender < e.n
  gen : a.gen < e.n
  multiple : Int.tmod (toInt64 a.seq) 150 = 0
  digest : ¬ (a.stateDigest = 0 ∧ a.pagesDigest = 0 ∧ a.rvbDigest = 0)
  sigLen : a.sig.length = e.sigLen a.gen
  key : e.known a.gen = true
  signed : e.verify a.gen a.signed a.sig = true
  fits : Fits (hdr codeCheckpoint a.span a.fields)

theorem Ckpt.receive_iff (e : Env) (m : Msg) (a : Ckpt) (h6 : 6 ≤ m.size) (ht : IsA m codeCheckpoint) (hme : m.sender ≠ e.me) :
    Ckpt.receive e m = .ok a ↔ Ckpt.Valid e m.sender a ∧ Carries m a.encode := by
  constructor
  · intro h
    by_cases hs : m.size < 129
    · rw [Ckpt.receive_short e m h6 ht hme hs] at h; cases h
    · obtain ⟨vs, rest, hl, hf, em⟩ := open_msg [2, 4, 8, 8, 8, 32, 32, 32, 2, 1] m (by simp; omega)
      match vs, hl with
      | [t, sp, q, ep, st, d1, d2, d3, g, fl], _ =>
        rw [em] at h ht
        simp only [zipF] at hf h ht
        rw [isA_opened hf] at ht
        subst ht
        rw [Ckpt.receive_opened e _ _ _ _ _ _ _ _ _ _ _ hf hme, ite_ok] at h
        obtain ⟨⟨h0, h1, h2, h3, h5, h0b, hV⟩, h4⟩ := h
        cases h4
        have hl : (rest.take sp).length = sp := by simp; omega
        have hg : ((rest.drop (sp)).take (e.sigLen g)).length = e.sigLen g := length_pick (by omega)
        rw [List.take_zero, List.append_nil, Bool.and_eq_true] at hV
        refine ⟨⟨h1, h2, h3, h5, hg, hV.1, ?_, ?_⟩, ?_⟩
        · have := hV.2
          unfold Ckpt.signed
          simp only [Ckpt.fields, hl]
          exact this
        · simp only [Ckpt.fields]
          rw [hdr_take (by omega)]
          exact hf
        · rw [em]
          have := frame_carries (s := m.sender) (code := codeCheckpoint) (fields := [(8, q), (8, ep), (8, st), (32, d1), (32, d2), (32, d3), (2, g), (1, fl)]) (k := e.sigLen g) (rest := rest) (sp := sp) (by omega)
          unfold Ckpt.encode
          simp only [Ckpt.fields]
          exact this
  · rintro ⟨⟨h1, h2, h3, h5, hg, hk, hv, hf⟩, hc⟩
    obtain ⟨junk, em⟩ := carries_frame hc
    have hme0 := hme
    rw [em]
    unfold Ckpt.signed at hv
    unfold Ckpt.fields at hf hv ⊢
    rw [Ckpt.receive_opened e _ _ _ _ _ _ _ _ _ _ _ hf hme0, if_pos ⟨by simp, h1, h2, h3, h5, by simp; omega, by simpa [hk, ← hg] using hv⟩]
    simp [← hg]

theorem Ckpt.receive_safe (e : Env) (m : Msg) (h6 : 6 ≤ m.size) (ht : IsA m codeCheckpoint) (hme : m.sender ≠ e.me) : Safe (Ckpt.receive e m) := by
  by_cases hs : m.size < 129
  · rw [Ckpt.receive_short e m h6 ht hme hs]; exact safe_reject
  · obtain ⟨vs, rest, hl, hf, em⟩ := open_msg [2, 4, 8, 8, 8, 32, 32, 32, 2, 1] m (by simp; omega)
    match vs, hl with
    | [t, sp, q, ep, st, d1, d2, d3, g, fl], _ =>
      rw [em] at ht ⊢
      simp only [zipF] at hf ht ⊢
      rw [isA_opened hf] at ht
      subst ht
      rw [Ckpt.receive_opened e _ _ _ _ _ _ _ _ _ _ _ hf hme]
      exact safe_of_ite

/-! ## Complaints -/

theorem Leave.receive_opened (e : Env) (s t sp g v ep r sl : Nat) (rest : Bytes)
    (hf : Fits [(2, t), (4, sp), (2, g), (8, v), (8, ep), (1, r), (2, sl)]) :
    Leave.receive e (opened s [(2, t), (4, sp), (2, g), (8, v), (8, ep), (1, r), (2, sl)] rest) =
      if sp ≤ rest.length ∧ ep = e.epoch ∧ g < e.n ∧ sp + e.sigLen g ≤ rest.length ∧ (e.known g && e.verify g (encF [(2, t), (4, sp), (2, g), (8, v), (8, ep), (1, r), (2, sl)] ++ rest.take 0) ((rest.drop sp).take (e.sigLen g))) = true then .ok ⟨g, v, ep, r, sl, rest.take sp, (rest.drop sp).take (e.sigLen g)⟩ else .error .reject := by
  unfold Leave.receive Leave.validate
  wire [opened_span hf,
    opened_rd hf (off := 6) (k := 2) (v := g) rfl,
    opened_rd hf (off := 8) (k := 8) (v := v) rfl,
    opened_rd hf (off := 16) (k := 8) (v := ep) rfl,
    opened_rd hf (off := 24) (k := 1) (v := r) rfl,
    opened_rd hf (off := 25) (k := 2) (v := sl) rfl]
  have hz : (27 + sp ≤ width [(2, t), (4, sp), (2, g), (8, v), (8, ep), (1, r), (2, sl)] + rest.length) ↔ sp ≤ rest.length := by simp only [width]; omega
  simp only [hz, and_assoc]
  clear hz
  have hz : (27 + sp + e.sigLen g ≤ width [(2, t), (4, sp), (2, g), (8, v), (8, ep), (1, r), (2, sl)] + rest.length) ↔ sp + e.sigLen g ≤ rest.length := by simp only [width]; omega
  simp only [hz, and_assoc]
  clear hz
  rw [ite_congr_pos (x' := if (e.known g && e.verify g (encF [(2, t), (4, sp), (2, g), (8, v), (8, ep), (1, r), (2, sl)] ++ rest.take 0) ((rest.drop sp).take (e.sigLen g))) = true then .ok ⟨g, v, ep, r, sl, rest.take sp, (rest.drop sp).take (e.sigLen g)⟩ else .error .reject) ?_]
  · simp only [ite_ite, and_assoc]
  rintro hh
  rw [opened_verify 0 sp (by simp only [width]; try omega) (by simp only [width]; try omega) (by omega) (by omega)]
  simp only [bind_ok]
  apply ite_congr_pos
  rintro _
  rw [opened_rdB (0) (by simp only [width]; try omega) (by omega)]
  rw [opened_rdB (sp) (by simp only [width]; try omega) (by omega)]
  rfl

theorem Leave.receive_short (e : Env) (m : Msg) (h6 : 6 ≤ m.size) (h : m.size < 27) : Leave.receive e m = .error .reject := by
  obtain ⟨vs, rest, hl, hf, em⟩ := open_msg [2, 4] m (by simp; omega)
  match vs, hl with
  | [t, sp], _ =>
    rw [em] at h ⊢
    simp only [zipF] at hf h ⊢
    simp only [opened_size, width] at h
    unfold Leave.receive Leave.validate
    wire [opened_span hf, width]
    rw [if_neg (by omega)]

/-- what a message must say to be accepted -/
structure Leave.Valid (e : Env) (sender : Nat) (a : Leave) : Prop where
  epoch : a.epoch = e.epoch
  gen : a.gen < e.n
  sigSize : a.sig.length = e.sigLen a.gen
  key : e.known a.gen = true
  signed : e.verify a.gen a.signed a.sig = true
  fits : Fits (hdr codeLeaveView a.span a.fields)

theorem Leave.receive_iff (e : Env) (m : Msg) (a : Leave) (h6 : 6 ≤ m.size) (ht : IsA m codeLeaveView) :
    Leave.receive e m = .ok a ↔ Leave.Valid e m.sender a ∧ Carries m a.encode := by
  constructor
  · intro h
    by_cases hs : m.size < 27
    · rw [Leave.receive_short e m h6 hs] at h; cases h
    · obtain ⟨vs, rest, hl, hf, em⟩ := open_msg [2, 4, 2, 8, 8, 1, 2] m (by simp; omega)
      match vs, hl with
      | [t, sp, g, v, ep, r, sl], _ =>
        rw [em] at h ht
        simp only [zipF] at hf h ht
        rw [isA_opened hf] at ht
        subst ht
        rw [Leave.receive_opened e _ _ _ _ _ _ _ _ _ hf, ite_ok] at h
        obtain ⟨⟨h0, h1, h2, h0b, hV⟩, h4⟩ := h
        cases h4
        have hl : (rest.take sp).length = sp := by simp; omega
        have hg : ((rest.drop (sp)).take (e.sigLen g)).length = e.sigLen g := length_pick (by omega)
        rw [List.take_zero, List.append_nil, Bool.and_eq_true] at hV
        refine ⟨⟨h1, h2, hg, hV.1, ?_, ?_⟩, ?_⟩
        · have := hV.2
          unfold Leave.signed
          simp only [Leave.fields, hl]
          exact this
        · simp only [Leave.fields]
          rw [hdr_take (by omega)]
          exact hf
        · rw [em]
          have := frame_carries (s := m.sender) (code := codeLeaveView) (fields := [(2, g), (8, v), (8, ep), (1, r), (2, sl)]) (k := e.sigLen g) (rest := rest) (sp := sp) (by omega)
          unfold Leave.encode
          simp only [Leave.fields]
          exact this
  · rintro ⟨⟨h1, h2, hg, hk, hv, hf⟩, hc⟩
    obtain ⟨junk, em⟩ := carries_frame hc
    rw [em]
    unfold Leave.signed at hv
    unfold Leave.fields at hf hv ⊢
    rw [Leave.receive_opened e _ _ _ _ _ _ _ _ _ hf, if_pos ⟨by simp, h1, h2, by simp; omega, by simpa [hk, ← hg] using hv⟩]
    simp [← hg]

theorem Leave.receive_safe (e : Env) (m : Msg) (h6 : 6 ≤ m.size) : Safe (Leave.receive e m) := by
  by_cases hs : m.size < 27
  · rw [Leave.receive_short e m h6 hs]; exact safe_reject
  · obtain ⟨vs, rest, hl, hf, em⟩ := open_msg [2, 4, 2, 8, 8, 1, 2] m (by simp; omega)
    match vs, hl with
    | [t, sp, g, v, ep, r, sl], _ =>
      rw [em]
      simp only [zipF] at hf ⊢
      rw [Leave.receive_opened e _ _ _ _ _ _ _ _ _ hf]
      exact safe_of_ite

end Verif.Wire
