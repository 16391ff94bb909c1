import Verif.Wire.Signed
/-!
# Requests for checkpoints; readiness to restart
-/
set_option linter.unusedVariables false
set_option linter.unusedSimpArgs false
set_option maxRecDepth 4000
namespace Verif.Wire
open Verif.Bytes

/-! ## Requests for checkpoints -/

theorem Ask.receive_opened (e : Env) (s sp : Nat) (rest : Bytes) (hf : Fits [(2, codeAskForCheckpoint), (4, sp)]) (hme : s ≠ e.me) :
    Ask.receive e (opened s [(2, codeAskForCheckpoint), (4, sp)] rest) = if rest.length ≤ sp then .ok () else .error .reject := by
  unfold Ask.receive
  wire [opened_type hf, opened_span hf]
  rw [if_pos ⟨trivial, hme⟩]
  unfold require
  have hz : ((opened s [(2, codeAskForCheckpoint), (4, sp)] rest).size ≤ 6 + sp) ↔ rest.length ≤ sp := by
    rw [opened_size]; simp only [width]; omega
  simp only [opened_size] at hz
  simp only [hz]

theorem Ask.receive_safe (e : Env) (m : Msg) (h6 : 6 ≤ m.size) (ht : IsA m codeAskForCheckpoint) (hme : m.sender ≠ e.me) :
    Safe (Ask.receive e m) := by
  obtain ⟨vs, rest, hl, hf, em⟩ := open_msg [2, 4] m (by simp; omega)
  match vs, hl with
  | [t, sp], _ =>
    rw [em] at ht ⊢
    simp only [zipF] at hf ht ⊢
    rw [isA_opened hf] at ht
    subst ht
    rw [Ask.receive_opened e _ _ _ hf hme]
    exact safe_of_ite

theorem Ask.receive_iff (e : Env) (m : Msg) (h6 : 6 ≤ m.size) (ht : IsA m codeAskForCheckpoint) (hme : m.sender ≠ e.me) :
    Ask.receive e m = .ok () ↔ ∃ sp, m.span = .ok sp ∧ m.size ≤ 6 + sp := by
  obtain ⟨vs, rest, hl, hf, em⟩ := open_msg [2, 4] m (by simp; omega)
  match vs, hl with
  | [t, sp], _ =>
    rw [em] at ht ⊢
    simp only [zipF] at hf ht ⊢
    rw [isA_opened hf] at ht
    subst ht
    rw [Ask.receive_opened e _ _ _ hf hme, ite_ok, opened_span hf, opened_size]
    simp only [width]
    constructor
    · rintro ⟨h, _⟩
      exact ⟨sp, rfl, by omega⟩
    · rintro ⟨sp', h, h'⟩
      cases h
      exact ⟨by omega, trivial⟩

/-- what the constructor builds is accepted -/
theorem Ask.round_trip (e : Env) (s : Nat) (span : Bytes) (hsp : span.length < 256 ^ 4) (hme : s ≠ e.me) :
    Ask.receive e ⟨s, Ask.encode span⟩ = .ok () := by
  have hf : Fits [(2, codeAskForCheckpoint), (4, span.length)] := by
    intro p hp
    simp only [List.mem_cons, List.not_mem_nil, or_false] at hp
    rcases hp with rfl | rfl
    · decide
    · exact hsp
  have := Ask.receive_opened e s span.length (span ++ []) hf hme
  rw [if_pos (by simp)] at this
  simp only [Ask.encode, frame, List.append_assoc]
  exact this

/-! ## Readiness to restart -/

theorem Ready.receive_opened (e : Env) (s t sp g q ep sl r ex : Nat) (rest : Bytes)
    (hf : Fits [(2, t), (4, sp), (2, g), (8, q), (8, ep), (2, sl), (1, r), (2, ex)]) :
    Ready.receive e (opened s [(2, t), (4, sp), (2, g), (8, q), (8, ep), (2, sl), (1, r), (2, ex)] rest) =
      if sp + ex ≤ rest.length ∧ g < e.n ∧ ep = e.epoch ∧ (r = 0 ∨ r = 1) ∧ sp + ex + e.sigLen g ≤ rest.length ∧ (e.known g && e.verify g (encF [(2, t), (4, sp), (2, g), (8, q), (8, ep), (2, sl), (1, r), (2, ex)] ++ rest.take (sp + ex)) ((rest.drop (sp + ex)).take (e.sigLen g))) = true then .ok ⟨g, q, ep, sl, r, rest.take sp, (rest.drop sp).take ex, (rest.drop (sp + ex)).take (e.sigLen g)⟩ else .error .reject := by
  unfold Ready.receive Ready.validate
  wire [opened_span hf,
    opened_rd hf (off := 6) (k := 2) (v := g) rfl,
    opened_rd hf (off := 8) (k := 8) (v := q) rfl,
    opened_rd hf (off := 16) (k := 8) (v := ep) rfl,
    opened_rd hf (off := 24) (k := 2) (v := sl) rfl,
    opened_rd hf (off := 26) (k := 1) (v := r) rfl,
    opened_rd hf (off := 27) (k := 2) (v := ex) rfl]
  have hz : (29 + sp + ex ≤ width [(2, t), (4, sp), (2, g), (8, q), (8, ep), (2, sl), (1, r), (2, ex)] + rest.length) ↔ sp + ex ≤ rest.length := by simp only [width]; omega
  simp only [hz, and_assoc]
  clear hz
  have hz : (29 + sp + ex + e.sigLen g ≤ width [(2, t), (4, sp), (2, g), (8, q), (8, ep), (2, sl), (1, r), (2, ex)] + rest.length) ↔ sp + ex + e.sigLen g ≤ rest.length := by simp only [width]; omega
  simp only [hz, and_assoc]
  clear hz
  rw [ite_congr_pos (x' := if (e.known g && e.verify g (encF [(2, t), (4, sp), (2, g), (8, q), (8, ep), (2, sl), (1, r), (2, ex)] ++ rest.take (sp + ex)) ((rest.drop (sp + ex)).take (e.sigLen g))) = true then .ok ⟨g, q, ep, sl, r, rest.take sp, (rest.drop sp).take ex, (rest.drop (sp + ex)).take (e.sigLen g)⟩ else .error .reject) ?_]
  · simp only [ite_ite, and_assoc]
  rintro hh
  rw [opened_verify (sp + ex) (sp + ex) (by simp only [width]; try omega) (by simp only [width]; try omega) (by omega) (by omega)]
  simp only [bind_ok]
  apply ite_congr_pos
  rintro _
  rw [opened_rdB (0) (by simp only [width]; try omega) (by omega)]
  rw [opened_rdB (sp) (by simp only [width]; try omega) (by omega)]
  rw [opened_rdB (sp + ex) (by simp only [width]; try omega) (by omega)]
  rfl

/-- what a message must say to be accepted -/
structure Ready.Valid (e : Env) (a : Ready) : Prop where
  gen : a.gen < e.n
  epoch : a.epoch = e.epoch
  reason : a.reason = 0 ∨ a.reason = 1
  sigSize : a.sig.length = e.sigLen a.gen
  key : e.known a.gen = true
  signed : e.verify a.gen a.signed a.sig = true
  fits : Fits (hdr codeRestartReady a.span a.fields)

/-- the lengths are read before the size is tested: every short message is read past its end -/
theorem Ready.receive_oob (e : Env) (m : Msg) (h : m.size < 29) : Ready.receive e m = .error .oob := by
  unfold Ready.receive Ready.validate Msg.span
  by_cases h1 : m.size < 8
  · rw [rd_short (off := 6) (k := 2) (by omega)]
    rfl
  · have hr : ∀ off k, off + k ≤ m.size → ∃ v, rd m off k = .ok v := by
      intro off k hh
      exact ⟨leDecode ((m.body.drop off).take k), by simp only [rd, slice_some (b := m.body) hh]⟩
    obtain ⟨g, hg⟩ := hr 6 2 (by omega)
    obtain ⟨sp, hsp⟩ := hr 2 4 (by omega)
    rw [hg, hsp, rd_short (off := 27) (k := 2) (by omega)]
    rfl

theorem Ready.receive_safe_iff (e : Env) (m : Msg) : Safe (Ready.receive e m) ↔ 29 ≤ m.size := by
  constructor
  · intro h
    by_cases hs : 29 ≤ m.size
    · exact hs
    · rw [Ready.receive_oob e m (by omega)] at h
      exact absurd rfl h.1
  · intro hs
    obtain ⟨vs, rest, hl, hf, em⟩ := open_msg [2, 4, 2, 8, 8, 2, 1, 2] m (by simp; omega)
    match vs, hl with
    | [t, sp, g, q, ep, sl, r, ex], _ =>
      rw [em]
      simp only [zipF] at hf ⊢
      rw [Ready.receive_opened e _ _ _ _ _ _ _ _ _ _ hf]
      exact safe_of_ite

theorem Ready.receive_iff (e : Env) (m : Msg) (a : Ready) (ht : IsA m codeRestartReady) :
    Ready.receive e m = .ok a ↔ Ready.Valid e a ∧ Carries m a.encode := by
  constructor
  · intro h
    by_cases hs : m.size < 29
    · rw [Ready.receive_oob e m hs] at h; cases h
    · obtain ⟨vs, rest, hl, hf, em⟩ := open_msg [2, 4, 2, 8, 8, 2, 1, 2] m (by simp; omega)
      match vs, hl with
      | [t, sp, g, q, ep, sl, r, ex], _ =>
        rw [em] at h ht
        simp only [zipF] at hf h ht
        rw [isA_opened hf] at ht
        subst ht
        rw [Ready.receive_opened e _ _ _ _ _ _ _ _ _ _ hf, ite_ok] at h
        obtain ⟨⟨h0, h1, h2, h3, h0b, hV⟩, h4⟩ := h
        cases h4
        have hl : (rest.take sp).length = sp := by simp; omega
        have hx : ((rest.drop sp).take ex).length = ex := length_pick (by omega)
        have hg : ((rest.drop (sp + ex)).take (e.sigLen g)).length = e.sigLen g := length_pick (by omega)
        have htk : rest.take (sp + ex) = rest.take sp ++ (rest.drop sp).take ex := List.take_add
        rw [Bool.and_eq_true] at hV
        refine ⟨⟨h1, h2, h3, hg, hV.1, ?_, ?_⟩, rest.drop (sp + ex + e.sigLen g), ?_⟩
        · have := hV.2
          rw [htk, ← List.append_assoc] at this
          unfold Ready.signed frame
          simp only [Ready.fields, hl, hx]
          exact this
        · simp only [Ready.fields, hx]
          rw [hdr_take (by omega)]
          exact hf
        · rw [em]
          unfold Ready.encode frame
          simp only [Ready.fields, hl, hx, List.append_assoc]
          show encF _ ++ rest = _
          congr 1
          have e1 : List.take (e.sigLen g) (List.drop (sp + ex) rest) ++ List.drop (sp + ex + e.sigLen g) rest = List.drop (sp + ex) rest := by
            rw [← List.drop_drop (i := e.sigLen g), List.take_append_drop]
          have e2 : List.take ex (List.drop sp rest) ++ List.drop (sp + ex) rest = List.drop sp rest := by
            rw [← List.drop_drop (i := ex), List.take_append_drop]
          rw [e1, e2, List.take_append_drop]
  · rintro ⟨⟨h1, h2, h3, hg, hk, hv, hf⟩, hc⟩
    obtain ⟨junk, em⟩ := carries_frame hc
    rw [em]
    unfold Ready.signed frame at hv
    unfold Ready.fields at hf hv ⊢
    have htk : (a.span ++ (a.extra ++ a.sig ++ junk)).take (a.span.length + a.extra.length) = a.span ++ a.extra := by
      rw [List.append_assoc a.extra, ← List.append_assoc, List.take_left' (by simp)]
    have hdr' : (a.span ++ (a.extra ++ a.sig ++ junk)).drop (a.span.length + a.extra.length) = a.sig ++ junk := by
      rw [List.append_assoc a.extra, ← List.append_assoc, List.drop_left' (by simp)]
    rw [Ready.receive_opened e _ _ _ _ _ _ _ _ _ _ hf, if_pos]
    · rw [hdr', ← hg]
      simp
    · refine ⟨by simp, h1, h2, h3, by simp; omega, ?_⟩
      rw [htk, hdr', ← hg, List.take_left' rfl, Bool.and_eq_true]
      exact ⟨hk, by rw [← List.append_assoc]; exact hv⟩

end Verif.Wire
