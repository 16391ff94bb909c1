import Verif.Req.Basic
set_option linter.unusedSimpArgs false
set_option linter.unusedVariables false
/-! Client requests: what gets in, and what does not. -/
namespace Verif.Req
open Verif.Bytes

/-! ## What an accepted request is -/

theorem readHdr_some {m : Bytes} (h : 52 ≤ m.length) : readHdr m = some (decHdr (m.take 52)) := by
  simp [readHdr, slice, hdrSize, h]

theorem readHdr_len {m : Bytes} {h : Hdr} (hr : readHdr m = some h) : 52 ≤ m.length ∧ h = decHdr (m.take 52) := by
  unfold readHdr at hr
  cases hs : slice m 0 hdrSize with
  | none => rw [hs] at hr; cases hr
  | some b =>
    rw [hs] at hr
    have := slice_eq_some.1 hs
    simp only [hdrSize, List.drop_zero, Nat.zero_add] at this
    refine ⟨this.1, ?_⟩
    rw [← this.2]
    simpa using hr.symm

/-- the checks that an accepted request has passed -/
theorem validate_ok {e : Env} {sender : Nat} {m : Bytes} (h : validate e sender m = .ok ()) :
    ∃ hd, readHdr m = some hd ∧ (early e hd = true ∨ validateRest e sender m hd = .ok ()) := by
  unfold validate at h
  cases hs : slice m 2 4 with
  | none => rw [hs] at h; cases h
  | some sp =>
    simp only [hs] at h
    by_cases h1 : m.length < hdrSize + leDecode sp
    · rw [if_pos h1] at h; cases h
    · rw [if_neg h1] at h
      cases hh : readHdr m with
      | none => rw [hh] at h; cases h
      | some hd =>
        simp only [hh] at h
        refine ⟨hd, rfl, ?_⟩
        split at h
        · cases h
        · split at h
          · cases h
          · split at h
            · rename_i he; exact .inl he
            · exact .inr h

theorem rest_ok {e : Env} {sender : Nat} {m : Bytes} {hd : Hdr} (h : validateRest e sender m hd = .ok ()) :
    e.isPrincipal hd.client = true ∧ e.isPrincipal sender = true ∧ expectedSigLen e hd = some hd.sigLen ∧
    m.length = hdrSize + hd.reqLen + hd.cidLen + hd.span + hd.sigLen + hd.extra ∧
    (doSigVerify e hd = true → ∃ d s, dataOf m hd = some d ∧ sigOf m hd = some s ∧ e.verify hd.client d s = true) := by
  unfold validateRest at h
  split at h
  · cases h
  · rename_i h1
    split at h
    · cases h
    · rename_i h2
      cases hx : expectedSigLen e hd with
      | none => rw [hx] at h; cases h
      | some sl =>
        simp only [hx] at h
        split at h
        · cases h
        · rename_i h3
          have h3 : sl = hd.sigLen := by simpa using h3
          subst h3
          split at h
          · cases h
          · rename_i h4
            refine ⟨by simpa using h1, by simpa using h2, rfl, by simpa using h4, ?_⟩
            intro hv
            rw [if_pos hv] at h
            cases hd1 : dataOf m hd with
            | none => rw [hd1] at h; cases h
            | some d =>
              cases hs1 : sigOf m hd with
              | none => rw [hd1, hs1] at h; cases h
              | some s =>
                simp only [hd1, hs1] at h
                refine ⟨d, s, rfl, rfl, ?_⟩
                by_cases hvv : e.verify hd.client d s = true
                · exact hvv
                · rw [if_neg hvv] at h; cases h

/-- The parts of a message whose lengths add up tile it. -/
theorem tile {m : Bytes} {hd : Hdr} (hr : readHdr m = some hd)
    (hl : m.length = hdrSize + hd.reqLen + hd.cidLen + hd.span + hd.sigLen + hd.extra) :
    ∃ v hdr extra, view m = some v ∧ hdr.length = 52 ∧ extra.length = hd.extra ∧
      v.client = hd.client ∧ v.flags = hd.flags ∧ v.reqSeq = hd.reqSeq ∧ dataOf m hd = some v.data ∧ sigOf m hd = some v.sig ∧
      v.data.length = hd.reqLen ∧ v.sig.length = hd.sigLen ∧
      m = hdr ++ v.span ++ v.data ++ v.cid ++ v.sig ++ extra := by
  simp only [hdrSize] at hl
  have e1 : spanOf m hd = some ((m.drop 52).take hd.span) := by unfold spanOf slice hdrSize; rw [if_pos (by omega)]
  have e2 : dataOf m hd = some ((m.drop (52 + hd.span)).take hd.reqLen) := by unfold dataOf slice hdrSize; rw [if_pos (by omega)]
  have e3 : cidOf m hd = some ((m.drop (52 + hd.reqLen + hd.span)).take hd.cidLen) := by unfold cidOf slice hdrSize; rw [if_pos (by omega)]
  have e4 : sigOf m hd = some ((m.drop (52 + hd.span + hd.reqLen + hd.cidLen)).take hd.sigLen) := by
    unfold sigOf slice hdrSize
    by_cases h0 : hd.sigLen > 0
    · rw [if_pos h0, if_pos (by omega)]
    · rw [if_neg h0]
      have : hd.sigLen = 0 := by omega
      rw [this]; simp
  refine ⟨⟨hd.client, hd.flags, hd.reqSeq, hd.timeout, hd.index, (m.drop 52).take hd.span, (m.drop (52 + hd.span)).take hd.reqLen,
      (m.drop (52 + hd.reqLen + hd.span)).take hd.cidLen, (m.drop (52 + hd.span + hd.reqLen + hd.cidLen)).take hd.sigLen⟩, m.take 52, m.drop (52 + hd.span + hd.reqLen + hd.cidLen + hd.sigLen),
    by simp only [view, hr, e1, e2, e3, e4], by simp; omega, by simp; omega, rfl, rfl, rfl, e2, e4, by simp; omega, by simp; omega, ?_⟩
  simp only
  have q : ∀ (a b : Nat), a + b ≤ m.length → m.take a ++ (m.drop a).take b = m.take (a + b) := by
    intro a b _; rw [← List.take_add]
  rw [q _ _ (by omega), q _ _ (by omega)]
  rw [show 52 + hd.reqLen + hd.span = 52 + hd.span + hd.reqLen from by omega, q _ _ (by omega), q _ _ (by omega), List.take_append_drop]

theorem receive_parts {e : Env} {g : Gate} {maxSize sender : Nat} {m : Bytes} {v : View} (h : receive e g maxSize sender m = .ok v) :
    validate e sender m = .ok () ∧ admit e g sender m = .ok v := by
  unfold receive at h
  cases h1 : onNewMessage maxSize m with
  | error x => rw [h1] at h; cases h
  | ok _ =>
    rw [h1] at h
    cases hb : (if g.async then (do let _ ← shouldValidateAsync m; pure ()) else .ok () : R Unit) with
    | error x =>
      have h : (do let _ ← (if g.async then (do let _ ← shouldValidateAsync m; pure ()) else .ok () : R Unit); validate e sender m; admit e g sender m) = Except.ok v := h
      rw [hb] at h; cases h
    | ok u =>
      have h : (do let _ ← (if g.async then (do let _ ← shouldValidateAsync m; pure ()) else .ok () : R Unit); validate e sender m; admit e g sender m) = Except.ok v := h
      rw [hb] at h
      cases h2 : validate e sender m with
      | error x =>
        have h : (do validate e sender m; admit e g sender m) = Except.ok v := h
        rw [h2] at h; cases h
      | ok _ =>
        have h : (do validate e sender m; admit e g sender m) = Except.ok v := h
        rw [h2] at h
        exact ⟨rfl, h⟩

theorem admit_parts {e : Env} {g : Gate} {sender : Nat} {m : Bytes} {v : View} (h : admit e g sender m = .ok v) :
    view m = some v ∧ (g.validClient v.client = true ∨
      ((e.isReplica v.client || e.isPeerRo v.client) && (bit v.flags RECONFIG || bit v.flags INTERNAL)) = true) := by
  unfold admit at h
  cases hh : readHdr m with
  | none => rw [hh] at h; cases h
  | some hd =>
    simp only [hh] at h
    cases hc : cidOf m hd with
    | none => rw [hc] at h; cases h
    | some c =>
      cases hsn : spanOf m hd with
      | none => rw [hc, hsn] at h; cases h
      | some sp =>
        simp only [hc, hsn] at h
        split at h
        · cases h
        · split at h
          · cases h
          · rename_i h3
            split at h
            · cases h
            · cases hv : view m with
              | none => rw [hv] at h; cases h
              | some w =>
                rw [hv] at h
                have hw : w = v := by injection h
                subst hw
                refine ⟨rfl, ?_⟩
                have : w.client = hd.client ∧ w.flags = hd.flags := by
                  unfold view at hv
                  simp only [hh, hc, hsn] at hv
                  split at hv
                  · cases hv; exact ⟨rfl, rfl⟩
                  · cases hv
                rw [this.1, this.2]
                simp only [Bool.and_eq_true, Bool.not_eq_true', not_and, Bool.not_eq_false] at h3
                by_cases hvc : g.validClient hd.client = true
                · exact .inl hvc
                · refine .inr ?_
                  rw [Bool.and_eq_true]
                  exact h3 (by simpa using hvc)

/-- the header of a message shows the client and flags of its view -/
theorem view_hdr {m : Bytes} {v : View} (h : view m = some v) :
    ∃ hd, readHdr m = some hd ∧ v.client = hd.client ∧ v.flags = hd.flags ∧ dataOf m hd = some v.data ∧ sigOf m hd = some v.sig := by
  unfold view at h
  cases hh : readHdr m with
  | none => rw [hh] at h; cases h
  | some hd =>
    simp only [hh] at h
    split at h
    · rename_i h1 h2 h3 h4; cases h; exact ⟨hd, rfl, rfl, rfl, h2, h4⟩
    · cases h

/-- **A request that is let in fills its message** (unless it carries the id of a replica and the reconfiguration or internal flag): the span
context, the data, the correlation id, the signature and the extra bytes that the handlers read are consecutive parts of the received bytes,
after the 52 bytes of the header, and nothing is left over. -/
theorem request_fills_message {e : Env} {g : Gate} {maxSize sender : Nat} {m : Bytes} {v : View}
    (h : receive e g maxSize sender m = .ok v)
    (hne : ¬ ((bit v.flags RECONFIG || bit v.flags INTERNAL) && (e.isReplica v.client || e.isPeerRo v.client)) = true) :
    ∃ hdr extra, hdr.length = 52 ∧ m = hdr ++ v.span ++ v.data ++ v.cid ++ v.sig ++ extra := by
  obtain ⟨h1, h2⟩ := receive_parts h
  obtain ⟨hv, _⟩ := admit_parts h2
  obtain ⟨hd, hr, hc⟩ := validate_ok h1
  obtain ⟨hd', hr', e1, e2, _, _⟩ := view_hdr hv
  rw [hr] at hr'; cases hr'
  rcases hc with hc | hc
  · rw [e1, e2] at hne
    exact absurd hc hne
  · obtain ⟨_, _, _, hl, _⟩ := rest_ok hc
    obtain ⟨v', hdr, extra, hv', t1, _, _, _, _, _, _, _, _, t2⟩ := tile hr hl
    rw [hv] at hv'; cases hv'
    exact ⟨hdr, extra, t1, t2⟩

/-- **A plain request that is let in is signed by its client**: with transaction signing on, a non-empty request of an external client without
the reconfiguration flag and without the pre-processed flag carries a signature of the length of the client's key that verifies over exactly the
data that is executed — whoever delivered the message. -/
theorem request_signed {e : Env} {g : Gate} {maxSize sender : Nat} {m : Bytes} {v : View}
    (h : receive e g maxSize sender m = .ok v) (hsig : e.signing = true) (hext : e.isExternal v.client = true)
    (hnr : e.isReplica v.client = false ∧ e.isPeerRo v.client = false)
    (hd0 : v.data ≠ []) (hrc : bit v.flags RECONFIG = false) (hpp : bit v.flags HAS_PRE_PROCESSED = false) :
    e.verify v.client v.data v.sig = true ∧ v.sig.length = e.sigLength v.client ∧ 0 < v.sig.length := by
  obtain ⟨h1, h2⟩ := receive_parts h
  obtain ⟨hv, _⟩ := admit_parts h2
  obtain ⟨hd, hr, hc⟩ := validate_ok h1
  obtain ⟨hd', hr', e1, e2, e3, e4⟩ := view_hdr hv
  rw [hr] at hr'; cases hr'
  rw [e1] at hext hnr
  rw [e2] at hrc hpp
  rcases hc with hc | hc
  · simp [early, hnr.1, hnr.2] at hc
  · obtain ⟨_, _, hx, hl, hvf⟩ := rest_ok hc
    obtain ⟨v', hdr, extra, hv', t1, _, _, _, _, _, _, t5, t6, t2⟩ := tile hr hl
    rw [hv] at hv'; cases hv'
    have hlen : hd.reqLen ≠ 0 := by
      rw [← t5]; intro h0; exact hd0 (List.length_eq_zero_iff.1 h0)
    have hdo : doSigVerify e hd = true := by simp [doSigVerify, hext, hrc, hsig, hlen, hpp]
    obtain ⟨d, s, d1, d2, d3⟩ := hvf hdo
    rw [e3] at d1; rw [e4] at d2
    cases d1; cases d2
    rw [e1]
    refine ⟨d3, ?_⟩
    simp only [expectedSigLen, hext, hrc, hsig, hlen, if_true, if_false, Bool.false_eq_true] at hx
    by_cases h0 : e.sigLength hd.client = 0
    · rw [if_pos h0] at hx; cases hx
    · rw [if_neg h0] at hx
      have : e.sigLength hd.client = hd.sigLen := by injection hx
      exact ⟨by rw [t6, this], by rw [t6, ← this]; omega⟩

/-- Only principals get in: the client and the sender of a request that is let in are principals, or the request carries the id of a replica. -/
theorem request_principal {e : Env} {g : Gate} {maxSize sender : Nat} {m : Bytes} {v : View} (h : receive e g maxSize sender m = .ok v) :
    (e.isPrincipal v.client = true ∧ e.isPrincipal sender = true ∧ g.validClient v.client = true) ∨
    ((bit v.flags RECONFIG || bit v.flags INTERNAL) && (e.isReplica v.client || e.isPeerRo v.client)) = true := by
  obtain ⟨h1, h2⟩ := receive_parts h
  obtain ⟨hv, hcl⟩ := admit_parts h2
  obtain ⟨hd, hr, hc⟩ := validate_ok h1
  obtain ⟨hd', hr', e1, e2, _, _⟩ := view_hdr hv
  rw [hr] at hr'; cases hr'
  rcases hc with hc | hc
  · right; rw [e1, e2]; exact hc
  · obtain ⟨p1, p2, _⟩ := rest_ok hc
    rw [e1]
    rcases hcl with hcl | hcl
    · rw [e1] at hcl; exact .inl ⟨p1, p2, hcl⟩
    · right; rw [e1] at hcl; rw [Bool.and_comm]; exact hcl

/-! ## Validation reads nothing outside of the message and does not abort -/

/-- For every byte string of at least six bytes and every sender but the replica itself, validation ends with an answer. -/
theorem validate_total (e : Env) {sender : Nat} (hs : sender ≠ e.myId) {m : Bytes} (hm : 6 ≤ m.length) :
    validate e sender m = .ok () ∨ validate e sender m = .error .reject := by
  unfold validate
  have h1 : slice m 2 4 = some ((m.drop 2).take 4) := by unfold slice; rw [if_pos (by omega)]
  rw [h1]
  simp only
  split
  · exact .inr rfl
  · rename_i hl
    simp only [hdrSize, Nat.not_lt] at hl
    rw [readHdr_some (by omega)]
    simp only
    rw [if_neg (by simp [hs])]
    split
    · exact .inr rfl
    · split
      · exact .inl rfl
      · unfold validateRest
        split
        · exact .inr rfl
        · split
          · exact .inr rfl
          · cases hx : expectedSigLen e (decHdr (m.take 52)) with
            | none => exact .inr rfl
            | some sl =>
              simp only
              split
              · exact .inr rfl
              · rename_i h3
                have h3 : sl = (decHdr (m.take 52)).sigLen := by simpa using h3
                subst h3
                split
                · exact .inr rfl
                · rename_i h4
                  have h4 := Decidable.not_not.1 h4
                  obtain ⟨v, _, _, _, _, _, _, _, _, t1, t2, _⟩ := tile (readHdr_some (by omega)) h4
                  split
                  · rw [t1, t2]
                    simp only
                    split
                    · exact .inl rfl
                    · exact .inr rfl
                  · exact .inl rfl

theorem onNewMessage_ok {maxSize : Nat} {m : Bytes} (h6 : 6 ≤ m.length) (hmax : m.length ≤ maxSize) (ht : leDecode (m.take 2) < lastMsgCode) :
    onNewMessage maxSize m = .ok () := by
  unfold onNewMessage
  have h1 : slice m 0 2 = some (m.take 2) := by unfold slice; rw [if_pos (by omega)]; simp
  simp only [baseHdrSize, if_neg (Nat.not_lt.2 hmax), if_neg (Nat.not_lt.2 h6), h1, if_pos ht]

theorem receive_eq {e : Env} {g : Gate} {maxSize sender : Nat} {m : Bytes} (h1 : onNewMessage maxSize m = .ok ())
    (h2 : g.async = true → 16 ≤ m.length) :
    receive e g maxSize sender m = (match validate e sender m with | .error x => .error x | .ok _ => admit e g sender m) := by
  have ha : (if g.async then (do let _ ← shouldValidateAsync m; pure ()) else .ok () : R Unit) = .ok () := by
    cases hg : g.async with
    | false => rfl
    | true =>
      have : slice m 8 8 = some ((m.drop 8).take 8) := by unfold slice; rw [if_pos (by have := h2 hg; omega)]
      simp only [shouldValidateAsync, this, if_true]
      rfl
  have h : receive e g maxSize sender m = (do onNewMessage maxSize m; (if g.async then (do let _ ← shouldValidateAsync m; pure ()) else .ok () : R Unit); validate e sender m; admit e g sender m) := rfl
  rw [h, ha, h1]
  cases validate e sender m <;> rfl

/-- **Receiving a request ends with an answer**: a message with a known type code that does not carry the id of a replica together with the
reconfiguration or internal flag is let in or refused; nothing outside of it is read and no assertion fails.  With asynchronous validation the
message must have the 16 bytes up to the flags. -/
theorem receive_total {e : Env} {g : Gate} {maxSize sender : Nat} (hs : sender ≠ e.myId) {m : Bytes}
    (hty : 2 ≤ m.length → leDecode (m.take 2) < lastMsgCode) (has : g.async = true → 6 ≤ m.length → 16 ≤ m.length)
    (hne : ∀ hd, readHdr m = some hd → early e hd = false) :
    (∃ v, receive e g maxSize sender m = .ok v) ∨ receive e g maxSize sender m = .error .reject := by
  by_cases hbad : m.length > maxSize ∨ m.length < 6
  · right
    have : onNewMessage maxSize m = .error .reject := by
      unfold onNewMessage
      rcases hbad with h | h
      · rw [if_pos h]
      · split
        · rfl
        · rw [if_pos (show m.length < baseHdrSize from h)]
    unfold receive
    rw [this]; rfl
  · have hmax : m.length ≤ maxSize := by omega
    have h6 : 6 ≤ m.length := by omega
    rw [receive_eq (onNewMessage_ok h6 hmax (hty (by omega))) (fun h => has h h6)]
    rcases validate_total e hs h6 with h | h
    · rw [h]
      obtain ⟨hd, hr, hc⟩ := validate_ok h
      rcases hc with hc | hc
      · rw [hne hd hr] at hc; cases hc
      · obtain ⟨_, _, _, hl, _⟩ := rest_ok hc
        obtain ⟨v, _, _, hv, _⟩ := tile hr hl
        have hv' := hv
        unfold view at hv'
        simp only [hr] at hv'
        unfold admit
        simp only [hr]
        cases hc1 : cidOf m hd with
        | none => rw [hc1] at hv'; split at hv' <;> simp_all
        | some c =>
          cases hs1 : spanOf m hd with
          | none => rw [hs1] at hv'; cases hv'
          | some sp =>
            simp only
            split
            · exact .inr rfl
            · split
              · exact .inr rfl
              · split
                · exact .inr rfl
                · exact .inl ⟨v, by rw [hv]; rfl⟩
    · rw [h]; exact .inr rfl

/-! ## What an honest client sends is let in, unchanged -/

/-- the surroundings of a client that may send: it is an external client with its own id, keys are exchanged -/
structure Welcome (e : Env) (g : Gate) (client : Nat) : Prop where
  ext : e.isExternal client = true
  principal : e.isPrincipal client = true
  valid : g.validClient client = true
  notMe : client ≠ e.myId
  notReplica : e.isReplica client = false
  notRo : e.isPeerRo client = false
  exchanged : g.exchanged = true
  published : g.keysPublished = true

theorem flags_bits (c : ClientCfg) : bit c.flags RECONFIG = c.reconfiguration ∧ bit c.flags INTERNAL = false ∧
    bit c.flags HAS_PRE_PROCESSED = false ∧ c.flags < 64 ∧ bit c.flags READ_ONLY = c.readOnly := by
  unfold ClientCfg.flags
  cases c.readOnly <;> cases c.preExecute <;> cases c.keyExchange <;> cases c.reconfiguration <;> decide

/-- how the client and the replica agree on signatures: both sign and the key verifies its signatures, or neither does -/
def SigAgree (e : Env) (client : Nat) (sign : Option (Bytes → Bytes)) (data : Bytes) : Prop :=
  match sign with
  | some s => e.signing = true ∧ data ≠ [] ∧ (s data).length = e.sigLength client ∧ 0 < e.sigLength client ∧ e.sigLength client < 2 ^ 16 ∧
      e.verify client data (s data) = true
  | none => e.signing = false ∨ data = []

/-- **A request of an honest client is let in unchanged**: sequence number, data, correlation id, span context, signature and flags that the
handlers of the replica see are those the client gave, on the primary and on the backups, for synchronous and asynchronous validation. -/
theorem client_request_let_in {e : Env} {g : Gate} {client maxSize : Nat} {c : ClientCfg} {sign : Option (Bytes → Bytes)} {data : Bytes}
    (hw : Welcome e g client) (hc : client < 2 ^ 16) (hseq : c.seq < 2 ^ 64) (hto : c.timeout < 2 ^ 64) (hmax : maxSize < 2 ^ 32)
    (hsz : (createClientMsg c client sign data).encode.length ≤ maxSize) (hsig : SigAgree e client sign data) :
    receive e g maxSize client (createClientMsg c client sign data).encode =
      .ok ⟨client, c.flags, c.seq, c.timeout, 0, c.span, data, c.cid, signature sign data⟩ := by
  obtain ⟨fr, fi, fp, fl, _⟩ := flags_bits c
  generalize hr : createClientMsg c client sign data = r at hsz ⊢
  have r1 : r.client = client := by rw [← hr]; rfl
  have r2 : r.flags = c.flags := by rw [← hr]; rfl
  have r3 : r.data = data := by rw [← hr]; rfl
  have r4 : r.extra = 0 := by rw [← hr]; rfl
  have r5 : r.sig = signature sign data := by rw [← hr]; rfl
  have r6 : r.msgType = 500 ∨ r.msgType = 700 := by
    rw [← hr]; simp only [createClientMsg]; split
    · exact .inl rfl
    · exact .inr rfl
  have r7 : r.view = ⟨client, c.flags, c.seq, c.timeout, 0, c.span, data, c.cid, signature sign data⟩ := by
    rw [← hr]; rfl
  have hlen := encode_length r
  have hsl : r.sig.length < 2 ^ 16 := by
    rw [r5]
    cases sign with
    | none => exact (by decide : (0:Nat) < 2 ^ 16)
    | some s => obtain ⟨_, _, s3, _, s5, _⟩ := hsig; show (s data).length < 2 ^ 16; omega
  have hf : r.Fits := by
    refine ⟨by omega, by omega, by omega, ?_, ?_, ?_, ?_, hsl, by omega⟩
    · rw [← hr]; exact (by decide : (1:Nat) < 2 ^ 32)
    · rw [← hr]; exact hseq
    · rw [← hr]; exact hto
    · rw [← hr]; exact (by decide : (0:Nat) < 2 ^ 16)
  have hrd := readHdr_encode hf
  have hty : leDecode (r.encode.take 2) < lastMsgCode := by
    have : r.encode.take 2 = leEncode 2 r.msgType := by
      unfold Req.encode encHdr
      simp only [List.append_assoc]
      rw [take_append_eq _ _ _ (by simp)]
      rfl
    rw [this, leDecode_leEncode 2 _ (by have := hf.msgType; simpa using this)]
    unfold lastMsgCode; omega
  rw [receive_eq (onNewMessage_ok (by omega) hsz hty) (fun _ => by omega)]
  have hval : validate e client r.encode = .ok () := by
    unfold validate
    obtain ⟨b, hb, hbl⟩ := span_field hf
    rw [hb]
    simp only
    rw [if_neg (by rw [hbl, hlen]; unfold hdrSize; omega), hrd]
    simp only
    have hcl : r.hdr.client = client := r1
    have hfl : r.hdr.flags = c.flags := r2
    have e0 : r.hdr.sigLen = r.sig.length := rfl
    have e1 : r.hdr.cidLen = r.cid.length := rfl
    have e2 : r.hdr.span = r.span.length := rfl
    have e3 : r.hdr.reqLen = r.data.length := rfl
    have e4 : r.hdr.extra = r.extra := rfl
    rw [hfl, fr, fi]
    rw [if_neg (by simp [hw.notMe]), if_neg (by rw [hlen, e0, e1, e2]; unfold hdrSize; omega),
      if_neg (by simp [early, hcl, hw.notReplica, hw.notRo])]
    unfold validateRest
    rw [hcl, hw.principal]
    simp only [Bool.not_true, Bool.false_eq_true, if_false]
    have hx : expectedSigLen e r.hdr = some r.hdr.sigLen := by
      unfold expectedSigLen
      rw [hcl, hw.ext, hfl, fr]
      simp only [if_true]
      cases hrc : c.reconfiguration with
      | true => rfl
      | false =>
        simp only [Bool.false_eq_true, if_false]
        cases sign with
        | none =>
          have h0 : r.hdr.sigLen = 0 := by rw [e0, r5]; rfl
          rw [h0]
          rcases hsig with hsig | hsig
          · rw [hsig]; rfl
          · have : r.hdr.reqLen = 0 := by rw [e3, r3, hsig]; rfl
            rw [if_pos this]; split <;> rfl
        | some s =>
          obtain ⟨s1, s2, s3, s4, s5, s6⟩ := hsig
          have h0 : r.hdr.sigLen = e.sigLength client := by rw [e0, r5]; exact s3
          have h1 : r.hdr.reqLen ≠ 0 := by rw [e3, r3]; exact fun h => s2 (List.length_eq_zero_iff.1 h)
          rw [s1, if_pos rfl, if_neg h1, if_neg (by omega), h0]
    rw [hx]
    simp only [ne_eq, not_true, if_false]
    rw [if_neg (by rw [hlen, e0, e1, e2, e3, e4]; unfold hdrSize; omega)]
    split
    · rename_i hdo
      obtain ⟨_, a2, _, a4⟩ := accessors_encode r
      rw [a2, a4]
      simp only
      cases sign with
      | none =>
        exfalso
        simp only [doSigVerify, Bool.and_eq_true, bne_iff_ne] at hdo
        rcases hsig with hsig | hsig
        · rw [hsig] at hdo; simp at hdo
        · exact hdo.1.2 (by rw [e3, r3, hsig]; rfl)
      | some s =>
        obtain ⟨s1, s2, s3, s4, s5, s6⟩ := hsig
        rw [r3, r5, if_pos (show e.verify client data (signature (some s) data) = true from s6)]
    · rfl
  rw [hval]
  simp only
  unfold admit
  obtain ⟨a1, _, a3, _⟩ := accessors_encode r
  simp only [hrd, a1, a3, hw.exchanged, hw.published]
  have hcl : r.hdr.client = client := r1
  rw [hcl, hw.valid, hw.notReplica]
  simp only [Bool.not_true, Bool.false_and, Bool.or_false, Bool.false_eq_true, if_false, Bool.and_false, view_encode hf, r7]
  rfl

end Verif.Req
