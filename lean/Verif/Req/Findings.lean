import Verif.Req.Batch2
import Verif.Replicas.Model
set_option linter.unusedSimpArgs false
set_option linter.unusedVariables false
/-! What the handling of client requests does not do. -/
namespace Verif.Req
open Verif.Bytes

/-- a built request passes validation -/
theorem validate_encode {e : Env} {sender : Nat} {r : Req} (hf : r.Fits) (hme : sender ≠ e.myId)
    (h : early e r.hdr = true ∨ (e.isPrincipal r.client = true ∧ e.isPrincipal sender = true ∧ expectedSigLen e r.hdr = some r.sig.length ∧
      (doSigVerify e r.hdr = true → e.verify r.client r.data r.sig = true))) :
    validate e sender r.encode = .ok () := by
  have hlen := encode_length r
  unfold validate
  obtain ⟨b, h1, h2⟩ := span_field hf
  rw [h1]
  simp only
  have e0 : r.hdr.sigLen = r.sig.length := rfl
  have e1 : r.hdr.cidLen = r.cid.length := rfl
  have e2 : r.hdr.span = r.span.length := rfl
  have e3 : r.hdr.reqLen = r.data.length := rfl
  have e4 : r.hdr.extra = r.extra := rfl
  have c0 : r.hdr.client = r.client := rfl
  rw [if_neg (by rw [h2, hlen]; unfold hdrSize; omega), readHdr_encode hf]
  simp only
  rw [if_neg (by simp [hme]), if_neg (by rw [hlen, e0, e1, e2]; unfold hdrSize; omega)]
  rcases h with h | ⟨p1, p2, p3, p4⟩
  · rw [if_pos h]
  · split
    · rfl
    · unfold validateRest
      rw [c0, p1, p2, p3]
      simp only [Bool.not_true, Bool.false_eq_true, if_false, e0, ne_eq, not_true]
      rw [if_neg (by rw [hlen, e1, e2, e3, e4]; unfold hdrSize; omega)]
      split
      · rename_i hdo
        obtain ⟨_, a2, _, a4⟩ := accessors_encode r
        rw [a2, a4]
        simp only
        rw [if_pos (p4 hdo)]
      · rfl

theorem receive_encode {e : Env} {g : Gate} {maxSize sender : Nat} {r : Req} (hf : r.Fits) (hty : r.msgType < lastMsgCode) (hsz : r.encode.length ≤ maxSize)
    (hval : validate e sender r.encode = .ok ()) (hx : g.exchanged = true) (hp : g.keysPublished = true)
    (hcl : g.validClient r.client = true ∨ ((e.isReplica r.client || e.isPeerRo r.client) && (bit r.flags RECONFIG || bit r.flags INTERNAL)) = true)
    (hnp : (bit r.flags RECONFIG || bit r.flags INTERNAL) = true ∨ e.isReplica sender = false ∨ g.isPrimary = true) :
    receive e g maxSize sender r.encode = .ok r.view := by
  have hlen := encode_length r
  have ht : leDecode (r.encode.take 2) < lastMsgCode := by
    have : r.encode.take 2 = leEncode 2 r.msgType := by
      unfold Req.encode encHdr
      simp only [List.append_assoc]
      rw [take_append_eq _ _ _ (by simp)]
      rfl
    rw [this, leDecode_leEncode 2 _ (by have := hf.msgType; simpa using this)]
    exact hty
  rw [receive_eq (onNewMessage_ok (by omega) hsz ht) (fun _ => by omega), hval]
  simp only
  unfold admit
  obtain ⟨a1, _, a3, _⟩ := accessors_encode r
  simp only [readHdr_encode hf, a1, a3, hx, hp]
  have c0 : r.hdr.client = r.client := rfl
  have c1 : r.hdr.flags = r.flags := rfl
  rw [c0, c1]
  simp only [Bool.not_true, Bool.false_and, Bool.or_false, Bool.false_eq_true, if_false]
  rw [if_neg, if_neg]
  · rw [view_encode hf]; rfl
  · rcases hnp with h | h | h <;> simp [h]
  · rcases hcl with h | h <;> simp [h]

/-- BUG63: any peer aborts the replica with six bytes: a type code above the last known one fails an assertion in the thread that receives. -/
theorem unknown_type_aborts {maxSize : Nat} {m : Bytes} (h6 : 6 ≤ m.length) (hmax : m.length ≤ maxSize) (ht : lastMsgCode ≤ leDecode (m.take 2)) :
    onNewMessage maxSize m = .error .abort := by
  unfold onNewMessage
  have h1 : slice m 0 2 = some (m.take 2) := by unfold slice; rw [if_pos (by omega)]; simp
  simp only [baseHdrSize, if_neg (Nat.not_lt.2 hmax), if_neg (Nat.not_lt.2 h6), h1, if_neg (Nat.not_lt.2 ht)]

example : onNewMessage 100 [0x85, 3, 0, 0, 0, 0] = .error .abort := unknown_type_aborts (by decide) (by decide) (by decide)

/-- With asynchronous validation the flags of a client request are read before its size is checked. -/
theorem short_request_oob {e : Env} {g : Gate} {maxSize sender : Nat} {m : Bytes} (ha : g.async = true) (h6 : 6 ≤ m.length) (h16 : m.length < 16)
    (hmax : m.length ≤ maxSize) (ht : leDecode (m.take 2) < lastMsgCode) : receive e g maxSize sender m = .error .oob := by
  have h1 := onNewMessage_ok h6 hmax ht
  have h2 : shouldValidateAsync m = .error .oob := by
    unfold shouldValidateAsync slice; rw [if_neg (by omega)]
  have h : receive e g maxSize sender m = (do onNewMessage maxSize m; (if g.async then (do let _ ← shouldValidateAsync m; pure ()) else .ok () : R Unit); validate e sender m; admit e g sender m) := rfl
  rw [h, h1, ha, h2]
  rfl

/-- BUG64: the id of a replica in the header and the internal flag skip all checks of sizes: anybody sends 53 bytes that are accepted, and the
handler then copies the correlation id from 4 GB after the end of the message. -/
def wildReq : Bytes := encHdr ⟨700, 0, 0, INTERNAL, 1, 1, 2 ^ 32 - 1, 0, 1, 0, 0, 0⟩ ++ [0]

theorem replica_id_oob {e : Env} {g : Gate} {maxSize sender : Nat} (hr : e.isReplica 0 = true) (hmax : 53 ≤ maxSize) :
    receive e g maxSize sender wildReq = .error .oob := by
  have hd : readHdr wildReq = some ⟨700, 0, 0, INTERNAL, 1, 1, 2 ^ 32 - 1, 0, 1, 0, 0, 0⟩ := by decide
  have hl : wildReq.length = 53 := by decide
  have ht : leDecode (wildReq.take 2) < lastMsgCode := by decide
  have hs : slice wildReq 2 4 = some [0, 0, 0, 0] := by decide
  rw [receive_eq (onNewMessage_ok (by omega) (by omega) ht) (fun _ => by omega)]
  have hv : validate e sender wildReq = .ok () := by
    unfold validate
    rw [hs]
    simp only
    rw [if_neg (by rw [hl]; decide), hd]
    simp only
    rw [if_neg (by simp [show bit INTERNAL INTERNAL = true from by decide]), if_neg (by rw [hl]; decide),
      if_pos (by simp [early, hr, show bit INTERNAL INTERNAL = true from by decide])]
  rw [hv]
  simp only
  unfold admit
  rw [hd]
  have hc : cidOf wildReq ⟨700, 0, 0, INTERNAL, 1, 1, 2 ^ 32 - 1, 0, 1, 0, 0, 0⟩ = none := by decide
  simp only [hc]

/-- BUG64, second half: a request in the name of a replica, with the internal flag and any data, is let in from anybody who has a connection. -/
theorem forged_internal {e : Env} {g : Gate} {maxSize sender : Nat} {r : Req} (hf : r.Fits) (hty : r.msgType = 700) (hsz : r.encode.length ≤ maxSize)
    (hme : sender ≠ e.myId) (hrep : e.isReplica r.client = true) (hfl : bit r.flags INTERNAL = true) (hx : g.exchanged = true) (hp : g.keysPublished = true) :
    receive e g maxSize sender r.encode = .ok r.view := by
  apply receive_encode hf (by rw [hty]; decide) hsz
  · apply validate_encode hf hme
    left
    show ((bit r.flags RECONFIG || bit r.flags INTERNAL) && (e.isReplica r.client || e.isPeerRo r.client)) = true
    simp [hfl, hrep]
  · exact hx
  · exact hp
  · right; simp [hfl, hrep]
  · left; simp [hfl]

/-- BUG65: the pre-processed flag, set by anybody, skips the verification of the signature: any bytes of the right length will do. -/
theorem preprocessed_flag_unsigned {e : Env} {g : Gate} {maxSize sender : Nat} {r : Req} (hf : r.Fits) (hty : r.msgType = 700) (hsz : r.encode.length ≤ maxSize)
    (hme : sender ≠ e.myId) (hps : e.isPrincipal sender = true) (hpc : e.isPrincipal r.client = true) (hext : e.isExternal r.client = true)
    (hv : g.validClient r.client = true) (hfl : bit r.flags HAS_PRE_PROCESSED = true) (hrc : bit r.flags RECONFIG = false)
    (hsg : e.signing = true) (hd : r.data ≠ []) (hsl : r.sig.length = e.sigLength r.client) (hs0 : 0 < e.sigLength r.client)
    (hx : g.exchanged = true) (hp : g.keysPublished = true) (hnp : e.isReplica sender = false ∨ g.isPrimary = true) :
    receive e g maxSize sender r.encode = .ok r.view := by
  have c0 : r.hdr.client = r.client := rfl
  have c1 : r.hdr.flags = r.flags := rfl
  have h0 : r.hdr.reqLen ≠ 0 := fun h => hd (List.length_eq_zero_iff.1 h)
  apply receive_encode hf (by rw [hty]; decide) hsz
  · apply validate_encode hf hme
    right
    refine ⟨hpc, hps, ?_, ?_⟩
    · unfold expectedSigLen
      rw [c0, c1, hext, hrc, hsg]
      simp only [if_true, Bool.false_eq_true, if_false]
      rw [if_neg h0, if_neg (by omega), hsl]
    · unfold doSigVerify
      rw [c1, hfl]
      simp
  · exact hx
  · exact hp
  · exact .inl hv
  · exact .inr hnp

/-- BUG66: a client that signs cannot send an empty request: it signs it (bft_client.cpp:134-143) and the replica expects no signature. -/
theorem empty_signed_refused {e : Env} {g : Gate} {maxSize client : Nat} {c : ClientCfg} {s : Bytes → Bytes} (hc : client < 2 ^ 16) (hseq : c.seq < 2 ^ 64)
    (hto : c.timeout < 2 ^ 64) (hmax : maxSize < 2 ^ 32) (hsz : (createClientMsg c client (some s) []).encode.length ≤ maxSize)
    (hs : 0 < (s []).length ∧ (s []).length < 2 ^ 16) (hext : e.isExternal client = true) (hsg : e.signing = true) (hrc : c.reconfiguration = false)
    (hme : client ≠ e.myId) (hnr : e.isReplica client = false ∧ e.isPeerRo client = false) :
    receive e g maxSize client (createClientMsg c client (some s) []).encode = .error .reject := by
  obtain ⟨fr, fi, _, fl, _⟩ := flags_bits c
  have hlen := encode_length (createClientMsg c client (some s) [])
  have hf : (createClientMsg c client (some s) []).Fits := by
    refine ⟨?_, hc, ?_, (by show (1:Nat) < 2 ^ 32; decide), hseq, hto, (by show (0:Nat) < 2 ^ 16; decide), hs.2, by omega⟩
    · show (if !c.readOnly && c.preExecute then 500 else 700) < _
      split <;> omega
    · show c.flags < _; omega
  have hrd := readHdr_encode hf
  have htot : (∃ v, receive e g maxSize client (createClientMsg c client (some s) []).encode = .ok v) ∨ receive e g maxSize client (createClientMsg c client (some s) []).encode = .error .reject := by
    apply receive_total hme
    · intro _
      have : (createClientMsg c client (some s) []).encode.take 2 = leEncode 2 (createClientMsg c client (some s) []).msgType := by
        unfold Req.encode encHdr
        simp only [List.append_assoc]
        rw [take_append_eq _ _ _ (by simp)]
        rfl
      rw [this, leDecode_leEncode 2 _ (by have := hf.msgType; simpa using this)]
      show (if !c.readOnly && c.preExecute then 500 else 700) < _
      unfold lastMsgCode
      split <;> omega
    · intro _ _; omega
    · intro hd hr
      rw [hrd] at hr
      cases hr
      rw [early, show (createClientMsg c client (some s) []).hdr.client = client from rfl, hnr.1, hnr.2]
      simp
  rcases htot with h | h
  · obtain ⟨v, h⟩ := h
    obtain ⟨h1, _⟩ := receive_parts h
    obtain ⟨hd, hr, hcc⟩ := validate_ok h1
    rw [hrd] at hr
    cases hr
    rcases hcc with hcc | hcc
    · rw [early, show (createClientMsg c client (some s) []).hdr.client = client from rfl, hnr.1, hnr.2] at hcc
      simp at hcc
    · obtain ⟨_, _, hx, _⟩ := rest_ok hcc
      unfold expectedSigLen at hx
      rw [show (createClientMsg c client (some s) []).hdr.client = client from rfl, hext,
        show (createClientMsg c client (some s) []).hdr.flags = c.flags from rfl, fr, hrc, hsg,
        show (createClientMsg c client (some s) []).hdr.reqLen = 0 from rfl,
        show (createClientMsg c client (some s) []).hdr.sigLen = (s []).length from rfl] at hx
      simp at hx
      rw [hx] at hs
      exact absurd hs.1 (by simp)
  · exact h

/-- BUG67: the validation of a batch reads the headers of its elements without looking at the end of the message. -/
theorem batch_oob {e : Env} {g : PGate} {busy : Nat → Bool} {sender : Nat} (hme : sender ≠ e.myId) {k : Nat} (hk : k < 2 ^ 32) :
    onBatch e g busy sender (encBHdr ⟨750, k, 0, 1, 0⟩) = .error .oob := by
  have hl : (encBHdr ⟨750, k, 0, 1, 0⟩).length = 16 := by simp [encBHdr]
  have hr : readBHdr (encBHdr ⟨750, k, 0, 1, 0⟩) = some ⟨750, k, 0, 1, 0⟩ := by
    have hs : slice (encBHdr ⟨750, k, 0, 1, 0⟩) 0 batchHdrSize = some (encBHdr ⟨750, k, 0, 1, 0⟩) :=
      slice_mid (a := []) (c := []) (by simp) rfl (by rw [hl]; rfl)
    unfold readBHdr
    rw [hs]
    simp only [Option.map_some]
    congr 1
    have he : encBHdr ⟨750, k, 0, 1, 0⟩ = leEncode 2 750 ++ (leEncode 4 k ++ (leEncode 2 0 ++ (leEncode 4 1 ++ (leEncode 4 0 ++ [])))) := by
      simp [encBHdr, List.append_assoc]
    have hk' : leDecode (((leEncode 2 750 ++ (leEncode 4 k ++ (leEncode 2 0 ++ (leEncode 4 1 ++ (leEncode 4 0 ++ []))))).drop 2).take 4) = k :=
      field_mid (by simp) rfl (by simpa using hk)
    rw [he]
    have go : ∀ (h' : BHdr), h'.msgType = 750 → h'.cidSize = k → h'.client = 0 → h'.num = 1 → h'.dataSize = 0 → h' = ⟨750, k, 0, 1, 0⟩ := by
      intro h' a b c d e; cases h'; simp_all
    apply go
    · simp only [decBHdr]; rw [take_append_eq _ _ _ (by simp)]; exact leDecode_leEncode 2 _ (by decide)
    · exact hk'
    · simp only [decBHdr]; rw [← List.append_assoc]; exact field_mid (by simp) rfl (by decide)
    · simp only [decBHdr]; rw [← List.append_assoc, ← List.append_assoc]; exact field_mid (by simp) rfl (by decide)
    · simp only [decBHdr]; rw [← List.append_assoc, ← List.append_assoc, ← List.append_assoc]; exact field_mid (by simp) rfl (by decide)
  have hv : validateBatch e sender (encBHdr ⟨750, k, 0, 1, 0⟩) = .error .oob := by
    unfold validateBatch
    rw [if_neg (by rw [hl]; decide), hr]
    simp only
    rw [if_neg (by rw [hl]; decide), if_neg (by simp), if_neg hme, if_neg (by decide)]
    show checkLoop e _ (0 + 1) _ = _
    unfold checkLoop
    have : readElem (encBHdr ⟨750, k, 0, 1, 0⟩) (batchHdrSize + k) = none := by
      unfold readElem slice
      rw [if_neg (by rw [hl]; unfold batchHdrSize; omega)]
      rfl
    rw [this]
  unfold onBatch
  rw [hv]

/-- BUG68: the client id in the header of a batch is compared with nothing.  A batch of good requests whose header names an id that is no external
client uses a null pointer. -/
theorem batch_null {e : Env} {g : PGate} {busy : Nat → Bool} {sender client : Nat} {cid : Bytes} {rs : List Req}
    (hc : client < 2 ^ 16) (hno : g.hasEntry client = false)
    (hlen : (createBatch client cid (rs.map Req.encode)).length < 2 ^ 32) (hne : rs ≠ []) (hmax : rs.length ≤ maxBatchSize)
    (hme : sender ≠ e.myId) (hb : g.batching = true) (hmb : rs.length ≤ g.maxBatch)
    (hrs : ∀ r ∈ rs, InBatch e r ∧ Signed e r ∧ Open e g sender r.client) (hent : ∀ r ∈ rs, g.hasEntry r.client = true) :
    onBatch e g busy sender (createBatch client cid (rs.map Req.encode)) = .error .null := by
  rw [batch_outcome hc hlen hne hmax hme hb hmb hrs hent, hno]
  rfl

/-- BUG68: so does a single request for pre-execution of a client that is valid but not an external one (client services, internal clients,
client proxies). -/
theorem preprocess_null {e : Env} {g : PGate} {sender : Nat} {m : Bytes} {v : View} (hval : validate e sender m = .ok ()) (hv : view m = some v)
    (hop : Open e g sender v.client) (hro : bit v.flags READ_ONLY = false) (hno : g.hasEntry v.client = false) :
    onPreProcess e g sender m = .error .null := by
  unfold onPreProcess
  rw [hval, hv]
  simp only
  rw [hro, clientMsgOk_open hop, hno]
  rfl

/-! ## A concrete system -/
namespace Eg

/-- four replicas, one read-only replica, two proxies, three external clients, two client services -/
def cfg : Replicas.Config := ⟨0, 4, 1, 2, 3, 2, 1, 0, true, true, true⟩

/-- a toy signature scheme with signatures of four bytes -/
def sign (client : Nat) (d : Bytes) : Bytes := [UInt8.ofNat client, UInt8.ofNat d.length, d.foldl (· + ·) 0, 77]

def env : Env where
  myId := 0
  isReplica := Replicas.isReplica cfg
  isPeerRo := Replicas.isPeerRo cfg
  isExternal := Replicas.isExternal cfg
  isPrincipal := Replicas.isValid cfg
  signing := true
  sigLength := fun c => if Replicas.isExternal cfg c then 4 else 0
  verify := fun c d s => s == sign c d

def gate : Gate := ⟨true, true, true, Replicas.isProxy cfg, fun c => decide (5 ≤ c ∧ c < 16), false⟩
def pgate : PGate := ⟨true, 10, false, fun c => decide (5 ≤ c ∧ c < 16), true, true, Replicas.isExternal cfg⟩

/-- client 8 sends a write request -/
def cc : ClientCfg := ⟨false, false, false, false, 17, 1000, [99, 105], [1]⟩

set_option maxRecDepth 100000 in
example : Welcome env gate 8 := by constructor <;> decide

set_option maxRecDepth 100000 in
/-- the hypotheses of `client_request_let_in` hold, and its conclusion: an actual run -/
example : receive env gate 1000 8 (createClientMsg cc 8 (some (sign 8)) [1, 2, 3]).encode =
    .ok ⟨8, 0, 17, 1000, 0, [1], [1, 2, 3], [99, 105], [8, 3, 6, 77]⟩ := by
  apply client_request_let_in (c := cc) (client := 8) (sign := some (sign 8)) (data := [1, 2, 3])
  · constructor <;> decide
  · decide
  · decide
  · decide
  · decide
  · decide
  · exact ⟨rfl, by decide, by decide, by decide, by decide, by decide⟩

deriving instance DecidableEq for Except

set_option maxRecDepth 100000 in
/-- the same request with one byte of the data changed is refused -/
example : receive env gate 1000 8 (createClientMsg cc 8 (some (fun _ => [8, 3, 6, 77])) [1, 2, 4]).encode = .error .reject := by
  decide +kernel

set_option maxRecDepth 100000 in
/-- a forged request with the pre-processed flag -/
example : receive env gate 1000 9 ({ createClientMsg cc 8 (some (fun _ => [0, 0, 0, 0])) [66] with flags := 4 }).encode =
    .ok ⟨8, 4, 17, 1000, 0, [1], [66], [99, 105], [0, 0, 0, 0]⟩ := by decide +kernel

set_option maxRecDepth 100000 in
example : receive env gate 1000 9 wildReq = .error .oob := replica_id_oob (by decide) (by decide)

/-- a batch of two requests -/
def batch : Bytes := createBatch 8 [7] [(createClientMsg cc 8 (some (sign 8)) [1, 2, 3]).encode, (createClientMsg cc 8 (some (sign 8)) [4]).encode]

set_option maxRecDepth 100000 in
example : (match onBatch env pgate (fun _ => false) 8 batch with | .ok rs => rs.map (fun r => (r.client, r.data, r.sig)) | .error _ => []) =
    [(8, [1, 2, 3], [8, 3, 6, 77]), (8, [4], [8, 1, 4, 77])] := by decide +kernel

set_option maxRecDepth 100000 in
/-- the same batch with the id 60000 in its header -/
example : onBatch env pgate (fun _ => false) 8
    (createBatch 60000 [7] [(createClientMsg cc 8 (some (sign 8)) [1, 2, 3]).encode, (createClientMsg cc 8 (some (sign 8)) [4]).encode]) = .error .null := by
  decide +kernel

set_option maxRecDepth 100000 in
/-- a batch of client 7 that carries a request of client 8 is handed over -/
example : (match onBatch env pgate (fun _ => false) 7 (createBatch 7 [7] [(createClientMsg cc 8 (some (sign 8)) [1, 2, 3]).encode]) with
    | .ok rs => rs.map (fun r => (r.client, r.data)) | .error _ => []) = [(8, [1, 2, 3])] := by decide +kernel

set_option maxRecDepth 100000 in
/-- client service 10 is valid and has no entry -/
example : onPreProcess { env with signing := false } pgate 10 (createClientMsg { cc with preExecute := true } 10 none [5]).encode = .error .null := by
  decide +kernel

end Eg
end Verif.Req
