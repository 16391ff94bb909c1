import Verif.Req.Theorems
set_option linter.unusedSimpArgs false
set_option linter.unusedVariables false
/-! Batches of client requests. -/
namespace Verif.Req
open Verif.Bytes

/-- what becomes of a request of a batch: the type, the flags, the result and the index of the header are replaced -/
def Req.asPre (r : Req) : Req where
  msgType := 500
  client := r.client
  flags := PRE_PROCESS
  result := 1
  reqSeq := r.reqSeq
  timeout := r.timeout
  index := 0
  span := r.span
  data := r.data
  cid := r.cid
  sig := r.sig
  extra := 0

/-! ## Reading a built batch -/

theorem readBHdr_create {client : Nat} {cid : Bytes} {msgs : List Bytes} (hc : client < 2 ^ 16) (hl : (createBatch client cid msgs).length < 2 ^ 32)
    (hn : msgs.length < 2 ^ 32) : readBHdr (createBatch client cid msgs) = some ⟨750, cid.length, client, msgs.length, msgs.flatten.length⟩ := by
  have hlen : (createBatch client cid msgs).length = 16 + cid.length + msgs.flatten.length := by
    unfold createBatch; simp only [List.length_append]; simp [encBHdr]
  have h32 : (256 : Nat) ^ 4 = 2 ^ 32 := by decide
  have h16 : (256 : Nat) ^ 2 = 2 ^ 16 := by decide
  have hs : slice (createBatch client cid msgs) 0 batchHdrSize = some (encBHdr ⟨750, cid.length, client, msgs.length, msgs.flatten.length⟩) :=
    slice_mid (a := []) (c := cid ++ msgs.flatten) (by simp [createBatch]) rfl (by simp [encBHdr, batchHdrSize])
  unfold readBHdr
  rw [hs]
  simp only [Option.map_some]
  congr 1
  have e : encBHdr ⟨750, cid.length, client, msgs.length, msgs.flatten.length⟩ = leEncode 2 750 ++ (leEncode 4 cid.length ++ (leEncode 2 client ++
      (leEncode 4 msgs.length ++ (leEncode 4 msgs.flatten.length ++ [])))) := by simp [encBHdr, List.append_assoc]
  rw [e]
  have go : ∀ (h' : BHdr), h'.msgType = 750 → h'.cidSize = cid.length → h'.client = client → h'.num = msgs.length → h'.dataSize = msgs.flatten.length →
      h' = ⟨750, cid.length, client, msgs.length, msgs.flatten.length⟩ := by
    intro h' a b c d e; cases h'; simp_all
  apply go
  · simp only [decBHdr]; rw [take_append_eq _ _ _ (by simp)]; exact leDecode_leEncode 2 _ (by decide)
  · simp only [decBHdr]; exact field_mid (by simp) rfl (by rw [h32]; omega)
  · simp only [decBHdr]; rw [← List.append_assoc]; exact field_mid (by simp) rfl (by rw [h16]; omega)
  · simp only [decBHdr]; rw [← List.append_assoc, ← List.append_assoc]; exact field_mid (by simp) rfl (by rw [h32]; omega)
  · simp only [decBHdr]; rw [← List.append_assoc, ← List.append_assoc, ← List.append_assoc]; exact field_mid (by simp) rfl (by rw [h32]; omega)

/-- the fields of an element that the code uses -/
structure Same (h : Hdr) (r : Req) : Prop where
  span : h.span = r.span.length
  client : h.client = r.client
  reqSeq : h.reqSeq = r.reqSeq
  reqLen : h.reqLen = r.data.length
  timeout : h.timeout = r.timeout
  cidLen : h.cidLen = r.cid.length
  sigLen : h.sigLen = r.sig.length

theorem readElem_encode {r : Req} (hf : r.Fits) (a c : Bytes) : ∃ h, readElem (a ++ r.encode ++ c) a.length = some h ∧ Same h r := by
  have hl := encode_length r
  have hs : slice (a ++ r.encode ++ c) a.length 46 = some (r.encode.take 46) := by
    have := slice_in a r.encode c (o := 0) (k := 46) (by omega)
    simp only [Nat.add_zero] at this
    rw [this]; unfold slice; rw [if_pos (by omega)]; simp
  have hd : decHdr r.encode = r.hdr := by
    have := decHdr_enc (hdr_fits hf) (r.span ++ r.data ++ r.cid ++ r.sig ++ List.replicate r.extra 0)
    unfold Req.encode; simp only [List.append_assoc] at this ⊢; exact this
  obtain ⟨t1, t2, t3, t4, t5, t6, t7, t8⟩ := decHdr_take r.encode 46 (Nat.le_refl _) hd
  exact ⟨decHdr (r.encode.take 46), by simp only [readElem, hs, Option.map_some], t1, t2, t4, t5, t6, t7, t8⟩

/-- the length of the signature that the replica expects in a batch -/
def wantSig (e : Env) (client : Nat) : Nat := if e.signing then e.sigLength client else 0

/-- a request as it is in a batch: it has no extra bytes and a signature of the expected length -/
structure InBatch (e : Env) (r : Req) : Prop where
  fits : r.Fits
  extra : r.extra = 0
  sig : r.sig.length = wantSig e r.client

theorem nextPos_same {h : Hdr} {r : Req} (hs : Same h r) (h0 : r.extra = 0) (a : Bytes) : nextPos a.length h = (a ++ r.encode).length := by
  simp only [nextPos, hs.span, hs.reqLen, hs.cidLen, hs.sigLen, List.length_append, encode_length, h0, hdrSize]; omega

theorem checkLoop_built (e : Env) : ∀ (rs : List Req) (a : Bytes), (∀ r ∈ rs, InBatch e r) →
    checkLoop e (a ++ (rs.map Req.encode).flatten) rs.length a.length = .ok () := by
  intro rs
  induction rs with
  | nil => intro a _; rfl
  | cons r rs ih =>
    intro a h
    have hb := h r (by simp)
    have he : a ++ ((r :: rs).map Req.encode).flatten = a ++ r.encode ++ (rs.map Req.encode).flatten := by simp
    rw [he]
    obtain ⟨hd, h1, h2⟩ := readElem_encode hb.fits a (rs.map Req.encode).flatten
    have hl := encode_length r
    show (match readElem (a ++ r.encode ++ (rs.map Req.encode).flatten) a.length with
      | none => .error .oob
      | some h =>
        if (if e.signing then e.sigLength h.client else 0) ≠ h.sigLen ∨ (a ++ r.encode ++ (rs.map Req.encode).flatten).length < h.reqLen ∨
          (a ++ r.encode ++ (rs.map Req.encode).flatten).length < h.cidLen then .error .reject
        else checkLoop e (a ++ r.encode ++ (rs.map Req.encode).flatten) rs.length (nextPos a.length h)) = Except.ok ()
    rw [h1]
    simp only
    rw [if_neg, nextPos_same h2 hb.extra]
    · exact ih (a ++ r.encode) (fun x hx => h x (by simp [hx]))
    · rw [h2.client, h2.sigLen, h2.reqLen, h2.cidLen, hb.sig]
      simp only [List.length_append]
      rintro (h | h | h)
      · exact h rfl
      · omega
      · omega

theorem element_built {e : Env} {r : Req} (hb : InBatch e r) {h : Hdr} (hs : Same h r) (a c : Bytes) :
    element e (a ++ r.encode ++ c) a.length h = .ok r.asPre := by
  obtain ⟨_, p1, p2, p3, p4⟩ := encode_parts r a c
  unfold element
  rw [hs.span, hs.reqLen, hs.cidLen, hs.sigLen]
  simp only [hdrSize]
  rw [p1, p2, p3, p4]
  simp only [hs.client, hs.reqSeq, hs.timeout]
  split
  · rename_i h0
    rw [Req.asPre, List.length_eq_zero_iff.1 h0]
  · rename_i h0
    have : e.signing = true := by
      have := hb.sig
      unfold wantSig at this
      cases hg : e.signing with
      | true => rfl
      | false => rw [hg] at this; exact absurd this h0
    rw [this]
    rfl

theorem elementsLoop_built (e : Env) : ∀ (rs : List Req) (a : Bytes), (∀ r ∈ rs, InBatch e r) →
    elementsLoop e (a ++ (rs.map Req.encode).flatten) rs.length a.length = .ok (rs.map Req.asPre) := by
  intro rs
  induction rs with
  | nil => intro a _; rfl
  | cons r rs ih =>
    intro a h
    have hb := h r (by simp)
    have he : a ++ ((r :: rs).map Req.encode).flatten = a ++ r.encode ++ (rs.map Req.encode).flatten := by simp
    rw [he]
    obtain ⟨hd, h1, h2⟩ := readElem_encode hb.fits a (rs.map Req.encode).flatten
    have h3 := element_built hb h2 a (rs.map Req.encode).flatten
    have h4 := ih (a ++ r.encode) (fun x hx => h x (by simp [hx]))
    simp only [List.length_cons, elementsLoop, h1, h3, nextPos_same h2 hb.extra, h4, List.map_cons]

/-! ## Validation of the elements -/

theorem asPre_fits {r : Req} (h : r.Fits) : r.asPre.Fits := by
  have := h.size
  exact ⟨(by decide : (500:Nat) < 2 ^ 16), h.client, (by decide : (2:Nat) < 2 ^ 64), (by decide : (1:Nat) < 2 ^ 32), h.reqSeq, h.timeout,
    (by decide : (0:Nat) < 2 ^ 16), h.sig, (by show 52 + r.span.length + r.data.length + r.cid.length + r.sig.length + 0 < _; omega)⟩

/-- a request that a batch may carry: an external client that is not this replica, and a signature if the replica asks for one -/
structure Signed (e : Env) (r : Req) : Prop where
  ext : e.isExternal r.client = true
  principal : e.isPrincipal r.client = true
  notMe : r.client ≠ e.myId
  sig : e.signing = true → r.data ≠ [] ∧ 0 < e.sigLength r.client ∧ e.verify r.client r.data r.sig = true

theorem validate_asPre {e : Env} {r : Req} (hb : InBatch e r) (hs : Signed e r) : validate e r.asPre.client r.asPre.encode = .ok () := by
  have hf := asPre_fits hb.fits
  have hlen := encode_length r.asPre
  unfold validate
  obtain ⟨b, h1, h2⟩ := span_field hf
  rw [h1]
  simp only
  rw [if_neg (by rw [h2, hlen]; unfold hdrSize; omega), readHdr_encode hf]
  simp only
  have c0 : r.asPre.hdr.client = r.client := rfl
  have c1 : r.asPre.hdr.flags = PRE_PROCESS := rfl
  have e0 : r.asPre.hdr.sigLen = r.sig.length := rfl
  have e1 : r.asPre.hdr.cidLen = r.cid.length := rfl
  have e2 : r.asPre.hdr.span = r.span.length := rfl
  have e3 : r.asPre.hdr.reqLen = r.data.length := rfl
  have e4 : r.asPre.hdr.extra = 0 := rfl
  have hlen' : r.asPre.encode.length = 52 + r.span.length + r.data.length + r.cid.length + r.sig.length + 0 := hlen
  rw [if_neg (by rw [show r.asPre.client = r.client from rfl]; simp [hs.notMe]), if_neg (by rw [hlen', e0, e1, e2]; unfold hdrSize; omega),
    if_neg (by rw [early, c1]; simp [show bit PRE_PROCESS RECONFIG = false from by decide, show bit PRE_PROCESS INTERNAL = false from by decide])]
  unfold validateRest
  rw [c0, hs.principal, show r.asPre.client = r.client from rfl, hs.principal]
  simp only [Bool.not_true, Bool.false_eq_true, if_false]
  have hx : expectedSigLen e r.asPre.hdr = some r.asPre.hdr.sigLen := by
    unfold expectedSigLen
    rw [c0, hs.ext, c1, show bit PRE_PROCESS RECONFIG = false from by decide, e0, hb.sig, wantSig]
    simp only [if_true, Bool.false_eq_true, if_false]
    cases hg : e.signing with
    | false => rfl
    | true =>
      obtain ⟨s1, s2, s3⟩ := hs.sig hg
      simp only [if_true]
      rw [if_neg (by rw [e3]; exact fun h => s1 (List.length_eq_zero_iff.1 h)), if_neg (by omega)]
  rw [hx]
  simp only [ne_eq, not_true, if_false]
  rw [if_neg (by rw [hlen', e0, e1, e2, e3, e4]; unfold hdrSize; omega)]
  split
  · rename_i hdo
    obtain ⟨_, a2, _, a4⟩ := accessors_encode r.asPre
    rw [a2, a4]
    simp only
    have hg : e.signing = true := by
      simp only [doSigVerify, Bool.and_eq_true] at hdo
      exact hdo.1.1.2
    rw [if_pos (show e.verify r.client r.asPre.data r.asPre.sig = true from (hs.sig hg).2.2)]
  · rfl

/-- when the pre-processor takes requests of the client -/
structure Open (e : Env) (g : PGate) (sender client : Nat) : Prop where
  collecting : g.collecting = false
  valid : g.validClient client = true
  fromClient : e.isReplica sender = false ∨ g.isPrimary = true
  active : g.viewActive = true

theorem clientMsgOk_open {e : Env} {g : PGate} {sender client : Nat} (h : Open e g sender client) : clientMsgOk e g false client sender = true := by
  have := h.fromClient
  unfold clientMsgOk
  rw [h.collecting, h.valid, h.active]
  rcases this with h | h <;> simp [h]

theorem batchOk_built {e : Env} {g : PGate} {sender : Nat} : ∀ (rs : List Req), (∀ r ∈ rs, InBatch e r ∧ Signed e r ∧ Open e g sender r.client) →
    batchOk e g sender (rs.map Req.asPre) = .ok true := by
  intro rs
  induction rs with
  | nil => intro _; rfl
  | cons r rs ih =>
    intro h
    obtain ⟨h1, h2, h3⟩ := h r (by simp)
    have h4 := ih (fun x hx => h x (by simp [hx]))
    have h5 : clientMsgOk e g false r.asPre.client sender = true := clientMsgOk_open h3
    simp only [List.map_cons, batchOk, h5, validate_asPre h1 h2, h4, Bool.not_true, Bool.false_eq_true, if_false]

theorem handOver_all {g : PGate} : ∀ (rs : List Req), (∀ r ∈ rs, g.hasEntry r.client = true) → handOver g rs = .ok rs := by
  intro rs
  induction rs with
  | nil => intro _; rfl
  | cons r rs ih =>
    intro h
    simp only [handOver, h r (by simp), if_true, ih (fun x hx => h x (by simp [hx]))]

/-- the outcome for a batch of good requests, whatever the client id in the header of the batch is -/
theorem batch_outcome {e : Env} {g : PGate} {busy : Nat → Bool} {sender client : Nat} {cid : Bytes} {rs : List Req}
    (hc : client < 2 ^ 16) (hlen : (createBatch client cid (rs.map Req.encode)).length < 2 ^ 32) (hne : rs ≠ []) (hmax : rs.length ≤ maxBatchSize)
    (hme : sender ≠ e.myId) (hb : g.batching = true) (hmb : rs.length ≤ g.maxBatch)
    (hrs : ∀ r ∈ rs, InBatch e r ∧ Signed e r ∧ Open e g sender r.client) (hent : ∀ r ∈ rs, g.hasEntry r.client = true) :
    onBatch e g busy sender (createBatch client cid (rs.map Req.encode)) =
      if g.hasEntry client then (if busy client then .error .reject else .ok (rs.map Req.asPre)) else .error .null := by
  have hn : (rs.map Req.encode).length < 2 ^ 32 := by
    simp only [List.length_map]; unfold maxBatchSize at hmax; omega
  have hrd := readBHdr_create (msgs := rs.map Req.encode) hc hlen hn
  have hlen' : (createBatch client cid (rs.map Req.encode)).length = 16 + cid.length + (rs.map Req.encode).flatten.length := by
    unfold createBatch; simp only [List.length_append]; simp [encBHdr]
  have hn0 : rs.length ≠ 0 := fun h => hne (List.length_eq_zero_iff.1 h)
  generalize hm : createBatch client cid (rs.map Req.encode) = m at hlen hrd hlen'
  have hsplit : m = (encBHdr ⟨750, cid.length, client, (rs.map Req.encode).length, (rs.map Req.encode).flatten.length⟩ ++ cid) ++
      (rs.map Req.encode).flatten := by rw [← hm]; rfl
  have hpl : (encBHdr ⟨750, cid.length, client, (rs.map Req.encode).length, (rs.map Req.encode).flatten.length⟩ ++ cid).length = 16 + cid.length := by
    simp only [List.length_append]
    simp [encBHdr]
  generalize encBHdr ⟨750, cid.length, client, (rs.map Req.encode).length, (rs.map Req.encode).flatten.length⟩ ++ cid = a at hsplit hpl
  have hck : checkLoop e m rs.length (16 + cid.length) = .ok () := by
    have := checkLoop_built e rs a (fun r hr => (hrs r hr).1)
    rw [← hsplit, hpl] at this; exact this
  have hel : elementsLoop e m rs.length (16 + cid.length) = .ok (rs.map Req.asPre) := by
    have := elementsLoop_built e rs a (fun r hr => (hrs r hr).1)
    rw [← hsplit, hpl] at this; exact this
  have hnum : (rs.map Req.encode).length = rs.length := by simp
  have hcid : ∃ c, slice m batchHdrSize cid.length = some c := by
    refine ⟨(m.drop 16).take cid.length, ?_⟩
    unfold slice batchHdrSize; rw [if_pos (by omega)]
  obtain ⟨c, hcid⟩ := hcid
  have hv : validateBatch e sender m = .ok () := by
    unfold validateBatch
    rw [if_neg (by unfold batchHdrSize; omega), hrd]
    simp only
    rw [if_neg (by unfold batchHdrSize; omega), if_neg (by simp), if_neg hme, hnum, if_neg (by omega)]
    exact hck
  have hels : elements e m = .ok (rs.map Req.asPre) := by
    unfold elements
    rw [hrd]
    simp only
    rw [hcid, hnum]
    exact hel
  unfold onBatch
  rw [hv, hrd]
  simp only
  rw [hcid, hb, hnum]
  simp only [Bool.not_true, Bool.false_eq_true, if_false]
  rw [if_neg (by omega), hels]
  simp only
  rw [batchOk_built rs hrs]
  simp only
  have hho : handOver g (rs.map Req.asPre) = .ok (rs.map Req.asPre) := by
    apply handOver_all
    intro r hr
    obtain ⟨x, hx, rfl⟩ := List.mem_map.1 hr
    exact hent x hx
  rw [hho]
  cases g.hasEntry client <;> rfl

/-- how the client and the replica agree on the signatures of a batch: both sign, no request is empty and the key verifies its signatures, or
neither does -/
def BatchAgree (e : Env) (client : Nat) (sign : Option (Bytes → Bytes)) (datas : List Bytes) : Prop :=
  match sign with
  | some s => e.signing = true ∧ 0 < e.sigLength client ∧
      ∀ d ∈ datas, d ≠ [] ∧ (s d).length = e.sigLength client ∧ e.verify client d (s d) = true
  | none => e.signing = false

/-- **A batch of an honest client is handed over request by request**: the requests that reach the pre-processor are those the client put in, in
the same order, with their sequence numbers, data, correlation ids, span contexts and signatures (the flags are replaced). -/
theorem client_batch_let_in {e : Env} {g : PGate} {busy : Nat → Bool} {client : Nat} {cid : Bytes} {cs : List (ClientCfg × Bytes)}
    {sign : Option (Bytes → Bytes)} (hc : client < 2 ^ 16) (hne : cs ≠ []) (hmax : cs.length ≤ maxBatchSize) (hmb : cs.length ≤ g.maxBatch)
    (hlen : (createBatch client cid (cs.map (fun c => (createClientMsg c.1 client sign c.2).encode))).length < 2 ^ 32)
    (hnum : ∀ c ∈ cs, c.1.seq < 2 ^ 64 ∧ c.1.timeout < 2 ^ 64) (hsl : e.sigLength client < 2 ^ 16)
    (hext : e.isExternal client = true) (hpr : e.isPrincipal client = true) (hme : client ≠ e.myId) (hop : Open e g client client)
    (hb : g.batching = true) (hent : g.hasEntry client = true) (hbusy : busy client = false)
    (hsig : BatchAgree e client sign (cs.map Prod.snd)) :
    ∃ rs, onBatch e g busy client (createBatch client cid (cs.map (fun c => (createClientMsg c.1 client sign c.2).encode))) = .ok rs ∧
      rs.map (fun r => (r.client, r.reqSeq, r.timeout, r.span, r.data, r.cid, r.sig)) =
        cs.map (fun c => (client, c.1.seq, c.1.timeout, c.1.span, c.2, c.1.cid, signature sign c.2)) := by
  have hmap : cs.map (fun c => (createClientMsg c.1 client sign c.2).encode) = (cs.map (fun c => createClientMsg c.1 client sign c.2)).map Req.encode := by
    rw [List.map_map]; rfl
  rw [hmap] at hlen ⊢
  have hone : ∀ r ∈ cs.map (fun c => createClientMsg c.1 client sign c.2), r.encode.length < 2 ^ 32 := by
    intro r hr
    have h1 : r.encode ∈ (cs.map (fun c => createClientMsg c.1 client sign c.2)).map Req.encode := List.mem_map.2 ⟨r, hr, rfl⟩
    have h2 : ∀ (l : List Bytes) (x : Bytes), x ∈ l → x.length ≤ l.flatten.length := by
      intro l
      induction l with
      | nil => intro x h; cases h
      | cons y l ih =>
        intro x h
        simp only [List.flatten_cons, List.length_append]
        rcases List.mem_cons.1 h with h | h
        · subst h; omega
        · have := ih x h; omega
    have h3 := h2 _ _ h1
    have : (createBatch client cid ((cs.map (fun c => createClientMsg c.1 client sign c.2)).map Req.encode)).length =
        16 + cid.length + ((cs.map (fun c => createClientMsg c.1 client sign c.2)).map Req.encode).flatten.length := by
      unfold createBatch; simp only [List.length_append]; simp [encBHdr]
    omega
  have hall : ∀ r ∈ cs.map (fun c => createClientMsg c.1 client sign c.2), InBatch e r ∧ Signed e r ∧ Open e g client r.client := by
    intro r hr
    have hlr := hone r hr
    obtain ⟨c, hcm, rfl⟩ := List.mem_map.1 hr
    have hel := encode_length (createClientMsg c.1 client sign c.2)
    obtain ⟨n1, n2⟩ := hnum c hcm
    have hsg : (createClientMsg c.1 client sign c.2).sig.length = wantSig e client := by
      show (signature sign c.2).length = _
      cases sign with
      | none => unfold wantSig; rw [show e.signing = false from hsig]; rfl
      | some s => unfold wantSig; rw [hsig.1, if_pos rfl]; exact (hsig.2.2 c.2 (List.mem_map.2 ⟨c, hcm, rfl⟩)).2.1
    have hw : wantSig e client < 2 ^ 16 := by unfold wantSig; split <;> omega
    refine ⟨⟨⟨?_, hc, ?_, (by show (1:Nat) < 2 ^ 32; decide), n1, n2, (by show (0:Nat) < 2 ^ 16; decide), by rw [hsg]; exact hw, by omega⟩, rfl, hsg⟩,
      ⟨hext, hpr, hme, ?_⟩, hop⟩
    · show (if !c.1.readOnly && c.1.preExecute then 500 else 700) < _
      split <;> omega
    · have := (flags_bits c.1).2.2.2.1
      show c.1.flags < _
      omega
    · intro hg
      cases sign with
      | none => rw [show e.signing = false from hsig] at hg; cases hg
      | some s => exact ⟨(hsig.2.2 c.2 (List.mem_map.2 ⟨c, hcm, rfl⟩)).1, hsig.2.1, (hsig.2.2 c.2 (List.mem_map.2 ⟨c, hcm, rfl⟩)).2.2⟩
  refine ⟨(cs.map (fun c => createClientMsg c.1 client sign c.2)).map Req.asPre, ?_, ?_⟩
  · rw [batch_outcome hc hlen (by simpa using hne) (by simpa using hmax) hme hb (by simpa using hmb) hall
      (fun r hr => by obtain ⟨c, _, rfl⟩ := List.mem_map.1 hr; exact hent), hent, hbusy]
    rfl
  · rw [List.map_map, List.map_map]
    apply List.map_congr_left
    intro c _
    rfl

end Verif.Req
