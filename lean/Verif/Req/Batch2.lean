import Verif.Req.Batch
set_option linter.unusedSimpArgs false
set_option linter.unusedVariables false
/-! Batches from anybody: what is handed over. -/
namespace Verif.Req
open Verif.Bytes

/-- `b` starts with the requests `rs`, one after the other, each with a header of 52 bytes -/
inductive Pieces : Bytes → List Req → Prop where
  | nil (b : Bytes) : Pieces b []
  | cons {hdr b : Bytes} {r : Req} {rs : List Req} : hdr.length = 52 → Pieces b rs →
      Pieces (hdr ++ r.span ++ r.data ++ r.cid ++ r.sig ++ b) (r :: rs)

theorem element_ok {e : Env} {m : Bytes} {pos : Nat} {h : Hdr} {r : Req} (he : element e m pos h = .ok r) :
    nextPos pos h ≤ m.length ∧ r.client = h.client ∧ r.reqSeq = h.reqSeq ∧ r.timeout = h.timeout ∧
    r.msgType = 500 ∧ r.flags = PRE_PROCESS ∧ r.result = 1 ∧ r.index = 0 ∧ r.extra = 0 ∧
    r.span.length = h.span ∧ r.data.length = h.reqLen ∧ r.cid.length = h.cidLen ∧ r.sig.length = h.sigLen ∧
    r.span = (m.drop (pos + 52)).take h.span ∧ r.data = (m.drop (pos + 52 + h.span)).take h.reqLen ∧
    r.cid = (m.drop (pos + 52 + h.span + h.reqLen)).take h.cidLen ∧ r.sig = (m.drop (pos + 52 + h.span + h.reqLen + h.cidLen)).take h.sigLen := by
  unfold element at he
  cases h1 : slice m (pos + hdrSize) h.span with
  | none => rw [h1] at he; cases he
  | some sp =>
    cases h2 : slice m (pos + hdrSize + h.span) h.reqLen with
    | none => rw [h1, h2] at he; cases he
    | some d =>
      cases h3 : slice m (pos + hdrSize + h.span + h.reqLen) h.cidLen with
      | none => rw [h1, h2, h3] at he; cases he
      | some c =>
        rw [h1, h2, h3] at he
        simp only at he
        have l1 := slice_length h1
        have l2 := slice_length h2
        have l3 := slice_length h3
        obtain ⟨b1, q1⟩ := slice_eq_some.1 h1
        obtain ⟨b2, q2⟩ := slice_eq_some.1 h2
        obtain ⟨b3, q3⟩ := slice_eq_some.1 h3
        simp only [hdrSize] at b1 b2 b3 q1 q2 q3
        by_cases h0 : h.sigLen = 0
        · rw [if_pos h0] at he
          cases he
          refine ⟨by simp only [nextPos, hdrSize]; omega, rfl, rfl, rfl, rfl, rfl, rfl, rfl, rfl, l1, l2, l3, h0.symm, q1, q2, q3, ?_⟩
          rw [h0]; rfl
        · rw [if_neg h0] at he
          cases hg : e.signing with
          | false => rw [hg] at he; cases he
          | true =>
            rw [hg] at he
            simp only [Bool.not_true, Bool.false_eq_true, if_false] at he
            cases h4 : slice m (pos + hdrSize + h.span + h.reqLen + h.cidLen) h.sigLen with
            | none => rw [h4] at he; cases he
            | some s =>
              rw [h4] at he
              cases he
              have l4 := slice_length h4
              obtain ⟨b4, q4⟩ := slice_eq_some.1 h4
              simp only [hdrSize] at b4 q4
              exact ⟨by simp only [nextPos, hdrSize]; omega, rfl, rfl, rfl, rfl, rfl, rfl, rfl, rfl, l1, l2, l3, l4, q1, q2, q3, q4⟩

theorem decHdr_bounds (b : Bytes) : (decHdr b).client < 2 ^ 16 ∧ (decHdr b).reqSeq < 2 ^ 64 ∧ (decHdr b).timeout < 2 ^ 64 ∧ (decHdr b).sigLen < 2 ^ 16 := by
  have key : ∀ (o k : Nat), leDecode ((b.drop o).take k) < 256 ^ k := by
    intro o k
    refine Nat.lt_of_lt_of_le (leDecode_lt _) (Nat.pow_le_pow_right (by decide) ?_)
    simp only [List.length_take]; omega
  exact ⟨key 6 2, key 20 8, key 32 8, key 44 2⟩

theorem element_fits {e : Env} {m : Bytes} {pos : Nat} {h : Hdr} {r : Req} (hm : m.length < 2 ^ 32) (hr : readElem m pos = some h)
    (he : element e m pos h = .ok r) : r.Fits := by
  obtain ⟨n0, c1, c2, c3, c4, c5, c6, c7, c8, l1, l2, l3, l4, _⟩ := element_ok he
  simp only [nextPos, hdrSize] at n0
  have hb : ∃ b, h = decHdr b := by
    unfold readElem at hr
    cases hs : slice m pos 46 with
    | none => rw [hs] at hr; cases hr
    | some b => rw [hs] at hr; cases hr; exact ⟨b, rfl⟩
  obtain ⟨b, rfl⟩ := hb
  obtain ⟨b1, b2, b3, b4⟩ := decHdr_bounds b
  refine ⟨by rw [c4]; decide, by rw [c1]; exact b1, by rw [c5]; decide, by rw [c6]; decide, by rw [c2]; exact b2, by rw [c3]; exact b3,
    by rw [c7]; decide, by rw [l4]; exact b4, by omega⟩

theorem elements_pieces {e : Env} {m : Bytes} : ∀ (n pos : Nat) (rs : List Req), elementsLoop e m n pos = .ok rs → Pieces (m.drop pos) rs := by
  intro n
  induction n with
  | zero => intro pos rs h; cases h; exact .nil _
  | succ n ih =>
    intro pos rs h
    unfold elementsLoop at h
    cases h1 : readElem m pos with
    | none => rw [h1] at h; cases h
    | some hd =>
      simp only [h1] at h
      cases h2 : element e m pos hd with
      | error x => rw [h2] at h; cases h
      | ok r =>
        simp only [h2] at h
        cases h3 : elementsLoop e m n (nextPos pos hd) with
        | error x => rw [h3] at h; cases h
        | ok rs' =>
          simp only [h3] at h
          cases h
          have hp := ih _ _ h3
          obtain ⟨n0, _, _, _, _, _, _, _, _, _, _, _, _, q1, q2, q3, q4⟩ := element_ok h2
          have hcut : ∀ (a k : Nat), (m.drop a).take k ++ m.drop (a + k) = m.drop a := by
            intro a k; rw [← List.drop_drop, List.take_append_drop]
          have he : m.drop pos = (m.drop pos).take 52 ++ r.span ++ r.data ++ r.cid ++ r.sig ++ m.drop (nextPos pos hd) := by
            rw [q1, q2, q3, q4]
            simp only [List.append_assoc]
            have : nextPos pos hd = pos + 52 + hd.span + hd.reqLen + hd.cidLen + hd.sigLen := by simp only [nextPos, hdrSize]; omega
            rw [this, hcut, hcut, hcut, hcut, hcut]
          rw [he]
          refine .cons ?_ hp
          simp only [nextPos, hdrSize] at n0
          simp only [List.length_take, List.length_drop]; omega

theorem elements_fit {e : Env} {m : Bytes} (hm : m.length < 2 ^ 32) : ∀ (n pos : Nat) (rs : List Req), elementsLoop e m n pos = .ok rs →
    ∀ r ∈ rs, r.Fits ∧ r.flags = PRE_PROCESS := by
  intro n
  induction n with
  | zero => intro pos rs h; cases h; intro r hr; cases hr
  | succ n ih =>
    intro pos rs h
    unfold elementsLoop at h
    cases h1 : readElem m pos with
    | none => rw [h1] at h; cases h
    | some hd =>
      simp only [h1] at h
      cases h2 : element e m pos hd with
      | error x => rw [h2] at h; cases h
      | ok r =>
        simp only [h2] at h
        cases h3 : elementsLoop e m n (nextPos pos hd) with
        | error x => rw [h3] at h; cases h
        | ok rs' =>
          simp only [h3] at h
          cases h
          intro x hx
          rcases List.mem_cons.1 hx with hx | hx
          · subst hx; exact ⟨element_fits hm h1 h2, (element_ok h2).2.2.2.2.2.1⟩
          · exact ih _ _ h3 x hx

theorem batchOk_true {e : Env} {g : PGate} {sender : Nat} : ∀ (rs : List Req), batchOk e g sender rs = .ok true →
    ∀ r ∈ rs, clientMsgOk e g false r.client sender = true ∧ validate e r.client r.encode = .ok () := by
  intro rs
  induction rs with
  | nil => intro _ r hr; cases hr
  | cons x rs ih =>
    intro h
    unfold batchOk at h
    cases hc : clientMsgOk e g false x.client sender with
    | false =>
      rw [hc] at h
      simp only [Bool.not_false, if_true] at h
      cases hb : batchOk e g sender rs with
      | error y => rw [hb] at h; cases h
      | ok b => rw [hb] at h; simp at h
    | true =>
      rw [hc] at h
      simp only [Bool.not_true, Bool.false_eq_true, if_false] at h
      cases hv : validate e x.client x.encode with
      | ok u =>
        simp only [hv] at h
        intro r hr
        rcases List.mem_cons.1 hr with hr | hr
        · subst hr; exact ⟨hc, hv⟩
        · exact ih h r hr
      | error y =>
        cases y with
        | reject =>
          simp only [hv] at h
          cases hb : batchOk e g sender rs with
          | error y => rw [hb] at h; cases h
          | ok b => rw [hb] at h; simp at h
        | oob => rw [hv] at h; cases h
        | abort => rw [hv] at h; cases h
        | null => rw [hv] at h; cases h

theorem handOver_ok {g : PGate} : ∀ (rs xs : List Req), handOver g rs = .ok xs → xs = rs ∧ ∀ r ∈ rs, g.hasEntry r.client = true := by
  intro rs
  induction rs with
  | nil => intro xs h; cases h; exact ⟨rfl, fun r hr => by cases hr⟩
  | cons r rs ih =>
    intro xs h
    unfold handOver at h
    by_cases he : g.hasEntry r.client = true
    · rw [if_pos he] at h
      cases hh : handOver g rs with
      | error y => rw [hh] at h; cases h
      | ok ys =>
        rw [hh] at h
        simp only at h
        cases h
        obtain ⟨h1, h2⟩ := ih ys hh
        refine ⟨by rw [h1], ?_⟩
        intro x hx
        rcases List.mem_cons.1 hx with hx | hx
        · subst hx; exact he
        · exact h2 x hx
    · rw [if_neg he] at h; cases h

theorem onBatch_ok {e : Env} {g : PGate} {busy : Nat → Bool} {sender : Nat} {m : Bytes} {rs : List Req} (h : onBatch e g busy sender m = .ok rs) :
    ∃ bh c, readBHdr m = some bh ∧ slice m batchHdrSize bh.cidSize = some c ∧ elementsLoop e m bh.num (batchHdrSize + bh.cidSize) = .ok rs ∧
      batchOk e g sender rs = .ok true ∧ (∀ r ∈ rs, g.hasEntry r.client = true) ∧ bh.num ≤ g.maxBatch ∧ bh.num ≤ 1024 ∧ 0 < bh.num := by
  unfold onBatch at h
  cases h1 : validateBatch e sender m with
  | error x => rw [h1] at h; cases h
  | ok _ =>
    rw [h1] at h
    simp only at h
    cases h2 : readBHdr m with
    | none => rw [h2] at h; cases h
    | some bh =>
      rw [h2] at h
      simp only at h
      cases h3 : slice m batchHdrSize bh.cidSize with
      | none => rw [h3] at h; cases h
      | some c =>
        rw [h3] at h
        simp only at h
        split at h
        · cases h
        · split at h
          · cases h
          · rename_i hmb
            cases h4 : elements e m with
            | error x => rw [h4] at h; cases h
            | ok ys =>
              rw [h4] at h
              simp only at h
              cases h5 : batchOk e g sender ys with
              | error x => rw [h5] at h; cases h
              | ok b =>
                rw [h5] at h
                cases b with
                | false => cases h
                | true =>
                  simp only at h
                  split at h
                  · cases h
                  · split at h
                    · cases h
                    · obtain ⟨e1, e2⟩ := handOver_ok _ _ h
                      subst e1
                      unfold elements at h4
                      rw [h2] at h4
                      simp only [h3] at h4
                      refine ⟨bh, c, rfl, h3, h4, h5, e2, by omega, ?_⟩
                      unfold validateBatch at h1
                      rw [h2] at h1
                      split at h1
                      · cases h1
                      · simp only at h1
                        split at h1
                        · cases h1
                        · split at h1
                          · cases h1
                          · split at h1
                            · cases h1
                            · split at h1
                              · cases h1
                              · rename_i hn
                                unfold maxBatchSize at hn
                                omega

theorem pieces_length {e : Env} {m : Bytes} : ∀ (n pos : Nat) (rs : List Req), elementsLoop e m n pos = .ok rs → rs.length = n := by
  intro n
  induction n with
  | zero => intro pos rs h; cases h; rfl
  | succ n ih =>
    intro pos rs h
    unfold elementsLoop at h
    cases h1 : readElem m pos with
    | none => rw [h1] at h; cases h
    | some hd =>
      simp only [h1] at h
      cases h2 : element e m pos hd with
      | error x => rw [h2] at h; cases h
      | ok r =>
        simp only [h2] at h
        cases h3 : elementsLoop e m n (nextPos pos hd) with
        | error x => rw [h3] at h; cases h
        | ok rs' => simp only [h3] at h; cases h; simp [ih _ _ h3]

/-- **The requests of a batch are parts of the message**: after the 16 bytes of the header and the correlation id of the batch, the bytes received
are the requests handed over, one after the other, each after a header of 52 bytes; there are at least one and at most 1024 (and at most the
configured number) of them. -/
theorem batch_is_pieces {e : Env} {g : PGate} {busy : Nat → Bool} {sender : Nat} {m : Bytes} {rs : List Req}
    (h : onBatch e g busy sender m = .ok rs) :
    ∃ hdr cid body, m = hdr ++ cid ++ body ∧ hdr.length = 16 ∧ Pieces body rs ∧ 0 < rs.length ∧ rs.length ≤ 1024 ∧ rs.length ≤ g.maxBatch := by
  obtain ⟨bh, c, h1, h2, h3, _, _, h4, h5, h6⟩ := onBatch_ok h
  obtain ⟨l1, q1⟩ := slice_eq_some.1 h2
  have hn := pieces_length _ _ _ h3
  simp only [batchHdrSize] at l1 q1 h3
  refine ⟨m.take 16, c, m.drop (16 + bh.cidSize), ?_, by simp; omega, elements_pieces _ _ _ h3, by omega, by omega, by omega⟩
  rw [q1, ← List.take_add, List.take_append_drop]

/-- **Every request of a batch is signed by its client**: with transaction signing on, each non-empty request of an external client that a batch
hands over carries a signature that verifies over its data — whatever flags its header had, whoever sent the batch; and each is from a known
client. -/
theorem batch_signed {e : Env} {g : PGate} {busy : Nat → Bool} {sender : Nat} {m : Bytes} {rs : List Req} (hm : m.length < 2 ^ 32)
    (h : onBatch e g busy sender m = .ok rs) :
    ∀ r ∈ rs, g.validClient r.client = true ∧ e.isPrincipal r.client = true ∧
      (e.signing = true → e.isExternal r.client = true → r.data ≠ [] →
        e.verify r.client r.data r.sig = true ∧ r.sig.length = e.sigLength r.client) := by
  obtain ⟨bh, c, h1, h2, h3, h4, _⟩ := onBatch_ok h
  intro r hr
  obtain ⟨hf, hfl⟩ := elements_fit hm _ _ _ h3 r hr
  obtain ⟨v1, v2⟩ := batchOk_true rs h4 r hr
  refine ⟨?_, ?_⟩
  · unfold clientMsgOk at v1
    simp only [Bool.and_eq_true, Bool.not_eq_true', Bool.or_eq_false_iff] at v1
    simpa using v1.1.2.1
  · obtain ⟨hd, hrd, hc⟩ := validate_ok v2
    rw [readHdr_encode hf] at hrd
    cases hrd
    have c1 : r.hdr.flags = PRE_PROCESS := hfl
    have c2 : r.hdr.client = r.client := rfl
    rcases hc with hc | hc
    · rw [early, c1] at hc
      simp [show bit PRE_PROCESS RECONFIG = false from by decide, show bit PRE_PROCESS INTERNAL = false from by decide] at hc
    · obtain ⟨p1, _, p3, _, p5⟩ := rest_ok hc
      refine ⟨by rw [← c2]; exact p1, ?_⟩
      intro hg hext hd0
      have hl0 : r.hdr.reqLen ≠ 0 := fun h => hd0 (List.length_eq_zero_iff.1 h)
      have hdo : doSigVerify e r.hdr = true := by
        unfold doSigVerify
        rw [c1, c2, hext, hg]
        simp [show bit PRE_PROCESS RECONFIG = false from by decide, show bit PRE_PROCESS HAS_PRE_PROCESSED = false from by decide, hl0]
      obtain ⟨d, s, d1, d2, d3⟩ := p5 hdo
      obtain ⟨_, a2, _, a4⟩ := accessors_encode r
      rw [a2] at d1; rw [a4] at d2
      cases d1; cases d2
      refine ⟨d3, ?_⟩
      unfold expectedSigLen at p3
      rw [c2, hext, c1, hg, show bit PRE_PROCESS RECONFIG = false from by decide] at p3
      simp only [if_true, Bool.false_eq_true, if_false] at p3
      rw [if_neg hl0] at p3
      split at p3
      · cases p3
      · have : e.sigLength r.client = r.hdr.sigLen := by injection p3
        exact this.symm

/-! ## A single request for pre-execution -/

/-- A single request for pre-execution that reaches the pre-processor fills its message and is signed by its client — if the client did not set the
pre-processed flag or the reconfiguration flag. -/
theorem preprocess_signed_partial {e : Env} {g : PGate} {sender : Nat} {m : Bytes} {v : View} (h : onPreProcess e g sender m = .ok v)
    (hsig : e.signing = true) (hext : e.isExternal v.client = true) (hnr : e.isReplica v.client = false ∧ e.isPeerRo v.client = false)
    (hd0 : v.data ≠ []) (hrc : bit v.flags RECONFIG = false) (hpp : bit v.flags HAS_PRE_PROCESSED = false) :
    e.verify v.client v.data v.sig = true ∧ ∃ hdr extra, hdr.length = 52 ∧ m = hdr ++ v.span ++ v.data ++ v.cid ++ v.sig ++ extra := by
  unfold onPreProcess at h
  cases h1 : validate e sender m with
  | error x => rw [h1] at h; cases h
  | ok _ =>
    rw [h1] at h
    simp only at h
    cases hv : view m with
    | none => rw [hv] at h; cases h
    | some w =>
      rw [hv] at h
      simp only at h
      split at h
      · cases h
      · split at h
        · have hw : w = v := by injection h
          subst hw
          obtain ⟨hd, hr, hc⟩ := validate_ok h1
          obtain ⟨hd', hr', e1, e2, e3, e4⟩ := view_hdr hv
          rw [hr] at hr'; cases hr'
          rw [e1] at hext hnr
          rw [e2] at hrc hpp
          rcases hc with hc | hc
          · simp [early, hnr.1, hnr.2] at hc
          · obtain ⟨_, _, hx, hl, hvf⟩ := rest_ok hc
            obtain ⟨v', hdr, extra, hv', t1, _, _, _, _, _, _, t5, t6, t2⟩ := tile hr hl
            rw [hv] at hv'; cases hv'
            have hlen : hd.reqLen ≠ 0 := by
              rw [← t5]; intro h0; exact hd0 (List.length_eq_zero_iff.1 h0)
            have hdo : doSigVerify e hd = true := by simp [doSigVerify, hext, hrc, hsig, hlen, hpp]
            obtain ⟨d, s, d1, d2, d3⟩ := hvf hdo
            rw [e3] at d1; rw [e4] at d2
            cases d1; cases d2
            rw [e1]
            exact ⟨d3, hdr, extra, t1, t2⟩
        · cases h

end Verif.Req
