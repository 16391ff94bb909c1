import Verif.PrePrepare.Proofs
set_option linter.unusedSimpArgs false
set_option linter.unusedVariables false
namespace Verif.PP
open Verif.Bytes

/-! ## Framing -/

/-- C15: when the request list of a message passes `checkRequests`, the iterator used for digest, validation and execution ends after
exactly `numberOfRequests` requests, all of which start inside the declared area, and trips no assertion (even when the 32-bit sizes in
the message wrap around). -/
theorem iterator_matches_check {buf : Bytes} {h : Hdr} (hn : h.num ≠ 0) (hc : checkRequests buf h = some true) :
    ∃ ps, walk buf h.endLoc (h.num + 1) (payloadShift h) = .done ps ∧ ps.length = h.num ∧ ∀ p ∈ ps, p < h.endLoc := by
  unfold checkRequests at hc
  rw [if_neg hn] at hc
  by_cases hp : payloadShift h ≥ h.endLoc
  · simp [hp] at hc
  · rw [if_neg hp] at hc
    exact walk_of_check buf h.endLoc h.num _ _ (by omega) (by omega) hc

theorem encHdr_length {msgType span view seq epoch flags cidLen : Nat} {time : Int} {digest : Bytes} {num endLoc : Nat} (hd : digest.length = 32) :
    (encHdr msgType span view seq epoch flags cidLen time digest num endLoc).length = hdrSize := by
  simp [encHdr, hd, hdrSize]

theorem readHdr_enc {msgType span view seq epoch flags cidLen : Nat} {time : Int} {digest : Bytes} {num endLoc : Nat} (hd : digest.length = 32)
    (h1 : span < 2 ^ 32) (h2 : view < 2 ^ 64) (h3 : seq < 2 ^ 64) (h4 : epoch < 2 ^ 64) (h5 : flags < 2 ^ 16) (h6 : cidLen < 2 ^ 64)
    (h7 : -2 ^ 63 ≤ time) (h8 : time < 2 ^ 63) (h9 : num < 2 ^ 16) (h10 : endLoc < 2 ^ 32) (body : Bytes) :
    readHdr (encHdr msgType span view seq epoch flags cidLen time digest num endLoc ++ body) =
      some ⟨span, view, seq, epoch, flags, cidLen, time, digest, num, endLoc⟩ := by
  unfold readHdr
  have hs : slice (encHdr msgType span view seq epoch flags cidLen time digest num endLoc ++ body) 0 hdrSize =
      some (encHdr msgType span view seq epoch flags cidLen time digest num endLoc) := by
    have hl := encHdr_length (msgType := msgType) (span := span) (view := view) (seq := seq) (epoch := epoch) (flags := flags) (cidLen := cidLen)
      (time := time) (num := num) (endLoc := endLoc) hd
    rw [slice_eq_some]
    refine ⟨by simp [hl], ?_⟩
    rw [List.drop_zero, List.take_append_of_le_length (by omega), List.take_of_length_le (by omega)]
  rw [hs]
  simp only [encHdr]
  have t2 := leEncode_length 2 msgType
  have a4 := leEncode_length 4 span
  have a8 := leEncode_length 8 view
  have b8 := leEncode_length 8 seq
  have c8 := leEncode_length 8 epoch
  have f2 := leEncode_length 2 flags
  have d8 := leEncode_length 8 cidLen
  have e8 := leEncode_length 8 (ofInt64 time)
  have n2 := leEncode_length 2 num
  have z4 := leEncode_length 4 endLoc
  simp only [List.drop_append, List.take_append, List.drop_eq_nil_of_le, List.append_assoc, t2, a4, a8, b8, c8, f2, d8, e8, hd, n2, z4,
    List.drop_of_length_le, List.nil_append, Nat.reduceSub, Nat.reduceLeDiff, List.drop_zero, List.take_zero, List.append_nil, List.length_drop,
    Nat.le_refl, List.take_of_length_le]
  simp only [leDecode_leEncode 4 span (by simpa using h1), leDecode_leEncode 8 view (by simpa using h2), leDecode_leEncode 8 seq (by simpa using h3),
    leDecode_leEncode 8 epoch (by simpa using h4), leDecode_leEncode 2 flags (by simpa using h5), leDecode_leEncode 8 cidLen (by simpa using h6),
    leDecode_leEncode 8 _ (ofInt64_lt time), toInt64_ofInt64 time h7 h8, leDecode_leEncode 2 num (by simpa using h9),
    leDecode_leEncode 4 endLoc (by simpa using h10)]

/-- bit tests on the flags of a built message -/
theorem flags_ok : ∀ path < 3, bit (path * 4 + 3) 1 = true ∧ bit (path * 4 + 3) 2 = true ∧ (path * 4 + 3) / 4 % 4 = path ∧ (path * 4 + 3) / 16 = 0 := by
  decide

/-- C15: every message built by an honest primary from well-formed requests is accepted by every other replica (given the requests
themselves are valid), and the receiver's iterator yields exactly the requests added, in order. -/
theorem built_accepted {e : Env} {sender view seq path : Nat} {time : Int} {span cid : Bytes} {reqs : List Bytes}
    (hH : ∀ x, (e.H x).length = 32) (hs : e.isReplica sender = true) (hme : sender ≠ e.myId) (hv : view < 2 ^ 64) (hseq : 0 < seq ∧ seq < 2 ^ 64)
    (hep : e.epoch < 2 ^ 64) (hp : path < 3) (hc : path = 1 → e.cVal ≠ 0) (ht1 : -2 ^ 63 ≤ time) (ht2 : time < 2 ^ 63)
    (hne : reqs ≠ []) (hnum : reqs.length < 2 ^ 16) (hw : ∀ r ∈ reqs, WellFormed r)
    (hok : e.signing = true → ∀ r ∈ reqs, validateReq e r 0 = .accept)
    (hsz : (build e.H view seq e.epoch path time span cid reqs).length < 2 ^ 32) :
    validate e sender (build e.H view seq e.epoch path time span cid reqs) = .accept ∧
    ∃ vs, requestsOf (build e.H view seq e.epoch path time span cid reqs) = some vs ∧ vs.map (·.bytes) = reqs := by
  have hlen : (build e.H view seq e.epoch path time span cid reqs).length = hdrSize + (span ++ cid ++ reqs.flatten).length := by
    unfold build
    simp only [List.length_append]
    rw [encHdr_length (hH _)]

  have hbl : (span ++ cid ++ reqs.flatten).length = span.length + cid.length + reqs.flatten.length := by simp only [List.length_append]
  have hge := flatten_length_ge reqs hw
  have hnpos : 0 < reqs.length := List.length_pos_iff.2 hne
  have hsp : span.length < 2 ^ 32 := by omega
  -- the shape of the message
  obtain ⟨a, ha1, ha2⟩ : ∃ a, build e.H view seq e.epoch path time span cid reqs = a ++ reqs.flatten ∧ a.length = hdrSize + span.length + cid.length := by
    refine ⟨encHdr 100 span.length view seq e.epoch (path * 4 + 3) cid.length time
      (e.H ((reqs.flatMap (fun r => (sigOrDigest e.H r 0).getD [])) ++ decInt time)) reqs.length (hdrSize + (span ++ cid ++ reqs.flatten).length) ++ span ++ cid, ?_, ?_⟩
    · unfold build
      simp only [List.append_assoc]
    · simp only [List.length_append, encHdr_length (hH _)]
  have hhdr : readHdr (build e.H view seq e.epoch path time span cid reqs) =
      some ⟨span.length, view, seq, e.epoch, path * 4 + 3, cid.length, time, e.H ((reqs.flatMap (fun r => (sigOrDigest e.H r 0).getD [])) ++ decInt time),
        reqs.length, (build e.H view seq e.epoch path time span cid reqs).length⟩ := by
    rw [hlen]
    unfold build
    exact readHdr_enc (hH _) hsp hv hseq.2 hep (by omega) (by omega) ht1 ht2 hnum (by omega) _
  have hshift : payloadShift ⟨span.length, view, seq, e.epoch, path * 4 + 3, cid.length, time, e.H ((reqs.flatMap (fun r => (sigOrDigest e.H r 0).getD [])) ++ decInt time),
        reqs.length, (build e.H view seq e.epoch path time span cid reqs).length⟩ = a.length := by
    unfold payloadShift
    simp only
    rw [Nat.mod_eq_of_lt (by omega)]
    omega
  generalize build e.H view seq e.epoch path time span cid reqs = buf at *
  subst ha1
  have hcheck := check_built reqs a hne hw hsz
  have hwalk := walk_built reqs a (reqs.length + 1) (by omega) hw hsz
  have hdig := digests_built e.H reqs a [] hw
  obtain ⟨vs, hvs1, hvs2⟩ := requests_built reqs a [] hw
  rw [List.append_nil] at hdig hvs1
  obtain ⟨f1, f2, f3, f4⟩ := flags_ok path hp
  refine ⟨?_, ?_⟩
  · unfold validate
    rw [hhdr]
    simp only [hme, if_false]
    have hhok : headerOk e sender (a ++ reqs.flatten) ⟨span.length, view, seq, e.epoch, path * 4 + 3, cid.length, time, e.H ((reqs.flatMap (fun r => (sigOrDigest e.H r 0).getD [])) ++ decInt time),
        reqs.length, (a ++ reqs.flatten).length⟩ = true := by
      unfold headerOk
      simp only [f1, f2, f3, f4, hs]
      have hc' : (path == 1 && e.cVal == 0) = false := by
        by_cases h : path = 1
        · simp [h, hc h]
        · simp [h]
      have h1 : ¬ (a ++ reqs.flatten).length < hdrSize + span.length := by simp; omega
      have h2 : ¬ reqs.length ≥ (a ++ reqs.flatten).length := by unfold reqHdrSize at hge; rw [List.length_append]; omega
      have h3 : seq ≠ 0 := by omega
      have h4 : reqs.length ≠ 0 := by omega
      have h5 : ¬ path ≥ 3 := by omega
      have h6 : ¬ (a ++ reqs.flatten).length > (a ++ reqs.flatten).length := by omega
      simp only [hc', h1, h2, h3, h4, h5, h6, decide_false, Bool.false_or, Bool.or_false, bne_self_eq_false, Bool.not_false, Bool.not_true, Bool.and_self, beq_eq_false_iff_ne.2 h3,
        beq_eq_false_iff_ne.2 h4]
    have hcr : checkRequests (a ++ reqs.flatten) ⟨span.length, view, seq, e.epoch, path * 4 + 3, cid.length, time, e.H ((reqs.flatMap (fun r => (sigOrDigest e.H r 0).getD [])) ++ decInt time),
        reqs.length, (a ++ reqs.flatten).length⟩ = some true := by
      unfold checkRequests
      rw [hshift]
      simp only
      rw [if_neg (by omega), if_neg (by unfold reqHdrSize at hge; rw [List.length_append]; omega)]
      exact hcheck
    simp only [hhok, Bool.not_true, Bool.false_eq_true, if_false, hcr, hshift, hwalk, digestInput, hdig, Option.map_some, ne_eq, not_true_eq_false]
    by_cases hsg : e.signing = true
    · simp only [hsg, if_true]
      have := validateReqs_built e reqs a [] hw (hok hsg)
      rwa [List.append_nil] at this
    · simp only [hsg, if_false]
      simp
  · refine ⟨vs, ?_, hvs2⟩
    unfold requestsOf
    rw [hhdr]
    simp only
    rw [hshift, hwalk]
    exact hvs1

/-! ## What the digest binds -/

/-- An accepted message: its header, its requests and the string that was hashed. -/
theorem accepted_parts {e : Env} {sender : Nat} {m : Bytes} (h : validate e sender m = .accept) :
    ∃ hd ps s, readHdr m = some hd ∧ walk m hd.endLoc (hd.num + 1) (payloadShift hd) = .done ps ∧ digestInput e.H m hd ps = some s ∧ e.H s = hd.digest ∧
      (e.signing = true → validateReqs e m ps = .accept) := by
  unfold validate at h
  cases hh : readHdr m with
  | none => simp [hh] at h
  | some hd =>
    simp only [hh] at h
    split at h
    · cases h
    · split at h
      · cases h
      · cases hc : checkRequests m hd with
        | none => simp [hc] at h
        | some b =>
          cases b with
          | false => simp [hc] at h
          | true =>
            simp only [hc] at h
            cases hw : walk m hd.endLoc (hd.num + 1) (payloadShift hd) with
            | oob => simp [hw] at h
            | abort => simp [hw] at h
            | more => simp [hw] at h
            | done ps =>
              simp only [hw] at h
              cases hd' : digestInput e.H m hd ps with
              | none => simp [hd'] at h
              | some s =>
                simp only [hd'] at h
                by_cases hne : e.H s ≠ hd.digest
                · simp [hne] at h
                · rw [if_neg hne] at h
                  refine ⟨hd, ps, s, rfl, hw, hd', by simpa using hne, ?_⟩
                  intro hsg
                  rw [if_pos hsg] at h
                  exact h

theorem time_range {m : Bytes} {hd : Hdr} (h : readHdr m = some hd) : -2 ^ 63 ≤ hd.time ∧ hd.time < 2 ^ 63 := by
  unfold readHdr at h
  split at h
  · cases h
  · rename_i s hs
    injection h with h
    subst h
    have := leDecode_lt ((s.drop 40).take 8)
    have hl : ((s.drop 40).take 8).length ≤ 8 := by simp; omega
    apply toInt64_range
    calc leDecode ((s.drop 40).take 8) < 256 ^ ((s.drop 40).take 8).length := this
      _ ≤ 256 ^ 8 := Nat.pow_le_pow_right (by decide) hl
      _ = 2 ^ 64 := by decide

theorem viewReqs_parts (f : ReqView → Bytes) (H : Bytes → Bytes) (buf : Bytes) : ∀ (ps : List Nat) (vs : List ReqView) (s : Bytes), viewReqs buf ps = some vs →
    sigOrDigests H buf ps = some s → (∀ p v x, viewReq buf p = some v → v ∈ vs → sigOrDigest H buf p = some x → x = f v) → s = (vs.map f).flatten := by
  intro ps
  induction ps with
  | nil => intro vs s h1 h2 _; simp [viewReqs] at h1; simp [sigOrDigests] at h2; subst h1; subst h2; rfl
  | cons p ps ih =>
    intro vs s h1 h2 hf
    simp only [viewReqs] at h1
    cases hv : viewReq buf p with
    | none => simp [hv] at h1
    | some v =>
      cases hvs : viewReqs buf ps with
      | none => simp [hv, hvs] at h1
      | some ws =>
        simp [hv, hvs] at h1
        simp only [sigOrDigests] at h2
        cases hx : sigOrDigest H buf p with
        | none => simp [hx] at h2
        | some x =>
          cases hy : sigOrDigests H buf ps with
          | none => simp [hx, hy] at h2
          | some y =>
            simp [hx, hy] at h2
            have := ih ws y hvs hy (fun p v x h1 h2 h3 => hf p v x h1 (by subst vs; exact List.mem_cons_of_mem _ h2) h3)
            have hxv := hf p v x hv (by subst vs; simp) hx
            subst vs
            simp [← h2, this, hxv]

/-- the part of the digest input that a request contributes, from the request as executed -/
theorem part_unsigned {H : Bytes → Bytes} {buf : Bytes} {p : Nat} {v : ReqView} {x : Bytes} (hv : viewReq buf p = some v) (hx : sigOrDigest H buf p = some x)
    (hu : v.hdr.sigLen = 0) : x = H v.bytes := by
  unfold viewReq at hv
  unfold sigOrDigest at hx
  cases hr : readReq buf p with
  | none => simp [hr] at hv
  | some q =>
    simp only [hr] at hv hx
    split at hv
    · rename_i b d s h1 h2 h3
      injection hv with hv
      subst hv
      have : ¬ q.sigLen > 0 := by simp at hu; omega
      rw [if_neg this, h1] at hx
      simpa using hx.symm
    · cases hv

theorem part_signed {H : Bytes → Bytes} {buf : Bytes} {p : Nat} {v : ReqView} {x : Bytes} (hv : viewReq buf p = some v) (hx : sigOrDigest H buf p = some x)
    (hu : v.hdr.sigLen > 0) : x = v.sig ∧ v.sig.length = v.hdr.sigLen := by
  unfold viewReq at hv
  unfold sigOrDigest at hx
  cases hr : readReq buf p with
  | none => simp [hr] at hv
  | some q =>
    simp only [hr] at hv hx
    split at hv
    · rename_i b d s h1 h2 h3
      injection hv with hv
      subst hv
      simp only at hu
      rw [if_pos hu, h3] at hx
      refine ⟨by simpa using hx.symm, slice_length h3⟩
    · cases hv

theorem requestsOf_parts {m : Bytes} {hd : Hdr} {ps : List Nat} {vs : List ReqView} (h1 : readHdr m = some hd) (h2 : walk m hd.endLoc (hd.num + 1) (payloadShift hd) = .done ps)
    (h3 : requestsOf m = some vs) : viewReqs m ps = some vs := by
  unfold requestsOf at h3
  rw [h1] at h3
  simp only [h2] at h3
  exact h3

theorem input_flatten {H : Bytes → Bytes} {m : Bytes} {hd : Hdr} {ps : List Nat} {s : Bytes} {vs : List ReqView} (f : ReqView → Bytes)
    (hs : digestInput H m hd ps = some s) (hv : viewReqs m ps = some vs)
    (hf : ∀ p v x, viewReq m p = some v → v ∈ vs → sigOrDigest H m p = some x → x = f v) : s = (vs.map f).flatten ++ decInt hd.time := by
  unfold digestInput at hs
  cases hso : sigOrDigests H m ps with
  | none => simp [hso] at hs
  | some y =>
    simp [hso] at hs
    rw [← hs, viewReqs_parts f H m ps vs y hv hso hf]

/-- C15 for unsigned requests: two accepted PrePrepares with one digest hold the same requests, byte by byte and in the same order, and the
same time - or two different strings that were hashed in computing these digests collide. -/
theorem unsigned_batch_bound {e e' : Env} {sender sender' : Nat} {m m' : Bytes} {hd hd' : Hdr} {vs vs' : List ReqView} (hE : e'.H = e.H) (hH : ∀ x, (e.H x).length = 32)
    (ha : validate e sender m = .accept) (ha' : validate e' sender' m' = .accept) (hh : readHdr m = some hd) (hh' : readHdr m' = some hd')
    (hr : requestsOf m = some vs) (hr' : requestsOf m' = some vs') (hu : ∀ v ∈ vs, v.hdr.sigLen = 0) (hu' : ∀ v ∈ vs', v.hdr.sigLen = 0)
    (hd_eq : hd.digest = hd'.digest) :
    (vs.map (·.bytes) = vs'.map (·.bytes) ∧ hd.time = hd'.time) ∨
    (∃ v ∈ vs, ∃ v' ∈ vs', v.bytes ≠ v'.bytes ∧ e.H v.bytes = e.H v'.bytes) ∨
    (let s := (vs.map (fun v => e.H v.bytes)).flatten ++ decInt hd.time
     let s' := (vs'.map (fun v => e.H v.bytes)).flatten ++ decInt hd'.time
     s ≠ s' ∧ e.H s = e.H s') := by
  obtain ⟨h1, ps, s, a1, a2, a3, a4, _⟩ := accepted_parts ha
  obtain ⟨h1', ps', s', b1, b2, b3, b4, _⟩ := accepted_parts ha'
  rw [hh] at a1; injection a1 with a1; subst a1
  rw [hh'] at b1; injection b1 with b1; subst b1
  have hv := requestsOf_parts hh a2 hr
  have hv' := requestsOf_parts hh' b2 hr'
  rw [hE] at b3 b4
  have es := input_flatten (fun v => e.H v.bytes) a3 hv (fun p v x q1 q2 q3 => part_unsigned q1 q3 (hu v q2))
  have es' := input_flatten (fun v => e.H v.bytes) b3 hv' (fun p v x q1 q2 q3 => part_unsigned q1 q3 (hu' v q2))
  by_cases hss : s = s'
  · have hc : vs.map (fun v => e.H v.bytes) = vs'.map (fun v => e.H v.bytes) ∧ decInt hd.time = decInt hd'.time := by
      obtain ⟨r1, r2⟩ := time_range hh
      obtain ⟨r3, r4⟩ := time_range hh'
      have l1 := decInt_length r1 r2
      have l2 := decInt_length r3 r4
      refine chunks_unique (L := 32) (by decide) _ _ _ _ ?_ ?_ l1.1 l1.2 l2.1 l2.2 (by rw [← es, ← es', hss])
      · intro x hx; obtain ⟨v, _, rfl⟩ := List.mem_map.1 hx; exact hH _
      · intro x hx; obtain ⟨v, _, rfl⟩ := List.mem_map.1 hx; exact hH _
    by_cases hcol : ∃ v ∈ vs, ∃ v' ∈ vs', v.bytes ≠ v'.bytes ∧ e.H v.bytes = e.H v'.bytes
    · exact Or.inr (Or.inl hcol)
    · left
      refine ⟨?_, decInt_inj hc.2⟩
      have key : ∀ (l l' : List ReqView), (∀ v ∈ l, v ∈ vs) → (∀ v ∈ l', v ∈ vs') → l.map (fun v => e.H v.bytes) = l'.map (fun v => e.H v.bytes) →
          l.map (·.bytes) = l'.map (·.bytes) := by
        intro l
        induction l with
        | nil => intro l' _ _ h; cases l' with
                 | nil => rfl
                 | cons _ _ => simp at h
        | cons v l ih =>
          intro l' h1 h2 h
          cases l' with
          | nil => simp at h
          | cons v' l' =>
            simp only [List.map_cons, List.cons.injEq] at h ⊢
            refine ⟨?_, ih l' (fun x hx => h1 x (List.mem_cons_of_mem _ hx)) (fun x hx => h2 x (List.mem_cons_of_mem _ hx)) h.2⟩
            by_cases hb : v.bytes = v'.bytes
            · exact hb
            · exact absurd ⟨v, h1 v (by simp), v', h2 v' (by simp), hb, h.1⟩ hcol
      exact key vs vs' (fun _ h => h) (fun _ h => h) hc.1
  · right; right
    refine ⟨by rw [← es, ← es']; exact hss, ?_⟩
    rw [← es, ← es', a4, b4, hd_eq]

/-- C15 for signed requests, all signatures of one length (over 20 bytes): one digest means the same sequence of signatures and the same
time - the digest does not look at anything else (see `digest_ignores_request`). -/
theorem signed_batch_bound_partial {e e' : Env} {sender sender' : Nat} {m m' : Bytes} {hd hd' : Hdr} {vs vs' : List ReqView} {L : Nat} (hL : 20 < L) (hE : e'.H = e.H)
    (ha : validate e sender m = .accept) (ha' : validate e' sender' m' = .accept) (hh : readHdr m = some hd) (hh' : readHdr m' = some hd')
    (hr : requestsOf m = some vs) (hr' : requestsOf m' = some vs') (hu : ∀ v ∈ vs, v.hdr.sigLen = L) (hu' : ∀ v ∈ vs', v.hdr.sigLen = L)
    (hd_eq : hd.digest = hd'.digest) :
    (vs.map (·.sig) = vs'.map (·.sig) ∧ hd.time = hd'.time) ∨
    (let s := (vs.map (·.sig)).flatten ++ decInt hd.time
     let s' := (vs'.map (·.sig)).flatten ++ decInt hd'.time
     s ≠ s' ∧ e.H s = e.H s') := by
  obtain ⟨h1, ps, s, a1, a2, a3, a4, _⟩ := accepted_parts ha
  obtain ⟨h1', ps', s', b1, b2, b3, b4, _⟩ := accepted_parts ha'
  rw [hh] at a1; injection a1 with a1; subst a1
  rw [hh'] at b1; injection b1 with b1; subst b1
  have hv := requestsOf_parts hh a2 hr
  have hv' := requestsOf_parts hh' b2 hr'
  rw [hE] at b3 b4
  have es := input_flatten (fun v => v.sig) a3 hv (fun p v x q1 q2 q3 => (part_signed q1 q3 (by rw [hu v q2]; omega)).1)
  have es' := input_flatten (fun v => v.sig) b3 hv' (fun p v x q1 q2 q3 => (part_signed q1 q3 (by rw [hu' v q2]; omega)).1)
  have hlen : ∀ (buf : Bytes) (ps : List Nat) (vs : List ReqView), viewReqs buf ps = some vs → ∀ v ∈ vs, v.sig.length = v.hdr.sigLen := by
    intro buf ps
    induction ps with
    | nil => intro vs h v hv; simp [viewReqs] at h; subst h; simp at hv
    | cons p ps ih =>
      intro vs h v hv
      simp only [viewReqs] at h
      cases h1 : viewReq buf p with
      | none => simp [h1] at h
      | some w =>
        cases h2 : viewReqs buf ps with
        | none => simp [h1, h2] at h
        | some ws =>
          simp [h1, h2] at h
          subst h
          rcases List.mem_cons.1 hv with rfl | hv
          · unfold viewReq at h1
            split at h1
            · cases h1
            · split at h1
              · rename_i q1 q2 q3
                injection h1 with h1; subst h1
                exact slice_length q3
              · cases h1
          · exact ih ws h2 v hv
  by_cases hss : s = s'
  · left
    have hc : vs.map (·.sig) = vs'.map (·.sig) ∧ decInt hd.time = decInt hd'.time := by
      obtain ⟨r1, r2⟩ := time_range hh
      obtain ⟨r3, r4⟩ := time_range hh'
      have l1 := decInt_length r1 r2
      have l2 := decInt_length r3 r4
      refine chunks_unique (L := L) hL _ _ _ _ ?_ ?_ l1.1 l1.2 l2.1 l2.2 (by rw [← es, ← es', hss])
      · intro x hx; obtain ⟨v, hm, rfl⟩ := List.mem_map.1 hx; rw [hlen m ps vs hv v hm, hu v hm]
      · intro x hx; obtain ⟨v, hm, rfl⟩ := List.mem_map.1 hx; rw [hlen m' ps' vs' hv' v hm, hu' v hm]
    exact ⟨hc.1, decInt_inj hc.2⟩
  · right
    refine ⟨by rw [← es, ← es']; exact hss, ?_⟩
    rw [← es, ← es', a4, b4, hd_eq]

end Verif.PP
