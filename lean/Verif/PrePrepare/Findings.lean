import Verif.PrePrepare.Props
set_option linter.unusedSimpArgs false
set_option linter.unusedVariables false
/-! What the digest and the validation of PrePrepare messages do not do. -/
namespace Verif.PP
open Verif.Bytes

/-- A client request as the client builds it (ClientRequestMsg.cpp:38-85), without span context and extra data. -/
def encReq (client flags reqSeq index : Nat) (data cid sig : Bytes) : Bytes :=
  leEncode 2 700 ++ leEncode 4 0 ++ leEncode 2 client ++ leEncode 8 flags ++ leEncode 4 1 ++ leEncode 8 reqSeq ++ leEncode 4 data.length ++
    leEncode 8 0 ++ leEncode 4 cid.length ++ leEncode 2 sig.length ++ leEncode 4 0 ++ leEncode 2 index ++ (data ++ cid ++ sig)

/-- sizes that fit the fields -/
structure Fits (client flags reqSeq index : Nat) (data cid sig : Bytes) : Prop where
  c : client < 2 ^ 16
  f : flags < 2 ^ 64
  s : reqSeq < 2 ^ 64
  i : index < 2 ^ 16
  len : 52 + data.length + cid.length + sig.length < 2 ^ 32
  sig : sig.length < 2 ^ 16

theorem readReq_enc {client flags reqSeq index : Nat} {data cid sig : Bytes} (h : Fits client flags reqSeq index data cid sig) :
    readReq (encReq client flags reqSeq index data cid sig) 0 = some ⟨0, client, flags, 1, reqSeq, data.length, cid.length, sig.length, 0, index⟩ := by
  have hlen := h.len
  unfold readReq
  have a1 := leEncode_length 2 700
  have a2 := leEncode_length 4 0
  have a3 := leEncode_length 2 client
  have a4 := leEncode_length 8 flags
  have a5 := leEncode_length 4 1
  have a6 := leEncode_length 8 reqSeq
  have a7 := leEncode_length 4 data.length
  have a8 := leEncode_length 8 0
  have a9 := leEncode_length 4 cid.length
  have a10 := leEncode_length 2 sig.length
  have a12 := leEncode_length 2 index
  have hs : slice (encReq client flags reqSeq index data cid sig) 0 reqHdrSize = some (leEncode 2 700 ++ leEncode 4 0 ++ leEncode 2 client ++ leEncode 8 flags ++ leEncode 4 1 ++ leEncode 8 reqSeq ++ leEncode 4 data.length ++
    leEncode 8 0 ++ leEncode 4 cid.length ++ leEncode 2 sig.length ++ leEncode 4 0 ++ leEncode 2 index) := by
    have hl : (leEncode 2 700 ++ leEncode 4 0 ++ leEncode 2 client ++ leEncode 8 flags ++ leEncode 4 1 ++ leEncode 8 reqSeq ++ leEncode 4 data.length ++
    leEncode 8 0 ++ leEncode 4 cid.length ++ leEncode 2 sig.length ++ leEncode 4 0 ++ leEncode 2 index).length = 52 := by
      simp
    rw [slice_eq_some]
    refine ⟨by unfold encReq reqHdrSize; rw [List.length_append, hl]; omega, ?_⟩
    unfold encReq reqHdrSize
    rw [List.drop_zero, List.take_append_of_le_length (by omega), List.take_of_length_le (by omega)]
  rw [hs]
  simp only [List.drop_append, List.take_append, List.drop_eq_nil_of_le, List.append_assoc, a1, a2, a3, a4, a5, a6, a7, a8, a9, a10, a12,
    List.drop_of_length_le, List.nil_append, Nat.reduceSub, Nat.reduceLeDiff, List.drop_zero, List.take_zero, List.append_nil, List.length_drop,
    Nat.le_refl, List.take_of_length_le]
  simp only [leDecode_leEncode 4 0 (by decide), leDecode_leEncode 2 client (by simpa using h.c), leDecode_leEncode 8 flags (by simpa using h.f),
    leDecode_leEncode 4 1 (by decide), leDecode_leEncode 8 reqSeq (by simpa using h.s), leDecode_leEncode 4 data.length (by simp; omega),
    leDecode_leEncode 4 cid.length (by simp; omega), leDecode_leEncode 2 sig.length (by simpa using h.sig), leDecode_leEncode 2 index (by simpa using h.i)]

theorem encReq_length {client flags reqSeq index : Nat} {data cid sig : Bytes} :
    (encReq client flags reqSeq index data cid sig).length = 52 + data.length + cid.length + sig.length := by
  simp [encReq]; omega

theorem wf_enc {client flags reqSeq index : Nat} {data cid sig : Bytes} (h : Fits client flags reqSeq index data cid sig) :
    WellFormed (encReq client flags reqSeq index data cid sig) := by
  refine ⟨_, readReq_enc h, ?_, ?_⟩
  · rw [encReq_length]; simp [ReqHdr.sum, reqHdrSize]
  · rw [encReq_length]; exact h.len

theorem encReq_split {client flags reqSeq index : Nat} {data cid sig : Bytes} :
    ∃ a, a.length = 52 ∧ encReq client flags reqSeq index data cid sig = a ++ data ++ (cid ++ sig) ∧
      encReq client flags reqSeq index data cid sig = (a ++ data ++ cid) ++ sig ++ [] := by
  refine ⟨leEncode 2 700 ++ leEncode 4 0 ++ leEncode 2 client ++ leEncode 8 flags ++ leEncode 4 1 ++ leEncode 8 reqSeq ++ leEncode 4 data.length ++
    leEncode 8 0 ++ leEncode 4 cid.length ++ leEncode 2 sig.length ++ leEncode 4 0 ++ leEncode 2 index, by simp, ?_, ?_⟩
  · simp [encReq]
  · simp [encReq]

/-- what such a request contributes to the digest: its signature -/
theorem enc_part (H : Bytes → Bytes) {client flags reqSeq index : Nat} {data cid sig : Bytes} (h : Fits client flags reqSeq index data cid sig) (hs : 0 < sig.length) :
    sigOrDigest H (encReq client flags reqSeq index data cid sig) 0 = some sig := by
  unfold sigOrDigest
  rw [readReq_enc h]
  obtain ⟨a, h1, _, h2⟩ := @encReq_split client flags reqSeq index data cid sig
  simp only [hs, gt_iff_lt, if_true]
  rw [h2]
  exact slice_mid rfl (by simp [h1, reqHdrSize]; omega) rfl

/-- the request is what the application gets -/
theorem enc_view {client flags reqSeq index : Nat} {data cid sig : Bytes} (h : Fits client flags reqSeq index data cid sig) :
    viewReq (encReq client flags reqSeq index data cid sig) 0 = some ⟨⟨0, client, flags, 1, reqSeq, data.length, cid.length, sig.length, 0, index⟩,
      encReq client flags reqSeq index data cid sig, data, sig⟩ := by
  unfold viewReq
  rw [readReq_enc h]
  obtain ⟨a, h1, h2, h3⟩ := @encReq_split client flags reqSeq index data cid sig
  have hsz : reqSize ⟨0, client, flags, 1, reqSeq, data.length, cid.length, sig.length, 0, index⟩ = (encReq client flags reqSeq index data cid sig).length := by
    rw [encReq_length]; unfold reqSize ReqHdr.sum reqHdrSize; simp only; rw [Nat.mod_eq_of_lt (by have := h.len; omega)]; omega
  simp only [hsz]
  have s1 : slice (encReq client flags reqSeq index data cid sig) 0 (encReq client flags reqSeq index data cid sig).length = some (encReq client flags reqSeq index data cid sig) := by
    rw [slice_eq_some]; exact ⟨by omega, by simp⟩
  have s2 : slice (encReq client flags reqSeq index data cid sig) (0 + reqHdrSize + 0) data.length = some data :=
    slice_mid h2 (by simp [h1, reqHdrSize]) rfl
  have s3 : slice (encReq client flags reqSeq index data cid sig) (0 + reqHdrSize + 0 + data.length + cid.length) sig.length = some sig :=
    slice_mid h3 (by simp [h1, reqHdrSize]; omega) rfl
  rw [s1, s2, s3]

/-- The surroundings of the findings: any hash with 32 bytes, any signature verification; client 10 is an external client, signing is
enabled and signatures have 64 bytes. -/
structure Typical (e : Env) : Prop where
  hash : ∀ x, (e.H x).length = 32
  ext : e.isExternalClient 10 = true
  princ : e.isValidPrincipal 10 = true
  me : e.myId ≠ 10 ∧ e.myId ≠ 0
  rep : e.isReplica 0 = true
  sign : e.signing = true
  len : e.sigLength 10 = 64
  epoch : e.epoch = 0
  c : e.cVal = 0

theorem built_hdr_digest {H : Bytes → Bytes} (hH : ∀ x, (H x).length = 32) {client flags reqSeq index : Nat} {data cid sig : Bytes}
    (h : Fits client flags reqSeq index data cid sig) (hs : 0 < sig.length) (hd : data.length + cid.length + sig.length < 2 ^ 20) :
    ∃ hd, readHdr (build H 0 1 0 2 1000 [] [] [encReq client flags reqSeq index data cid sig]) = some hd ∧ hd.digest = H (sig ++ decInt 1000) := by
  unfold build
  have := readHdr_enc (msgType := 100) (span := 0) (view := 0) (seq := 1) (epoch := 0) (flags := 11) (cidLen := 0) (time := 1000)
    (digest := H (sig ++ decInt 1000)) (num := 1) (endLoc := hdrSize + (encReq client flags reqSeq index data cid sig).length) (hH _)
    (by decide) (by decide) (by decide) (by decide) (by decide) (by decide) (by decide) (by decide) (by decide)
    (by rw [encReq_length]; unfold hdrSize; omega) (encReq client flags reqSeq index data cid sig)
  refine ⟨⟨0, 0, 1, 0, 11, 0, 1000, H (sig ++ decInt 1000), 1, hdrSize + (encReq client flags reqSeq index data cid sig).length⟩, ?_, rfl⟩
  simpa [enc_part H h hs] using this

/-- **Finding.** Take any two requests that carry the same signature bytes and are each accepted by request validation.  The two PrePrepares
holding one or the other have the same digest, are both accepted, and hand different requests to the application.  (Votes, certificates and
agreement speak about the digest only.) -/
theorem same_digest_different_requests {e : Env} (ht : Typical e) {client flags reqSeq index client' flags' reqSeq' index' : Nat} {data cid data' cid' sig : Bytes}
    (h : Fits client flags reqSeq index data cid sig) (h' : Fits client' flags' reqSeq' index' data' cid' sig) (hs : 0 < sig.length)
    (hd : data.length + cid.length + sig.length < 2 ^ 20) (hd' : data'.length + cid'.length + sig.length < 2 ^ 20)
    (hok : validateReq e (encReq client flags reqSeq index data cid sig) 0 = .accept)
    (hok' : validateReq e (encReq client' flags' reqSeq' index' data' cid' sig) 0 = .accept) :
    ∃ m m' : Bytes, validate e 0 m = .accept ∧ validate e 0 m' = .accept ∧
      (∃ x x', readHdr m = some x ∧ readHdr m' = some x' ∧ x.digest = x'.digest) ∧
      (∃ vs, requestsOf m = some vs ∧ vs.map (·.bytes) = [encReq client flags reqSeq index data cid sig]) ∧
      (∃ vs, requestsOf m' = some vs ∧ vs.map (·.bytes) = [encReq client' flags' reqSeq' index' data' cid' sig]) := by
  have key : ∀ {client flags reqSeq index : Nat} {data cid : Bytes} (h : Fits client flags reqSeq index data cid sig)
      (hd : data.length + cid.length + sig.length < 2 ^ 20) (hok : validateReq e (encReq client flags reqSeq index data cid sig) 0 = .accept),
      validate e 0 (build e.H 0 1 0 2 1000 [] [] [encReq client flags reqSeq index data cid sig]) = .accept ∧
      ∃ vs, requestsOf (build e.H 0 1 0 2 1000 [] [] [encReq client flags reqSeq index data cid sig]) = some vs ∧
        vs.map (·.bytes) = [encReq client flags reqSeq index data cid sig] := by
    intro client flags reqSeq index data cid h hd hok
    have hb := built_accepted (e := e) (sender := 0) (view := 0) (seq := 1) (path := 2) (time := 1000) (span := []) (cid := [])
      (reqs := [encReq client flags reqSeq index data cid sig]) ht.hash ht.rep (Ne.symm ht.me.2) (by decide) (by decide) (by rw [ht.epoch]; decide) (by decide) (by intro hh; exact absurd hh (by decide))
      (by decide) (by decide) (by simp) (by simp) (by intro r hr; simp at hr; subst hr; exact wf_enc h) (by intro _ r hr; simp at hr; subst hr; exact hok)
      (by
        unfold build
        simp only [List.length_append, encHdr_length (ht.hash _), List.flatten_cons, List.flatten_nil, encReq_length]
        simp [hdrSize]; omega)
    rw [ht.epoch] at hb
    exact hb
  obtain ⟨k1, k2⟩ := key h hd hok
  obtain ⟨k3, k4⟩ := key h' hd' hok'
  obtain ⟨x, hx1, hx2⟩ := built_hdr_digest ht.hash h hs hd
  obtain ⟨x', hx1', hx2'⟩ := built_hdr_digest ht.hash h' hs hd'
  exact ⟨_, _, k1, k3, ⟨x, x', hx1, hx1', by rw [hx2, hx2']⟩, k2, k4⟩

/-- validation of a signed request of client 10 that claims to be pre-processed: the signature is not checked -/
theorem preprocessed_accepted {e : Env} (ht : Typical e) {reqSeq : Nat} {data sig : Bytes} (hs : sig.length = 64) (hd : 0 < data.length ∧ data.length < 2 ^ 20) (hq : reqSeq < 2 ^ 64) :
    Fits 10 4 reqSeq 0 data [] sig ∧ validateReq e (encReq 10 4 reqSeq 0 data [] sig) 0 = .accept := by
  have hf : Fits 10 4 reqSeq 0 data [] sig := ⟨by decide, by decide, hq, by decide, by simp; omega, by omega⟩
  refine ⟨hf, ?_⟩
  unfold validateReq
  rw [readReq_enc hf]
  simp only [hs, List.length_nil]
  have b1 : bit 4 RECONFIG = false := by decide
  have b2 : bit 4 INTERNAL = false := by decide
  have b3 : bit 4 HAS_PRE_PROCESSED = true := by decide
  have hsz : reqSize ⟨0, 10, 4, 1, reqSeq, data.length, 0, 64, 0, 0⟩ = 52 + data.length + 64 := by
    unfold reqSize ReqHdr.sum reqHdrSize; simp only; rw [Nat.mod_eq_of_lt (by omega)]
  have hne : (10 == e.myId) = false := by simpa using Ne.symm ht.me.1
  have hn : data.length ≠ 0 := by omega
  have c1 : ¬ (52 + data.length + 64 < reqHdrSize + 0) := by unfold reqHdrSize; omega
  have c2 : ¬ (52 + data.length + 64 < reqHdrSize + 0 + 0 + 64) := by unfold reqHdrSize; omega
  have c3 : 52 + data.length + 64 = reqHdrSize + data.length + 0 + 0 + 64 + 0 := by unfold reqHdrSize; omega
  have hn' : (data.length != 0) = true := by simpa using hn
  have h64 : ((64 : Nat) == 0) = false := by decide
  simp only [hsz, b1, b2, b3, hne, ht.ext, ht.princ, ht.sign, ht.len, hn', h64, Bool.not_true, Bool.not_false, Bool.true_and, Bool.and_true, Bool.false_and, Bool.and_false, Bool.or_false,
    Bool.false_or, Bool.false_eq_true, if_false, if_true, ne_eq, not_true_eq_false, c1, c2, ← c3]

/-- **Finding (equivocation under one digest).** Whatever the hash and the signature scheme, a faulty primary can give different replicas
different request data under one digest, by setting the pre-processed flag: then signatures are not verified, and the digest covers the
(arbitrary) signature bytes only. -/
theorem equivocation {e : Env} (ht : Typical e) {data data' sig : Bytes} (hs : sig.length = 64) (hd : 0 < data.length ∧ data.length < 2 ^ 19)
    (hd' : 0 < data'.length ∧ data'.length < 2 ^ 19) :
    ∃ m m' : Bytes, validate e 0 m = .accept ∧ validate e 0 m' = .accept ∧
      (∃ x x', readHdr m = some x ∧ readHdr m' = some x' ∧ x.digest = x'.digest) ∧
      (∃ vs, requestsOf m = some vs ∧ vs.map (·.bytes) = [encReq 10 4 1 0 data [] sig]) ∧
      (∃ vs, requestsOf m' = some vs ∧ vs.map (·.bytes) = [encReq 10 4 1 0 data' [] sig]) := by
  obtain ⟨f1, o1⟩ := preprocessed_accepted ht (reqSeq := 1) (data := data) hs ⟨hd.1, by omega⟩ (by decide)
  obtain ⟨f2, o2⟩ := preprocessed_accepted ht (reqSeq := 1) (data := data') hs ⟨hd'.1, by omega⟩ (by decide)
  exact same_digest_different_requests ht f1 f2 (by omega) (by simp; omega) (by simp; omega) o1 o2

/-- a properly signed request of client 10, any request number, passes -/
theorem signed_accepted {e : Env} (ht : Typical e) {reqSeq : Nat} {data sig : Bytes} (hs : sig.length = 64) (hd : 0 < data.length ∧ data.length < 2 ^ 20) (hq : reqSeq < 2 ^ 64)
    (hv : e.verify 10 data sig = true) : Fits 10 0 reqSeq 0 data [] sig ∧ validateReq e (encReq 10 0 reqSeq 0 data [] sig) 0 = .accept := by
  have hf : Fits 10 0 reqSeq 0 data [] sig := ⟨by decide, by decide, hq, by decide, by simp; omega, by omega⟩
  refine ⟨hf, ?_⟩
  unfold validateReq
  rw [readReq_enc hf]
  simp only [hs, List.length_nil]
  have b1 : bit 0 RECONFIG = false := by decide
  have b2 : bit 0 INTERNAL = false := by decide
  have b3 : bit 0 HAS_PRE_PROCESSED = false := by decide
  have hsz : reqSize ⟨0, 10, 0, 1, reqSeq, data.length, 0, 64, 0, 0⟩ = 52 + data.length + 64 := by
    unfold reqSize ReqHdr.sum reqHdrSize; simp only; rw [Nat.mod_eq_of_lt (by omega)]
  have hne : (10 == e.myId) = false := by simpa using Ne.symm ht.me.1
  have hn : data.length ≠ 0 := by omega
  have c1 : ¬ (52 + data.length + 64 < reqHdrSize + 0) := by unfold reqHdrSize; omega
  have c2 : ¬ (52 + data.length + 64 < reqHdrSize + 0 + 0 + 64) := by unfold reqHdrSize; omega
  have c3 : 52 + data.length + 64 = reqHdrSize + data.length + 0 + 0 + 64 + 0 := by unfold reqHdrSize; omega
  have hn' : (data.length != 0) = true := by simpa using hn
  have h64 : ((64 : Nat) == 0) = false := by decide
  obtain ⟨a, h1, h2, h3⟩ := @encReq_split 10 0 reqSeq 0 data [] sig
  have s2 : slice (encReq 10 0 reqSeq 0 data [] sig) (0 + reqHdrSize + 0) data.length = some data :=
    slice_mid h2 (by simp [h1, reqHdrSize]) rfl
  have s3 : slice (encReq 10 0 reqSeq 0 data [] sig) (0 + reqHdrSize + 0 + data.length + 0) 64 = some sig :=
    slice_mid h3 (by rw [List.append_nil, List.length_append, h1]; unfold reqHdrSize; omega) hs.symm
  simp only [s2, s3, hsz, b1, b2, b3, hne, ht.ext, ht.princ, ht.sign, ht.len, hn', h64, Bool.not_true, Bool.not_false, Bool.true_and, Bool.and_true, Bool.false_and, Bool.and_false, Bool.or_false,
    Bool.false_or, Bool.false_eq_true, if_false, if_true, ne_eq, not_true_eq_false, c1, c2, ← c3, hv]

/-- **Finding (request number not covered).** Neither the client's signature nor the digest covers the request number: a faulty primary can present one
signed request under different numbers, in one digest. -/
theorem renumbered {e : Env} (ht : Typical e) {data sig : Bytes} {n n' : Nat} (hn : n < 2 ^ 64) (hn' : n' < 2 ^ 64) (hs : sig.length = 64) (hd : 0 < data.length ∧ data.length < 2 ^ 19)
    (hv : e.verify 10 data sig = true) :
    ∃ m m' : Bytes, validate e 0 m = .accept ∧ validate e 0 m' = .accept ∧
      (∃ x x', readHdr m = some x ∧ readHdr m' = some x' ∧ x.digest = x'.digest) ∧
      (∃ vs, requestsOf m = some vs ∧ vs.map (·.bytes) = [encReq 10 0 n 0 data [] sig]) ∧
      (∃ vs, requestsOf m' = some vs ∧ vs.map (·.bytes) = [encReq 10 0 n' 0 data [] sig]) := by
  obtain ⟨f1, o1⟩ := signed_accepted ht (reqSeq := n) (data := data) hs ⟨hd.1, by omega⟩ hn hv
  obtain ⟨f2, o2⟩ := signed_accepted ht (reqSeq := n') (data := data) hs ⟨hd.1, by omega⟩ hn' hv
  exact same_digest_different_requests ht f1 f2 (by omega) (by simp; omega) (by simp; omega) o1 o2

/-- the surroundings exist -/
def typicalEnv : Env where
  H := fun _ => List.replicate 32 0
  myId := 1
  epoch := 0
  cVal := 0
  isReplica := fun i => decide (i < 4)
  isRoReplica := fun _ => false
  isExternalClient := fun i => i == 10
  isValidPrincipal := fun i => decide (i ≤ 10)
  signing := true
  sigLength := fun _ => 64
  verify := fun _ _ _ => true

theorem typicalEnv_typical : Typical typicalEnv :=
  ⟨fun _ => by simp [typicalEnv], rfl, rfl, by decide, rfl, rfl, rfl, rfl, rfl⟩

/-! ## Messages that crash the receiver -/

/-- a request header whose lengths add up to 52 modulo 2^32: request length 2^32-1, signature length 1 -/
def wrapReq : Bytes := leEncode 2 700 ++ leEncode 4 0 ++ leEncode 2 10 ++ leEncode 8 0 ++ leEncode 4 1 ++ leEncode 8 1 ++ leEncode 4 (2 ^ 32 - 1) ++
    leEncode 8 0 ++ leEncode 4 0 ++ leEncode 2 1 ++ leEncode 4 0 ++ leEncode 2 0

theorem wrapReq_hdr : readReq wrapReq 0 = some ⟨0, 10, 0, 1, 1, 2 ^ 32 - 1, 0, 1, 0, 0⟩ ∧ wrapReq.length = 52 := by
  constructor <;> decide +kernel

/-- **Finding.** One 138-byte PrePrepare from any replica makes every receiver read 4 GB beyond the message while it computes the digest: the size check
uses 32-bit sums, the position of the signature 64-bit sums. -/
theorem wrapped_length_oob {e : Env} {sender : Nat} (hs : e.isReplica sender = true) (hme : sender ≠ e.myId) (hep : e.epoch < 2 ^ 64) :
    ∃ m : Bytes, m.length = 138 ∧ validate e sender m = .oob := by
  let dg : Bytes := List.replicate 32 0
  have hdg : dg.length = 32 := by simp [dg]
  let hdr := encHdr 100 0 0 1 e.epoch 11 0 1000 dg 1 138
  have hl : hdr.length = 86 := encHdr_length hdg
  have hh : readHdr (hdr ++ wrapReq) = some ⟨0, 0, 1, e.epoch, 11, 0, 1000, dg, 1, 138⟩ :=
    readHdr_enc hdg (by decide) (by decide) (by decide) hep (by decide) (by decide) (by decide) (by decide) (by decide) (by decide) wrapReq
  have hrd : readReq (hdr ++ wrapReq) 86 = some ⟨0, 10, 0, 1, 1, 2 ^ 32 - 1, 0, 1, 0, 0⟩ := by
    have := readReq_inside hdr wrapReq [] (by rw [wrapReq_hdr.2]; decide)
    rw [List.append_nil, hl] at this
    rw [this]; exact wrapReq_hdr.1
  have hlen : (hdr ++ wrapReq).length = 138 := by rw [List.length_append, hl, wrapReq_hdr.2]
  have hsz : reqSize ⟨0, 10, 0, 1, 1, 2 ^ 32 - 1, 0, 1, 0, 0⟩ = 52 := by decide
  have hps : payloadShift ⟨0, 0, 1, e.epoch, 11, 0, 1000, dg, 1, 138⟩ = 86 := by
    show (hdrSize + 0 + 0) % 2 ^ 32 = 86
    decide
  refine ⟨hdr ++ wrapReq, hlen, ?_⟩
  have hhok : headerOk e sender (hdr ++ wrapReq) ⟨0, 0, 1, e.epoch, 11, 0, 1000, dg, 1, 138⟩ = true := by
    unfold headerOk
    simp only [hlen, hs]
    have : bit 11 1 = true ∧ bit 11 2 = true := by decide
    simp [this.1, this.2, hdrSize]
  have hcr : checkRequests (hdr ++ wrapReq) ⟨0, 0, 1, e.epoch, 11, 0, 1000, dg, 1, 138⟩ = some true := by
    unfold checkRequests
    rw [hps]
    simp [checkLoop, hrd, hsz]
  have hwk : walk (hdr ++ wrapReq) 138 2 86 = .done [86] := by
    simp [walk, hrd, hsz]
  unfold validate
  rw [hh]
  simp only [hme, if_false, hhok, Bool.not_true, Bool.false_eq_true, hcr, hps, hwk]
  have hdi : digestInput e.H (hdr ++ wrapReq) ⟨0, 0, 1, e.epoch, 11, 0, 1000, dg, 1, 138⟩ [86] = none := by
    unfold digestInput sigOrDigests sigOrDigest
    rw [hrd]
    simp only [show (1 : Nat) > 0 by decide, if_true]
    have : slice (hdr ++ wrapReq) (86 + reqHdrSize + 0 + (2 ^ 32 - 1) + 0) 1 = none := by
      unfold slice
      rw [if_neg (by rw [hlen]; unfold reqHdrSize; omega)]
    rw [this]
    rfl
  rw [hdi]

/-- **Finding.** A PrePrepare from any replica in which a request names the receiver itself as client aborts the receiver (when client signatures are
enabled): `validateImp` asserts that the sender, which for an embedded request is the client id of its header, is somebody else. -/
theorem own_id_aborts {e : Env} {sender : Nat} (hH : ∀ x, (e.H x).length = 32) (hs : e.isReplica sender = true) (hme : sender ≠ e.myId) (hep : e.epoch < 2 ^ 64)
    (hsg : e.signing = true) (hid : e.myId < 2 ^ 16) : ∃ m : Bytes, m.length = 138 ∧ validate e sender m = .abort := by
  have hf : Fits e.myId 0 1 0 [] [] [] := ⟨hid, by decide, by decide, by decide, by decide, by decide⟩
  have hw := wf_enc hf
  -- accepted by a receiver that does not verify requests
  have hb := built_accepted (e := { e with signing := false }) (sender := sender) (view := 0) (seq := 1) (path := 2) (time := 1000) (span := []) (cid := [])
    (reqs := [encReq e.myId 0 1 0 [] [] []]) hH hs hme (by decide) (by decide) hep (by decide) (by intro hh; exact absurd hh (by decide))
    (by decide) (by decide) (by simp) (by simp) (by intro r hr; simp at hr; subst hr; exact hw) (by intro h; cases h)
    (by
      unfold build
      simp only [List.length_append, encHdr_length (hH _), List.flatten_cons, List.flatten_nil, encReq_length]
      simp [hdrSize])
  obtain ⟨hacc, _⟩ := hb
  generalize hm : build e.H 0 1 e.epoch 2 1000 [] [] [encReq e.myId 0 1 0 [] [] []] = m at *
  have hm' : m = (encHdr 100 0 0 1 e.epoch 11 0 1000 (e.H (((sigOrDigest e.H (encReq e.myId 0 1 0 [] [] []) 0).getD []) ++ decInt 1000)) 1 138) ++ encReq e.myId 0 1 0 [] [] [] := by
    rw [← hm]
    unfold build
    have : hdrSize + ([] ++ [] ++ [encReq e.myId 0 1 0 [] [] []].flatten).length = 138 := by simp [encReq_length, hdrSize]
    simp only [this]
    simp
  have hl : (encHdr 100 0 0 1 e.epoch 11 0 1000 (e.H (((sigOrDigest e.H (encReq e.myId 0 1 0 [] [] []) 0).getD []) ++ decInt 1000)) 1 138).length = 86 := encHdr_length (hH _)
  have hh : readHdr m = some ⟨0, 0, 1, e.epoch, 11, 0, 1000, e.H (((sigOrDigest e.H (encReq e.myId 0 1 0 [] [] []) 0).getD []) ++ decInt 1000), 1, 138⟩ := by
    rw [hm']
    exact readHdr_enc (hH _) (by decide) (by decide) (by decide) hep (by decide) (by decide) (by decide) (by decide) (by decide) (by decide) _
  refine ⟨m, by rw [hm', List.length_append, hl, encReq_length]; rfl, ?_⟩
  -- the same run with signing on
  unfold validate at hacc ⊢
  simp only [hh] at hacc ⊢
  have hps : payloadShift ⟨0, 0, 1, e.epoch, 11, 0, 1000, e.H (((sigOrDigest e.H (encReq e.myId 0 1 0 [] [] []) 0).getD []) ++ decInt 1000), 1, 138⟩ = 86 := by
    show (hdrSize + 0 + 0) % 2 ^ 32 = 86
    decide
  have hwk : walk m 138 2 86 = .done [86] := by
    have := walk_built [encReq e.myId 0 1 0 [] [] []] (encHdr 100 0 0 1 e.epoch 11 0 1000 (e.H (((sigOrDigest e.H (encReq e.myId 0 1 0 [] [] []) 0).getD []) ++ decInt 1000)) 1 138) 2 (by simp)
      (by intro r hr; simp at hr; subst hr; exact hw) (by simp [hl, encReq_length])
    simp only [List.flatten_cons, List.flatten_nil, List.append_nil] at this
    rw [← hm'] at this
    have hmlen : m.length = 138 := by rw [hm', List.length_append, hl, encReq_length]; rfl
    rw [hmlen, hl] at this
    exact this
  have hho : headerOk { e with signing := false } sender m = headerOk e sender m := rfl
  have hdi : digestInput ({ e with signing := false } : Env).H = digestInput e.H := rfl
  rw [if_neg hme] at hacc ⊢
  rw [hho] at hacc
  split at hacc
  · cases hacc
  · rename_i hok
    rw [if_neg hok]
    split at hacc
    · cases hacc
    · cases hacc
    · rename_i hc
      rw [hps, hwk] at hacc ⊢
      simp only at hacc ⊢
      rw [hdi] at hacc
      split at hacc
      · cases hacc
      · rename_i s hds
        split at hacc
        · cases hacc
        · rename_i hdg
          rw [if_neg hdg, if_pos hsg]
          have hv : validateReq e m 86 = .abort := by
            have := validateReq_inside e (encHdr 100 0 0 1 e.epoch 11 0 1000 (e.H (((sigOrDigest e.H (encReq e.myId 0 1 0 [] [] []) 0).getD []) ++ decInt 1000)) 1 138) (encReq e.myId 0 1 0 [] [] []) [] hw
            rw [List.append_nil, ← hm', hl] at this
            rw [this]
            unfold validateReq
            rw [readReq_enc hf]
            have b1 : bit 0 RECONFIG = false := by decide
            have b2 : bit 0 INTERNAL = false := by decide
            have hsz : reqSize ⟨0, e.myId, 0, 1, 1, ([] : Bytes).length, ([] : Bytes).length, ([] : Bytes).length, 0, 0⟩ = 52 := by
              unfold reqSize ReqHdr.sum reqHdrSize; simp
            simp only [hsz, b1, b2]
            simp [reqHdrSize]
          simp only [validateReqs, hv]

end Verif.PP
