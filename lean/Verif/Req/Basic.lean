import Verif.Req.Model
set_option linter.unusedSimpArgs false
set_option linter.unusedVariables false
/-! Layout lemmas for client requests. -/
namespace Verif.Req
open Verif.Bytes

/-- numbers that fit the fields they are stored in -/
structure Hdr.Fits (h : Hdr) : Prop where
  msgType : h.msgType < 2 ^ 16
  span : h.span < 2 ^ 32
  client : h.client < 2 ^ 16
  flags : h.flags < 2 ^ 64
  result : h.result < 2 ^ 32
  reqSeq : h.reqSeq < 2 ^ 64
  reqLen : h.reqLen < 2 ^ 32
  timeout : h.timeout < 2 ^ 64
  cidLen : h.cidLen < 2 ^ 32
  sigLen : h.sigLen < 2 ^ 16
  extra : h.extra < 2 ^ 32
  index : h.index < 2 ^ 16

/-- numbers that fit the fields, and a message that fits in 32 bits -/
structure Req.Fits (r : Req) : Prop where
  msgType : r.msgType < 2 ^ 16
  client : r.client < 2 ^ 16
  flags : r.flags < 2 ^ 64
  result : r.result < 2 ^ 32
  reqSeq : r.reqSeq < 2 ^ 64
  timeout : r.timeout < 2 ^ 64
  index : r.index < 2 ^ 16
  sig : r.sig.length < 2 ^ 16
  size : 52 + r.span.length + r.data.length + r.cid.length + r.sig.length + r.extra < 2 ^ 32

@[simp] theorem encHdr_length (h : Hdr) : (encHdr h).length = 52 := by simp [encHdr]

theorem encode_length (r : Req) : r.encode.length = 52 + r.span.length + r.data.length + r.cid.length + r.sig.length + r.extra := by
  simp [Req.encode]; omega

theorem hdr_fits {r : Req} (h : r.Fits) : r.hdr.Fits := by
  have hs := h.size
  constructor <;> simp only [Req.hdr]
  · exact h.msgType
  · omega
  · exact h.client
  · exact h.flags
  · exact h.result
  · exact h.reqSeq
  · omega
  · exact h.timeout
  · omega
  · exact h.sig
  · omega
  · exact h.index

theorem take_append_eq {α : Type} (a b : List α) (n : Nat) (h : a.length = n) : (a ++ b).take n = a := by
  subst h; simp

theorem drop_append_eq {α : Type} (a b : List α) (n : Nat) (h : a.length = n) : (a ++ b).drop n = b := by
  subst h; simp

/-- a field in the middle of a header image -/
theorem field_mid {a b c : Bytes} {o k n : Nat} (ho : a.length = o) (hb : b = leEncode k n) (hn : n < 256 ^ k) :
    leDecode (((a ++ (b ++ c)).drop o).take k) = n := by
  rw [drop_append_eq _ _ _ ho, take_append_eq _ _ _ (by rw [hb]; simp), hb]
  exact leDecode_leEncode k n hn

theorem decHdr_enc {h : Hdr} (hf : h.Fits) (c : Bytes) : decHdr (encHdr h ++ c) = h := by
  have e : encHdr h ++ c = leEncode 2 h.msgType ++ (leEncode 4 h.span ++ (leEncode 2 h.client ++ (leEncode 8 h.flags ++ (leEncode 4 h.result ++
    (leEncode 8 h.reqSeq ++ (leEncode 4 h.reqLen ++ (leEncode 8 h.timeout ++ (leEncode 4 h.cidLen ++ (leEncode 2 h.sigLen ++
    (leEncode 4 h.extra ++ (leEncode 2 h.index ++ c))))))))))) := by
    simp [encHdr, List.append_assoc]
  have go : ∀ (h' : Hdr), h'.msgType = h.msgType → h'.span = h.span → h'.client = h.client → h'.flags = h.flags → h'.result = h.result →
      h'.reqSeq = h.reqSeq → h'.reqLen = h.reqLen → h'.timeout = h.timeout → h'.cidLen = h.cidLen → h'.sigLen = h.sigLen → h'.extra = h.extra →
      h'.index = h.index → h' = h := by
    intro h' a b c d e f g i j k l m
    cases h'; cases h; simp_all
  rw [e]
  apply go
  · simp only [decHdr]; rw [take_append_eq _ _ _ (by simp)]; exact leDecode_leEncode 2 _ (by simpa using hf.msgType)
  · simp only [decHdr]; exact field_mid (by simp) rfl (by simpa using hf.span)
  · simp only [decHdr]; rw [← List.append_assoc]; exact field_mid (by simp) rfl (by simpa using hf.client)
  · simp only [decHdr]; rw [← List.append_assoc, ← List.append_assoc]; exact field_mid (by simp) rfl (by simpa using hf.flags)
  · simp only [decHdr]; rw [← List.append_assoc, ← List.append_assoc, ← List.append_assoc]; exact field_mid (by simp) rfl (by simpa using hf.result)
  · simp only [decHdr]
    rw [← List.append_assoc, ← List.append_assoc, ← List.append_assoc, ← List.append_assoc]
    exact field_mid (by simp) rfl (by simpa using hf.reqSeq)
  · simp only [decHdr]
    rw [← List.append_assoc, ← List.append_assoc, ← List.append_assoc, ← List.append_assoc, ← List.append_assoc]
    exact field_mid (by simp) rfl (by simpa using hf.reqLen)
  · simp only [decHdr]
    rw [← List.append_assoc, ← List.append_assoc, ← List.append_assoc, ← List.append_assoc, ← List.append_assoc, ← List.append_assoc]
    exact field_mid (by simp) rfl (by simpa using hf.timeout)
  · simp only [decHdr]
    rw [← List.append_assoc, ← List.append_assoc, ← List.append_assoc, ← List.append_assoc, ← List.append_assoc, ← List.append_assoc,
      ← List.append_assoc]
    exact field_mid (by simp) rfl (by simpa using hf.cidLen)
  · simp only [decHdr]
    rw [← List.append_assoc, ← List.append_assoc, ← List.append_assoc, ← List.append_assoc, ← List.append_assoc, ← List.append_assoc,
      ← List.append_assoc, ← List.append_assoc]
    exact field_mid (by simp) rfl (by simpa using hf.sigLen)
  · simp only [decHdr]
    rw [← List.append_assoc, ← List.append_assoc, ← List.append_assoc, ← List.append_assoc, ← List.append_assoc, ← List.append_assoc,
      ← List.append_assoc, ← List.append_assoc, ← List.append_assoc]
    exact field_mid (by simp) rfl (by simpa using hf.extra)
  · simp only [decHdr]
    rw [← List.append_assoc, ← List.append_assoc, ← List.append_assoc, ← List.append_assoc, ← List.append_assoc, ← List.append_assoc,
      ← List.append_assoc, ← List.append_assoc, ← List.append_assoc, ← List.append_assoc]
    exact field_mid (by simp) rfl (by simpa using hf.index)

/-- the header of a built request, wherever it is -/
theorem decHdr_take (b : Bytes) (k : Nat) (hk : 46 ≤ k) : ∀ {h : Hdr}, decHdr b = h →
    (decHdr (b.take k)).span = h.span ∧ (decHdr (b.take k)).client = h.client ∧ (decHdr (b.take k)).flags = h.flags ∧
    (decHdr (b.take k)).reqSeq = h.reqSeq ∧ (decHdr (b.take k)).reqLen = h.reqLen ∧ (decHdr (b.take k)).timeout = h.timeout ∧
    (decHdr (b.take k)).cidLen = h.cidLen ∧ (decHdr (b.take k)).sigLen = h.sigLen := by
  intro h he
  have key : ∀ o n, o + n ≤ k → ((b.take k).drop o).take n = (b.drop o).take n := by
    intro o n h
    rw [List.drop_take, List.take_take]
    congr 1; omega
  subst he
  simp only [decHdr]
  refine ⟨?_, ?_, ?_, ?_, ?_, ?_, ?_, ?_⟩ <;> rw [key _ _ (by omega)]

theorem slice_in (a r c : Bytes) {o k : Nat} (h : o + k ≤ r.length) : slice (a ++ r ++ c) (a.length + o) k = slice r o k := by
  unfold slice
  rw [if_pos (by simp; omega), if_pos h]
  congr 1
  rw [← List.drop_drop, List.append_assoc, List.drop_append_of_le_length (Nat.le_refl _), List.drop_length, List.nil_append,
    List.drop_append_of_le_length (by omega), List.take_append_of_le_length (by simp; omega)]

/-- the parts of a built request -/
theorem encode_parts (r : Req) (a c : Bytes) :
    slice (a ++ r.encode ++ c) a.length 52 = some (encHdr r.hdr) ∧
    slice (a ++ r.encode ++ c) (a.length + 52) r.span.length = some r.span ∧
    slice (a ++ r.encode ++ c) (a.length + 52 + r.span.length) r.data.length = some r.data ∧
    slice (a ++ r.encode ++ c) (a.length + 52 + r.span.length + r.data.length) r.cid.length = some r.cid ∧
    slice (a ++ r.encode ++ c) (a.length + 52 + r.span.length + r.data.length + r.cid.length) r.sig.length = some r.sig := by
  refine ⟨?_, ?_, ?_, ?_, ?_⟩
  · exact slice_mid (a := a) (c := r.span ++ r.data ++ r.cid ++ r.sig ++ List.replicate r.extra 0 ++ c) (by simp [Req.encode]) rfl (by simp)
  · exact slice_mid (a := a ++ encHdr r.hdr) (c := r.data ++ r.cid ++ r.sig ++ List.replicate r.extra 0 ++ c) (by simp [Req.encode]) (by simp) rfl
  · exact slice_mid (a := a ++ encHdr r.hdr ++ r.span) (c := r.cid ++ r.sig ++ List.replicate r.extra 0 ++ c) (by simp [Req.encode]) (by simp; omega) rfl
  · exact slice_mid (a := a ++ encHdr r.hdr ++ r.span ++ r.data) (c := r.sig ++ List.replicate r.extra 0 ++ c) (by simp [Req.encode])
      (by simp; omega) rfl
  · exact slice_mid (a := a ++ encHdr r.hdr ++ r.span ++ r.data ++ r.cid) (c := List.replicate r.extra 0 ++ c) (by simp [Req.encode])
      (by simp; omega) rfl

theorem readHdr_encode {r : Req} (hf : r.Fits) : readHdr r.encode = some r.hdr := by
  have h := (encode_parts r [] []).1
  simp only [List.nil_append, List.append_nil, List.length_nil] at h
  have := decHdr_enc (hdr_fits hf) []
  simp only [List.append_nil] at this
  simp [readHdr, hdrSize, h, this]

theorem span_field {r : Req} (hf : r.Fits) : ∃ b, slice r.encode 2 4 = some b ∧ leDecode b = r.span.length := by
  have hl := encode_length r
  have h4 : r.span.length < 256 ^ 4 := by
    have := hf.size
    have h : (256 : Nat) ^ 4 = 2 ^ 32 := by decide
    rw [h]; omega
  refine ⟨leEncode 4 r.span.length, ?_, leDecode_leEncode 4 _ h4⟩
  refine slice_mid (a := leEncode 2 r.msgType) (c := leEncode 2 r.hdr.client ++ (leEncode 8 r.hdr.flags ++ (leEncode 4 r.hdr.result ++
    (leEncode 8 r.hdr.reqSeq ++ (leEncode 4 r.hdr.reqLen ++ (leEncode 8 r.hdr.timeout ++ (leEncode 4 r.hdr.cidLen ++ (leEncode 2 r.hdr.sigLen ++
    (leEncode 4 r.hdr.extra ++ (leEncode 2 r.hdr.index ++ (r.span ++ (r.data ++ (r.cid ++ (r.sig ++ List.replicate r.extra 0)))))))))))))) ?_ (by simp) (by simp)
  unfold Req.encode encHdr
  simp only [List.append_assoc]
  rfl

/-- what the accessors return for a built request -/
def Req.view (r : Req) : View := ⟨r.client, r.flags, r.reqSeq, r.timeout, r.index, r.span, r.data, r.cid, r.sig⟩

theorem accessors_encode (r : Req) : spanOf r.encode r.hdr = some r.span ∧ dataOf r.encode r.hdr = some r.data ∧ cidOf r.encode r.hdr = some r.cid ∧
    sigOf r.encode r.hdr = some r.sig := by
  have h := encode_parts r [] []
  simp only [List.nil_append, List.append_nil, List.length_nil, Nat.zero_add] at h
  obtain ⟨_, h1, h2, h3, h4⟩ := h
  refine ⟨h1, h2, ?_, ?_⟩
  · show slice r.encode (52 + r.data.length + r.span.length) r.cid.length = _
    rw [Nat.add_right_comm]; exact h3
  · unfold sigOf
    by_cases hs : r.hdr.sigLen > 0
    · rw [if_pos hs]; exact h4
    · rw [if_neg hs]
      have h0 : r.hdr.sigLen = r.sig.length := rfl
      have : r.sig.length = 0 := by omega
      rw [List.length_eq_zero_iff.1 this]

theorem view_encode {r : Req} (hf : r.Fits) : view r.encode = some r.view := by
  obtain ⟨h1, h2, h3, h4⟩ := accessors_encode r
  simp only [view, readHdr_encode hf, h1, h2, h3, h4]
  rfl

end Verif.Req
