import Verif.VCBytes.Spec
set_option linter.unusedSimpArgs false
set_option linter.unusedVariables false
namespace Verif.VCBytes
open Verif.Bytes

theorem drop_slice {buf : Bytes} {cur n : Nat} {eb : Bytes} (h : slice buf cur n = some eb) :
    buf.drop cur = eb ++ buf.drop (cur + n) := by
  obtain ⟨_, rfl⟩ := slice_eq_some.1 h
  rw [← List.drop_drop]
  exact (List.take_append_drop n _).symm

theorem slice_of_drop {buf eb rest : Bytes} {cur : Nat} (h : buf.drop cur = eb ++ rest) (hc : cur ≤ buf.length) :
    slice buf cur eb.length = some eb := by
  refine slice_eq_some.2 ⟨?_, ?_⟩
  · have := congrArg List.length h
    simp at this; omega
  · rw [h]; simp

theorem encodeElemHead_length (e : Elem) (h : e.digest.length = 32) : (encodeElemHead e).length = elemSize := by
  simp [encodeElemHead, h, elemSize]

theorem pow8 : (256 : Nat) ^ 8 = 2 ^ 64 := by decide

theorem readHead_encode (e : Elem) (h : e.Fits) :
    readHead (encodeElemHead e) = (e.seq, e.digest, e.originView, e.flag) := by
  have hd := h.digest
  have e1 : (encodeElemHead e).take 8 = leEncode 8 (ofInt64 e.seq) := by
    simp [encodeElemHead]
  have e2 : (encodeElemHead e).drop 8 = e.digest ++ (leEncode 8 (ofInt64 e.originView) ++ [e.flag]) := by
    simp [encodeElemHead, List.drop_append]
  have e3 : (encodeElemHead e).drop 40 = leEncode 8 (ofInt64 e.originView) ++ [e.flag] := by
    rw [show 40 = 8 + 32 from rfl, ← List.drop_drop, e2, ← hd]; simp
  have e4 : (encodeElemHead e).drop 48 = [e.flag] := by
    rw [show 48 = 40 + 8 from rfl, ← List.drop_drop, e3]; simp [List.drop_append]
  unfold readHead
  rw [e1, e2, e3, e4, leDecode_leEncode _ _ (ofInt64_lt _), toInt64_ofInt64 _ h.seq.1 h.seq.2]
  rw [← hd]
  simp only [List.take_left', List.take_append_of_le_length (Nat.le_refl _)]
  have : List.take 8 (leEncode 8 (ofInt64 e.originView) ++ [e.flag]) = leEncode 8 (ofInt64 e.originView) := by simp
  rw [this, leDecode_leEncode _ _ (ofInt64_lt _), toInt64_ofInt64 _ h.ov.1 h.ov.2]
  simp

theorem encode_readInt (bs : Bytes) (h : bs.length = 8) : leEncode 8 (ofInt64 (toInt64 (leDecode bs))) = bs := by
  have hl := leDecode_lt bs
  rw [h, pow8] at hl
  rw [ofInt64_toInt64 _ hl, ← h, leEncode_leDecode]

theorem encode_readHead {eb : Bytes} (h : eb.length = elemSize) {seq ov : Int} {dg : Bytes} {flag : UInt8}
    (hr : readHead eb = (seq, dg, ov, flag)) (cv : Int) (sg : Bytes) :
    encodeElemHead ⟨seq, dg, ov, flag, cv, sg⟩ = eb ∧ dg.length = 32 ∧
      (-2 ^ 63 ≤ seq ∧ seq < 2 ^ 63) ∧ (-2 ^ 63 ≤ ov ∧ ov < 2 ^ 63) := by
  simp only [readHead, Prod.mk.injEq] at hr
  obtain ⟨h1, h2, h3, h4⟩ := hr
  simp only [elemSize] at h
  have r1 : leDecode (eb.take 8) < 2 ^ 64 := by
    have := leDecode_lt (eb.take 8)
    rwa [List.length_take, Nat.min_eq_left (by omega), pow8] at this
  have r2 : leDecode ((eb.drop 40).take 8) < 2 ^ 64 := by
    have := leDecode_lt ((eb.drop 40).take 8)
    rwa [List.length_take, List.length_drop, Nat.min_eq_left (by omega), pow8] at this
  refine ⟨?_, ?_, ?_, ?_⟩
  · simp only [encodeElemHead]
    rw [← h1, ← h2, ← h3, ← h4, encode_readInt _ (by simp; omega), encode_readInt _ (by simp; omega)]
    have l48 : eb.drop 48 = [(eb.drop 48).headD 0] := by
      have : (eb.drop 48).length = 1 := by simp; omega
      match hh : eb.drop 48, this with
      | [x], _ => rfl
    rw [← l48]
    have a1 : List.take 8 (List.drop 40 eb) ++ List.drop 48 eb = eb.drop 40 := by
      have := List.take_append_drop 8 (eb.drop 40)
      rwa [List.drop_drop] at this
    have a2 : List.take 32 (List.drop 8 eb) ++ eb.drop 40 = eb.drop 8 := by
      have := List.take_append_drop 32 (eb.drop 8)
      rwa [List.drop_drop] at this
    rw [List.append_assoc, a1, List.append_assoc, a2, List.take_append_drop]
  · rw [← h2]; simp; omega
  · rw [← h1]; exact toInt64_range _ r1
  · rw [← h3]; exact toInt64_range _ r2

theorem encode_readCert {cb sg : Bytes} (h : cb.length = certSize) (e : Elem)
    (hcv : e.certView = toInt64 (leDecode (cb.take 8))) (hsg : e.sig = sg) (hsl : sg.length = leDecode (cb.drop 8)) :
    encodeCert e = cb ++ sg ∧ (-2 ^ 63 ≤ e.certView ∧ e.certView < 2 ^ 63) ∧ sg.length < 2 ^ 16 := by
  simp only [certSize] at h
  have r1 : leDecode (cb.take 8) < 2 ^ 64 := by
    have := leDecode_lt (cb.take 8)
    rwa [List.length_take, Nat.min_eq_left (by omega), pow8] at this
  have r2 : leDecode (cb.drop 8) < 2 ^ 16 := by
    have := leDecode_lt (cb.drop 8)
    rw [List.length_drop, h] at this
    exact this
  refine ⟨?_, ?_, by omega⟩
  · unfold encodeCert
    rw [hcv, hsg, hsl, encode_readInt _ (by simp; omega)]
    have : leEncode 2 (leDecode (cb.drop 8)) = cb.drop 8 := by
      have := leEncode_leDecode (cb.drop 8)
      rwa [List.length_drop, h] at this
    rw [this, List.take_append_drop]
  · rw [hcv]; exact toInt64_range _ r1

theorem encodeCert_length (e : Elem) : (encodeCert e).length = certSize + e.sig.length := by
  simp [encodeCert, certSize]; omega

theorem upper_le (ls : Int) : upper ls ≤ ls + 300 := by
  unfold upper window; split <;> omega

/-- what the loop recognised -/
structure Scanned (buf : Bytes) (ls nv last : Int) (k rem cur rem' cur' : Nat) (es : List Elem) : Prop where
  bytes : buf.drop cur = encodeAll es ++ buf.drop cur'
  adv : cur' = cur + (encodeAll es).length
  inb : cur ≤ buf.length → cur' ≤ buf.length
  room : rem = rem' + (encodeAll es).length
  count : es.length = k
  fits : ∀ e ∈ es, e.Fits
  legal : ∀ e ∈ es, last < e.seq ∧ e.seq ≤ ls + 300 ∧ e.originView < nv ∧
    (e.flag ≠ 0 → e.certView ≤ e.originView ∧ e.sig ≠ [])
  sorted : es.Pairwise (fun a b => a.seq < b.seq)

theorem Scanned.cons {buf : Bytes} {ls nv last : Int} {k rem cur rem1 cur1 rem' cur' : Nat} {e : Elem} {es : List Elem}
    (hb : buf.drop cur = encodeElem e ++ buf.drop cur1) (hc : cur1 = cur + (encodeElem e).length)
    (hin : cur1 ≤ buf.length)
    (hr : rem = rem1 + (encodeElem e).length) (hf : e.Fits)
    (hl : last < e.seq ∧ e.seq ≤ ls + 300 ∧ e.originView < nv ∧ (e.flag ≠ 0 → e.certView ≤ e.originView ∧ e.sig ≠ []))
    (s : Scanned buf ls nv e.seq k rem1 cur1 rem' cur' es) :
    Scanned buf ls nv last (k + 1) rem cur rem' cur' (e :: es) := by
  have hlen : (encodeAll (e :: es)).length = (encodeElem e).length + (encodeAll es).length := by
    simp [encodeAll]
  refine ⟨?_, ?_, ?_, ?_, ?_, ?_, ?_, ?_⟩
  · rw [hb, s.bytes]; simp [encodeAll]
  · rw [s.adv, hlen]; omega
  · intro _; exact s.inb hin
  · rw [hr, s.room, hlen]; omega
  · simp [s.count]
  · intro x hx
    rcases List.mem_cons.1 hx with rfl | hx
    · exact hf
    · exact s.fits x hx
  · intro x hx
    rcases List.mem_cons.1 hx with rfl | hx
    · exact hl
    · have := s.legal x hx
      exact ⟨by omega, this.2⟩
  · refine List.pairwise_cons.2 ⟨fun x hx => (s.legal x hx).1, s.sorted⟩

theorem slice_split {buf : Bytes} {off n m : Nat} (h : off + (n + m) ≤ buf.length) :
    ∃ b, slice buf (off + n) m = some b ∧ b.length = m := by
  refine ⟨(buf.drop (off+n)).take m, ?_, ?_⟩
  · unfold slice; rw [if_pos (by omega)]
  · simp; omega

/-- Soundness of the loop; `hend` says the bytes it counted as remaining are in the buffer or the loop result itself is
in the buffer. -/
theorem elemLoop_sound (buf : Bytes) (ls nv : Int) (hbuf : buf.length < 2 ^ 32) (k : Nat) :
    ∀ (last : Int) (rem cur rem' cur' : Nat),
      elemLoop buf ls nv k last rem cur = .done rem' cur' → cur' ≤ buf.length →
      ∃ es, Scanned buf ls nv last k rem cur rem' cur' es := by
  induction k with
  | zero =>
    intro last rem cur rem' cur' h _
    simp only [elemLoop, Loop.done.injEq] at h
    obtain ⟨rfl, rfl⟩ := h
    exact ⟨[], ⟨by simp [encodeAll], by simp [encodeAll], fun h => h, by simp [encodeAll], rfl, by simp, by simp,
      List.Pairwise.nil⟩⟩
  | succ k ih =>
    intro last rem cur rem' cur' h hend
    unfold elemLoop at h
    split at h
    · exact absurd h (by simp)
    · rename_i hrem
      split at h
      · exact absurd h (by simp)
      · rename_i eb heb
        rcases hrd : readHead eb with ⟨seq, dg, ov, flag⟩
        simp only [hrd] at h
        have hebl := slice_length heb
        split at h
        · exact absurd h (by simp)
        split at h
        · exact absurd h (by simp)
        split at h
        · exact absurd h (by simp)
        rename_i h1 h2 h3
        have hup := upper_le ls
        split at h
        · -- no certificate
          rename_i hflag
          obtain ⟨es, s⟩ := ih _ _ _ _ _ h hend
          obtain ⟨q1, q2, q3, q4⟩ := encode_readHead hebl hrd 0 []
          have henc : encodeElem ⟨seq, dg, ov, flag, 0, []⟩ = eb := by
            simp [encodeElem, q1, hflag]
            rw [hflag] at q1; exact q1
          refine ⟨⟨seq, dg, ov, flag, 0, []⟩ :: es, Scanned.cons (rem1 := rem - elemSize) (cur1 := cur + elemSize)
            ?_ ?_ ?_ ?_ ⟨q2, q3, q4, ⟨by show (-2 ^ 63 : Int) ≤ 0; decide, by show (0 : Int) < 2 ^ 63; decide⟩, by simp, by simp⟩ ⟨by simp; omega, by simp; omega, by simp; omega, ?_⟩ s⟩
          · rw [henc]; exact drop_slice heb
          · rw [henc, hebl]
          · have := (slice_eq_some.1 heb).1; omega
          · rw [henc, hebl]; omega
          · intro hx; exact absurd hflag hx
        · rename_i hflag
          split at h
          · exact absurd h (by simp)
          rename_i h4
          split at h
          · exact absurd h (by simp)
          rename_i cb hcb
          have hcbl := slice_length hcb
          split at h
          · exact absurd h (by simp)
          split at h
          · exact absurd h (by simp)
          split at h
          · exact absurd h (by simp)
          rename_i h5 h6 h7
          obtain ⟨es, s⟩ := ih _ _ _ _ _ h hend
          have hcur1 : cur + elemSize + (certSize + leDecode (cb.drop 8)) ≤ buf.length := by
            have := s.adv; omega
          obtain ⟨sg, hsg, hsgl⟩ := slice_split (off := cur + elemSize) hcur1
          obtain ⟨q1, q2, q3, q4⟩ := encode_readHead hebl hrd (toInt64 (leDecode (cb.take 8))) sg
          obtain ⟨p1, p2, p3⟩ := encode_readCert (sg := sg) hcbl
            ⟨seq, dg, ov, flag, toInt64 (leDecode (cb.take 8)), sg⟩ rfl rfl hsgl
          have henc : encodeElem ⟨seq, dg, ov, flag, toInt64 (leDecode (cb.take 8)), sg⟩ = eb ++ (cb ++ sg) := by
            simp only [encodeElem, q1, if_neg hflag, p1]
          refine ⟨⟨seq, dg, ov, flag, toInt64 (leDecode (cb.take 8)), sg⟩ :: es,
            Scanned.cons (rem1 := rem - elemSize - (certSize + leDecode (cb.drop 8)))
              (cur1 := cur + elemSize + (certSize + leDecode (cb.drop 8)))
            ?_ ?_ ?_ ?_ ⟨q2, q3, q4, p2, p3, fun hx => absurd hx hflag⟩
            ⟨by simp; omega, by simp; omega, by simp; omega, ?_⟩ s⟩
          · rw [henc, drop_slice heb, drop_slice hcb, drop_slice hsg]
            simp [Nat.add_assoc]
          · rw [henc]; simp [hebl, hcbl, hsgl]; omega
          · exact hcur1
          · rw [henc]; simp [hebl, hcbl, hsgl]; omega
          · intro _
            refine ⟨by simp; omega, ?_⟩
            simp only
            intro hx; rw [hx] at hsgl; simp at hsgl; omega

/-- Completeness of the loop. -/
theorem elemLoop_complete (buf : Bytes) (ls nv : Int) (hup : upper ls = ls + 300) (es : List Elem) :
    ∀ (last : Int) (rem cur : Nat) (rest : Bytes),
      buf.drop cur = encodeAll es ++ rest → cur ≤ buf.length → (encodeAll es).length ≤ rem →
      (∀ e ∈ es, e.Fits) → (∀ e ∈ es, last < e.seq) → (∀ e ∈ es, e.Legal ls nv) →
      es.Pairwise (fun a b => a.seq < b.seq) →
      elemLoop buf ls nv es.length last rem cur = .done (rem - (encodeAll es).length) (cur + (encodeAll es).length) := by
  induction es with
  | nil => intro last rem cur rest _ _ _ _ _ _ _; simp [elemLoop, encodeAll]
  | cons e es ih =>
    intro last rem cur rest hb hin hrem hf hlast hleg hs
    have hlen : (encodeAll (e :: es)).length = (encodeElem e).length + (encodeAll es).length := by simp [encodeAll]
    have hfe := hf e (by simp)
    have hle := hleg e (by simp)
    have hla := hlast e (by simp)
    obtain ⟨hs1, hs2⟩ := List.pairwise_cons.1 hs
    have hhl := encodeElemHead_length e hfe.digest
    have hb' : buf.drop cur = encodeElemHead e ++ ((if e.flag = 0 then [] else encodeCert e) ++ (encodeAll es ++ rest)) := by
      rw [hb]; simp [encodeAll, encodeElem]
    have hsl := slice_of_drop hb' hin
    rw [hhl] at hsl
    have hel : (encodeElem e).length = elemSize + (if e.flag = 0 then [] else encodeCert e).length := by
      simp [encodeElem, hhl]
    have hblen := congrArg List.length hb
    simp [hlen] at hblen
    simp only [List.length_cons]
    unfold elemLoop
    rw [if_neg (by omega), hsl]
    simp only [readHead_encode e hfe]
    rw [if_neg (by omega), if_neg (by have := hle.inWindow; rw [hup]; omega), if_neg (by have := hle.origin; omega)]
    by_cases hflag : e.flag = 0
    · rw [if_pos hflag]
      simp [hflag] at hel
      have hb2 : buf.drop (cur + elemSize) = encodeAll es ++ rest := by
        rw [← List.drop_drop, hb', if_pos hflag, ← hhl]; simp
      rw [ih e.seq _ _ rest hb2 (by omega) (by omega) (fun x hx => hf x (by simp [hx])) hs1
        (fun x hx => hleg x (by simp [hx])) hs2]
      rw [hlen, hel]
      congr 1 <;> omega
    · rw [if_neg hflag]
      rw [if_neg hflag, encodeCert_length] at hel
      rw [if_neg (by omega)]
      have hb2 : buf.drop (cur + elemSize) = (leEncode 8 (ofInt64 e.certView) ++ leEncode 2 e.sig.length) ++
          (e.sig ++ (encodeAll es ++ rest)) := by
        rw [← List.drop_drop, hb', if_neg hflag, ← hhl]; simp [encodeCert]
      have hsl2 := slice_of_drop hb2 (by omega)
      rw [show (leEncode 8 (ofInt64 e.certView) ++ leEncode 2 e.sig.length).length = certSize by simp [certSize]] at hsl2
      rw [hsl2]
      simp only
      have t1 : List.take 8 (leEncode 8 (ofInt64 e.certView) ++ leEncode 2 e.sig.length) = leEncode 8 (ofInt64 e.certView) := by
        simp
      have t2 : List.drop 8 (leEncode 8 (ofInt64 e.certView) ++ leEncode 2 e.sig.length) = leEncode 2 e.sig.length := by
        simp [List.drop_append]
      rw [t1, t2, leDecode_leEncode _ _ (ofInt64_lt _), leDecode_leEncode 2 _ (by have := hfe.sig; omega),
        toInt64_ofInt64 _ hfe.cv.1 hfe.cv.2]
      obtain ⟨c1, c2⟩ := hle.cert hflag
      have c3 : e.sig.length ≠ 0 := fun hx => c2 (List.length_eq_zero_iff.1 hx)
      rw [if_neg (by omega), if_neg c3, if_neg (by omega)]
      have hb3 : buf.drop (cur + elemSize + (certSize + e.sig.length)) = encodeAll es ++ rest := by
        rw [← List.drop_drop, hb2]
        rw [show certSize + e.sig.length = (leEncode 8 (ofInt64 e.certView) ++ leEncode 2 e.sig.length ++ e.sig).length by
          simp [certSize]; omega]
        rw [← List.append_assoc]
        exact List.drop_left
      rw [ih e.seq _ _ rest hb3 (by omega) (by omega) (fun x hx => hf x (by simp [hx])) hs1
        (fun x hx => hleg x (by simp [hx])) hs2]
      rw [hlen, hel]
      congr 1 <;> omega

/-- The element loop stays inside the buffer when it starts with an honest remaining count. -/
theorem elemLoop_safe (buf : Bytes) (ls nv : Int) (k : Nat) :
    ∀ (last : Int) (rem cur : Nat), cur + rem ≤ buf.length → elemLoop buf ls nv k last rem cur ≠ .oob ∧
      ∀ rem' cur', elemLoop buf ls nv k last rem cur = .done rem' cur' → cur' + rem' = cur + rem := by
  induction k with
  | zero => intro last rem cur h; simp [elemLoop]
  | succ k ih =>
    intro last rem cur h
    unfold elemLoop
    split
    · simp
    rename_i h1
    rw [show slice buf cur elemSize = some ((buf.drop cur).take elemSize) by
      unfold slice; rw [if_pos (by omega)]]
    rcases hrd : readHead ((buf.drop cur).take elemSize) with ⟨seq, dg, ov, flag⟩
    simp only
    split
    · simp
    split
    · simp
    split
    · simp
    split
    · have := ih (readHead (List.take elemSize (List.drop cur buf))).1 (rem - elemSize) (cur + elemSize) (by omega)
      refine ⟨this.1, fun r c hx => ?_⟩
      have := this.2 r c hx; omega
    split
    · simp
    rw [show slice buf (cur + elemSize) certSize = some ((buf.drop (cur + elemSize)).take certSize) by
      unfold slice; rw [if_pos (by omega)]]
    simp only
    split
    · simp
    split
    · simp
    split
    · simp
    rename_i h7
    have := ih (readHead (List.take elemSize (List.drop cur buf))).1 (rem - elemSize - (certSize + leDecode (((buf.drop (cur + elemSize)).take certSize).drop 8)))
      (cur + elemSize + (certSize + leDecode (((buf.drop (cur + elemSize)).take certSize).drop 8))) (by omega)
    refine ⟨this.1, fun r c hx => ?_⟩
    have := this.2 r c hx; omega

end Verif.VCBytes
