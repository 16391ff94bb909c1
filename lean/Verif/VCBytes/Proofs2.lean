import Verif.VCBytes.Proofs
set_option linter.unusedSimpArgs false
set_option linter.unusedVariables false
namespace Verif.VCBytes
open Verif.Bytes

theorem elemLoop_bound (buf : Bytes) (ls nv : Int) (k : Nat) :
    ∀ (last : Int) (rem cur rem' cur' : Nat), elemLoop buf ls nv k last rem cur = .done rem' cur' →
      cur' + rem' = cur + rem ∧ (cur ≤ buf.length + 2 ^ 16 → cur' ≤ buf.length + 2 ^ 16) := by
  induction k with
  | zero =>
    intro last rem cur rem' cur' h
    simp only [elemLoop, Loop.done.injEq] at h
    omega
  | succ k ih =>
    intro last rem cur rem' cur' h
    unfold elemLoop at h
    split at h
    · exact absurd h (by simp)
    split at h
    · exact absurd h (by simp)
    rename_i hrem eb heb
    have i1 := (slice_eq_some.1 heb).1
    rcases hrd : readHead eb with ⟨seq, dg, ov, flag⟩
    simp only [hrd] at h
    split at h
    · exact absurd h (by simp)
    split at h
    · exact absurd h (by simp)
    split at h
    · exact absurd h (by simp)
    split at h
    · have := ih _ _ _ _ _ h; omega
    split at h
    · exact absurd h (by simp)
    split at h
    · exact absurd h (by simp)
    rename_i cb hcb
    have i2 := (slice_eq_some.1 hcb).1
    have hcbl := slice_length hcb
    have r2 : leDecode (cb.drop 8) < 2 ^ 16 := by
      have := leDecode_lt (cb.drop 8)
      rw [List.length_drop, hcbl] at this
      exact this
    split at h
    · exact absurd h (by simp)
    split at h
    · exact absurd h (by simp)
    split at h
    · exact absurd h (by simp)
    have := ih _ _ _ _ _ h; omega

theorem enc_dec {n : Nat} {bs : Bytes} (h : bs.length = n) : leEncode n (leDecode bs) = bs := by
  subst h; exact leEncode_leDecode bs

theorem take_step (hb : Bytes) (m n k : Nat) (h : m + n = k) : (hb.drop m).take n ++ hb.drop k = hb.drop m := by
  subst h
  have := List.take_append_drop n (hb.drop m)
  rwa [List.drop_drop] at this

theorem encodeHdr_length (h : Hdr) : (encodeHdr h).length = hdrSize := by simp [encodeHdr, hdrSize]

theorem encode_parseHdr {buf : Bytes} {h : Hdr} (hp : parseHdr buf = some h) :
    hdrSize ≤ buf.length ∧ buf = encodeHdr h ++ buf.drop hdrSize := by
  unfold parseHdr at hp
  split at hp
  · exact absurd hp (by simp)
  rename_i hb hsl
  obtain ⟨hl, -⟩ := slice_eq_some.1 hsl
  have hbl := slice_length hsl
  have hd := drop_slice hsl
  simp only [hdrSize] at *
  simp only [List.drop_zero, Nat.zero_add] at hd hl
  refine ⟨hl, ?_⟩
  simp only [Option.some.injEq] at hp
  subst hp
  conv => lhs; rw [hd]
  congr 1
  simp only [encodeHdr]
  rw [enc_dec (by simp; omega), enc_dec (by simp; omega), enc_dec (by simp; omega), encode_readInt _ (by simp; omega),
    encode_readInt _ (by simp; omega), enc_dec (by simp; omega), enc_dec (by simp; omega), enc_dec (by simp; omega),
    enc_dec (by simp; omega), enc_dec (by simp; omega)]
  have l : List.take 4 (List.drop 40 hb) = List.drop 40 hb := List.take_of_length_le (by simp; omega)
  simp only [List.append_assoc]
  rw [l, take_step hb 38 2 40 rfl, take_step hb 34 4 38 rfl, take_step hb 32 2 34 rfl, take_step hb 24 8 32 rfl,
    take_step hb 16 8 24 rfl, take_step hb 8 8 16 rfl, take_step hb 6 2 8 rfl, take_step hb 2 4 6 rfl,
    List.take_append_drop]

/-- header fields within their C++ types -/
structure Hdr.Fits (h : Hdr) : Prop where
  a : h.msgType < 2 ^ 16
  b : h.spanSize < 2 ^ 32
  c : h.genId < 2 ^ 16
  d : -2 ^ 63 ≤ h.newView ∧ h.newView < 2 ^ 63
  e : -2 ^ 63 ≤ h.lastStable ∧ h.lastStable < 2 ^ 63
  f : h.epoch < 2 ^ 64
  g : h.numComplaints < 2 ^ 16
  i : h.sizeComplaints < 2 ^ 32
  j : h.numElements < 2 ^ 16
  k : h.locAfterLast < 2 ^ 32

theorem parse_encodeHdr {h : Hdr} (hf : h.Fits) (rest : Bytes) : parseHdr (encodeHdr h ++ rest) = some h := by
  unfold parseHdr
  have : slice (encodeHdr h ++ rest) 0 hdrSize = some (encodeHdr h) :=
    slice_mid (a := []) (b := encodeHdr h) (c := rest) (by simp) rfl (encodeHdr_length h).symm
  rw [this]
  obtain ⟨a, b, c, d, e, f, g, i, j, k⟩ := hf
  simp [encodeHdr, List.drop_append, List.take_append, List.take_of_length_le, List.drop_of_length_le, leDecode_leEncode, ofInt64_lt, toInt64_ofInt64, *]
  rw [leDecode_leEncode _ _ (ofInt64_lt _), leDecode_leEncode _ _ (ofInt64_lt _), toInt64_ofInt64 _ d.1 d.2,
    toInt64_ofInt64 _ e.1 e.2]

theorem lt_of_leDecode {bs : Bytes} {n : Nat} (h : bs.length ≤ n) : leDecode bs < 256 ^ n :=
  Nat.lt_of_lt_of_le (leDecode_lt bs) (Nat.pow_le_pow_right (by decide) h)

theorem fits_of_parse {buf : Bytes} {h : Hdr} (hp : parseHdr buf = some h) : h.Fits := by
  unfold parseHdr at hp
  split at hp
  · exact absurd hp (by simp)
  rename_i hb hsl
  simp only [Option.some.injEq] at hp
  subst hp
  have q2 : ∀ m, leDecode ((hb.drop m).take 2) < 2 ^ 16 := fun m =>
    lt_of_leDecode (n := 2) (List.length_take_le _ _)
  have q4 : ∀ m, leDecode ((hb.drop m).take 4) < 2 ^ 32 := fun m =>
    lt_of_leDecode (n := 4) (List.length_take_le _ _)
  have q8 : ∀ m, leDecode ((hb.drop m).take 8) < 2 ^ 64 := fun m =>
    lt_of_leDecode (n := 8) (List.length_take_le _ _)
  exact ⟨q2 0, q4 _, q2 _, toInt64_range _ (q8 _), toInt64_range _ (q8 _), q8 _, q2 _, q4 _, q2 _, q4 _⟩

/-- what the complaints loop recognised -/
theorem complLoop_sound (buf : Bytes) (hbuf : buf.length < 2 ^ 32) (k : Nat) :
    ∀ (rem cur : Nat) cur', cur ≤ buf.length → rem = buf.length - cur → complLoop buf k rem cur = .done 0 cur' →
      ∃ cs : List Bytes, cs.length = k ∧ buf.drop cur = encodeComplaints cs ∧
        ∀ x ∈ cs, complaintHdr < x.length ∧ x.length < 2 ^ 32 := by
  induction k with
  | zero =>
    intro rem cur cur' hc hr h
    simp only [complLoop, Loop.done.injEq] at h
    refine ⟨[], rfl, ?_, by simp⟩
    rw [List.drop_of_length_le (by omega)]; rfl
  | succ k ih =>
    intro rem cur cur' hc hr h
    unfold complLoop at h
    split at h
    · rename_i h1
      split at h
      · exact absurd h (by simp)
      rename_i b hb
      simp only at h
      split at h
      · exact absurd h (by simp)
      rename_i h2
      have hbl := slice_length hb
      have hcs : leDecode b < 2 ^ 32 := lt_of_leDecode (n := 4) (by omega)
      have hin := (slice_eq_some.1 hb).1
      by_cases hle : cur + 4 + leDecode b ≤ buf.length
      · have hr' : sub32 (sub32 rem 4) (leDecode b) = buf.length - (cur + 4 + leDecode b) := by
          unfold sub32; omega
        obtain ⟨cs, c1, c2, c3⟩ := ih _ _ _ hle hr' h
        obtain ⟨x, hx, hxl⟩ := slice_split (buf := buf) (off := cur) (n := 4) (m := leDecode b) (by omega)
        refine ⟨x :: cs, by simp [c1], ?_, ?_⟩
        · rw [drop_slice hb, drop_slice hx, c2]
          simp [encodeComplaints, hxl, enc_dec hbl]
        · intro y hy
          rcases List.mem_cons.1 hy with rfl | hy
          · exact ⟨by omega, by omega⟩
          · exact c3 y hy
      · exfalso
        have hne : sub32 (sub32 rem 4) (leDecode b) ≠ 0 := by unfold sub32; simp only [complaintHdr] at *; omega
        cases k with
        | zero => simp only [complLoop, Loop.done.injEq] at h; omega
        | succ k =>
          unfold complLoop at h
          split at h
          · split at h
            · exact absurd h (by simp)
            · rename_i hb2
              have := (slice_eq_some.1 hb2).1
              omega
          · exact absurd h (by simp)
    · exact absurd h (by simp)

theorem complLoop_complete (buf : Bytes) (hbuf : buf.length < 2 ^ 32) (cs : List Bytes) :
    ∀ (rem cur : Nat), cur ≤ buf.length → rem = buf.length - cur → buf.drop cur = encodeComplaints cs →
      (∀ x ∈ cs, complaintHdr < x.length) → complLoop buf cs.length rem cur = .done 0 buf.length := by
  induction cs with
  | nil =>
    intro rem cur hc hr hd _
    have := congrArg List.length hd
    simp [encodeComplaints] at this
    have h1 : rem = 0 := by omega
    have h2 : cur = buf.length := by omega
    simp [complLoop, h1, h2]
  | cons x cs ih =>
    intro rem cur hc hr hd hx
    have hxl := hx x (by simp)
    have hd1 : buf.drop cur = leEncode 4 x.length ++ (x ++ encodeComplaints cs) := by
      rw [hd]; simp [encodeComplaints]
    have hlen := congrArg List.length hd1
    simp at hlen
    have s1 := slice_of_drop hd1 hc
    rw [leEncode_length] at s1
    have hd2 : buf.drop (cur + 4 + x.length) = encodeComplaints cs := by
      rw [Nat.add_assoc, ← List.drop_drop, hd1, ← List.append_assoc]
      rw [show 4 + x.length = (leEncode 4 x.length ++ x).length by simp]
      exact List.drop_left
    simp only [List.length_cons]
    unfold complLoop
    rw [if_pos (by simp only [complaintHdr] at *; omega), s1]
    simp only
    rw [leDecode_leEncode 4 _ (by omega), if_neg (by omega)]
    exact ih _ _ (by omega) (by unfold sub32; omega) hd2 (fun y hy => hx y (by simp [hy]))

end Verif.VCBytes
