import Verif.Rp.Mem
set_option linter.unusedVariables false
set_option linter.unusedSimpArgs false
/-!
# Keys and values in the database (C41)
-/
namespace Verif.Rp
open Verif.Bytes Verif.St

variable {c : Cfg}

theorem beEncode_inj {n a b : Nat} (ha : a < 256 ^ n) (hb : b < 256 ^ n) (h : Kvbc.beEncode n a = Kvbc.beEncode n b) : a = b := by
  have := congrArg List.reverse h
  simp only [Kvbc.beEncode, List.reverse_reverse] at this
  have := congrArg leDecode this
  rwa [leDecode_leEncode _ _ ha, leDecode_leEncode _ _ hb] at this

theorem kPend_inj {p q : Nat} (hp : p < 2 ^ 32) (hq : q < 2 ^ 32) (h : kPend p = kPend q) : p = q := by
  unfold kPend at h
  exact beEncode_inj (n := 4) (by omega) (by omega) (List.append_cancel_left h)

theorem kDesc_inj {p q : Nat} (hp : p < 2 ^ 64) (hq : q < 2 ^ 64) (h : kDesc p = kDesc q) : p = q := by
  unfold kDesc at h
  exact beEncode_inj (n := 8) (by omega) (by omega) (List.append_cancel_left h)

theorem kPage_inj {p q k l : Nat} (hp : p < 2 ^ 32) (hq : q < 2 ^ 32) (hk : k < 2 ^ 64) (hl : l < 2 ^ 64) (h : kPage p k = kPage q l) : p = q ∧ k = l := by
  unfold kPage at h
  have h := List.append_cancel_left h
  have := List.append_inj h (by rw [Kvbc.beEncode_length, Kvbc.beEncode_length])
  exact ⟨beEncode_inj (n := 4) (by omega) (by omega) this.1, beEncode_inj (n := 8) (by omega) (by omega) this.2⟩

theorem kPend_ne_page (p q k : Nat) : kPend p ≠ kPage q k := by
  unfold kPend kPage kPrefix
  intro h
  simp only [List.cons_append] at h
  injection h with _ h
  injection h with h _
  exact absurd h (by decide)

theorem kPend_ne_desc (p k : Nat) : kPend p ≠ kDesc k := by
  unfold kPend kDesc
  intro h
  simp only [List.cons_append] at h
  injection h with _ h
  injection h with h _
  exact absurd h (by decide)

theorem kDesc_ne_page (l q k : Nat) : kDesc l ≠ kPage q k := by
  unfold kDesc kPage kPrefix
  intro h
  simp only [List.cons_append] at h
  injection h with _ h
  injection h with h _
  exact absurd h (by decide)

theorem prefix_kPage (p k : Nat) : kPrefix.isPrefixOf (kPage p k) = true := by
  unfold kPage kPrefix
  rfl

theorem prefix_kPend (p : Nat) : kPrefix.isPrefixOf (kPend p) = false := by
  unfold kPend kPrefix
  rfl

theorem prefix_kDesc (p : Nat) : kPrefix.isPrefixOf (kDesc p) = false := by
  unfold kDesc kPrefix
  rfl

/-- keys of the same prefix stand together -/
theorem prefix_between {a b x : Bytes} (ha : kPrefix.isPrefixOf a = true) (hb : kPrefix.isPrefixOf b = true) (h1 : Kvbc.keyLt a x = true) (h2 : Kvbc.keyLt x b = true) :
    kPrefix.isPrefixOf x = true := by
  obtain ⟨a', rfl⟩ := List.isPrefixOf_iff_prefix.1 ha
  obtain ⟨b', rfl⟩ := List.isPrefixOf_iff_prefix.1 hb
  unfold kPrefix at *
  have e1 : (1 : UInt8).toNat = 1 := rfl
  have e3 : (3 : UInt8).toNat = 3 := rfl
  match x with
  | [] => simp [Kvbc.keyLt] at h1
  | [x] =>
    simp only [List.cons_append, List.nil_append, Kvbc.keyLt, e1, e3] at h1 h2
    by_cases a1 : 1 < x.toNat
    · rw [if_neg (by omega), if_pos a1] at h2; cases h2
    · rw [if_neg a1] at h1
      split at h1 <;> cases h1
  | x :: y :: x' =>
    simp only [List.cons_append, List.nil_append, Kvbc.keyLt, e1, e3] at h1 h2
    have g : x.toNat = 1 ∧ y.toNat = 3 := by
      by_cases a1 : 1 < x.toNat
      · rw [if_neg (by omega), if_pos a1] at h2; cases h2
      · by_cases a2 : x.toNat < 1
        · rw [if_neg a1, if_pos a2] at h1; cases h1
        · rw [if_neg a1, if_neg a2] at h1
          rw [if_neg a2, if_neg a1] at h2
          refine ⟨by omega, ?_⟩
          by_cases b1 : 3 < y.toNat
          · rw [if_neg (by omega), if_pos b1] at h2; cases h2
          · by_cases b2 : y.toNat < 3
            · rw [if_neg b1, if_pos b2] at h1; cases h1
            · omega
    have hx : x = 1 := UInt8.toNat_inj.1 (by rw [g.1, e1])
    have hy : y = 3 := UInt8.toNat_inj.1 (by rw [g.2, e3])
    rw [hx, hy]
    rfl

/-- no key with the prefix of the pages is below the first -/
theorem kPage_first {p k : Nat} (hp : p < 2 ^ 32) (hk : k < 2 ^ 64) : Kvbc.keyLt (kPage p k) (kPage 0 0) = false := by
  unfold kPage
  rw [Kvbc.keyLt_append_left]
  by_cases h : p = 0
  · subst h
    rw [Kvbc.keyLt_append_left, Kvbc.keyLt_beEncode 8 _ _ (by omega) (by omega)]
    simp
  · rw [Kvbc.keyLt_append_same _ _ _ _ (by rw [Kvbc.beEncode_length, Kvbc.beEncode_length]) (fun e => h (beEncode_inj (n := 4) (by omega) (by omega) e)),
      Kvbc.keyLt_beEncode 4 _ _ (by omega) (by omega)]
    simp

/-! ## Values -/

theorem rd_append {n : Nat} (a b : Bytes) (h : a.length = n) : rd n (a ++ b) = .ok (a, b) := by
  unfold rd
  rw [if_pos (by rw [List.length_append]; omega), ← h, List.take_left, List.drop_left]

theorem rd_all (a : Bytes) : rd a.length a = .ok (a, []) := by
  have := rd_append a [] rfl
  rwa [List.append_nil] at this

theorem decPend_encPend {b : Bytes} (h : b.length < 2 ^ 32) : decPend (encPend b) = .ok b := by
  unfold decPend encPend
  rw [rd_append _ _ (leEncode_length _ _)]
  show ((rd (leDecode (leEncode 4 b.length)) b >>= fun x => R.ok x.1) : R Bytes) = _
  rw [leDecode_leEncode _ _ (by omega), rd_all]
  rfl

theorem decPage_encPage {ps p k : Nat} {d b : Bytes} (hps : ps < 2 ^ 32) (hp : p < 2 ^ 32) (hk : k < 2 ^ 64) (hd : d.length = 32) (hb : b.length = ps) :
    decPage ps (encPage ps p k d b) = .ok (p, k, d, b) := by
  unfold decPage encPage
  rw [rd_append _ _ (leEncode_length _ _)]
  simp only [bind, R.bind]
  rw [rd_append _ _ (leEncode_length _ _)]
  simp only
  rw [rd_append _ _ hd]
  simp only
  rw [rd_append _ _ (leEncode_length _ _)]
  simp only
  rw [leDecode_leEncode _ _ (by omega), require, if_pos rfl]
  simp only
  rw [List.take_of_length_le (by omega), ← hb, rd_all]
  simp only
  rw [leDecode_leEncode _ _ (by omega), leDecode_leEncode _ _ (by omega)]

/-- a descriptor that can be written -/
structure DescOk (d : Desc) : Prop where
  num : d.num < 2 ^ 64
  block : d.maxBlock < 2 ^ 64
  dig : d.maxDigest.length = 32
  pdig : d.pagesDigest.length = 32
  rvb : d.rvb.length < 2 ^ 64

theorem decDesc_encDesc {d : Desc} (h : DescOk d) : decDesc (encDesc d) = .ok d := by
  unfold decDesc encDesc
  rw [rd_append _ _ (leEncode_length _ _)]
  simp only [bind, R.bind]
  rw [rd_append _ _ (leEncode_length _ _)]
  simp only
  rw [rd_append _ _ h.dig]
  simp only
  rw [rd_append _ _ h.pdig]
  simp only
  rw [rd_append _ _ (leEncode_length _ _)]
  simp only
  have := h.num
  have := h.block
  have := h.rvb
  rw [leDecode_leEncode _ _ (by omega), rd_all]
  simp only
  rw [leDecode_leEncode _ _ (by omega), leDecode_leEncode _ _ (by omega)]

end Verif.Rp
