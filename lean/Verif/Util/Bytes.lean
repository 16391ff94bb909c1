/-!
# Bytes, little-endian integers and bounds-checked reads

Shared by the byte-level models.  Every `memcpy`/pointer dereference of the C++ code is a `slice`, which is
`none` when it would touch a byte outside the allocated buffer.  The code runs on little-endian hosts and uses
packed structs, so an integer field of `k` bytes is `leDecode` of its bytes.
-/
namespace Verif.Bytes

abbrev Bytes := List UInt8

/-- little-endian encoding of `n` on `k` bytes (the in-memory image of an unsigned integer of `k` bytes) -/
def leEncode : (k : Nat) → (n : Nat) → Bytes
  | 0, _ => []
  | k + 1, n => UInt8.ofNat (n % 256) :: leEncode k (n / 256)

/-- value of a little-endian byte image -/
def leDecode : Bytes → Nat
  | [] => 0
  | b :: bs => b.toNat + 256 * leDecode bs

/-- read `len` bytes at offset `off`; `none` when the read leaves the buffer -/
def slice (buf : Bytes) (off len : Nat) : Option Bytes :=
  if off + len ≤ buf.length then some ((buf.drop off).take len) else none

@[simp] theorem leEncode_length (k n : Nat) : (leEncode k n).length = k := by
  induction k generalizing n with
  | zero => rfl
  | succ k ih => simp [leEncode, ih]

theorem leDecode_leEncode (k n : Nat) (h : n < 256 ^ k) : leDecode (leEncode k n) = n := by
  induction k generalizing n with
  | zero => simp at h; simp [leEncode, leDecode, h]
  | succ k ih =>
    have h1 : n / 256 < 256 ^ k := by
      rw [Nat.pow_succ] at h
      exact Nat.div_lt_of_lt_mul (by omega)
    have h2 : (UInt8.ofNat (n % 256)).toNat = n % 256 := by
      simp [UInt8.toNat_ofNat']
    simp only [leEncode, leDecode, ih _ h1, h2]
    omega

theorem leDecode_lt (bs : Bytes) : leDecode bs < 256 ^ bs.length := by
  induction bs with
  | nil => simp [leDecode]
  | cons b bs ih =>
    have := b.toNat_lt
    simp only [leDecode, List.length_cons, Nat.pow_succ]
    omega

theorem leEncode_leDecode (bs : Bytes) : leEncode bs.length (leDecode bs) = bs := by
  induction bs with
  | nil => rfl
  | cons b bs ih =>
    have hb := b.toNat_lt
    have h1 : (b.toNat + 256 * leDecode bs) % 256 = b.toNat := by omega
    have h2 : (b.toNat + 256 * leDecode bs) / 256 = leDecode bs := by omega
    simp only [leDecode, List.length_cons, leEncode, h1, h2, ih]
    simp

theorem slice_eq_some {buf : Bytes} {off len : Nat} {r : Bytes} :
    slice buf off len = some r ↔ off + len ≤ buf.length ∧ r = (buf.drop off).take len := by
  unfold slice
  by_cases h : off + len ≤ buf.length
  · simp [h, eq_comm]
  · simp [h]

theorem slice_length {buf : Bytes} {off len : Nat} {r : Bytes} (h : slice buf off len = some r) : r.length = len := by
  obtain ⟨h1, rfl⟩ := slice_eq_some.1 h
  simp; omega

/-- reading a middle part back -/
theorem slice_append (a b c : Bytes) : slice (a ++ b ++ c) a.length b.length = some b := by
  unfold slice
  rw [if_pos (by simp)]
  simp [List.append_assoc]

theorem slice_mid {buf a b c : Bytes} {off len : Nat} (h : buf = a ++ b ++ c) (ho : off = a.length) (hl : len = b.length) :
    slice buf off len = some b := by
  subst h ho hl; exact slice_append a b c

/-- two's complement value of an unsigned 64-bit image (`int64_t`) -/
def toInt64 (n : Nat) : Int := if n < 2 ^ 63 then (n : Int) else (n : Int) - 2 ^ 64

/-- the 64-bit image of an `int64_t` -/
def ofInt64 (z : Int) : Nat := (z % 2 ^ 64).toNat

theorem ofInt64_lt (z : Int) : ofInt64 z < 256 ^ 8 := by
  unfold ofInt64
  have : (256 : Nat) ^ 8 = 2 ^ 64 := by decide
  omega

theorem toInt64_ofInt64 (z : Int) (h1 : -2 ^ 63 ≤ z) (h2 : z < 2 ^ 63) : toInt64 (ofInt64 z) = z := by
  unfold toInt64 ofInt64
  split <;> omega

theorem ofInt64_toInt64 (n : Nat) (h : n < 2 ^ 64) : ofInt64 (toInt64 n) = n := by
  unfold toInt64 ofInt64
  split <;> omega

theorem toInt64_range (n : Nat) (h : n < 2 ^ 64) : -2 ^ 63 ≤ toInt64 n ∧ toInt64 n < 2 ^ 63 := by
  unfold toInt64
  split <;> omega

end Verif.Bytes
