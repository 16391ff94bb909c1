import Verif.Keys.Spec
/-!
# The page of keys is read as it was written
-/
set_option linter.unusedSimpArgs false
namespace Verif.Keys
open Verif.Bytes

theorem decNat_enc (n : Nat) (b : Bytes) (h : n < 2 ^ 64) : decNat (leEncode 8 n ++ b) = .ok (n, b) := by
  have e : slice (leEncode 8 n ++ b) 0 8 = some (leEncode 8 n) :=
    slice_mid (a := []) (b := leEncode 8 n) (c := b) (by simp) rfl (by simp)
  unfold decNat
  rw [e]
  have : (256 : Nat) ^ 8 = 2 ^ 64 := by decide
  simp only [leDecode_leEncode 8 n (by omega)]
  rw [List.drop_append_of_le_length (by simp)]
  rw [List.drop_eq_nil_of_le (by simp)]
  rfl

theorem decStr_enc (s b : Bytes) (h : s.length < 2 ^ 63) : decStr (encStr s ++ b) = .ok (s, b) := by
  have e : slice (s ++ b) 0 s.length = some s :=
    slice_mid (a := []) (b := s) (c := b) (by simp) rfl rfl
  have n : ¬ (s.length ≥ 2 ^ 63) := by omega
  unfold decStr encStr
  rw [List.append_assoc, decNat_enc _ _ (by omega)]
  simp only [n, if_false, e]
  simp

/-- the bounds under which a pair can be written -/
def EntryOk (e : Nat × Key) : Prop := e.1 < 2 ^ 64 ∧ e.2.length < 2 ^ 63

theorem decEntries_enc (l : List (Nat × Key)) (b : Bytes) (h : ∀ e ∈ l, EntryOk e) :
    decEntries l.length ((l.map encEntry).flatten ++ b) = .ok l := by
  induction l with
  | nil => rfl
  | cons e l ih =>
    obtain ⟨sn, k⟩ := e
    have he := h (sn, k) (by simp)
    have ih := ih (fun x hx => h x (by simp [hx]))
    simp only [List.map_cons, List.flatten_cons, List.length_cons]
    unfold decEntries
    have e1 : encEntry (sn, k) ++ (l.map encEntry).flatten ++ b = leEncode 8 sn ++ (encStr k ++ ((l.map encEntry).flatten ++ b)) := by
      simp [encEntry, List.append_assoc]
    rw [e1, decNat_enc _ _ he.1]
    simp only [decStr_enc _ _ he.2, ih]

theorem decKeys_enc (l : List (Nat × Key)) (b : Bytes) (h : ∀ e ∈ l, EntryOk e) (hl : l.length < 2 ^ 64) :
    decKeys (encKeys l ++ b) = .ok l := by
  have e1 : encKeys l ++ b = encStr keysName ++ (encStr [49] ++ (leEncode 8 l.length ++ ((l.map encEntry).flatten ++ b))) := by
    simp [encKeys, List.append_assoc]
  have k1 : keysName.length < 2 ^ 63 := by decide +kernel
  have k2 : ([49] : Bytes).length < 2 ^ 63 := by decide
  unfold decKeys
  rw [e1, decStr_enc _ _ k1]
  simp only [ne_eq, not_true, if_false, decStr_enc _ _ k2, decNat_enc _ _ hl, decEntries_enc l b h]

theorem encEntry_length (e : Nat × Key) : (encEntry e).length = 16 + e.2.length := by
  simp [encEntry, encStr]
  omega

theorem flatten_le (l : List (Nat × Key)) : l.length ≤ ((l.map encEntry).flatten).length ∧
    ∀ e ∈ l, e.2.length ≤ ((l.map encEntry).flatten).length := by
  induction l with
  | nil => simp
  | cons e l ih =>
    have := encEntry_length e
    simp only [List.map_cons, List.flatten_cons, List.length_append, List.length_cons, List.mem_cons]
    refine ⟨by omega, ?_⟩
    rintro x (rfl | hx)
    · omega
    · have := ih.2 x hx
      omega

theorem encKeys_bounds (l : List (Nat × Key)) : l.length ≤ (encKeys l).length ∧ ∀ e ∈ l, e.2.length ≤ (encKeys l).length := by
  have h := flatten_le l
  have : (encKeys l).length ≥ ((l.map encEntry).flatten).length := by
    simp only [encKeys, List.length_append]
    omega
  refine ⟨by omega, fun e he => ?_⟩
  have := h.2 e he
  omega

end Verif.Keys
