import Verif.Kvbc.VersionedLemmas
set_option linter.unusedSimpArgs false
set_option linter.unusedVariables false
/-!
# Byte order of versioned keys

`deleteLastReachableBlock` (versioned_kv_category.cpp:252-263, block_merkle_category.cpp:622-631) finds the previous
version of a key with `seekAtMost((key, b)); prev()`, "exploiting the fact" that CMF writes a string as its 32-bit
big-endian length followed by its bytes, and a 64-bit integer big-endian.  Here the database is a set of byte strings
ordered byte-wise, and the entry before `(key, b)` is characterised: it is the largest version below `b` of the same
key when there is one, and an entry of another key otherwise.  This justifies `prevVersion` of the models.
-/
namespace Verif.Kvbc
open Verif.Bytes

/-- big-endian encoding on `n` bytes (CMF integers, messages/compiler/cpp/serialize.cpp) -/
def beEncode (n v : Nat) : Bytes := (leEncode n v).reverse

/-- CMF encoding of `VersionedRawKey` (categorized_kvbc_msgs.cmf:144-149): length, bytes, version -/
def encRawKey (k : Key) (v : Nat) : Bytes := beEncode 4 k.length ++ k ++ beEncode 8 v

/-- CMF encoding of `VersionedKey` (categorized_kvbc_msgs.cmf:137-142): 32-byte hash, version -/
def encHashKey (h : Bytes) (v : Nat) : Bytes := h ++ beEncode 8 v

theorem beEncode_length (n v : Nat) : (beEncode n v).length = n := by simp [beEncode]

theorem keyLt_append_left (p a b : Bytes) : keyLt (p ++ a) (p ++ b) = keyLt a b := by
  induction p with
  | nil => rfl
  | cons x xs ih => simp [keyLt, ih]

/-- a byte-wise comparison of strings of the same length decides before what follows -/
theorem keyLt_append_same : ∀ (a b x y : Bytes), a.length = b.length → a ≠ b →
    keyLt (a ++ x) (b ++ y) = keyLt a b
  | [], [], _, _, _, h => absurd rfl h
  | [], _ :: _, _, _, h, _ => by simp at h
  | _ :: _, [], _, _, h, _ => by simp at h
  | a :: as, b :: bs, x, y, hl, hne => by
    simp only [List.cons_append, keyLt]
    by_cases h1 : a.toNat < b.toNat
    · simp [h1]
    · by_cases h2 : b.toNat < a.toNat
      · simp [h1, h2]
      · simp only [h1, h2, if_false]
        have e : a = b := UInt8.toNat_inj.1 (by omega)
        exact keyLt_append_same as bs x y (by simpa using hl) (fun h => hne (by rw [e, h]))

theorem leEncode_split (n v : Nat) : leEncode (n + 1) v = leEncode n v ++ [UInt8.ofNat (v / 256 ^ n % 256)] := by
  induction n generalizing v with
  | zero => simp [leEncode]
  | succ n ih =>
    rw [leEncode, ih (v / 256)]
    simp only [leEncode, List.cons_append]
    rw [Nat.div_div_eq_div_mul, ← Nat.pow_succ']

theorem beEncode_succ (n v : Nat) : beEncode (n + 1) v = UInt8.ofNat (v / 256 ^ n % 256) :: beEncode n v := by
  simp only [beEncode, leEncode_split, List.reverse_append, List.reverse_singleton, List.singleton_append]

theorem beEncode_mod (n v : Nat) : beEncode n v = beEncode n (v % 256 ^ n) := by
  have : ∀ n v, leEncode n v = leEncode n (v % 256 ^ n) := by
    intro n
    induction n with
    | zero => intro v; rfl
    | succ n ih =>
      intro v
      simp only [leEncode]
      rw [ih (v / 256), ih (v % 256 ^ (n + 1) / 256)]
      have h1 : v % 256 ^ (n + 1) % 256 = v % 256 := by
        rw [Nat.pow_succ, Nat.mod_mul_left_mod]
      have h2 : v % 256 ^ (n + 1) / 256 = v / 256 % 256 ^ n := by
        rw [Nat.pow_succ, Nat.mul_comm, Nat.mod_mul_right_div_self]
      rw [h1, h2, Nat.mod_mod]
  rw [beEncode, this, beEncode]

/-- big-endian order is numeric order -/
theorem keyLt_beEncode (n a b : Nat) (ha : a < 256 ^ n) (hb : b < 256 ^ n) :
    keyLt (beEncode n a) (beEncode n b) = decide (a < b) := by
  induction n generalizing a b with
  | zero =>
    simp at ha hb
    subst ha; subst hb
    simp [beEncode, leEncode, keyLt]
  | succ n ih =>
    rw [beEncode_succ, beEncode_succ, beEncode_mod n a, beEncode_mod n b]
    have hp : 0 < 256 ^ n := Nat.pow_pos (by decide)
    have hqa : a / 256 ^ n < 256 := by
      rw [Nat.pow_succ] at ha
      exact Nat.div_lt_of_lt_mul ha
    have hqb : b / 256 ^ n < 256 := by
      rw [Nat.pow_succ] at hb
      exact Nat.div_lt_of_lt_mul hb
    have ta : (UInt8.ofNat (a / 256 ^ n % 256)).toNat = a / 256 ^ n := by
      rw [UInt8.toNat_ofNat', Nat.mod_mod, Nat.mod_eq_of_lt hqa]
    have tb : (UInt8.ofNat (b / 256 ^ n % 256)).toNat = b / 256 ^ n := by
      rw [UInt8.toNat_ofNat', Nat.mod_mod, Nat.mod_eq_of_lt hqb]
    have ea := Nat.div_add_mod a (256 ^ n)
    have eb := Nat.div_add_mod b (256 ^ n)
    have ra := Nat.mod_lt a hp
    have rb := Nat.mod_lt b hp
    simp only [keyLt, ta, tb]
    rw [ih _ _ ra rb]
    by_cases h1 : a / 256 ^ n < b / 256 ^ n
    · have : a < b := by
        have := Nat.mul_le_mul_left (256 ^ n) (show a / 256 ^ n + 1 ≤ b / 256 ^ n from h1)
        rw [Nat.mul_add] at this
        omega
      simp [h1, this]
    · by_cases h2 : b / 256 ^ n < a / 256 ^ n
      · have : b < a := by
          have := Nat.mul_le_mul_left (256 ^ n) (show b / 256 ^ n + 1 ≤ a / 256 ^ n from h2)
          rw [Nat.mul_add] at this
          omega
        have h3 : ¬ a < b := by omega
        simp [h1, h2, h3]
      · have e : a / 256 ^ n = b / 256 ^ n := by omega
        simp only [h1, h2, if_false]
        rw [e] at ea
        have : (a % 256 ^ n < b % 256 ^ n) ↔ a < b := by omega
        simp [this]

theorem beEncode_inj {n a b : Nat} (ha : a < 256 ^ n) (hb : b < 256 ^ n) (h : beEncode n a = beEncode n b) : a = b := by
  have h1 := keyLt_beEncode n a b ha hb
  have h2 := keyLt_beEncode n b a hb ha
  rw [h, keyLt_irrefl] at h1
  rw [h, keyLt_irrefl] at h2
  simp at h1 h2
  omega

/-- order of the versions of one key -/
theorem encRawKey_same (k : Key) (v w : Nat) (hv : v < 256 ^ 8) (hw : w < 256 ^ 8) :
    keyLt (encRawKey k v) (encRawKey k w) = decide (v < w) := by
  simp only [encRawKey]
  rw [keyLt_append_left, keyLt_beEncode 8 v w hv hw]

/-- order of different keys does not depend on the versions -/
theorem encRawKey_other (k k' : Key) (hk : k.length < 256 ^ 4) (hk' : k'.length < 256 ^ 4) (hne : k ≠ k') (v w : Nat) :
    keyLt (encRawKey k v) (encRawKey k' w) =
      (decide (k.length < k'.length) || (decide (k.length = k'.length) && keyLt k k')) := by
  simp only [encRawKey, List.append_assoc]
  by_cases hl : k.length = k'.length
  · rw [hl, keyLt_append_left, keyLt_append_same k k' _ _ hl hne]
    simp
  · have hne' : beEncode 4 k.length ≠ beEncode 4 k'.length := fun h => hl (beEncode_inj hk hk' h)
    rw [keyLt_append_same _ _ _ _ (by rw [beEncode_length, beEncode_length]) hne', keyLt_beEncode 4 _ _ hk hk']
    simp [hl]

/-- the database entries are the encodings of the pairs in `db`; `prev` of the entry `(k, b)` in byte order -/
def IsPrev (db : Key → Nat → Prop) (k : Key) (b : Nat) (k' : Key) (v' : Nat) : Prop :=
  db k' v' ∧ keyLt (encRawKey k' v') (encRawKey k b) = true ∧
    ∀ k'' v'', db k'' v'' → keyLt (encRawKey k'' v'') (encRawKey k b) = true →
      (k'' = k' ∧ v'' = v') ∨ keyLt (encRawKey k'' v'') (encRawKey k' v') = true

/-- **Iterator** The entry before `(k, b)` is the largest version below `b` of `k` when `k` has one, and belongs to
another key (or does not exist) when `k` has none.  For every database of keys shorter than 2^32 bytes and 64-bit
versions. -/
theorem prev_entry (db : Key → Nat → Prop) (hdb : ∀ k v, db k v → k.length < 256 ^ 4 ∧ v < 256 ^ 8) (k : Key) (b : Nat)
    (hk : k.length < 256 ^ 4) (hb : b < 256 ^ 8) :
    (∀ v, IsPrev db k b k v ↔ (db k v ∧ v < b ∧ ∀ v', db k v' → v' < b → v' ≤ v)) ∧
    (∀ k' v', k' ≠ k → IsPrev db k b k' v' → ∀ v, v < b → ¬ db k v) := by
  refine ⟨?_, ?_⟩
  · intro v
    constructor
    · rintro ⟨h1, h2, h3⟩
      have hv := (hdb k v h1).2
      rw [encRawKey_same k v b hv hb] at h2
      refine ⟨h1, by simpa using h2, fun v' h4 h5 => ?_⟩
      have hv' := (hdb k v' h4).2
      rcases h3 k v' h4 (by rw [encRawKey_same k v' b hv' hb]; simpa using h5) with ⟨_, e⟩ | h6
      · omega
      · rw [encRawKey_same k v' v hv' hv] at h6
        have : v' < v := by simpa using h6
        omega
    · rintro ⟨h1, h2, h3⟩
      have hv := (hdb k v h1).2
      refine ⟨h1, by rw [encRawKey_same k v b hv hb]; simpa using h2, fun k'' v'' h4 h5 => ?_⟩
      have hk'' := hdb k'' v'' h4
      by_cases e : k'' = k
      · subst e
        rw [encRawKey_same k'' v'' b hk''.2 hb] at h5
        have h6 := h3 v'' h4 (by simpa using h5)
        by_cases e2 : v'' = v
        · exact Or.inl ⟨rfl, e2⟩
        · right
          rw [encRawKey_same k'' v'' v hk''.2 hv]
          simp; omega
      · right
        rw [encRawKey_other k'' k hk''.1 hk e] at h5 ⊢
        exact h5
  · intro k' v' hne hp v hv hdbv
    obtain ⟨h1, h2, h3⟩ := hp
    have hk' := hdb k' v' h1
    have hvv := (hdb k v hdbv).2
    rcases h3 k v hdbv (by rw [encRawKey_same k v b hvv hb]; simpa using hv) with ⟨e, _⟩ | h6
    · exact hne e.symm
    · rw [encRawKey_other k' k hk'.1 hk hne] at h2
      rw [encRawKey_other k k' hk hk'.1 (Ne.symm hne)] at h6
      simp only [Bool.or_eq_true, decide_eq_true_eq, Bool.and_eq_true] at h2 h6
      rcases h2 with h2 | ⟨h2, h4⟩
      · rcases h6 with h6 | ⟨h6, _⟩ <;> omega
      · rcases h6 with h6 | ⟨h6, h7⟩
        · omega
        · have := keyLt_trans _ _ _ h4 h7
          rw [keyLt_irrefl] at this; cases this

/-- what the model's `prevVersion` returns is the iterator's previous entry of the same key -/
theorem prevVersion_is_prev (s : VState) (hdb : ∀ k v, (s k).values v ≠ none → k.length < 256 ^ 4 ∧ v < 256 ^ 8)
    (k : Key) (b : Nat) (hk : k.length < 256 ^ 4) (hb : b < 256 ^ 8) (v : Nat) :
    (∃ d, prevVersion (s k) b = some (v, d)) ↔ IsPrev (fun k v => (s k).values v ≠ none) k b k v := by
  rw [(prev_entry (fun k v => (s k).values v ≠ none) hdb k b hk hb).1 v]
  constructor
  · rintro ⟨d, h⟩
    obtain ⟨h1, h2, h3⟩ := prevVersion_some h
    refine ⟨by rw [h2]; simp, h1, fun v' h4 h5 => ?_⟩
    rcases Nat.lt_or_ge v v' with h6 | h6
    · exact absurd (h3 v' h6 h5) h4
    · exact h6
  · rintro ⟨h1, h2, h3⟩
    cases hp : prevVersion (s k) b with
    | none => exact absurd (prevVersion_none hp v h2) h1
    | some p =>
      obtain ⟨p1, p2, p3⟩ := prevVersion_some (v := p.1) (d := p.2) hp
      have h4 := h3 p.1 (by rw [p2]; simp) p1
      have : p.1 = v := by
        rcases Nat.lt_or_ge p.1 v with h5 | h5
        · exact absurd (p3 v h5 h2) h1
        · omega
      exact ⟨p.2, by rw [← this]⟩

/-- non-vacuity: two versions of key `a`, one of key `bb`; the entry before `(a, 7)` is `(a, 3)` -/
example : IsPrev (fun k v => (k = [97] ∧ (v = 3 ∨ v = 7)) ∨ (k = [98, 98] ∧ v = 5)) [97] 7 [97] 3 := by
  refine ((prev_entry _ ?_ [97] 7 (by decide) (by decide)).1 3).2 ⟨Or.inl ⟨rfl, Or.inl rfl⟩, by decide, ?_⟩
  · rintro k v (⟨rfl, rfl | rfl⟩ | ⟨rfl, rfl⟩) <;> decide
  · rintro v' (⟨_, rfl | rfl⟩ | ⟨h, _⟩) h2
    · decide
    · omega
    · exact absurd h (by decide)

end Verif.Kvbc
