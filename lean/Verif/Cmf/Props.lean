import Verif.Cmf.Model
import Verif.Kvbc.VersionedLemmas
set_option linter.unusedVariables false
set_option linter.unusedSimpArgs false
/-!
# C28: CMF messages round-trip; decoding never leaves the buffer
-/
namespace Verif.Cmf
open Verif.Bytes Verif.Kvbc

/-! ### positions -/

/-- the bytes `bs` are in `buf` at `off` -/
def At (buf : Bytes) (off : Nat) (bs : Bytes) : Prop := ∃ pre post, buf = pre ++ bs ++ post ∧ off = pre.length

theorem At.left {buf : Bytes} {off : Nat} {a b : Bytes} (h : At buf off (a ++ b)) : At buf off a := by
  obtain ⟨pre, post, h1, h2⟩ := h
  exact ⟨pre, b ++ post, by rw [h1]; simp [List.append_assoc], h2⟩

theorem At.right {buf : Bytes} {off : Nat} {a b : Bytes} (h : At buf off (a ++ b)) : At buf (off + a.length) b := by
  obtain ⟨pre, post, h1, h2⟩ := h
  exact ⟨pre ++ a, post, by rw [h1]; simp [List.append_assoc], by simp [h2]⟩

theorem rd_at {buf : Bytes} {off n : Nat} {b : Bytes} (h : At buf off b) (hn : n = b.length) :
    rd buf off n = .ok b (off + n) := by
  obtain ⟨pre, post, h1, h2⟩ := h
  have hs : slice buf off n = some b := slice_mid h1 h2 hn
  rw [rd, if_neg, hs]
  rw [h1, h2, hn]; simp

theorem beDecode_beEncode {k n : Nat} (h : n < 256 ^ k) : beDecode (beEncode k n) = n := by
  simp only [beDecode, beEncode, List.reverse_reverse]
  exact leDecode_leEncode k n h

theorem beDecode_lt (b : Bytes) : beDecode b < 256 ^ b.length := by
  have := leDecode_lt b.reverse
  simpa [beDecode] using this

theorem beDecode_single (b : UInt8) : beDecode [b] = b.toNat := by simp [beDecode, leDecode]

theorem rd_be {buf : Bytes} {off k n : Nat} (h : At buf off (beEncode k n)) :
    rd buf off k = .ok (beEncode k n) (off + k) := rd_at h (by rw [beEncode_length])

/-! ### integers -/

theorem intImage_lt (k : Nat) (z : Int) : intImage k z < 256 ^ k := by
  have hp : (0 : Int) < ((256 ^ k : Nat) : Int) := by
    have : 0 < 256 ^ k := Nat.pow_pos (by decide)
    omega
  have h1 := Int.emod_nonneg z (by omega : ((256 ^ k : Nat) : Int) ≠ 0)
  have h2 := Int.emod_lt_of_pos z hp
  simp only [intImage]
  omega

theorem intValue_intImage (k : Nat) (z : Int) (h : -((256 ^ k : Nat) : Int) ≤ 2 * z ∧ 2 * z < ((256 ^ k : Nat) : Int)) :
    intValue k (intImage k z) = z := by
  have key : ∀ N : Nat, (-(N : Int) ≤ 2 * z ∧ 2 * z < (N : Int)) →
      (if 2 * (z % (N : Int)).toNat < N then (((z % (N : Int)).toNat : Nat) : Int)
        else (((z % (N : Int)).toNat : Nat) : Int) - (N : Int)) = z := by
   intro N h
   have hN : 0 < (N : Int) := by omega
   by_cases hz : 0 ≤ z
   · have : z % (N : Int) = z := Int.emod_eq_of_lt hz (by omega)
     rw [this, if_pos (by omega)]
     omega
   · have : z % (N : Int) = z + N := by
       rw [← Int.add_emod_right, Int.emod_eq_of_lt (by omega) (by omega)]
     rw [this, if_neg (by omega)]
     omega
  exact key (256 ^ k) h

theorem intValue_ok (k n : Nat) (hk : 1 ≤ k) (h : n < 256 ^ k) :
    -((256 ^ k : Nat) : Int) ≤ 2 * intValue k n ∧ 2 * intValue k n < ((256 ^ k : Nat) : Int) := by
  have key : ∀ N : Nat, n < N → -((N : Nat) : Int) ≤ 2 * (if 2 * n < N then (n : Int) else (n : Int) - (N : Int)) ∧
      2 * (if 2 * n < N then (n : Int) else (n : Int) - (N : Int)) < (N : Int) := by
    intro N h
    split <;> omega
  exact key (256 ^ k) h

/-! ### order of the keys -/

theorem keyLt_asymm (a b : Bytes) (h : keyLt a b = true) : keyLt b a = false := by
  cases hb : keyLt b a with
  | false => rfl
  | true => have := keyLt_trans _ _ _ h hb; rw [keyLt_irrefl] at this; cases this

theorem lt_asymm (p : Prim) (a b : p.T) (h : p.lt a b = true) : p.lt b a = false := by
  cases p with
  | bool => cases a <;> cases b <;> simp_all [Prim.lt]
  | uint k => exact decide_eq_false (Nat.lt_asymm (of_decide_eq_true h))
  | int k => exact decide_eq_false (Int.not_lt.2 (Int.le_of_lt (of_decide_eq_true h)))
  | str => exact keyLt_asymm _ _ h
  | bytes => exact keyLt_asymm _ _ h

theorem lt_trans (p : Prim) (a b c : p.T) (h1 : p.lt a b = true) (h2 : p.lt b c = true) : p.lt a c = true := by
  cases p with
  | bool => cases a <;> cases b <;> cases c <;> simp_all [Prim.lt]
  | uint k => exact decide_eq_true (Nat.lt_trans (of_decide_eq_true h1) (of_decide_eq_true h2))
  | int k => exact decide_eq_true (Int.lt_trans (of_decide_eq_true h1) (of_decide_eq_true h2))
  | str => exact keyLt_trans _ _ _ h1 h2
  | bytes => exact keyLt_trans _ _ _ h1 h2

/-! ### maps -/

theorem mapInsert_last (p : Prim) {υ : Type} (k : p.T) (v : υ) : ∀ (m : List (p.T × υ)),
    (∀ e ∈ m, p.lt e.1 k = true) → mapInsert p.lt k v m = m ++ [(k, v)] := by
  intro m
  induction m with
  | nil => intro _; rfl
  | cons e r ih =>
    intro h
    have he := h e List.mem_cons_self
    simp only [mapInsert, lt_asymm p _ _ he, he, if_true, Bool.false_eq_true, if_false, List.cons_append]
    rw [ih (fun x hx => h x (List.mem_cons_of_mem _ hx))]

theorem foldl_mapInsert (p : Prim) {υ : Type} : ∀ (l m : List (p.T × υ)),
    (m ++ l).Pairwise (fun x y => p.lt x.1 y.1 = true) →
    l.foldl (fun m e => mapInsert p.lt e.1 e.2 m) m = m ++ l := by
  intro l
  induction l with
  | nil => intro m _; simp
  | cons e r ih =>
    intro m h
    rw [List.foldl_cons, mapInsert_last]
    · have : m ++ [(e.1, e.2)] ++ r = m ++ e :: r := by simp
      rw [ih _ (by rw [this]; exact h), this]
    · intro x hx
      rw [List.pairwise_append] at h
      exact h.2.2 x hx e List.mem_cons_self

theorem mem_mapInsert (p : Prim) {υ : Type} (k : p.T) (v : υ) (m : List (p.T × υ)) {x : p.T × υ}
    (h : x ∈ mapInsert p.lt k v m) : x = (k, v) ∨ x ∈ m := by
  induction m with
  | nil => simpa [mapInsert] using h
  | cons e r ih =>
    simp only [mapInsert] at h
    split at h
    · rcases List.mem_cons.1 h with h | h
      · exact Or.inl h
      · exact Or.inr h
    · split at h
      · rcases List.mem_cons.1 h with h | h
        · exact Or.inr (by rw [h]; exact List.mem_cons_self)
        · rcases ih h with h | h
          · exact Or.inl h
          · exact Or.inr (List.mem_cons_of_mem _ h)
      · exact Or.inr h

theorem sorted_mapInsert (p : Prim) {υ : Type} (k : p.T) (v : υ) (m : List (p.T × υ))
    (h : m.Pairwise (fun x y => p.lt x.1 y.1 = true)) :
    (mapInsert p.lt k v m).Pairwise (fun x y => p.lt x.1 y.1 = true) := by
  induction m with
  | nil => simp [mapInsert]
  | cons e r ih =>
    rw [List.pairwise_cons] at h
    simp only [mapInsert]
    split
    · rename_i h1
      rw [List.pairwise_cons]
      refine ⟨?_, List.pairwise_cons.2 h⟩
      intro x hx
      rcases List.mem_cons.1 hx with e1 | hx
      · rw [e1]; exact h1
      · exact lt_trans p _ _ _ h1 (h.1 x hx)
    · split
      · rename_i h1 h2
        rw [List.pairwise_cons]
        refine ⟨?_, ih h.2⟩
        intro x hx
        rcases mem_mapInsert p k v r hx with e1 | hx
        · rw [e1]; exact h2
        · exact h.1 x hx
      · exact List.pairwise_cons.2 h

/-! ### round trip -/

theorem prim_roundtrip (p : Prim) (hw : p.Wf) (v : p.T) (ho : p.Ok v) (bs buf : Bytes) (off : Nat)
    (he : p.enc v = some bs) (ha : At buf off bs) : p.dec buf off = .ok v (off + bs.length) := by
  have hstr : ∀ (s : Bytes), (if s.length ≤ 0xFFFFFFFF then some (beEncode 4 s.length ++ s) else none) = some bs →
      decStr buf off = .ok s (off + bs.length) := by
    intro s hs
    split at hs
    · rename_i hl
      simp only [Option.some.injEq] at hs
      subst hs
      rw [decStr, rd_be ha.left]
      simp only [Res.bind]
      rw [beDecode_beEncode (by have : (256 : Nat) ^ 4 = 4294967296 := by decide
                                omega)]
      have := ha.right
      rw [beEncode_length] at this
      rw [rd_at this rfl]
      simp [beEncode_length]; omega
    · cases hs
  cases p with
  | bool =>
    simp only [Prim.enc, Option.some.injEq] at he
    subst he
    simp only [Prim.dec]
    rw [show rd buf off 1 = _ from rd_at ha rfl]
    cases v <;> rfl
  | uint k =>
    simp only [Prim.enc, Option.some.injEq] at he
    subst he
    simp only [Prim.dec]
    rw [rd_be ha]
    simp only [Res.bind]
    rw [beDecode_beEncode ho, beEncode_length]
  | int k =>
    simp only [Prim.enc, Option.some.injEq] at he
    subst he
    simp only [Prim.dec]
    rw [rd_be ha]
    simp only [Res.bind]
    rw [beDecode_beEncode (intImage_lt k v), intValue_intImage k v ho, beEncode_length]
  | str => exact hstr v he
  | bytes => exact hstr v he

theorem decN_roundtrip {α : Type} (f : α → Option Bytes) (d : Nat → Res α) (buf : Bytes) : ∀ (l : List α) (bs : Bytes) (off : Nat),
    (∀ x ∈ l, ∀ bs off, f x = some bs → At buf off bs → d off = .ok x (off + bs.length)) →
    encAll f l = some bs → At buf off bs → decN d l.length off = .ok l (off + bs.length) := by
  intro l
  induction l with
  | nil =>
    intro bs off _ he _
    simp only [encAll, Option.some.injEq] at he
    subst he
    rfl
  | cons x xs ih =>
    intro bs off h he ha
    simp only [encAll] at he
    split at he
    · rename_i a b h1 h2
      simp only [Option.some.injEq] at he
      subst he
      simp only [List.length_cons, decN]
      rw [h x List.mem_cons_self a off h1 ha.left]
      simp only [Res.bind]
      rw [ih b _ (fun y hy => h y (List.mem_cons_of_mem _ hy)) h2 ha.right]
      simp only [List.length_append, Nat.add_assoc]
    · cases he

theorem pair_roundtrip {α β : Type} (f : α → Option Bytes) (g : β → Option Bytes) (d : Nat → Res α) (e : Nat → Res β)
    (buf : Bytes) (v : α × β)
    (h1 : ∀ bs off, f v.1 = some bs → At buf off bs → d off = .ok v.1 (off + bs.length))
    (h2 : ∀ bs off, g v.2 = some bs → At buf off bs → e off = .ok v.2 (off + bs.length))
    (bs : Bytes) (off : Nat) (he : encPair f g v = some bs) (ha : At buf off bs) :
    decPair d e off = .ok v (off + bs.length) := by
  simp only [encPair] at he
  split at he
  · rename_i x y e1 e2
    simp only [Option.some.injEq] at he
    subst he
    simp only [decPair]
    rw [h1 x off e1 ha.left]
    simp only [Res.bind]
    rw [h2 y _ e2 ha.right]
    simp only [List.length_append, Nat.add_assoc]
  · cases he

/-- one-byte elements: the bulk copy reads the same values -/
theorem ofByte_roundtrip (t : Ty) (f : UInt8 → t.T) (hf : t.ofByte = some f) : ∀ (l : List t.T) (bs : Bytes),
    (∀ x ∈ l, t.Ok x) → encAll t.enc l = some bs → bs.length = l.length ∧ bs.map f = l := by
  have hone : ∀ x : t.T, t.Ok x → ∀ b, t.enc x = some b → ∃ c, b = [c] ∧ f c = x := by
    intro x hx b hb
    cases t with
    | prim p =>
      cases p with
      | bool =>
        simp only [Ty.ofByte, Prim.ofByte, Option.some.injEq] at hf
        subst hf
        simp only [Ty.enc, Prim.enc, Option.some.injEq] at hb
        refine ⟨_, hb.symm, ?_⟩
        cases x <;> rfl
      | uint k =>
        simp only [Ty.ofByte, Prim.ofByte] at hf
        split at hf
        · rename_i hk
          subst hk
          simp only [Option.some.injEq] at hf
          subst hf
          simp only [Ty.enc, Prim.enc, Option.some.injEq, beEncode, leEncode] at hb
          refine ⟨_, hb.symm, ?_⟩
          have : x < 256 := by simpa [Ty.Ok, Prim.Ok] using hx
          simp [UInt8.toNat_ofNat']
          omega
        · cases hf
      | int k =>
        simp only [Ty.ofByte, Prim.ofByte] at hf
        split at hf
        · rename_i hk
          subst hk
          simp only [Option.some.injEq] at hf
          subst hf
          simp only [Ty.enc, Prim.enc, Option.some.injEq, beEncode, leEncode] at hb
          refine ⟨_, hb.symm, ?_⟩
          have h1 := intImage_lt 1 x
          have h2 := intValue_intImage 1 x hx
          have h3 : (UInt8.ofNat (intImage 1 x % 256)).toNat = intImage 1 x := by
            simp only [UInt8.toNat_ofNat']
            simp only [Nat.pow_one] at h1
            omega
          show intValue 1 (UInt8.ofNat (intImage 1 x % 256)).toNat = x
          rw [h3, h2]
        · cases hf
      | str => cases hf
      | bytes => cases hf
    | enum n => cases hf
    | list t => cases hf
    | fixed n t => cases hf
    | pair a b => cases hf
    | map k v => cases hf
    | opt t => cases hf
    | unit => cases hf
    | oneof a => cases hf
  intro l
  induction l with
  | nil => intro bs _ he; simp only [encAll, Option.some.injEq] at he; subst he; exact ⟨rfl, rfl⟩
  | cons x xs ih =>
    intro bs ho he
    simp only [encAll] at he
    split at he
    · rename_i a b h1 h2
      simp only [Option.some.injEq] at he
      subst he
      obtain ⟨c, e1, e2⟩ := hone x (ho x List.mem_cons_self) a h1
      obtain ⟨i1, i2⟩ := ih b (fun y hy => ho y (List.mem_cons_of_mem _ hy)) h2
      subst e1
      refine ⟨by simp [i1], by simp [i2, e2]⟩
    · cases he

theorem alts_enc (a : Alts) (v : a.T) (bs : Bytes) (h : a.enc v = some bs) :
    ∃ i ∈ a.ids, ∃ r, bs = beEncode 4 i ++ r := by
  induction a using Alts.rec (motive_1 := fun _ => True) with
  | nil => exact nomatch v
  | cons i t r _ ih =>
    cases v with
    | inl x =>
      simp only [Alts.enc] at h
      cases hx : t.enc x with
      | none => rw [hx] at h; cases h
      | some b =>
        rw [hx] at h
        simp only [Option.map_some, Option.some.injEq] at h
        exact ⟨i, List.mem_cons_self, b, h.symm⟩
    | inr y =>
      obtain ⟨j, hj, r', e⟩ := ih y h
      exact ⟨j, List.mem_cons_of_mem _ hj, r', e⟩
  | _ => trivial

mutual
/-- deserialize ∘ serialize -/
theorem Ty.roundtrip (buf : Bytes) : (t : Ty) → t.Wf → ∀ (v : t.T), t.Ok v → ∀ (bs : Bytes) (off : Nat),
    t.enc v = some bs → At buf off bs → t.dec buf off = .ok v (off + bs.length)
  | .prim p, hw, v, ho, bs, off, he, ha => prim_roundtrip p hw v ho bs buf off he ha
  | .enum n, hw, v, ho, bs, off, he, ha => by
    simp only [Ty.enc, Option.some.injEq] at he
    subst he
    have hv : (show Nat from v) < n := ho
    have hn : n < 256 := hw
    simp only [Ty.dec]
    rw [rd_be ha]
    simp only [Res.bind]
    rw [beDecode_beEncode (show v < 256 ^ 1 from Nat.lt_trans hv hn), if_neg (Nat.not_le.2 hv), beEncode_length]
  | .list t, hw, v, ho, bs, off, he, ha => by
    simp only [Ty.enc] at he
    split at he
    · rename_i hl
      cases hx : encAll t.enc v with
      | none => rw [hx] at he; cases he
      | some b =>
        rw [hx] at he
        simp only [Option.map_some, Option.some.injEq] at he
        subst he
        simp only [Ty.dec]
        rw [rd_be ha.left]
        simp only [Res.bind]
        have h2 := ha.right
        rw [beEncode_length] at h2
        rw [beDecode_beEncode (by have : (256 : Nat) ^ 4 = 4294967296 := by decide
                                  omega)]
        cases hf : t.ofByte with
        | some f =>
          obtain ⟨o1, o2⟩ := ofByte_roundtrip t f hf v b ho hx
          simp only
          rw [rd_at h2 o1.symm]
          simp only [o2, List.length_append, beEncode_length]
          congr 1; omega
        | none =>
          simp only
          rw [decN_roundtrip t.enc (t.dec buf) buf v b _ (fun x hx bs off he ha =>
            Ty.roundtrip buf t hw x (ho x hx) bs off he ha) hx h2]
          simp only [List.length_append, beEncode_length]
          congr 1; omega
    · cases he
  | .fixed n t, hw, v, ho, bs, off, he, ha => by
    simp only [Ty.enc] at he
    simp only [Ty.dec]
    have hn : v.length = n := ho.1
    have ho := ho.2
    cases hf : t.ofByte with
    | some f =>
      obtain ⟨o1, o2⟩ := ofByte_roundtrip t f hf v bs ho he
      simp only
      rw [rd_at ha (hn.symm.trans o1.symm)]
      simp only [Res.bind, o2, o1, hn]
    | none =>
      simp only
      rw [← hn]
      exact decN_roundtrip t.enc (t.dec buf) buf v bs _ (fun x hx bs off he ha =>
        Ty.roundtrip buf t hw x (ho x hx) bs off he ha) he ha
  | .pair a b, hw, v, ho, bs, off, he, ha => by
    exact pair_roundtrip a.enc b.enc (a.dec buf) (b.dec buf) buf v
      (fun bs off => Ty.roundtrip buf a hw.1 v.1 ho.1 bs off) (fun bs off => Ty.roundtrip buf b hw.2 v.2 ho.2 bs off)
      bs off he ha
  | .map k t, hw, v, ho, bs, off, he, ha => by
    simp only [Ty.enc] at he
    split at he
    · rename_i hl
      cases hx : encAll (encPair k.enc t.enc) v with
      | none => rw [hx] at he; cases he
      | some b =>
        rw [hx] at he
        simp only [Option.map_some, Option.some.injEq] at he
        subst he
        simp only [Ty.dec]
        rw [rd_be ha.left]
        simp only [Res.bind]
        have h2 := ha.right
        rw [beEncode_length] at h2
        rw [beDecode_beEncode (by have : (256 : Nat) ^ 4 = 4294967296 := by decide
                                  omega)]
        rw [decN_roundtrip (encPair k.enc t.enc) (decPair (k.dec buf) (t.dec buf)) buf v b _ (fun e he' bs off h1 h2 =>
          pair_roundtrip k.enc t.enc (k.dec buf) (t.dec buf) buf e
            (fun bs off h3 h4 => prim_roundtrip k hw.1 e.1 (ho.2 e he').1 bs buf off h3 h4)
            (fun bs off => Ty.roundtrip buf t hw.2 e.2 (ho.2 e he').2 bs off) bs off h1 h2) hx h2]
        simp only
        rw [foldl_mapInsert k v [] (by rw [List.nil_append]; exact ho.1)]
        simp only [List.length_append, beEncode_length, List.nil_append]
        congr 1; omega
    · cases he
  | .opt t, hw, v, ho, bs, off, he, ha => by
    cases v with
    | none =>
      simp only [Ty.enc, Option.some.injEq] at he
      subst he
      simp only [Ty.dec]
      rw [prim_roundtrip .bool trivial false trivial [0] buf off rfl ha]
      rfl
    | some x =>
      simp only [Ty.enc] at he
      cases hx : t.enc x with
      | none => rw [hx] at he; cases he
      | some b =>
        rw [hx] at he
        simp only [Option.map_some, Option.some.injEq] at he
        subst he
        have ha' : At buf off ([1] ++ b) := ha
        simp only [Ty.dec]
        rw [prim_roundtrip .bool trivial true trivial [1] buf off rfl ha'.left]
        simp only [Res.bind, if_true]
        rw [Ty.roundtrip buf t hw x (ho x rfl) b _ hx ha'.right]
        simp only [List.length_cons, List.length_nil]
        congr 1; omega
  | .unit, hw, v, ho, bs, off, he, ha => by
    simp only [Ty.enc, Option.some.injEq] at he
    subst he
    rfl
  | .oneof a, hw, v, ho, bs, off, he, ha => by
    obtain ⟨i, r, e, h⟩ := Alts.roundtrip buf a hw.1 hw.2 v ho bs he
    subst e
    simp only [Ty.dec]
    rw [rd_be ha.left]
    simp only [Res.bind]
    have h2 := ha.right
    rw [beEncode_length] at h2
    rw [beDecode_beEncode (by have : (256 : Nat) ^ 4 = 4294967296 := by decide
                              have := h.1
                              omega), h.2 _ h2]
    simp only [List.length_append, beEncode_length]
    congr 1; omega
theorem Alts.roundtrip (buf : Bytes) : (a : Alts) → a.ids.Nodup → a.Wf → ∀ (v : a.T), a.Ok v → ∀ (bs : Bytes),
    a.enc v = some bs → ∃ i r, bs = beEncode 4 i ++ r ∧ (i < 2 ^ 32 ∧ i ∈ a.ids) ∧
      ∀ off, At buf off r → a.dec buf i off = .ok v (off + r.length)
  | .nil, _, _, v, _, _, _ => nomatch v
  | .cons j t rest, hn, hw, .inl x, ho, bs, he => by
    simp only [Alts.enc] at he
    cases hx : t.enc x with
    | none => rw [hx] at he; cases he
    | some b =>
      rw [hx] at he
      simp only [Option.map_some, Option.some.injEq] at he
      refine ⟨j, b, he.symm, ⟨hw.1, List.mem_cons_self⟩, ?_⟩
      intro off ha
      simp only [Alts.dec, if_true]
      rw [Ty.roundtrip buf t hw.2.1 x ho b off hx ha]
      rfl
  | .cons j t rest, hn, hw, .inr y, ho, bs, he => by
    simp only [Alts.ids, List.nodup_cons] at hn
    obtain ⟨i, r, e, h1, h2⟩ := Alts.roundtrip buf rest hn.2 hw.2.2 y ho bs he
    refine ⟨i, r, e, ⟨h1.1, List.mem_cons_of_mem _ h1.2⟩, ?_⟩
    intro off ha
    simp only [Alts.dec]
    rw [if_neg (fun e => hn.1 (by rw [← e]; exact h1.2)), h2 off ha]
    rfl
end

end Verif.Cmf
