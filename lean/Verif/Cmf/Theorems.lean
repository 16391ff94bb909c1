import Verif.Cmf.Safe
set_option linter.unusedVariables false
/-!
# C28: the statements for users, and examples
-/
namespace Verif.Cmf
open Verif.Bytes Verif.Kvbc

/-- **C28.** For every message type and every value of it: if `serialize` completes, then `deserialize` of the produced
bytes — followed by anything — returns that value and stops exactly after those bytes. -/
theorem cmf_roundtrip (t : Ty) (hw : t.Wf) (v : t.T) (ho : t.Ok v) (bs post : Bytes) (he : t.enc v = some bs) :
    t.decode (bs ++ post) = .ok v bs.length := by
  have := Ty.roundtrip (bs ++ post) t hw v ho bs 0 he ⟨[], post, rfl, rfl⟩
  rw [Nat.zero_add] at this
  exact this

/-- **C28.** The same in the middle of a larger buffer. -/
theorem cmf_roundtrip_at (t : Ty) (hw : t.Wf) (v : t.T) (ho : t.Ok v) (pre bs post : Bytes) (he : t.enc v = some bs) :
    t.dec (pre ++ bs ++ post) pre.length = .ok v (pre.length + bs.length) :=
  Ty.roundtrip _ t hw v ho bs pre.length he ⟨pre, post, rfl, rfl⟩

/-- **C28.** No encoding is a prefix of the encoding of another value: distinct messages have distinct encodings. -/
theorem cmf_prefix_free (t : Ty) (hw : t.Wf) (v w : t.T) (hv : t.Ok v) (hw' : t.Ok w) (bs cs post : Bytes)
    (h1 : t.enc v = some bs) (h2 : t.enc w = some cs) (h : cs = bs ++ post) : v = w ∧ post = [] := by
  have e1 := cmf_roundtrip t hw v hv bs post h1
  have e2 := cmf_roundtrip t hw w hw' cs [] h2
  rw [List.append_nil, h] at e2
  rw [e1] at e2
  injection e2 with a b
  refine ⟨a, ?_⟩
  rw [List.length_append] at b
  exact List.length_eq_zero_iff.1 (by omega)

theorem cmf_injective (t : Ty) (hw : t.Wf) (v w : t.T) (hv : t.Ok v) (hw' : t.Ok w) (bs : Bytes)
    (h1 : t.enc v = some bs) (h2 : t.enc w = some bs) : v = w :=
  (cmf_prefix_free t hw v w hv hw' bs bs [] h1 h2 (List.append_nil bs).symm).1

/-- **C28.** For every byte string whatever, `deserialize` reads nothing outside it: it throws, or returns a value of the
type (integers in range, sorted maps, enumerators that exist, arrays of the declared length) and a position inside the
buffer. -/
theorem cmf_decode_total (t : Ty) (hw : t.Wf) (buf : Bytes) :
    t.decode buf = .throws ∨ ∃ v n, t.decode buf = .ok v n ∧ n ≤ buf.length ∧ t.Ok v := by
  have := Ty.safe buf t hw 0 (Nat.zero_le _)
  cases h : t.decode buf with
  | oob => exact absurd h this.1
  | throws => exact Or.inl rfl
  | ok v n =>
    obtain ⟨_, h2, h3, _⟩ := this.2 v n h
    exact Or.inr ⟨v, n, rfl, h2, h3⟩

/-- **C28.** Whatever was decoded can be serialized again, in no more bytes than were read, and decoding that gives the
same value (the second decoding is canonical). -/
theorem cmf_decode_reencode (t : Ty) (hw : t.Wf) (buf : Bytes) (v : t.T) (n : Nat) (h : t.decode buf = .ok v n) :
    ∃ bs, t.enc v = some bs ∧ bs.length ≤ n ∧ ∀ post, t.decode (bs ++ post) = .ok v bs.length := by
  obtain ⟨_, _, h3, bs, h4, h5⟩ := (Ty.safe buf t hw 0 (Nat.zero_le _)).2 v n h
  exact ⟨bs, h4, by omega, fun post => cmf_roundtrip t hw v h3 bs post h4⟩

/-- decoding reads only up to the position it returns: bytes after it do not matter, for encodings produced by
`serialize` -/
theorem cmf_ignores_trailing (t : Ty) (hw : t.Wf) (v : t.T) (ho : t.Ok v) (bs p q : Bytes) (he : t.enc v = some bs) :
    t.decode (bs ++ p) = t.decode (bs ++ q) := by
  rw [cmf_roundtrip t hw v ho bs p he, cmf_roundtrip t hw v ho bs q he]

/-! ## serialize completes -/

/-- strings and byte vectors have at most `2^32 - 1` bytes -/
def Prim.Small : (p : Prim) → p.T → Prop
  | .str, v => v.length ≤ 0xFFFFFFFF
  | .bytes, v => v.length ≤ 0xFFFFFFFF
  | _, _ => True

mutual
/-- every string, list and map in the value has at most `2^32 - 1` elements -/
def Ty.Small : (t : Ty) → t.T → Prop
  | .prim p, v => p.Small v
  | .enum _, _ => True
  | .list t, v => v.length ≤ 0xFFFFFFFF ∧ ∀ x ∈ v, t.Small x
  | .fixed _ t, v => ∀ x ∈ v, t.Small x
  | .pair a b, v => a.Small v.1 ∧ b.Small v.2
  | .map k t, v => v.length ≤ 0xFFFFFFFF ∧ ∀ x ∈ v, k.Small x.1 ∧ t.Small x.2
  | .opt t, v => ∀ x, v = some x → t.Small x
  | .unit, _ => True
  | .oneof a, v => a.Small v
def Alts.Small : (a : Alts) → a.T → Prop
  | .nil, v => nomatch v
  | .cons _ t r, v => match v with
    | .inl x => t.Small x
    | .inr y => r.Small y
end

theorem encAll_isSome {α : Type} (f : α → Option Bytes) : ∀ (l : List α), (∀ x ∈ l, (f x).isSome = true) → (encAll f l).isSome = true
  | [], _ => rfl
  | x :: xs, h => by
    have h1 := h x List.mem_cons_self
    have h2 := encAll_isSome f xs (fun y hy => h y (List.mem_cons_of_mem _ hy))
    simp only [encAll]
    cases e : f x with
    | none => rw [e] at h1; cases h1
    | some a =>
      cases e' : encAll f xs with
      | none => rw [e'] at h2; cases h2
      | some b => rfl

theorem prim_isSome (p : Prim) (v : p.T) (h : p.Small v) : (p.enc v).isSome = true := by
  cases p with
  | bool => rfl
  | uint k => rfl
  | int k => rfl
  | str => simp only [Prim.Small] at h; simp only [Prim.enc]; rw [if_pos h]; rfl
  | bytes => simp only [Prim.Small] at h; simp only [Prim.enc]; rw [if_pos h]; rfl

theorem encPair_isSome {α β : Type} (f : α → Option Bytes) (g : β → Option Bytes) (e : α × β)
    (h1 : (f e.1).isSome = true) (h2 : (g e.2).isSome = true) : (encPair f g e).isSome = true := by
  rw [encPair]
  cases h : f e.1 with
  | none => rw [h] at h1; cases h1
  | some a =>
    cases h' : g e.2 with
    | none => rw [h'] at h2; cases h2
    | some b => rfl

mutual
theorem Ty.small_enc : (t : Ty) → (v : t.T) → t.Small v → (t.enc v).isSome = true
  | .prim p, v, h => prim_isSome p v (by simp only [Ty.Small] at h; exact h)
  | .enum _, v, h => rfl
  | .list t, v, h => by
    simp only [Ty.Small] at h
    simp only [Ty.enc]
    rw [if_pos h.1, Option.isSome_map]
    exact encAll_isSome t.enc v (fun x hx => Ty.small_enc t x (h.2 x hx))
  | .fixed _ t, v, h => encAll_isSome t.enc v (fun x hx => Ty.small_enc t x (by simp only [Ty.Small] at h; exact h x hx))
  | .pair a b, v, h => encPair_isSome a.enc b.enc v (Ty.small_enc a v.1 (by simp only [Ty.Small] at h; exact h.1))
      (Ty.small_enc b v.2 (by simp only [Ty.Small] at h; exact h.2))
  | .map k t, v, h => by
    simp only [Ty.Small] at h
    simp only [Ty.enc]
    rw [if_pos h.1, Option.isSome_map]
    exact encAll_isSome _ v (fun x hx => encPair_isSome k.enc t.enc x (prim_isSome k x.1 (h.2 x hx).1)
      (Ty.small_enc t x.2 (h.2 x hx).2))
  | .opt t, none, h => rfl
  | .opt t, some x, h => by
    simp only [Ty.enc]
    rw [Option.isSome_map]
    exact Ty.small_enc t x (by simp only [Ty.Small] at h; exact h x rfl)
  | .unit, v, h => rfl
  | .oneof a, v, h => Alts.small_enc a v (by simp only [Ty.Small] at h; exact h)
theorem Alts.small_enc : (a : Alts) → (v : a.T) → a.Small v → (a.enc v).isSome = true
  | .nil, v, _ => nomatch v
  | .cons i t r, .inl x, h => by
    simp only [Alts.enc]
    rw [Option.isSome_map]
    exact Ty.small_enc t x (by simp only [Alts.Small] at h; exact h)
  | .cons i t r, .inr y, h => by
    simp only [Alts.enc]
    exact Alts.small_enc r y (by simp only [Alts.Small] at h; exact h)
end

/-- **C28, complete form.** Serialization completes for every value whose strings, lists and maps have fewer than `2^32`
elements, and decoding gives the value back. -/
theorem cmf_small_roundtrip (t : Ty) (hw : t.Wf) (v : t.T) (ho : t.Ok v) (hs : t.Small v) (post : Bytes) :
    ∃ bs, t.enc v = some bs ∧ t.decode (bs ++ post) = .ok v bs.length := by
  have := Ty.small_enc t v hs
  cases h : t.enc v with
  | none => rw [h] at this; cases this
  | some bs => exact ⟨bs, rfl, cmf_roundtrip t hw v ho bs post h⟩

/-! ## examples -/

/-- a message with a 64-bit integer, a map from strings to optional signed integers, and a oneof -/
def exT : Ty := .pair (.prim (.uint 8)) (.pair (.map .str (.opt (.prim (.int 2))))
  (.pair (.oneof (.cons 3 (.list (.enum 3)) (.cons 7 (.pair (.prim .bytes) .unit) .nil))) .unit))

def exV : exT.T := (258, [([1], some (-2)), ([1, 0], none)], .inr (.inl ([9, 9], ())), ())

example : exT.Wf := by
  simp [exT, Ty.Wf, Prim.Wf, Alts.Wf, Alts.ids]
example : exT.Ok exV := by
  simp [exT, exV, Ty.Ok, Alts.Ok, Prim.Ok, Prim.lt]
  decide
example : exT.Small exV := by
  simp [exT, exV, Ty.Small, Alts.Small, Prim.Small]
/-- the bytes of the example: decoding them, even with trailing bytes, gives `exV` -/
example : exT.enc exV = some [0,0,0,0,0,0,1,2, 0,0,0,2, 0,0,0,1,1, 1,255,254, 0,0,0,2,1,0, 0, 0,0,0,7, 0,0,0,2,9,9] := by
  decide +kernel

/-! ## what decoding does *not* give -/

/-- Finding: decoding is not canonical. Two different byte strings — map entries in the other order — decode to the same
message; the bytes a replica received are then not the bytes it would produce (digests and signatures must be over the
received bytes). -/
theorem decoding_not_canonical : ∃ (a b : Bytes), a ≠ b ∧
    (Ty.map (.uint 1) (.prim (.uint 1))).decode a = .ok [(1, 5), (2, 6)] a.length ∧
    (Ty.map (.uint 1) (.prim (.uint 1))).decode b = .ok [(1, 5), (2, 6)] b.length := by
  refine ⟨[0,0,0,2,1,5,2,6], [0,0,0,2,2,6,1,5], by decide, rfl, rfl⟩

/-- Finding: duplicate keys are accepted and all but the first entry dropped. -/
theorem duplicate_keys_dropped :
    (Ty.map (.uint 1) (.prim (.uint 1))).decode [0,0,0,2,1,5,1,6] = .ok [(1, 5)] 8 := by rfl

/-- Finding: a `bool` field rejects the byte 2, a list of `bool` accepts it as true. -/
theorem bool_list_accepts_any : (Ty.prim .bool).decode [2] = .throws ∧
    (Ty.list (.prim .bool)).decode [0,0,0,1,2] = .ok [true] 5 := ⟨rfl, rfl⟩

theorem decN_unit (d : Nat → Res Unit) (hd : ∀ o, d o = .ok () o) : ∀ (n off : Nat),
    decN d n off = .ok (List.replicate n ()) off
  | 0, off => rfl
  | n + 1, off => by
    simp only [decN, hd, Res.bind, decN_unit d hd n off]
    rfl

/-- Finding: a list of empty messages decodes from four bytes into any number of elements up to `2^32 - 1`: the amount
of work and memory is not bounded by the input. -/
theorem four_bytes_many_elements (n : Nat) (hn : n < 2 ^ 32) :
    (Ty.list .unit).decode (beEncode 4 n) = .ok (List.replicate n ()) 4 := by
  have h : At (beEncode 4 n) 0 (beEncode 4 n) := ⟨[], [], by simp, rfl⟩
  simp only [Ty.decode, Ty.dec]
  rw [rd_be h]
  simp only [Res.bind]
  rw [beDecode_beEncode hn]
  exact decN_unit _ (fun o => rfl) n 4

end Verif.Cmf
