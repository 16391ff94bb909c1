import Verif.Kvbc.KeyOrder
set_option linter.unusedVariables false
/-!
# Model of the CMF serialization (C28)

`messages/compiler/cpp/serialize.cpp` (the generic functions) and `messages/compiler/cpp/cpp_visitor.py` (the code
generated for messages and oneofs), for every message type of the grammar (`grammar.ebnf`).

Reads are reads of a buffer at an offset; a read that leaves the buffer is `oob`, an exception is `throws`.
Simplifications: the target of `deserialize` is a fresh object (the C++ functions append to the strings, vectors and
maps already in the target); `start + length` does not overflow a 64-bit pointer.
-/
namespace Verif.Cmf
open Verif.Bytes Verif.Kvbc

/-- primitive types (grammar.ebnf: primitive).  `uint k`, `int k`: integers of `k` bytes -/
inductive Prim where
  | bool
  | uint (k : Nat)
  | int (k : Nat)
  | str
  | bytes

mutual
/-- field types.  A message is the sequence of its fields: `pair` of the first and the rest, ending in `unit` -/
inductive Ty where
  | prim (p : Prim)
  | enum (tags : Nat)
  | list (t : Ty)
  | fixed (n : Nat) (t : Ty)
  | pair (a b : Ty)
  | map (k : Prim) (v : Ty)
  | opt (t : Ty)
  | unit
  | oneof (a : Alts)
/-- the messages of a oneof with their ids -/
inductive Alts where
  | nil
  | cons (id : Nat) (t : Ty) (rest : Alts)
end

/-- C++ values of a primitive type -/
abbrev Prim.T : Prim → Type
  | .bool => Bool
  | .uint _ => Nat
  | .int _ => Int
  | .str => Bytes
  | .bytes => Bytes

mutual
/-- C++ values of a type; a `std::map` is its sorted list of entries -/
abbrev Ty.T : Ty → Type
  | .prim p => p.T
  | .enum _ => Nat
  | .list t => List t.T
  | .fixed _ t => List t.T
  | .pair a b => a.T × b.T
  | .map k v => List (k.T × v.T)
  | .opt t => Option t.T
  | .unit => Unit
  | .oneof a => a.T
abbrev Alts.T : Alts → Type
  | .nil => Empty
  | .cons _ t r => t.T ⊕ r.T
end

/-- `std::less` of a primitive type -/
def Prim.lt : (p : Prim) → p.T → p.T → Bool
  | .bool, a, b => !a && b
  | .uint _, a, b => decide (a < b)
  | .int _, a, b => decide (a < b)
  | .str, a, b => keyLt a b
  | .bytes, a, b => keyLt a b

/-- values that exist in C++: integers in range, enumerators, arrays of the declared size, maps sorted by key -/
def Prim.Ok : (p : Prim) → p.T → Prop
  | .bool, _ => True
  | .uint k, n => n < 256 ^ k
  | .int k, z => -(256 ^ k : Nat) ≤ 2 * z ∧ 2 * z < (256 ^ k : Nat)
  | .str, _ => True
  | .bytes, _ => True

mutual
def Ty.Ok : (t : Ty) → t.T → Prop
  | .prim p, v => p.Ok v
  | .enum n, v => v < n
  | .list t, v => ∀ x ∈ v, t.Ok x
  | .fixed n t, v => v.length = n ∧ ∀ x ∈ v, t.Ok x
  | .pair a b, v => a.Ok v.1 ∧ b.Ok v.2
  | .map k t, v => v.Pairwise (fun x y => k.lt x.1 y.1 = true) ∧ ∀ x ∈ v, k.Ok x.1 ∧ t.Ok x.2
  | .opt t, v => ∀ x, v = some x → t.Ok x
  | .unit, _ => True
  | .oneof a, v => a.Ok v
def Alts.Ok : (a : Alts) → a.T → Prop
  | .nil, v => nomatch v
  | .cons _ t r, v => match v with
    | .inl x => t.Ok x
    | .inr y => r.Ok y
end

/-- ids of the alternatives -/
def Alts.ids : Alts → List Nat
  | .nil => []
  | .cons i _ r => i :: r.ids

/-- integers have at least one byte -/
def Prim.Wf : Prim → Prop
  | .uint k => 1 ≤ k
  | .int k => 1 ≤ k
  | _ => True

mutual
/-- well-formed types: integers of at least one byte, at most 255 enumerators (`enumSize` returns a `uint8_t`),
distinct 32-bit ids in a oneof -/
def Ty.Wf : Ty → Prop
  | .prim p => p.Wf
  | .enum n => n < 256
  | .list t => t.Wf
  | .fixed _ t => t.Wf
  | .pair a b => a.Wf ∧ b.Wf
  | .map k v => k.Wf ∧ v.Wf
  | .opt t => t.Wf
  | .unit => True
  | .oneof a => a.ids.Nodup ∧ a.Wf
def Alts.Wf : Alts → Prop
  | .nil => True
  | .cons i t r => i < 2 ^ 32 ∧ t.Wf ∧ r.Wf
end

/-! ## serialize -/

/-- two's complement image of a signed integer of `k` bytes -/
def intImage (k : Nat) (z : Int) : Nat := (z % ((256 ^ k : Nat) : Int)).toNat
/-- signed value of a `k`-byte image -/
def intValue (k n : Nat) : Int := if 2 * n < 256 ^ k then (n : Int) else (n : Int) - ((256 ^ k : Nat) : Int)

/-- integers (serialize.cpp:48-58), strings (serialize.cpp:118-123) and byte vectors (193-200): big-endian, `uint32_t`
length prefix; `none` = `cmfAssert` terminates -/
def Prim.enc : (p : Prim) → p.T → Option Bytes
  | .bool, b => some [if b then 1 else 0]
  | .uint k, n => some (beEncode k n)
  | .int k, z => some (beEncode k (intImage k z))
  | .str, s => if s.length ≤ 0xFFFFFFFF then some (beEncode 4 s.length ++ s) else none
  | .bytes, s => if s.length ≤ 0xFFFFFFFF then some (beEncode 4 s.length ++ s) else none

/-- a sequence of elements -/
def encAll {α : Type} (f : α → Option Bytes) : List α → Option Bytes
  | [] => some []
  | x :: xs => match f x, encAll f xs with
    | some a, some b => some (a ++ b)
    | _, _ => none

/-- `std::pair` (serialize.cpp:263-267) -/
def encPair {α β : Type} (f : α → Option Bytes) (g : β → Option Bytes) (e : α × β) : Option Bytes :=
  match f e.1, g e.2 with
  | some x, some y => some (x ++ y)
  | _, _ => none

mutual
/-- `serialize` (serialize.cpp:103-106 enums; 192-200 lists; 232-237 arrays; 263-267 pairs; 287-295 maps; 325-331
optionals; cpp_visitor.py: msg fields in order; variant_serialize_byte_buffer: id, then the message) -/
def Ty.enc : (t : Ty) → t.T → Option Bytes
  | .prim p, v => p.enc v
  | .enum _, v => some (beEncode 1 v)
  | .list t, v => if v.length ≤ 0xFFFFFFFF then (encAll t.enc v).map (beEncode 4 v.length ++ ·) else none
  | .fixed _ t, v => encAll t.enc v
  | .pair a b, v => encPair a.enc b.enc v
  | .map k t, v =>
    if v.length ≤ 0xFFFFFFFF then
      (encAll (encPair k.enc t.enc) v).map (beEncode 4 v.length ++ ·)
    else none
  | .opt t, v => match v with
    | none => some [0]
    | some x => (t.enc x).map (1 :: ·)
  | .unit, _ => some []
  | .oneof a, v => a.enc v
def Alts.enc : (a : Alts) → a.T → Option Bytes
  | .nil, v => nomatch v
  | .cons i t r, v => match v with
    | .inl x => (t.enc x).map (beEncode 4 i ++ ·)
    | .inr y => r.enc y
end

/-! ## deserialize -/

inductive Res (α : Type) where
  /-- value and new position -/
  | ok (a : α) (off : Nat)
  | throws
  | oob

def Res.bind {α β : Type} (r : Res α) (f : α → Nat → Res β) : Res β :=
  match r with
  | .ok a o => f a o
  | .throws => .throws
  | .oob => .oob

/-- `if (start + n > end) throw NoDataLeftError(); … *start …; start += n` -/
def rd (buf : Bytes) (off n : Nat) : Res Bytes :=
  if off + n > buf.length then .throws
  else match slice buf off n with
    | some b => .ok b (off + n)
    | none => .oob

def beDecode (b : Bytes) : Nat := leDecode b.reverse

/-- strings and byte vectors (serialize.cpp:132-140, 213-224) -/
def decStr (buf : Bytes) (off : Nat) : Res Bytes :=
  (rd buf off 4).bind (fun b o => rd buf o (beDecode b))

/-- integers (serialize.cpp:72-96) and strings -/
def Prim.dec : (p : Prim) → Bytes → Nat → Res p.T
  | .bool, buf, off => (rd buf off 1).bind (fun b o => match b with
    | [0] => .ok false o
    | [1] => .ok true o
    | _ => .throws)
  | .uint k, buf, off => (rd buf off k).bind (fun b o => .ok (beDecode b) o)
  | .int k, buf, off => (rd buf off k).bind (fun b o => .ok (intValue k (beDecode b)) o)
  | .str, buf, off => decStr buf off
  | .bytes, buf, off => decStr buf off

/-- `n` elements -/
def decN {α : Type} (d : Nat → Res α) : Nat → Nat → Res (List α)
  | 0, off => .ok [] off
  | n + 1, off => (d off).bind (fun a o => (decN d n o).bind (fun l o => .ok (a :: l) o))

/-- `std::pair` (serialize.cpp:275-278) -/
def decPair {α β : Type} (f : Nat → Res α) (g : Nat → Res β) (off : Nat) : Res (α × β) :=
  (f off).bind (fun x o => (g o).bind (fun y o => .ok (x, y) o))

/-- `std::map::insert`: keeps an existing entry -/
def mapInsert {κ υ : Type} (lt : κ → κ → Bool) (k : κ) (v : υ) : List (κ × υ) → List (κ × υ)
  | [] => [(k, v)]
  | e :: r => if lt k e.1 then (k, v) :: e :: r else if lt e.1 k then e :: mapInsert lt k v r else e :: r

/-- element types of the optimized copy, `is_integral_v<T> && sizeof(T) == 1` (serialize.cpp:217, 249): conversion of
a byte.  A `bool` element takes any byte (non-zero is true), unlike a `bool` field. -/
def Prim.ofByte : (p : Prim) → Option (UInt8 → p.T)
  | .bool => some (fun b => b != 0)
  | .uint k => if k = 1 then some (fun b => b.toNat) else none
  | .int k => if k = 1 then some (fun b => intValue 1 b.toNat) else none
  | .str => none
  | .bytes => none

def Ty.ofByte : (t : Ty) → Option (UInt8 → t.T)
  | .prim p => p.ofByte
  | _ => none

mutual
/-- `deserialize` (serialize.cpp:109-116 enums; 213-230 lists; 246-258 arrays; 275-278 pairs; 308-316 maps; 342-352
optionals; cpp_visitor.py: msg fields in order, variant_deserialize) -/
def Ty.dec : (t : Ty) → Bytes → Nat → Res t.T
  | .prim p, buf, off => p.dec buf off
  | .enum n, buf, off => (rd buf off 1).bind (fun b o => if beDecode b ≥ n then .throws else .ok (beDecode b) o)
  | .list t, buf, off => (rd buf off 4).bind (fun b o => match t.ofByte with
    | some f => (rd buf o (beDecode b)).bind (fun bs o => .ok (bs.map f) o)
    | none => decN (t.dec buf) (beDecode b) o)
  | .fixed n t, buf, off => match t.ofByte with
    | some f => (rd buf off n).bind (fun bs o => .ok (bs.map f) o)
    | none => decN (t.dec buf) n off
  | .pair a b, buf, off => decPair (a.dec buf) (b.dec buf) off
  | .map k t, buf, off => (rd buf off 4).bind (fun b o =>
      (decN (decPair (k.dec buf) (t.dec buf)) (beDecode b) o).bind
        (fun l o => .ok (l.foldl (fun m e => mapInsert k.lt e.1 e.2 m) []) o))
  | .opt t, buf, off => (Prim.dec .bool buf off).bind (fun h o =>
      if h then (t.dec buf o).bind (fun x o => .ok (some x) o) else .ok none o)
  | .unit, _, off => .ok () off
  | .oneof a, buf, off => (rd buf off 4).bind (fun b o => a.dec buf (beDecode b) o)
def Alts.dec : (a : Alts) → Bytes → Nat → Nat → Res a.T
  | .nil, _, _, _ => .throws
  | .cons i t r, buf, id, off =>
    if id = i then (t.dec buf off).bind (fun x o => .ok (.inl x) o)
    else (r.dec buf id off).bind (fun y o => .ok (.inr y) o)
end

/-- `deserialize(const std::vector<uint8_t>&, T&)` (cpp_visitor.py: deserialize_byte_buffer): trailing bytes ignored -/
def Ty.decode (t : Ty) (buf : Bytes) : Res t.T := t.dec buf 0

end Verif.Cmf
