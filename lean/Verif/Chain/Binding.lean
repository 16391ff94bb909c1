import Verif.Chain.Model
import Verif.Cmf.Theorems
set_option linter.unusedVariables false
set_option linter.unusedSimpArgs false
/-!
# C26: a block digest determines the block, and the chain before it

Stated as "equal, or here is a collision of the digest function among the strings actually hashed".
-/
namespace Verif.Chain
open Verif.Bytes Verif.Kvbc Verif.Cmf

theorem map_inj {α β : Type} {f : α → β} (hf : ∀ a b, f a = f b → a = b) : ∀ {l l' : List α}, l.map f = l'.map f → l = l'
  | [], [], _ => rfl
  | [], _ :: _, h => by cases h
  | _ :: _, [], h => by cases h
  | a :: l, b :: l', h => by
    simp only [List.map_cons, List.cons.injEq] at h
    rw [hf a b h.1, map_inj hf h.2]

theorem cHash_inj {a b : Bytes} (h : cHash a = cHash b) : a = b :=
  map_inj (fun x y e => UInt8.toNat_inj.1 e) h

theorem cInput_inj {a b : CInput} (h : cInput a = cInput b) : a = b := by
  cases a with
  | merkle i =>
    cases b with
    | merkle j =>
      have h := Prod.mk.inj (Sum.inl.inj h)
      have h2 := (Prod.mk.inj h.2).1
      have h1 := h.1
      cases i; cases j
      simp only at h1 h2
      subst h1; subst h2; rfl
    | versioned j r => cases h
    | immutable kv r => cases h
  | versioned i r =>
    cases b with
    | merkle j => cases h
    | versioned j r' =>
      have h := Prod.mk.inj (Sum.inl.inj (Sum.inr.inj h))
      have h1 := h.1
      have h2 := (Prod.mk.inj h.2).1
      have h3 := (Prod.mk.inj (Prod.mk.inj h.2).2).1
      have : i.kv = j.kv := map_inj (fun x y e => by
        obtain ⟨x1, x2, x3⟩ := x
        obtain ⟨y1, y2, y3⟩ := y
        have e1 : x1 = y1 := (Prod.mk.inj e).1
        have e2 : x2 = y2 := (Prod.mk.inj (Prod.mk.inj e).2).1
        have e3 : x3 = y3 := (Prod.mk.inj (Prod.mk.inj (Prod.mk.inj e).2).2).1
        subst e1; subst e2; subst e3; rfl) h1
      cases i; cases j
      simp only at this h2
      subst this; subst h2; subst h3; rfl
    | immutable kv r => exact nomatch Sum.inr.inj h
  | immutable kv r =>
    cases b with
    | merkle j => cases h
    | versioned j r' => exact nomatch Sum.inr.inj h
    | immutable kv' r' =>
      have h := Prod.mk.inj (Sum.inl.inj (Sum.inr.inj (Sum.inr.inj h)))
      have h1 := h.1
      have h3 := (Prod.mk.inj h.2).1
      have : kv = kv' := map_inj (fun x y e => by
        obtain ⟨x1, x2, x3⟩ := x
        obtain ⟨y1, y2, y3⟩ := y
        have e1 : x1 = y1 := (Prod.mk.inj e).1
        have e2 : x2 = y2 := (Prod.mk.inj (Prod.mk.inj e).2).1
        have e3 : x3 = y3 := (Prod.mk.inj (Prod.mk.inj (Prod.mk.inj e).2).2).1
        subst e1; subst e2; subst e3; rfl) h1
      subst this; subst h3; rfl

theorem snd_inj {α β γ : Type} {f : β → γ} (hf : ∀ a b, f a = f b → a = b) (x y : α × β) (h : (x.1, f x.2) = (y.1, f y.2)) : x = y := by
  obtain ⟨x1, x2⟩ := x
  obtain ⟨y1, y2⟩ := y
  simp only [Prod.mk.injEq] at h
  obtain ⟨h1, h2⟩ := h
  rw [h1, hf _ _ h2]

theorem cRaw_inj {a b : Raw} (h : cRaw a = cRaw b) : a = b := by
  obtain ⟨h1, h⟩ := Prod.mk.inj h
  obtain ⟨h2, h⟩ := Prod.mk.inj h
  have h2 := (Prod.mk.inj h2).1
  obtain ⟨h3, h⟩ := Prod.mk.inj h
  obtain ⟨h4, h⟩ := Prod.mk.inj h
  have h5 := (Prod.mk.inj h).1
  have e1 := cHash_inj h1
  have e2 : a.updates = b.updates := map_inj (fun x y e => snd_inj (fun _ _ e => cInput_inj e) x y e) h2
  have e3 : a.merkleRoots = b.merkleRoots := map_inj (fun x y e => snd_inj (fun _ _ e => cHash_inj e) x y e) h3
  have e4 : a.versionedRoots = b.versionedRoots := map_inj (fun x y e => snd_inj (fun _ _ e => cHash_inj e) x y e) h4
  have e5 : a.immutableRoots = b.immutableRoots := map_inj (fun x y e => snd_inj (fun _ _ e =>
    map_inj (fun x y e => snd_inj (fun _ _ e => cHash_inj e) x y e) e) x y e) h5
  cases a; cases b
  simp only at e1 e2 e3 e4 e5
  subst e1; subst e2; subst e3; subst e4; subst e5; rfl

/-- `std::map`: sorted by key, each key once -/
def IsMap {α : Type} (l : List (Bytes × α)) : Prop := l.Pairwise (fun x y => keyLt x.1 y.1 = true)

def CInput.Ok : CInput → Prop
  | .merkle i => IsMap i.kv
  | .versioned i _ => IsMap i.kv
  | .immutable kv _ => IsMap kv

/-- a raw block as C++ can hold it: maps are maps, hashes have 32 bytes -/
structure Raw.Ok (r : Raw) : Prop where
  parent : r.parent.length = 32
  updates : IsMap r.updates
  inputs : ∀ x ∈ r.updates, x.2.Ok
  merkle : IsMap r.merkleRoots ∧ ∀ x ∈ r.merkleRoots, x.2.length = 32
  versioned : IsMap r.versionedRoots ∧ ∀ x ∈ r.versionedRoots, x.2.length = 32
  immutable : IsMap r.immutableRoots ∧ ∀ x ∈ r.immutableRoots, IsMap x.2 ∧ ∀ y ∈ x.2, y.2.length = 32

theorem isMap_map {α β : Type} {f : α → β} {l : List (Bytes × α)} (h : IsMap l) : IsMap (l.map (fun x => (x.1, f x.2))) := by
  rw [IsMap, List.pairwise_map]
  exact h

theorem cHash_ok {h : Bytes} (hl : h.length = 32) : tHash.Ok (cHash h) := by
  refine ⟨by rw [cHash]; simp [hl], ?_⟩
  intro x hx
  obtain ⟨b, _, rfl⟩ := List.mem_map.1 hx
  exact UInt8.toNat_lt b

theorem cMap_ok {α : Type} (t : Ty) (f : α → t.T) (l : List (Bytes × α)) (h : IsMap l) (hf : ∀ x ∈ l, t.Ok (f x.2)) :
    (Ty.map .str t).Ok (l.map (fun x => (x.1, f x.2))) := by
  refine ⟨isMap_map h, ?_⟩
  intro x hx
  obtain ⟨y, hy, rfl⟩ := List.mem_map.1 hx
  exact ⟨trivial, hf y hy⟩

theorem cInput_ok {i : CInput} (h : i.Ok) : (Ty.oneof tInput).Ok (cInput i) := by
  cases i with
  | merkle i =>
    refine ⟨⟨h, fun x _ => ⟨trivial, trivial⟩⟩, fun x _ => trivial, trivial⟩
  | versioned i r =>
    refine ⟨cMap_ok (.pair (.prim .str) (.pair (.prim .bool) .unit)) (fun v : ValueWithFlags => (v.data, v.staleOnUpdate, ()))
      i.kv h (fun x _ => ⟨trivial, trivial, trivial⟩), fun x _ => trivial, trivial, trivial⟩
  | immutable kv r =>
    refine ⟨cMap_ok (.pair (.prim .str) (.pair (.list (.prim .str)) .unit)) (fun v : Bytes × List Bytes => (v.1, v.2, ()))
      kv h (fun x _ => ⟨trivial, fun y _ => trivial, trivial⟩), trivial, trivial⟩

theorem cRaw_ok {r : Raw} (h : r.Ok) : tRaw.Ok (cRaw r) := by
  refine ⟨cHash_ok h.parent, ⟨cMap_ok (.oneof tInput) cInput r.updates h.updates (fun x hx => cInput_ok (h.inputs x hx)), trivial⟩,
    cMap_ok tHash cHash r.merkleRoots h.merkle.1 (fun x hx => cHash_ok (h.merkle.2 x hx)),
    cMap_ok tHash cHash r.versionedRoots h.versioned.1 (fun x hx => cHash_ok (h.versioned.2 x hx)), ?_, trivial⟩
  exact cMap_ok (.map .str tHash) (fun m => m.map (fun y => (y.1, cHash y.2))) r.immutableRoots h.immutable.1
    (fun x hx => cMap_ok tHash cHash x.2 (h.immutable.2 x hx).1 (fun y hy => cHash_ok ((h.immutable.2 x hx).2 y hy)))

theorem tRaw_wf : tRaw.Wf := by
  simp [tRaw, tHash, tInput, tMerkleInput, tVersionedInput, tImmutableInput, Ty.Wf, Prim.Wf, Alts.Wf, Alts.ids]

/-- **C26.** Distinct raw blocks have distinct serializations. -/
theorem serRaw_inj {a b : Raw} (ha : a.Ok) (hb : b.Ok) {bs : Bytes} (h1 : serRaw a = some bs) (h2 : serRaw b = some bs) : a = b :=
  cRaw_inj (cmf_injective tRaw tRaw_wf (cRaw a) (cRaw b) (cRaw_ok ha) (cRaw_ok hb) bs h1 h2)

/-- the string hashed for the digest of block `b` with contents `r`, for a block below 4 GiB -/
def Hashed (b : Nat) (r : Raw) (s : Bytes) : Prop := ∃ bs, serRaw r = some bs ∧ s = leEncode 8 b ++ bs

/-- `s` and `s'` are different strings with the same digest -/
def Collide (H : Hashes) (s s' : Bytes) : Prop := s ≠ s' ∧ H.d s = H.d s'

/-- the block's serialization is shorter than `2^32` bytes -/
def Small (r : Raw) : Prop := ∀ bs, serRaw r = some bs → bs.length < 2 ^ 32

theorem digest_hashed {H : Hashes} {b : Nat} {r : Raw} {x : Bytes} (hs : Small r) (h : digest H b r = some x) :
    ∃ s, Hashed b r s ∧ H.d s = x := by
  rw [digest] at h
  cases e : serRaw r with
  | none => rw [e] at h; cases h
  | some bs =>
    rw [e] at h
    have := hs bs e
    simp only at h
    split at h
    · cases h
    · injection h with h
      rw [Nat.mod_eq_of_lt this, List.take_length] at h
      exact ⟨_, ⟨bs, e, rfl⟩, h⟩

theorem append_inj8 {b b' : Nat} {s s' : Bytes} (hb : b < 2 ^ 64) (hb' : b' < 2 ^ 64)
    (h : leEncode 8 b ++ s = leEncode 8 b' ++ s') : b = b' ∧ s = s' := by
  have hl : (leEncode 8 b).length = (leEncode 8 b').length := by rw [leEncode_length, leEncode_length]
  obtain ⟨h1, h2⟩ := List.append_inj h hl
  refine ⟨?_, h2⟩
  have e : (256 : Nat) ^ 8 = 2 ^ 64 := by decide
  have e1 := leDecode_leEncode 8 b (by rw [e]; exact hb)
  have e2 := leDecode_leEncode 8 b' (by rw [e]; exact hb')
  rw [← e1, ← e2, h1]

/-- **C26.** A digest determines the block id and the whole block — or exhibits two different hashed strings with the same
digest. -/
theorem digest_binds {H : Hashes} {b b' : Nat} {r r' : Raw} {x : Bytes} (hb : b < 2 ^ 64) (hb' : b' < 2 ^ 64)
    (ho : r.Ok) (ho' : r'.Ok) (hs : Small r) (hs' : Small r') (h : digest H b r = some x) (h' : digest H b' r' = some x) :
    (b = b' ∧ r = r') ∨ ∃ s s', Hashed b r s ∧ Hashed b' r' s' ∧ Collide H s s' := by
  obtain ⟨s, ⟨bs, e1, e2⟩, e3⟩ := digest_hashed hs h
  obtain ⟨s', ⟨bs', e1', e2'⟩, e3'⟩ := digest_hashed hs' h'
  by_cases e : s = s'
  · left
    subst e
    rw [e2] at e2'
    obtain ⟨k1, k2⟩ := append_inj8 hb hb' e2'
    subst k2
    exact ⟨k1, serRaw_inj ho ho' e1 e1'⟩
  · exact Or.inr ⟨s, s', ⟨bs, e1, e2⟩, ⟨bs', e1', e2'⟩, e, by rw [e3, e3']⟩

/-- the raw blocks `1, 2, …` of a chain: the first names no parent, each later one names the digest of the one before it -/
structure Linked (H : Hashes) (raws : List Raw) : Prop where
  first : ∀ r, raws[0]? = some r → r.parent = zeroDigest
  next : ∀ i r r', raws[i]? = some r → raws[i + 1]? = some r' → digest H (i + 1) r = some r'.parent

/-- every raw block is well formed and shorter than 4 GiB -/
def AllOk (raws : List Raw) : Prop := ∀ r ∈ raws, r.Ok ∧ Small r

theorem linked_dropLast {H : Hashes} {raws : List Raw} (h : Linked H raws) : Linked H raws.dropLast := by
  have e : ∀ (i : Nat) (r : Raw), raws.dropLast[i]? = some r → raws[i]? = some r := by
    intro i r hi
    rw [List.getElem?_dropLast] at hi
    split at hi
    · exact hi
    · cases hi
  exact ⟨fun r hr => h.first r (e _ _ hr), fun i r r' h1 h2 => h.next i r r' (e _ _ h1) (e _ _ h2)⟩

/-- one of the hashed strings of the first chain collides with one of the second chain, at the same block id or at the two
ends -/
def ChainCollision (H : Hashes) (raws raws' : List Raw) : Prop :=
  ∃ i j r r' s s', raws[i]? = some r ∧ raws'[j]? = some r' ∧ Hashed (i + 1) r s ∧ Hashed (j + 1) r' s' ∧ Collide H s s'

theorem get_last {raws : List Raw} {r : Raw} (h : raws.getLast? = some r) : raws[raws.length - 1]? = some r := by
  rw [List.getLast?_eq_getElem?] at h; exact h

/-- **C26.** Two chains (blocks from 1 on) whose last blocks have the same digest have the same length and the same blocks —
or a collision of the digest function is found among the strings they hashed. -/
theorem chain_binds {H : Hashes} : ∀ (n : Nat) (raws raws' : List Raw), raws.length = n →
    Linked H raws → Linked H raws' → AllOk raws → AllOk raws' → raws.length < 2 ^ 64 → raws'.length < 2 ^ 64 →
    ∀ r r' x, raws.getLast? = some r → raws'.getLast? = some r' →
    digest H raws.length r = some x → digest H raws'.length r' = some x →
    raws = raws' ∨ ChainCollision H raws raws' := by
  intro n
  induction n with
  | zero =>
    intro raws raws' hn _ _ _ _ _ _ r r' x hr
    have : raws = [] := List.length_eq_zero_iff.1 hn
    subst this
    cases hr
  | succ n ih =>
    intro raws raws' hn hl hl' ho ho' hb hb' r r' x hr hr' hd hd'
    have hm : r ∈ raws := List.mem_of_getLast? hr
    have hm' : r' ∈ raws' := List.mem_of_getLast? hr'
    have e := get_last hr
    have e' := get_last hr'
    have hpos' : 0 < raws'.length := by
      cases raws' with
      | nil => cases hr'
      | cons _ _ => simp
    rcases digest_binds hb hb' (ho r hm).1 (ho' r' hm').1 (ho r hm).2 (ho' r' hm').2 hd hd' with ⟨h1, h2⟩ | ⟨s, s', h1, h2, h3⟩
    · subst h2
      by_cases hn0 : n = 0
      · left
        subst hn0
        match raws, raws', hn, h1, hr, hr' with
        | [a], [b], _, _, hr, hr' =>
          simp only [List.getLast?_singleton, Option.some.injEq] at hr hr'
          rw [hr, hr']
      · have k1 : (raws.dropLast).length = n := by rw [List.length_dropLast]; omega
        have k2 : (raws'.dropLast).length = n := by rw [List.length_dropLast]; omega
        have g : ∃ q, raws.dropLast.getLast? = some q ∧ raws[n - 1]? = some q := by
          have : n - 1 < raws.length := by omega
          refine ⟨raws[n - 1], ?_, List.getElem?_eq_getElem this⟩
          rw [List.getLast?_eq_getElem?, List.getElem?_dropLast, k1, if_pos (by omega), List.getElem?_eq_getElem this]
        have g' : ∃ q, raws'.dropLast.getLast? = some q ∧ raws'[n - 1]? = some q := by
          have : n - 1 < raws'.length := by omega
          refine ⟨raws'[n - 1], ?_, List.getElem?_eq_getElem this⟩
          rw [List.getLast?_eq_getElem?, List.getElem?_dropLast, k2, if_pos (by omega), List.getElem?_eq_getElem this]
        obtain ⟨q, q1, q2⟩ := g
        obtain ⟨q', q1', q2'⟩ := g'
        have hn1 : n - 1 + 1 = n := by omega
        have d1 := hl.next (n - 1) q r q2 (by rw [hn1]; rw [hn] at e; exact e)
        have d2 := hl'.next (n - 1) q' r q2' (by rw [hn1]; rw [← h1, hn] at e'; exact e')
        rw [hn1] at d1 d2
        have sub : ∀ {l : List Raw} {y : Raw}, y ∈ l.dropLast → y ∈ l := fun hy => List.dropLast_subset _ hy
        rcases ih raws.dropLast raws'.dropLast k1 (linked_dropLast hl) (linked_dropLast hl')
          (fun y hy => ho y (sub hy)) (fun y hy => ho' y (sub hy)) (by omega) (by omega) q q' r.parent q1 q1'
          (by rw [k1]; exact d1) (by rw [k2]; exact d2) with h | ⟨i, j, a, b, s, s', c1, c2, c3⟩
        · left
          have f : ∀ {l : List Raw}, l.getLast? = some r → l.dropLast ++ [r] = l := by
            intro l h
            have hne : l ≠ [] := by
              intro e0
              subst e0
              cases h
            rw [List.getLast?_eq_some_getLast hne, Option.some.injEq] at h
            have := List.dropLast_concat_getLast hne
            rw [h] at this
            exact this
          rw [← f hr, ← f hr', h]
        · right
          have w : ∀ {l : List Raw} {i : Nat} {y : Raw}, l.dropLast[i]? = some y → l[i]? = some y := by
            intro l i y hi
            rw [List.getElem?_dropLast] at hi
            split at hi
            · exact hi
            · cases hi
          exact ⟨i, j, a, b, s, s', w c1, w c2, c3⟩
    · right
      refine ⟨raws.length - 1, raws'.length - 1, r, r', s, s', e, e', ?_, ?_, h3⟩
      · rw [show raws.length - 1 + 1 = raws.length by omega]; exact h1
      · rw [show raws'.length - 1 + 1 = raws'.length by omega]; exact h2

end Verif.Chain
