import Verif.Cmf.Props
set_option linter.unusedVariables false
set_option linter.unusedSimpArgs false
/-!
# C28: decoding any byte string is safe and yields a value that can be serialized again
-/
namespace Verif.Cmf
open Verif.Bytes Verif.Kvbc

/-- the outcome is not a read outside the buffer; on success the position advanced within the buffer and `P` holds of
the value and of the number of bytes consumed -/
def Safe {α : Type} (P : α → Nat → Prop) (buf : Bytes) (off : Nat) (r : Res α) : Prop :=
  r ≠ .oob ∧ ∀ a o, r = .ok a o → off ≤ o ∧ o ≤ buf.length ∧ P a (o - off)

theorem safe_bind {α β : Type} {P : α → Nat → Prop} {Q : β → Nat → Prop} {buf : Bytes} {off : Nat} {r : Res α}
    {f : α → Nat → Res β} (h : Safe P buf off r)
    (hf : ∀ a o, off ≤ o → o ≤ buf.length → P a (o - off) → Safe (fun b n => Q b (n + (o - off))) buf o (f a o)) :
    Safe Q buf off (r.bind f) := by
  cases r with
  | ok a o =>
    obtain ⟨h1, h2, h3⟩ := h.2 a o rfl
    obtain ⟨g1, g2⟩ := hf a o h1 h2 h3
    refine ⟨g1, ?_⟩
    intro b o' e
    obtain ⟨k1, k2, k3⟩ := g2 b o' e
    refine ⟨by omega, k2, ?_⟩
    have : o' - o + (o - off) = o' - off := by omega
    rw [this] at k3; exact k3
  | throws => exact ⟨(by intro h; cases h), fun a o h => by cases h⟩
  | oob => exact absurd rfl h.1

theorem safe_ok {α : Type} {P : α → Nat → Prop} {buf : Bytes} {off : Nat} {a : α} (ho : off ≤ buf.length) (h : P a 0) :
    Safe P buf off (.ok a off) := by
  refine ⟨(by intro h; cases h), ?_⟩
  intro b o e
  cases e
  exact ⟨Nat.le_refl _, ho, by rw [Nat.sub_self]; exact h⟩

theorem safe_throws {α : Type} {P : α → Nat → Prop} {buf : Bytes} {off : Nat} : Safe P buf off .throws :=
  ⟨(by intro h; cases h), fun a o h => by cases h⟩

theorem safe_rd (buf : Bytes) (off n : Nat) : Safe (fun b m => b.length = n ∧ m = n) buf off (rd buf off n) := by
  rw [rd]
  split
  · exact safe_throws
  · rename_i h
    cases hs : slice buf off n with
    | none =>
      rw [slice, if_pos (by omega)] at hs
      cases hs
    | some b =>
      refine ⟨(by intro h; cases h), ?_⟩
      intro a o e
      cases e
      exact ⟨by omega, by omega, slice_length hs, by omega⟩

/-- what decoding promises: the value is a C++ value of the type, and serializes to no more bytes than were read -/
def Good {α : Type} (ok : α → Prop) (enc : α → Option Bytes) (v : α) (n : Nat) : Prop :=
  ok v ∧ ∃ bs, enc v = some bs ∧ bs.length ≤ n

theorem safe_str (buf : Bytes) (off : Nat) :
    Safe (Good (fun _ => True) (fun s : Bytes => if s.length ≤ 0xFFFFFFFF then some (beEncode 4 s.length ++ s) else none))
      buf off (decStr buf off) := by
  rw [decStr]
  refine safe_bind (safe_rd buf off 4) ?_
  intro b o h1 h2 ⟨h3, h4⟩
  have := safe_rd buf o (beDecode b)
  refine ⟨this.1, ?_⟩
  intro s o' e
  obtain ⟨k1, k2, k3, k4⟩ := this.2 s o' e
  refine ⟨k1, k2, trivial, _, if_pos ?_, ?_⟩
  · have := beDecode_lt b
    rw [h3] at this
    have h5 : (256 : Nat) ^ 4 = 4294967296 := by decide
    omega
  · simp [beEncode_length]; omega

theorem prim_safe (p : Prim) (hw : p.Wf) (buf : Bytes) (off : Nat) : Safe (Good p.Ok p.enc) buf off (p.dec buf off) := by
  cases p with
  | bool =>
    simp only [Prim.dec]
    refine safe_bind (safe_rd buf off 1) ?_
    intro b o h1 h2 ⟨h3, h4⟩
    split
    · exact safe_ok h2 ⟨trivial, _, rfl, by simp; omega⟩
    · exact safe_ok h2 ⟨trivial, _, rfl, by simp; omega⟩
    · exact safe_throws
  | uint k =>
    simp only [Prim.dec]
    refine safe_bind (safe_rd buf off k) ?_
    intro b o h1 h2 ⟨h3, h4⟩
    refine safe_ok h2 ⟨?_, _, rfl, by rw [beEncode_length]; omega⟩
    have := beDecode_lt b
    rw [h3] at this; exact this
  | int k =>
    simp only [Prim.dec]
    refine safe_bind (safe_rd buf off k) ?_
    intro b o h1 h2 ⟨h3, h4⟩
    refine safe_ok h2 ⟨?_, _, rfl, by rw [beEncode_length]; omega⟩
    have := beDecode_lt b
    rw [h3] at this
    exact intValue_ok k _ hw this
  | str => exact safe_str buf off
  | bytes => exact safe_str buf off

theorem decN_safe {α : Type} (ok : α → Prop) (enc : α → Option Bytes) (d : Nat → Res α) (buf : Bytes)
    (h : ∀ off, off ≤ buf.length → Safe (Good ok enc) buf off (d off)) : ∀ (n off : Nat), off ≤ buf.length →
    Safe (fun l m => l.length = n ∧ Good (fun l => ∀ x ∈ l, ok x) (encAll enc) l m) buf off (decN d n off) := by
  intro n
  induction n with
  | zero =>
    intro off ho
    exact safe_ok ho ⟨rfl, (fun x hx => by cases hx), [], rfl, Nat.le_refl _⟩
  | succ n ih =>
    intro off ho
    simp only [decN]
    refine safe_bind (h off ho) ?_
    intro a o h1 h2 ⟨h3, b, h4, h5⟩
    refine safe_bind (ih o h2) ?_
    intro l o' h6 h7 ⟨h8, h9, b', h10, h11⟩
    refine safe_ok h7 ⟨by simp [h8], ?_, b ++ b', by simp only [encAll, h4, h10], by simp; omega⟩
    intro x hx
    rcases List.mem_cons.1 hx with e | hx
    · rw [e]; exact h3
    · exact h9 x hx

theorem pair_safe {α β : Type} {P : α → Prop} {Q : β → Prop} (f : α → Option Bytes) (g : β → Option Bytes)
    (d : Nat → Res α) (e : Nat → Res β) (buf : Bytes) (off : Nat) (ho : off ≤ buf.length)
    (h1 : ∀ off, off ≤ buf.length → Safe (Good P f) buf off (d off))
    (h2 : ∀ off, off ≤ buf.length → Safe (Good Q g) buf off (e off)) :
    Safe (Good (fun v : α × β => P v.1 ∧ Q v.2) (encPair f g)) buf off (decPair d e off) := by
  simp only [decPair]
  refine safe_bind (h1 off ho) ?_
  intro a o k1 k2 ⟨k3, b, k4, k5⟩
  refine safe_bind (h2 o k2) ?_
  intro a' o' l1 l2 ⟨l3, b', l4, l5⟩
  exact safe_ok l2 ⟨⟨k3, l3⟩, b ++ b', by simp only [encPair, k4, l4], by simp; omega⟩

theorem encAll_bytes (t : Ty) (f : UInt8 → t.T) (hf : t.ofByte = some f) : ∀ (l : Bytes),
    (∀ x ∈ l.map f, t.Ok x) ∧ ∃ bs, encAll t.enc (l.map f) = some bs ∧ bs.length = l.length := by
  have hone : ∀ c, t.Ok (f c) ∧ ∃ b, t.enc (f c) = some b ∧ b.length = 1 := by
    intro c
    have hc := c.toNat_lt
    cases t with
    | prim p =>
      cases p with
      | bool => exact ⟨trivial, _, rfl, rfl⟩
      | uint k =>
        simp only [Ty.ofByte, Prim.ofByte] at hf
        split at hf
        · rename_i hk
          subst hk
          simp only [Option.some.injEq] at hf
          subst hf
          exact ⟨by show c.toNat < 256 ^ 1; omega, _, rfl, by rw [beEncode_length]⟩
        · cases hf
      | int k =>
        simp only [Ty.ofByte, Prim.ofByte] at hf
        split at hf
        · rename_i hk
          subst hk
          simp only [Option.some.injEq] at hf
          subst hf
          exact ⟨intValue_ok 1 _ (Nat.le_refl _) (by omega), _, rfl, by rw [beEncode_length]⟩
        · cases hf
      | str => cases hf
      | bytes => cases hf
    | enum n => cases hf
    | list t => cases hf
    | fixed n t => cases hf
    | pair a b => cases hf
    | map k v => cases hf
    | opt t => cases hf
    | unit => cases hf
    | oneof a => cases hf
  intro l
  induction l with
  | nil => exact ⟨(fun x hx => by cases hx), [], rfl, rfl⟩
  | cons c cs ih =>
    obtain ⟨i1, b, i2, i3⟩ := ih
    obtain ⟨j1, b', j2, j3⟩ := hone c
    refine ⟨?_, b' ++ b, by simp only [List.map_cons, encAll, j2, i2], by simp; omega⟩
    intro x hx
    rw [List.map_cons] at hx
    rcases List.mem_cons.1 hx with e | hx
    · rw [e]; exact j1
    · exact i1 x hx

theorem encAll_mapInsert {κ υ : Type} (lt : κ → κ → Bool) (enc : κ × υ → Option Bytes) (k : κ) (v : υ) {c : Bytes}
    (hc : enc (k, v) = some c) : ∀ (m : List (κ × υ)) {b : Bytes}, encAll enc m = some b →
    ∃ b', encAll enc (mapInsert lt k v m) = some b' ∧ b'.length ≤ b.length + c.length := by
  intro m
  induction m with
  | nil =>
    intro b h
    simp only [encAll, Option.some.injEq] at h
    subst h
    exact ⟨c ++ [], by simp only [mapInsert, encAll, hc], by simp⟩
  | cons e r ih =>
    intro b h
    have h0 := h
    simp only [encAll] at h
    split at h
    · rename_i x y h1 h2
      simp only [Option.some.injEq] at h
      subst h
      simp only [mapInsert]
      split
      · exact ⟨c ++ (x ++ y), by rw [encAll, hc, h0], by simp; omega⟩
      · split
        · obtain ⟨b', i1, i2⟩ := ih h2
          exact ⟨x ++ b', by rw [encAll, h1, i1], by simp; omega⟩
        · exact ⟨x ++ y, h0, by omega⟩
    · cases h

theorem foldl_mapInsert_good (p : Prim) {υ : Type} (enc : p.T × υ → Option Bytes) (ok : p.T × υ → Prop) :
    ∀ (l m : List (p.T × υ)) (b c : Bytes), encAll enc l = some b → encAll enc m = some c →
    m.Pairwise (fun x y => p.lt x.1 y.1 = true) → (∀ x ∈ l, ok x) → (∀ x ∈ m, ok x) →
    ∃ b', encAll enc (l.foldl (fun m e => mapInsert p.lt e.1 e.2 m) m) = some b' ∧ b'.length ≤ c.length + b.length ∧
      (l.foldl (fun m e => mapInsert p.lt e.1 e.2 m) m).Pairwise (fun x y => p.lt x.1 y.1 = true) ∧
      (∀ x ∈ l.foldl (fun m e => mapInsert p.lt e.1 e.2 m) m, ok x) ∧
      (l.foldl (fun m e => mapInsert p.lt e.1 e.2 m) m).length ≤ m.length + l.length := by
  intro l
  induction l with
  | nil =>
    intro m b c h1 h2 h3 h4 h5
    exact ⟨c, h2, by omega, h3, h5, by simp⟩
  | cons e r ih =>
    intro m b c h1 h2 h3 h4 h5
    simp only [encAll] at h1
    split at h1
    · rename_i x y e1 e2
      simp only [Option.some.injEq] at h1
      subst h1
      obtain ⟨c', d1, d2⟩ := encAll_mapInsert p.lt enc e.1 e.2 e1 m h2
      obtain ⟨b', i1, i2, i3, i4, i5⟩ := ih _ y c' e2 d1 (sorted_mapInsert p e.1 e.2 m h3)
        (fun x hx => h4 x (List.mem_cons_of_mem _ hx)) (fun x hx => by
          rcases mem_mapInsert p e.1 e.2 m hx with h | h
          · rw [h]; exact h4 e List.mem_cons_self
          · exact h5 x h)
      have hlen : (mapInsert p.lt e.1 e.2 m).length ≤ m.length + 1 := by
        clear i1 i2 i3 i4 i5 d1 ih h2 h3 h5
        induction m with
        | nil => simp [mapInsert]
        | cons a t iht =>
          simp only [mapInsert]
          split
          · simp
          · split
            · simp only [List.length_cons]; omega
            · simp
      refine ⟨b', i1, by simp; omega, i3, i4, ?_⟩
      rw [List.foldl_cons]
      simp only [List.length_cons]
      omega
    · cases h1

theorem len_lt {b : Bytes} (h : b.length = 4) : beDecode b ≤ 0xFFFFFFFF := by
  have := beDecode_lt b
  rw [h] at this
  have h5 : (256 : Nat) ^ 4 = 4294967296 := by decide
  omega

mutual
theorem Ty.safe (buf : Bytes) : (t : Ty) → t.Wf → ∀ (off : Nat), off ≤ buf.length →
    Safe (Good t.Ok t.enc) buf off (t.dec buf off)
  | .prim p, hw, off, _ => prim_safe p hw buf off
  | .enum n, hw, off, _ => by
    simp only [Ty.dec]
    refine safe_bind (safe_rd buf off 1) ?_
    intro b o h1 h2 ⟨h3, h4⟩
    split
    · exact safe_throws
    · rename_i hn
      exact safe_ok h2 ⟨by show beDecode b < n; omega, _, rfl, by rw [beEncode_length]; omega⟩
  | .list t, hw, off, ho => by
    simp only [Ty.dec]
    refine safe_bind (safe_rd buf off 4) ?_
    intro b o h1 h2 ⟨h3, h4⟩
    have hl := len_lt h3
    cases hf : t.ofByte with
    | some f =>
      simp only
      refine safe_bind (safe_rd buf o (beDecode b)) ?_
      intro bs o' k1 k2 ⟨k3, k4⟩
      obtain ⟨e1, bs', e2, e3⟩ := encAll_bytes t f hf bs
      refine safe_ok k2 ⟨e1, beEncode 4 (bs.map f).length ++ bs', ?_, ?_⟩
      · simp only [Ty.enc]
        rw [if_pos (by simp; omega), e2]; rfl
      · simp [beEncode_length]; omega
    | none =>
      simp only
      have := decN_safe t.Ok t.enc (t.dec buf) buf (fun off ho => Ty.safe buf t hw off ho) (beDecode b) o h2
      refine ⟨this.1, ?_⟩
      intro l o' e
      obtain ⟨k1, k2, k3, k4, bs', k5, k6⟩ := this.2 l o' e
      refine ⟨k1, k2, k4, beEncode 4 l.length ++ bs', ?_, ?_⟩
      · simp only [Ty.enc]
        rw [if_pos (by omega), k5]; rfl
      · simp [beEncode_length]; omega
  | .fixed n t, hw, off, ho => by
    simp only [Ty.dec]
    cases hf : t.ofByte with
    | some f =>
      simp only
      refine safe_bind (safe_rd buf off n) ?_
      intro bs o' k1 k2 ⟨k3, k4⟩
      obtain ⟨e1, bs', e2, e3⟩ := encAll_bytes t f hf bs
      exact safe_ok k2 ⟨⟨by simp [k3], e1⟩, bs', e2, by omega⟩
    | none =>
      simp only
      have := decN_safe t.Ok t.enc (t.dec buf) buf (fun off ho => Ty.safe buf t hw off ho) n off ho
      refine ⟨this.1, ?_⟩
      intro l o' e
      obtain ⟨k1, k2, k3, k4, bs', k5, k6⟩ := this.2 l o' e
      exact ⟨k1, k2, ⟨k3, k4⟩, bs', k5, k6⟩
  | .pair a b, hw, off, ho =>
    pair_safe a.enc b.enc (a.dec buf) (b.dec buf) buf off ho (fun off ho => Ty.safe buf a hw.1 off ho)
      (fun off ho => Ty.safe buf b hw.2 off ho)
  | .map k t, hw, off, ho => by
    simp only [Ty.dec]
    refine safe_bind (safe_rd buf off 4) ?_
    intro b o h1 h2 ⟨h3, h4⟩
    have hl := len_lt h3
    refine safe_bind (decN_safe (fun v : k.T × t.T => k.Ok v.1 ∧ t.Ok v.2) (encPair k.enc t.enc)
      (decPair (k.dec buf) (t.dec buf)) buf (fun off ho => pair_safe k.enc t.enc (k.dec buf) (t.dec buf) buf off ho
        (fun off _ => prim_safe k hw.1 buf off) (fun off ho => Ty.safe buf t hw.2 off ho)) (beDecode b) o h2) ?_
    intro l o' k1 k2 ⟨k3, k4, bs, k5, k6⟩
    obtain ⟨b', g1, g2, g3, g4, g5⟩ := foldl_mapInsert_good k (encPair k.enc t.enc) (fun v => k.Ok v.1 ∧ t.Ok v.2) l [] bs []
      k5 rfl List.Pairwise.nil k4 (fun x hx => by cases hx)
    refine safe_ok k2 ⟨⟨g3, g4⟩, beEncode 4 (l.foldl (fun m e => mapInsert k.lt e.1 e.2 m) []).length ++ b', ?_, ?_⟩
    · simp only [Ty.enc]
      rw [if_pos (Nat.le_trans g5 (by simp only [List.length_nil, Nat.zero_add]; omega)), g1]; rfl
    · simp only [List.length_append, beEncode_length]
      simp only [List.length_nil, Nat.zero_add] at g2
      omega
  | .opt t, hw, off, ho => by
    simp only [Ty.dec]
    refine safe_bind (prim_safe .bool trivial buf off) ?_
    intro h o h1 h2 ⟨_, bs, h3, h4⟩
    simp only [Prim.enc, Option.some.injEq] at h3
    subst h3
    simp only [List.length_cons, List.length_nil] at h4
    split
    · refine safe_bind (Ty.safe buf t hw o h2) ?_
      intro x o' k1 k2 ⟨k3, bs, k4, k5⟩
      refine safe_ok k2 ⟨fun y e => by cases e; exact k3, 1 :: bs, by simp only [Ty.enc, k4, Option.map_some], by simp; omega⟩
    · exact safe_ok h2 ⟨(fun y e => by cases e), [0], rfl, by simp; omega⟩
  | .unit, hw, off, ho => safe_ok ho ⟨trivial, [], rfl, Nat.le_refl _⟩
  | .oneof a, hw, off, ho => by
    simp only [Ty.dec]
    refine safe_bind (safe_rd buf off 4) ?_
    intro b o h1 h2 ⟨h3, h4⟩
    have := Alts.safe buf a hw.2 (beDecode b) o h2
    refine ⟨this.1, ?_⟩
    intro v o' e
    obtain ⟨k1, k2, k3, bs, k4, k5⟩ := this.2 v o' e
    exact ⟨k1, k2, k3, bs, k4, by omega⟩
theorem Alts.safe (buf : Bytes) : (a : Alts) → a.Wf → ∀ (id off : Nat), off ≤ buf.length →
    Safe (fun v n => Good a.Ok a.enc v (n + 4)) buf off (a.dec buf id off)
  | .nil, _, id, off, ho => safe_throws
  | .cons i t r, hw, id, off, ho => by
    simp only [Alts.dec]
    split
    · refine safe_bind (Ty.safe buf t hw.2.1 off ho) ?_
      intro x o' k1 k2 ⟨k3, bs, k4, k5⟩
      exact safe_ok k2 ⟨k3, beEncode 4 i ++ bs, by simp only [Alts.enc, k4, Option.map_some], by
        simp [beEncode_length]; omega⟩
    · refine safe_bind (Alts.safe buf r hw.2.2 id off ho) ?_
      intro x o' k1 k2 ⟨k3, bs, k4, k5⟩
      exact safe_ok k2 ⟨k3, bs, k4, by omega⟩
end

end Verif.Cmf
