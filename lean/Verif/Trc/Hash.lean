import Verif.Kvbc.VersionedLemmas
import Verif.Chain.Rebuild
import Verif.Util.ListLemmas
set_option linter.unusedVariables false
set_option linter.unusedSimpArgs false
/-!
# Thin replica: hashes of updates (C33)

client/thin-replica-client/src/trc_hash.cpp:48-150 (client side) and kvbc/src/kvbc_app_filter/kvbc_app_filter.cpp:177-259 (server
side).  The hash function `h` (SHA-256) is a parameter with 32-byte values; nothing else is assumed about it.
-/
namespace Verif.Trc
open Verif.Bytes Verif.Kvbc Verif.Chain

/-- an update: a block of key-value pairs ("legacy event") or an event group.  `info` is what comes with it but is not hashed:
correlation id, record time, trace context. -/
inductive Upd where
  | ev (id : Nat) (kvs : List (Bytes × Bytes)) (info : Bytes)
  | eg (id : Nat) (events : List Bytes) (info : Bytes)
deriving DecidableEq

def Upd.id : Upd → Nat
  | .ev n _ _ => n
  | .eg n _ _ => n
def Upd.isEg : Upd → Bool
  | .ev .. => false
  | .eg .. => true

inductive HRes where
  | ok (d : Bytes)
  /-- `invalid_argument` -/
  | throw
  /-- failed assertion -/
  | abort
deriving DecidableEq

/-- hashes of keys and values in a `std::map`; `none` = duplicate key (trc_hash.cpp:124-132) -/
def kvHashes (h : Bytes → Bytes) : List (Bytes × Bytes) → List (Key × Bytes) → Option (List (Key × Bytes))
  | [], m => some m
  | (k, v) :: l, m => if (m.lookup (h k)).isSome then none else kvHashes h l (emplace (h k) (h v) m)

/-- hashes of events in a `std::set`; `none` = duplicate event (trc_hash.cpp:136-143) -/
def egHashes (h : Bytes → Bytes) : List Bytes → List (Key × Unit) → Option (List (Key × Unit))
  | [], m => some m
  | e :: l, m => if (m.lookup (h e)).isSome then none else egHashes h l (emplace (h e) () m)

/-- what is hashed for a block (trc_hash.cpp:48-72) -/
def kvPre (id : Nat) (m : List (Key × Bytes)) : Bytes := leEncode 8 id ++ (m.map (fun x => x.1 ++ x.2)).flatten
/-- what is hashed for an event group (trc_hash.cpp:74-97) -/
def egPre (id : Nat) (m : List (Key × Unit)) : Bytes := leEncode 8 id ++ (m.map (fun x => x.1)).flatten

/-- `hashUpdate` of the client (trc_hash.cpp:120-147) -/
def hashUpd (h : Bytes → Bytes) : Upd → HRes
  | .ev id kvs _ => match kvHashes h kvs [] with
    | none => .throw
    | some m => .ok (h (kvPre id m))
  | .eg id evs _ => match egHashes h evs [] with
    | none => .abort
    | some m => .ok (h (egPre id m))

/-- `hashUpdate` and `hashEventGroupUpdate` of the server (kvbc_app_filter.cpp:177-259): the same computation; it asserts that there
are no duplicates -/
def hashSrv (h : Bytes → Bytes) : Upd → HRes
  | .ev id kvs _ => match kvHashes h kvs [] with
    | none => .abort
    | some m => .ok (h (leEncode 8 id ++ (m.map (fun x => x.1 ++ x.2)).flatten))
  | .eg id evs _ => match egHashes h evs [] with
    | none => .abort
    | some m => .ok (h (leEncode 8 id ++ (m.map (fun x => x.1)).flatten))

/-- **C33.** Server and client hash an update to the same value. -/
theorem hash_agree (h : Bytes → Bytes) (u : Upd) (d : Bytes) : hashSrv h u = .ok d ↔ hashUpd h u = .ok d := by
  cases u with
  | ev id kvs _ => simp only [hashSrv, hashUpd, kvPre]; cases kvHashes h kvs [] <;> simp
  | eg id evs _ => simp only [hashSrv, hashUpd, egPre]

/-! ## Specification: same content -/

/-- same kind, same id, and the same entries up to order -/
def Eqv : Upd → Upd → Prop
  | .ev a l _, .ev b l' _ => a = b ∧ l.Perm l'
  | .eg a l _, .eg b l' _ => a = b ∧ l.Perm l'
  | _, _ => False

theorem Eqv.refl (u : Upd) : Eqv u u := by
  cases u <;> exact ⟨rfl, List.Perm.refl _⟩

theorem Eqv.id {u v : Upd} (h : Eqv u v) : u.id = v.id := by
  cases u <;> cases v <;> simp only [Eqv] at h <;> exact h.1

theorem Eqv.isEg {u v : Upd} (h : Eqv u v) : u.isEg = v.isEg := by
  cases u <;> cases v <;> simp only [Eqv] at h <;> rfl

/-! ## The map does not depend on the order -/

theorem kvHashes_spec (h : Bytes → Bytes) : ∀ (l : List (Bytes × Bytes)) (m m' : List (Key × Bytes)), Sorted m → kvHashes h l m = some m' →
    Sorted m' ∧ (∀ k, m'.lookup k = (m.lookup k).or ((l.find? (fun x => h x.1 == k)).map (fun x => h x.2))) ∧
    (l.map (fun x => h x.1)).Nodup ∧ (∀ x ∈ l, m.lookup (h x.1) = none) := by
  intro l
  induction l with
  | nil =>
    intro m m' hs hk
    rw [kvHashes] at hk
    cases hk
    exact ⟨hs, fun k => (by simp), List.nodup_nil, fun x hx => absurd hx List.not_mem_nil⟩
  | cons x l ih =>
    obtain ⟨k, v⟩ := x
    intro m m' hs hk
    rw [kvHashes] at hk
    cases hl : m.lookup (h k) with
    | some w => rw [hl] at hk; simp at hk
    | none =>
      rw [hl] at hk
      simp only [Option.isSome_none, Bool.false_eq_true, if_false] at hk
      obtain ⟨i1, i2, i3, i4⟩ := ih _ _ (emplace_sorted _ _ _ hs) hk
      have hnew : ∀ x ∈ l, h x.1 ≠ h k := by
        intro x hx he
        have := i4 x hx
        rw [emplace_lookup _ _ _ _ hs, if_pos he, hl] at this
        cases this
      refine ⟨i1, ?_, ?_, ?_⟩
      · intro k'
        rw [i2, emplace_lookup _ _ _ _ hs]
        by_cases e : k' = h k
        · subst e
          rw [if_pos rfl, hl]
          simp
        · rw [if_neg e, List.find?_cons]
          have : (h k == k') = false := beq_eq_false_iff_ne.2 (Ne.symm e)
          simp only [this]
      · rw [List.map_cons, List.nodup_cons]
        refine ⟨?_, i3⟩
        intro hm
        obtain ⟨x, hx, he⟩ := List.mem_map.1 hm
        exact hnew x hx he
      · intro x hx
        rcases List.mem_cons.1 hx with e | e
        · subst e; exact hl
        · have := i4 x e
          rw [emplace_lookup _ _ _ _ hs, if_neg (hnew x e)] at this
          exact this

theorem egHashes_spec (h : Bytes → Bytes) : ∀ (l : List Bytes) (m m' : List (Key × Unit)), Sorted m → egHashes h l m = some m' →
    Sorted m' ∧ (∀ k, m'.lookup k = (m.lookup k).or ((l.find? (fun x => h x == k)).map (fun _ => ()))) ∧
    (l.map h).Nodup ∧ (∀ x ∈ l, m.lookup (h x) = none) := by
  intro l
  induction l with
  | nil =>
    intro m m' hs hk
    rw [egHashes] at hk
    cases hk
    exact ⟨hs, fun k => (by simp), List.nodup_nil, fun x hx => absurd hx List.not_mem_nil⟩
  | cons k l ih =>
    intro m m' hs hk
    rw [egHashes] at hk
    cases hl : m.lookup (h k) with
    | some w => rw [hl] at hk; simp at hk
    | none =>
      rw [hl] at hk
      simp only [Option.isSome_none, Bool.false_eq_true, if_false] at hk
      obtain ⟨i1, i2, i3, i4⟩ := ih _ _ (emplace_sorted _ _ _ hs) hk
      have hnew : ∀ x ∈ l, h x ≠ h k := by
        intro x hx he
        have := i4 x hx
        rw [emplace_lookup _ _ _ _ hs, if_pos he, hl] at this
        cases this
      refine ⟨i1, ?_, ?_, ?_⟩
      · intro k'
        rw [i2, emplace_lookup _ _ _ _ hs]
        by_cases e : k' = h k
        · subst e
          rw [if_pos rfl, hl]
          simp
        · rw [if_neg e, List.find?_cons]
          have : (h k == k') = false := beq_eq_false_iff_ne.2 (Ne.symm e)
          simp only [this]
      · rw [List.map_cons, List.nodup_cons]
        refine ⟨?_, i3⟩
        intro hm
        obtain ⟨x, hx, he⟩ := List.mem_map.1 hm
        exact hnew x hx he
      · intro x hx
        rcases List.mem_cons.1 hx with e | e
        · subst e; exact hl
        · have := i4 x e
          rw [emplace_lookup _ _ _ _ hs, if_neg (hnew x e)] at this
          exact this

theorem mem_iff_lookup {α : Type} {m : List (Key × α)} (hs : Sorted m) {k : Key} {v : α} : (k, v) ∈ m ↔ m.lookup k = some v :=
  ⟨fun h => lookup_of_mem_nodup (sorted_nodup hs) h, mem_of_lookup⟩

/-- the entries of the map of hashes -/
theorem kvHashes_mem {h : Bytes → Bytes} {l : List (Bytes × Bytes)} {m : List (Key × Bytes)} (hk : kvHashes h l [] = some m) {x : Key × Bytes} :
    x ∈ m ↔ ∃ y ∈ l, h y.1 = x.1 ∧ h y.2 = x.2 := by
  obtain ⟨k, v⟩ := x
  obtain ⟨s1, s2, s3, _⟩ := kvHashes_spec h l [] m List.Pairwise.nil hk
  rw [mem_iff_lookup s1, s2]
  simp only [List.lookup_nil, Option.none_or, Option.map_eq_some_iff]
  constructor
  · rintro ⟨y, h1, h2⟩
    exact ⟨y, List.mem_of_find?_eq_some h1, by have := List.find?_some h1; simpa using this, h2⟩
  · rintro ⟨y, h1, h2, h3⟩
    cases hf : l.find? (fun x => h x.1 == k) with
    | none =>
      have := List.find?_eq_none.1 hf y h1
      simp [h2] at this
    | some z =>
      have e1 := List.find?_some hf
      have e2 := List.mem_of_find?_eq_some hf
      have e3 : h z.1 = h y.1 := by rw [h2]; simpa using e1
      have : z = y := Verif.ListU.inj_of_nodup_map s3 e2 h1 e3
      exact ⟨z, rfl, by rw [this]; exact h3⟩

theorem egHashes_mem {h : Bytes → Bytes} {l : List Bytes} {m : List (Key × Unit)} (hk : egHashes h l [] = some m) {x : Key × Unit} :
    x ∈ m ↔ ∃ y ∈ l, h y = x.1 := by
  obtain ⟨k, v⟩ := x
  obtain ⟨s1, s2, s3, _⟩ := egHashes_spec h l [] m List.Pairwise.nil hk
  rw [mem_iff_lookup s1, s2]
  simp only [List.lookup_nil, Option.none_or, Option.map_eq_some_iff]
  constructor
  · rintro ⟨y, h1, h2⟩
    exact ⟨y, List.mem_of_find?_eq_some h1, by have := List.find?_some h1; simpa using this⟩
  · rintro ⟨y, h1, h2⟩
    cases hf : l.find? (fun x => h x == k) with
    | none =>
      have := List.find?_eq_none.1 hf y h1
      simp [h2] at this
    | some z => exact ⟨z, rfl, trivial⟩

theorem kvHashes_isSome {h : Bytes → Bytes} : ∀ (l : List (Bytes × Bytes)) (m : List (Key × Bytes)), Sorted m →
    (l.map (fun x => h x.1)).Nodup → (∀ x ∈ l, m.lookup (h x.1) = none) → (kvHashes h l m).isSome := by
  intro l
  induction l with
  | nil => intro m _ _ _; rfl
  | cons x l ih =>
    obtain ⟨k, v⟩ := x
    intro m hs hn hm
    rw [List.map_cons, List.nodup_cons] at hn
    rw [kvHashes, hm (k, v) List.mem_cons_self]
    simp only [Option.isSome_none, Bool.false_eq_true, if_false]
    apply ih _ (emplace_sorted _ _ _ hs) hn.2
    intro x hx
    rw [emplace_lookup _ _ _ _ hs, if_neg, hm x (List.mem_cons_of_mem _ hx)]
    intro he
    exact hn.1 (he ▸ List.mem_map.2 ⟨x, hx, rfl⟩)

theorem egHashes_isSome {h : Bytes → Bytes} : ∀ (l : List Bytes) (m : List (Key × Unit)), Sorted m →
    (l.map h).Nodup → (∀ x ∈ l, m.lookup (h x) = none) → (egHashes h l m).isSome := by
  intro l
  induction l with
  | nil => intro m _ _ _; rfl
  | cons k l ih =>
    intro m hs hn hm
    rw [List.map_cons, List.nodup_cons] at hn
    rw [egHashes, hm k List.mem_cons_self]
    simp only [Option.isSome_none, Bool.false_eq_true, if_false]
    apply ih _ (emplace_sorted _ _ _ hs) hn.2
    intro x hx
    rw [emplace_lookup _ _ _ _ hs, if_neg, hm x (List.mem_cons_of_mem _ hx)]
    intro he
    exact hn.1 (he ▸ List.mem_map.2 ⟨x, hx, rfl⟩)

theorem kvHashes_none {h : Bytes → Bytes} {l : List (Bytes × Bytes)} : kvHashes h l [] = none ↔ ¬ (l.map (fun x => h x.1)).Nodup := by
  constructor
  · intro hk hn
    have := kvHashes_isSome l [] List.Pairwise.nil hn (fun x _ => rfl)
    rw [hk] at this
    cases this
  · intro hn
    cases hk : kvHashes h l [] with
    | none => rfl
    | some m => exact absurd (kvHashes_spec h l [] m List.Pairwise.nil hk).2.2.1 hn

theorem egHashes_none {h : Bytes → Bytes} {l : List Bytes} : egHashes h l [] = none ↔ ¬ (l.map h).Nodup := by
  constructor
  · intro hk hn
    have := egHashes_isSome l [] List.Pairwise.nil hn (fun x _ => rfl)
    rw [hk] at this
    cases this
  · intro hn
    cases hk : egHashes h l [] with
    | none => rfl
    | some m => exact absurd (egHashes_spec h l [] m List.Pairwise.nil hk).2.2.1 hn

/-- **C33.** The hash does not depend on the order of the entries (as the code's comments say), nor on the correlation id, record time
or trace context. -/
theorem hash_order {h : Bytes → Bytes} {u v : Upd} (he : Eqv u v) : hashUpd h u = hashUpd h v := by
  cases u with
  | ev a l i => cases v with
    | eg b l' j => exact he.elim
    | ev b l' j =>
      obtain ⟨rfl, hp⟩ := he
      simp only [hashUpd]
      have hnd : (l.map (fun x => h x.1)).Nodup ↔ (l'.map (fun x => h x.1)).Nodup := (hp.map _).nodup_iff
      cases h1 : kvHashes h l [] with
      | none => rw [kvHashes_none.2 (fun h2 => kvHashes_none.1 h1 (hnd.2 h2))]
      | some m =>
        cases h2 : kvHashes h l' [] with
        | none => exact absurd (hnd.1 (kvHashes_spec h l [] m List.Pairwise.nil h1).2.2.1) (kvHashes_none.1 h2)
        | some m' =>
          have : m = m' := sorted_mem_ext (kvHashes_spec h l [] m List.Pairwise.nil h1).1 (kvHashes_spec h l' [] m' List.Pairwise.nil h2).1
            (fun x => by rw [kvHashes_mem h1, kvHashes_mem h2]; simp only [hp.mem_iff])
          rw [this]
  | eg a l i => cases v with
    | ev b l' j => exact he.elim
    | eg b l' j =>
      obtain ⟨rfl, hp⟩ := he
      simp only [hashUpd]
      have hnd : (l.map h).Nodup ↔ (l'.map h).Nodup := (hp.map _).nodup_iff
      cases h1 : egHashes h l [] with
      | none => rw [egHashes_none.2 (fun h2 => egHashes_none.1 h1 (hnd.2 h2))]
      | some m =>
        cases h2 : egHashes h l' [] with
        | none => exact absurd (hnd.1 (egHashes_spec h l [] m List.Pairwise.nil h1).2.2.1) (egHashes_none.1 h2)
        | some m' =>
          have : m = m' := sorted_mem_ext (egHashes_spec h l [] m List.Pairwise.nil h1).1 (egHashes_spec h l' [] m' List.Pairwise.nil h2).1
            (fun x => by rw [egHashes_mem h1, egHashes_mem h2]; simp only [hp.mem_iff])
          rw [this]

/-! ## The hash binds the content -/

/-- the byte strings hashed for an update: its keys and values (events), and the concatenation -/
def hashed (h : Bytes → Bytes) : Upd → List Bytes
  | .ev id kvs _ => kvs.map (·.1) ++ kvs.map (·.2) ++ ((kvHashes h kvs []).map (kvPre id)).toList
  | .eg id evs _ => evs ++ ((egHashes h evs []).map (egPre id)).toList

/-- hashing the two updates meets no collision -/
def NoColl (h : Bytes → Bytes) (u v : Upd) : Prop := ∀ a ∈ hashed h u, ∀ b ∈ hashed h v, h a = h b → a = b

theorem nodup_of_map {α β : Type} (f : α → β) {l : List α} (h : (l.map f).Nodup) : l.Nodup := by
  rw [List.Nodup, List.pairwise_map] at h
  exact h.imp (fun hne he => hne (by rw [he]))

theorem flatten_inj {α : Type} {k : Nat} (hk : 0 < k) : ∀ {l l' : List (List α)}, (∀ x ∈ l, x.length = k) → (∀ x ∈ l', x.length = k) →
    l.flatten = l'.flatten → l = l'
  | [], [], _, _, _ => rfl
  | [], y :: ys, _, h', e => by
    have h1 := h' y List.mem_cons_self
    have h2 := congrArg List.length e
    rw [List.flatten_cons, List.length_append] at h2
    simp at h2
    omega
  | x :: xs, [], h', _, e => by
    have h1 := h' x List.mem_cons_self
    have h2 := congrArg List.length e
    rw [List.flatten_cons, List.length_append, List.flatten_nil, List.length_nil] at h2
    omega
  | x :: xs, y :: ys, h1, h2, e => by
    rw [List.flatten_cons, List.flatten_cons] at e
    obtain ⟨e1, e2⟩ := List.append_inj e (by rw [h1 x List.mem_cons_self, h2 y List.mem_cons_self])
    rw [e1, flatten_inj hk (fun z hz => h1 z (List.mem_cons_of_mem _ hz)) (fun z hz => h2 z (List.mem_cons_of_mem _ hz)) e2]

/-- **C33.** Two updates of the same kind and with ids below 2^64 that hash to the same value have the same id and the same content up
to order, unless hashing them meets a collision. -/
theorem hash_binds {h : Bytes → Bytes} (hlen : ∀ x, (h x).length = 32) {u v : Upd} (hk : u.isEg = v.isEg) {d : Bytes}
    (hu : hashUpd h u = .ok d) (hv : hashUpd h v = .ok d) (hn : NoColl h u v) (hid : u.id < 2 ^ 64) (hid' : v.id < 2 ^ 64) : Eqv u v := by
  have enc : ∀ {a b : Nat}, a < 2 ^ 64 → b < 2 ^ 64 → leEncode 8 a = leEncode 8 b → a = b := by
    intro a b ha hb e
    have := congrArg leDecode e
    rwa [leDecode_leEncode 8 a ha, leDecode_leEncode 8 b hb] at this
  cases u with
  | ev a l i => cases v with
    | eg b l' j => cases hk
    | ev b l' j =>
      simp only [hashUpd] at hu hv
      cases h1 : kvHashes h l [] with
      | none => rw [h1] at hu; cases hu
      | some m =>
        cases h2 : kvHashes h l' [] with
        | none => rw [h2] at hv; cases hv
        | some m' =>
          rw [h1] at hu
          rw [h2] at hv
          dsimp only at hu hv
          have e : kvPre a m = kvPre b m' := hn _ (by simp [hashed, h1]) _ (by simp [hashed, h2]) (by
            have := hu.trans hv.symm
            simpa using this)
          obtain ⟨e1, e2⟩ := List.append_inj e (by simp)
          have len64 : ∀ {l : List (Bytes × Bytes)} {m : List (Key × Bytes)}, kvHashes h l [] = some m →
              ∀ x ∈ m, x.1.length = 32 ∧ x.2.length = 32 := by
            intro l m hh x hx
            obtain ⟨y, _, y1, y2⟩ := (kvHashes_mem hh).1 hx
            rw [← y1, ← y2]
            exact ⟨hlen _, hlen _⟩
          have e3 : m.map (fun x => x.1 ++ x.2) = m'.map (fun x => x.1 ++ x.2) := by
            refine flatten_inj (k := 64) (by omega) ?_ ?_ e2
            · intro x hx
              obtain ⟨y, hy, rfl⟩ := List.mem_map.1 hx
              have := len64 h1 y hy
              rw [List.length_append]; omega
            · intro x hx
              obtain ⟨y, hy, rfl⟩ := List.mem_map.1 hx
              have := len64 h2 y hy
              rw [List.length_append]; omega
          -- same entries
          have mem : ∀ {m m' : List (Key × Bytes)}, (∀ x ∈ m, x.1.length = 32 ∧ x.2.length = 32) → (∀ x ∈ m', x.1.length = 32 ∧ x.2.length = 32) →
              m.map (fun x => x.1 ++ x.2) = m'.map (fun x => x.1 ++ x.2) → ∀ x ∈ m, x ∈ m' := by
            intro m m' q1 q2 q3 x hx
            have : x.1 ++ x.2 ∈ m'.map (fun x => x.1 ++ x.2) := q3 ▸ List.mem_map.2 ⟨x, hx, rfl⟩
            obtain ⟨y, hy, he⟩ := List.mem_map.1 this
            obtain ⟨f1, f2⟩ := List.append_inj he (by rw [(q1 x hx).1, (q2 y hy).1])
            have : x = y := Prod.ext f1.symm f2.symm
            rw [this]; exact hy
          have sub : ∀ y, y ∈ l ↔ y ∈ l' := by
            intro y
            constructor
            · intro hy
              have := mem (len64 h1) (len64 h2) e3 (h y.1, h y.2) ((kvHashes_mem h1).2 ⟨y, hy, rfl, rfl⟩)
              obtain ⟨z, hz, z1, z2⟩ := (kvHashes_mem h2).1 this
              have f1 : y.1 = z.1 := hn _ (by simp only [hashed, List.mem_append, List.mem_map]; exact Or.inl (Or.inl ⟨y, hy, rfl⟩)) _
                (by simp only [hashed, List.mem_append, List.mem_map]; exact Or.inl (Or.inl ⟨z, hz, rfl⟩)) z1.symm
              have f2 : y.2 = z.2 := hn _ (by simp only [hashed, List.mem_append, List.mem_map]; exact Or.inl (Or.inr ⟨y, hy, rfl⟩)) _
                (by simp only [hashed, List.mem_append, List.mem_map]; exact Or.inl (Or.inr ⟨z, hz, rfl⟩)) z2.symm
              rw [Prod.ext f1 f2]; exact hz
            · intro hy
              have := mem (len64 h2) (len64 h1) e3.symm (h y.1, h y.2) ((kvHashes_mem h2).2 ⟨y, hy, rfl, rfl⟩)
              obtain ⟨z, hz, z1, z2⟩ := (kvHashes_mem h1).1 this
              have f1 : z.1 = y.1 := hn _ (by simp only [hashed, List.mem_append, List.mem_map]; exact Or.inl (Or.inl ⟨z, hz, rfl⟩)) _
                (by simp only [hashed, List.mem_append, List.mem_map]; exact Or.inl (Or.inl ⟨y, hy, rfl⟩)) z1
              have f2 : z.2 = y.2 := hn _ (by simp only [hashed, List.mem_append, List.mem_map]; exact Or.inl (Or.inr ⟨z, hz, rfl⟩)) _
                (by simp only [hashed, List.mem_append, List.mem_map]; exact Or.inl (Or.inr ⟨y, hy, rfl⟩)) z2
              rw [← Prod.ext f1 f2]; exact hz
          have nd : ∀ {l : List (Bytes × Bytes)}, (l.map (fun x => h x.1)).Nodup → l.Nodup := fun hh => nodup_of_map _ hh
          exact ⟨enc hid hid' e1, (List.perm_ext_iff_of_nodup (nd (kvHashes_spec h l [] m List.Pairwise.nil h1).2.2.1)
            (nd (kvHashes_spec h l' [] m' List.Pairwise.nil h2).2.2.1)).2 sub⟩
  | eg a l i => cases v with
    | ev b l' j => cases hk
    | eg b l' j =>
      simp only [hashUpd] at hu hv
      cases h1 : egHashes h l [] with
      | none => rw [h1] at hu; cases hu
      | some m =>
        cases h2 : egHashes h l' [] with
        | none => rw [h2] at hv; cases hv
        | some m' =>
          rw [h1] at hu
          rw [h2] at hv
          dsimp only at hu hv
          have e : egPre a m = egPre b m' := hn _ (by simp [hashed, h1]) _ (by simp [hashed, h2]) (by
            have := hu.trans hv.symm
            simpa using this)
          obtain ⟨e1, e2⟩ := List.append_inj e (by simp)
          have len32 : ∀ {l : List Bytes} {m : List (Key × Unit)}, egHashes h l [] = some m → ∀ x ∈ m.map (fun x => x.1), x.length = 32 := by
            intro l m hh x hx
            obtain ⟨z, hz, rfl⟩ := List.mem_map.1 hx
            obtain ⟨y, _, y1⟩ := (egHashes_mem hh).1 hz
            rw [← y1]
            exact hlen _
          have e3 : m.map (fun x => x.1) = m'.map (fun x => x.1) := flatten_inj (k := 32) (by omega) (len32 h1) (len32 h2) e2
          have mem : ∀ {m m' : List (Key × Unit)}, m.map (fun x => x.1) = m'.map (fun x => x.1) → ∀ x ∈ m, x ∈ m' := by
            intro m m' q x hx
            have : x.1 ∈ m'.map (fun x => x.1) := q ▸ List.mem_map.2 ⟨x, hx, rfl⟩
            obtain ⟨y, hy, he⟩ := List.mem_map.1 this
            have : x = y := Prod.ext he.symm rfl
            rw [this]; exact hy
          have sub : ∀ y, y ∈ l ↔ y ∈ l' := by
            intro y
            constructor
            · intro hy
              have := mem e3 (h y, ()) ((egHashes_mem h1).2 ⟨y, hy, rfl⟩)
              obtain ⟨z, hz, z1⟩ := (egHashes_mem h2).1 this
              rw [hn y (List.mem_append_left _ hy) z (List.mem_append_left _ hz) z1.symm]; exact hz
            · intro hy
              have := mem e3.symm (h y, ()) ((egHashes_mem h2).2 ⟨y, hy, rfl⟩)
              obtain ⟨z, hz, z1⟩ := (egHashes_mem h1).1 this
              rw [← hn z (List.mem_append_left _ hz) y (List.mem_append_left _ hy) z1]; exact hz
          exact ⟨enc hid hid' e1, (List.perm_ext_iff_of_nodup (nodup_of_map _ (egHashes_spec h l [] m List.Pairwise.nil h1).2.2.1)
            (nodup_of_map _ (egHashes_spec h l' [] m' List.Pairwise.nil h2).2.2.1)).2 sub⟩

end Verif.Trc
