import Verif.V4.Spec

/-!
# Lemmas on the encodings, the block maps and the effect of a batch on a key
-/
set_option linter.unusedSimpArgs false
set_option linter.unusedVariables false
namespace Verif.V4
open Verif.Bytes Spec

/-! ## Encodings -/

theorem be64_length (n : Nat) : (be64 n).length = 8 := by simp [be64]

theorem unbe64_be64 (n : Nat) (h : n < 2 ^ 64) : unbe64 (be64 n) = n := by
  unfold unbe64 be64
  rw [List.reverse_reverse]
  exact leDecode_leEncode 8 n (by simpa using h)

theorem encVal_length (v : Str) (st : Bool) (ver : Nat) : (encVal v st ver).length = v.length + 9 := by
  simp [encVal, be64_length]

theorem encVal_ver (v : Str) (st : Bool) (ver : Nat) :
    (encVal v st ver).drop ((encVal v st ver).length - 8) = be64 ver := by
  rw [encVal_length]
  have : v.length + 9 - 8 = v.length + 1 := by omega
  rw [this]
  unfold encVal
  rw [List.drop_append]
  simp

theorem encVal_data (v : Str) (st : Bool) (ver : Nat) :
    (encVal v st ver).take ((encVal v st ver).length - 9) = v := by
  rw [encVal_length]
  have : v.length + 9 - 9 = v.length := by omega
  rw [this]
  unfold encVal
  simp

theorem filterOut_enc (g : Nat) (v : Str) (st : Bool) (ver : Nat) (hv : ver < 2 ^ 64) :
    filterOut g (encVal v st ver) = (st && decide (ver < g)) := by
  unfold filterOut
  have h1 : (encVal v st ver).drop ((encVal v st ver).length - 9) = flagByte st :: be64 ver := by
    rw [encVal_length]
    have : v.length + 9 - 9 = v.length := by omega
    rw [this]
    unfold encVal
    simp
  have h2 : ¬ (encVal v st ver).length ≤ 8 := by rw [encVal_length]; omega
  rw [h1, encVal_ver, unbe64_be64 ver hv]
  cases st
  · simp [flagByte]
  · by_cases hg : g ≤ ver
    · simp [flagByte, h2, hg]
    · have : ver < g := by omega
      simp [flagByte, h2, hg, this]

/-! ## Block maps -/

namespace BMap

theorem get_del (m : BMap) (i j : Nat) : (m.del i).get j = if j = i then none else m.get j := by
  unfold BMap.get BMap.del
  induction m with
  | nil => simp
  | cons e m ih =>
    by_cases he : e.1 = i
    · rw [List.filter_cons_of_neg (by simp [he]), ih]
      by_cases hj : j = i
      · simp [hj]
      · have : ¬ e.1 = j := by omega
        simp [hj, List.find?_cons, this]
    · rw [List.filter_cons_of_pos (by simp [he])]
      by_cases hj : e.1 = j
      · subst hj
        simp [he, List.find?_cons]
      · simp only [List.find?_cons, beq_iff_eq]
        have : (e.1 == j) = false := by simp [hj]
        rw [this]
        exact ih

theorem get_put (m : BMap) (i j : Nat) (b : Block) : (m.put i b).get j = if j = i then some b else m.get j := by
  unfold BMap.put
  by_cases hj : j = i
  · simp [BMap.get, hj]
  · have h := get_del m i j
    rw [if_neg hj] at h
    rw [if_neg hj, ← h]
    unfold BMap.get
    have : (i == j) = false := by simp; omega
    simp [List.find?_cons, this]

theorem get_delRange (m : BMap) (lo hi : Nat) (keep : Nat → Bool) (j : Nat) :
    (m.delRange lo hi keep).get j = if lo ≤ j ∧ j < hi ∧ keep j = false then none else m.get j := by
  unfold BMap.get BMap.delRange
  induction m with
  | nil => simp
  | cons e m ih =>
    by_cases he : lo ≤ e.1 ∧ e.1 < hi ∧ keep e.1 = false
    · rw [List.filter_cons_of_neg (by simp [he]), ih]
      by_cases hj : lo ≤ j ∧ j < hi ∧ keep j = false
      · rw [if_pos hj, if_pos hj]
      · rw [if_neg hj, if_neg hj]
        have : (e.1 == j) = false := by
          simp
          intro h
          subst h
          exact hj he
        simp [List.find?_cons, this]
    · have hc : (!(decide (lo ≤ e.1) && decide (e.1 < hi) && !keep e.1)) = true := by
        simp only [Bool.not_eq_true', Bool.and_eq_false_iff, decide_eq_false_iff_not, Bool.not_eq_false', Bool.not_eq_eq_eq_not, Bool.not_true]
        by_cases h1 : lo ≤ e.1
        · by_cases h2 : e.1 < hi
          · right
            cases hk : keep e.1
            · exact absurd ⟨h1, h2, hk⟩ he
            · rfl
          · left; right; exact h2
        · left; left; exact h1
      rw [List.filter_cons_of_pos (p := fun e : Nat × Block => !(decide (lo ≤ e.1) && decide (e.1 < hi) && !keep e.1)) hc]
      by_cases hj : e.1 = j
      · subst hj
        rw [if_neg he]
        simp [List.find?_cons]
      · simp only [List.find?_cons, beq_iff_eq]
        have : (e.1 == j) = false := by simp [hj]
        rw [this]
        exact ih

theorem get_some_mem {m : BMap} {i : Nat} {b : Block} (h : m.get i = some b) : i ∈ m.map (·.1) := by
  unfold BMap.get at h
  cases hf : m.find? fun e => e.1 == i with
  | none => rw [hf] at h; cases h
  | some e =>
    have h1 := List.mem_of_find?_eq_some hf
    have h2 := List.find?_some hf
    have : e.1 = i := by simpa using h2
    exact List.mem_map.2 ⟨e, h1, this⟩

theorem mem_get {m : BMap} {i : Nat} (h : i ∈ m.map (·.1)) : (m.get i).isSome := by
  obtain ⟨e, he, h2⟩ := List.mem_map.1 h
  unfold BMap.get
  rw [Option.isSome_map]
  rw [List.find?_isSome]
  exact ⟨e, he, by simp [h2]⟩

theorem foldr_max_le (l : List Nat) (n : Nat) : l.foldr max 0 ≤ n ↔ ∀ k ∈ l, k ≤ n := by
  induction l with
  | nil => simp
  | cons a l ih =>
    simp only [List.foldr_cons, List.mem_cons, forall_eq_or_imp, ← ih]
    omega

theorem foldr_max_mem (l : List Nat) (h : l.foldr max 0 ≠ 0) : l.foldr max 0 ∈ l := by
  induction l with
  | nil => exact absurd rfl h
  | cons a l ih =>
    simp only [List.foldr_cons] at h ⊢
    by_cases ha : l.foldr max 0 ≤ a
    · rw [Nat.max_eq_left ha]; simp
    · rw [Nat.max_eq_right (by omega)]
      exact List.mem_cons_of_mem _ (ih (by omega))

/-- the greatest key of a map whose keys are at most `n` and include `n` -/
theorem maxKey_eq (m : BMap) (n : Nat) (hle : ∀ i, n < i → m.get i = none) (hn : n ≠ 0 → (m.get n).isSome) :
    m.maxKey = n := by
  have h1 : m.maxKey ≤ n := by
    unfold BMap.maxKey
    rw [foldr_max_le]
    intro k hk
    by_cases h : k ≤ n
    · exact h
    · have := mem_get hk
      rw [hle k (by omega)] at this
      cases this
  by_cases h0 : n = 0
  · omega
  · have h2 := hn h0
    obtain ⟨b, hb⟩ := Option.isSome_iff_exists.1 h2
    have h3 := get_some_mem hb
    have h4 : n ≤ m.maxKey := by
      unfold BMap.maxKey
      have := (foldr_max_le (m.map (·.1)) ((m.map (·.1)).foldr max 0)).1 (Nat.le_refl _)
      exact this n h3
    omega

theorem maxKey_bound (m : BMap) (i : Nat) (h : m.maxKey < i) : m.get i = none := by
  cases hg : m.get i with
  | none => rfl
  | some b =>
    have h3 := get_some_mem hg
    have := (foldr_max_le (m.map (·.1)) ((m.map (·.1)).foldr max 0)).1 (Nat.le_refl _) i h3
    unfold BMap.maxKey at h
    omega

theorem minKey_eq_one (m : BMap) (h : (m.get 1).isSome) : m.minKey = some 1 := by
  obtain ⟨b, hb⟩ := Option.isSome_iff_exists.1 h
  have hm := get_some_mem hb
  unfold BMap.minKey
  have key : ∀ l : List Nat, 1 ∈ l → l.foldr (fun k acc => if k = 0 then acc else match acc with
      | none => some k
      | some a => some (min k a)) none = some 1 := by
    have pos : ∀ l : List Nat, ∀ x, l.foldr (fun k acc => if k = 0 then acc else match acc with
      | none => some k
      | some a => some (min k a)) none = some x → 1 ≤ x := by
      intro l
      induction l with
      | nil => intro x h; cases h
      | cons a l ih =>
        intro x h
        rw [List.foldr_cons] at h
        by_cases ha : a = 0
        · rw [if_pos ha] at h; exact ih x h
        · rw [if_neg ha] at h
          cases hacc : l.foldr (fun k acc => if k = 0 then acc else match acc with
            | none => some k
            | some a => some (min k a)) none with
          | none => rw [hacc] at h; cases h; omega
          | some y =>
            rw [hacc] at h
            have := ih y hacc
            cases h
            omega
    intro l
    induction l with
    | nil => intro h; cases h
    | cons a l ih =>
      intro h
      rw [List.foldr_cons]
      rcases List.mem_cons.1 h with h | h
      · subst h
        rw [if_neg (by omega)]
        cases hacc : l.foldr (fun k acc => if k = 0 then acc else match acc with
            | none => some k
            | some a => some (min k a)) none with
        | none => rfl
        | some y =>
          have := pos l y hacc
          simp only [Option.some.injEq]
          omega
      · rw [ih h]
        by_cases ha : a = 0
        · rw [if_pos ha]
        · rw [if_neg ha]
          simp only [Option.some.injEq]
          omega
  exact key _ hm

theorem minKey_none (m : BMap) (h : ∀ i, m.get i = none) : m.minKey = none := by
  cases m with
  | nil => rfl
  | cons e m =>
    have := h e.1
    simp [BMap.get, List.find?_cons] at this

end BMap

/-! ## Association lists -/

theorem lookup_upsert {β : Type} (l : List (Str × β)) (k k' : Str) (v : β) :
    lookup (upsert l k v) k' = if k' = k then some v else lookup l k' := by
  unfold lookup upsert
  by_cases h : k' = k
  · simp [h]
  · have hk : (k == k') = false := by simp; exact fun h' => h h'.symm
    simp only [List.find?_cons, hk, h, if_false]
    congr 1
    induction l with
    | nil => rfl
    | cons e l ih =>
      by_cases he : e.1 = k
      · rw [List.filter_cons_of_neg (by simp [he]), ih]
        have : (e.1 == k') = false := by rw [he]; exact hk
        simp [List.find?_cons, this]
      · rw [List.filter_cons_of_pos (by simp [he])]
        simp only [List.find?_cons]
        cases e.1 == k' <;> simp [ih]

theorem lookup_some_mem {β : Type} {l : List (Str × β)} {k : Str} {v : β} (h : lookup l k = some v) : (k, v) ∈ l := by
  unfold lookup at h
  cases hf : l.find? fun e => e.1 == k with
  | none => rw [hf] at h; cases h
  | some e =>
    rw [hf] at h
    have h1 := List.mem_of_find?_eq_some hf
    have h2 := List.find?_some hf
    have h3 : e.1 = k := by simpa using h2
    cases h
    rw [← h3]
    exact h1

theorem lookup_none {β : Type} {l : List (Str × β)} {k : Str} (h : lookup l k = none) : k ∉ l.map (·.1) := by
  intro hm
  obtain ⟨e, he, hk⟩ := List.mem_map.1 hm
  unfold lookup at h
  rw [Option.map_eq_none_iff, List.find?_eq_none] at h
  exact h e he (by simp [hk])

theorem mem_lookup {β : Type} {l : List (Str × β)} (hn : (l.map (·.1)).Nodup) {k : Str} {v : β} (h : (k, v) ∈ l) :
    lookup l k = some v := by
  induction l with
  | nil => cases h
  | cons e l ih =>
    rw [List.map_cons, List.nodup_cons] at hn
    rcases List.mem_cons.1 h with h | h
    · subst h; simp [lookup]
    · have hne : (e.1 == k) = false := by
        simp
        intro he
        exact hn.1 (List.mem_map.2 ⟨_, h, he.symm⟩)
      unfold lookup
      rw [List.find?_cons, hne]
      exact ih hn.2 h

theorem lookup_cons {β : Type} (e : Str × β) (l : List (Str × β)) (k : Str) :
    lookup (e :: l) k = if e.1 = k then some e.2 else lookup l k := by
  unfold lookup
  by_cases h : e.1 = k
  · simp [h]
  · have : (e.1 == k) = false := by simp [h]
    simp [List.find?_cons, this, h]

/-! ## The effect of a batch on one key -/

/-- the last operation of a batch on a key: `none` untouched -/
def effect (ops : List KvOp) (f : Fam) (k : Str) : Option (Option Str) :=
  ops.foldl (fun acc o => match o with
    | .put f' k' v => if f = f' ∧ k = k' then some (some v) else acc
    | .del f' k' => if f = f' ∧ k = k' then some none else acc) none

theorem effect_foldl (ops : List KvOp) (f : Fam) (k : Str) (acc : Option (Option Str)) :
    ops.foldl (fun acc o => match o with
      | .put f' k' v => if f = f' ∧ k = k' then some (some v) else acc
      | .del f' k' => if f = f' ∧ k = k' then some none else acc) acc = (effect ops f k).or acc := by
  unfold effect
  induction ops generalizing acc with
  | nil => simp
  | cons o ops ih =>
    rw [List.foldl_cons, List.foldl_cons, ih]
    conv => rhs; rw [ih]
    cases o with
    | put f' k' v =>
      by_cases h : f = f' ∧ k = k'
      · simp [h, Option.or_assoc]
      · simp [h]
    | del f' k' =>
      by_cases h : f = f' ∧ k = k'
      · simp [h, Option.or_assoc]
      · simp [h]

theorem effect_append (a b : List KvOp) (f : Fam) (k : Str) :
    effect (a ++ b) f k = (effect b f k).or (effect a f k) := by
  rw [effect, List.foldl_append, effect_foldl]
  rfl

theorem effect_nil (f : Fam) (k : Str) : effect [] f k = none := rfl

theorem effect_put (f' : Fam) (k' v : Str) (f : Fam) (k : Str) :
    effect [.put f' k' v] f k = if f = f' ∧ k = k' then some (some v) else none := rfl

theorem effect_del (f' : Fam) (k' : Str) (f : Fam) (k : Str) :
    effect [.del f' k'] f k = if f = f' ∧ k = k' then some none else none := rfl

theorem effect_cons (o : KvOp) (ops : List KvOp) (f : Fam) (k : Str) :
    effect (o :: ops) f k = (effect ops f k).or (effect [o] f k) := effect_append [o] ops f k

theorem applyKv_eq (ops : List KvOp) (kv : Kv) (f : Fam) (k : Str) :
    applyKv kv ops f k = (effect ops f k).getD (kv f k) := by
  unfold applyKv
  induction ops generalizing kv with
  | nil => rfl
  | cons o ops ih =>
    rw [List.foldl_cons, ih, effect_cons]
    cases he : effect ops f k with
    | some x => simp
    | none =>
      rw [Option.none_or]
      cases o with
      | put f' k' v =>
        rw [effect_put]
        by_cases h : f = f' ∧ k = k'
        · simp [KvOp.apply, h]
        · simp [KvOp.apply, h]
      | del f' k' =>
        rw [effect_del]
        by_cases h : f = f' ∧ k = k'
        · simp [KvOp.apply, h]
        · simp [KvOp.apply, h]

/-- a list of writes of distinct keys of one family -/
theorem effect_puts {β : Type} (f' : Fam) (p : UInt8) (enc : β → Str) (kv : List (Str × β)) (hn : (kv.map (·.1)).Nodup)
    (f : Fam) (q : UInt8) (key : Str) :
    effect (kv.map fun e => KvOp.put f' (p :: e.1) (enc e.2)) f (q :: key) =
      if f = f' ∧ q = p then (lookup kv key).map (fun v => some (enc v)) else none := by
  induction kv with
  | nil => simp [effect_nil, lookup]
  | cons e kv ih =>
    rw [List.map_cons, List.nodup_cons] at hn
    rw [List.map_cons, effect_cons, ih hn.2, effect_put, lookup_cons]
    by_cases h : f = f' ∧ q = p
    · rw [if_pos h, if_pos h]
      by_cases hk : e.1 = key
      · have hl : lookup kv key = none := by
          cases hl : lookup kv key with
          | none => rfl
          | some v =>
            exfalso
            exact hn.1 (List.mem_map.2 ⟨_, lookup_some_mem hl, hk.symm⟩)
        simp [hl, hk, h]
      · have : ¬ key = e.1 := fun x => hk x.symm
        simp [hk, this]
    · rw [if_neg h, if_neg h]
      have : ¬ (f = f' ∧ q :: key = p :: e.1) := by
        intro ⟨h1, h2⟩
        exact h ⟨h1, (List.cons.inj h2).1⟩
      rw [if_neg this]
      rfl

theorem effect_dels (f' : Fam) (p : UInt8) (ks : List Str) (f : Fam) (q : UInt8) (key : Str) :
    effect (ks.map fun k => KvOp.del f' (p :: k)) f (q :: key) =
      if f = f' ∧ q = p ∧ key ∈ ks then some none else none := by
  induction ks with
  | nil => simp [effect_nil]
  | cons a ks ih =>
    rw [List.map_cons, effect_cons, ih, effect_del]
    by_cases h : f = f' ∧ q = p
    · obtain ⟨h1, h2⟩ := h
      subst h1 h2
      by_cases hk : key ∈ ks
      · simp [hk]
      · by_cases ha : key = a
        · subst ha
          simp [hk]
        · simp [hk, ha]
    · have h1 : ¬ (f = f' ∧ q = p ∧ key ∈ ks) := fun x => h ⟨x.1, x.2.1⟩
      have h2 : ¬ (f = f' ∧ q = p ∧ key ∈ a :: ks) := fun x => h ⟨x.1, x.2.1⟩
      have h3 : ¬ (f = f' ∧ q :: key = p :: a) := fun x => h ⟨x.1, (List.cons.inj x.2).1⟩
      rw [if_neg h1, if_neg h2, if_neg h3]
      rfl

/-! ## The writes of a block -/

/-- what the updates of one category do to a key -/
def touchIn (i : CatInput) (key : Str) : Option (Option (Str × Bool)) :=
  match i with
  | .merkle kv dels => if key ∈ dels then some none else (lookup kv key).map fun v => some (v, false)
  | .versioned kv dels => if key ∈ dels then some none else (lookup kv key).map fun v => some (v.data, v.stale)
  | .immutable kv => (lookup kv key).map fun v => some (v, true)

theorem touch_eq (u : Updates) (cat key : Str) : touch u cat key = (lookup u cat).bind fun i => touchIn i key := by
  unfold touch touchIn
  cases lookup u cat with
  | none => rfl
  | some i => cases i <;> rfl

/-- an entry as stored: immutable categories store no value -/
def encEntry (t : CatType) (v : Str) (st : Bool) (ver : Nat) : Str :=
  match t with
  | .immutable => encVal [] true ver
  | _ => encVal v st ver

theorem catOps_effect (p : UInt8) (id : Nat) (i : CatInput) (hn : NodupKeys i) (f : Fam) (q : UInt8) (key : Str) :
    effect (catOps p id i) f (q :: key) =
      if f = famOf (typeOf i) ∧ q = p then
        (touchIn i key).map fun o => o.map fun x => encEntry (typeOf i) x.1 x.2 id
      else none := by
  cases i with
  | merkle kv dels =>
    show effect (_ ++ _) f (q :: key) = _
    rw [effect_append, effect_dels, effect_puts .latest p (fun v => encVal v false id) kv hn]
    show _ = if f = .latest ∧ q = p then _ else _
    by_cases h : f = .latest ∧ q = p
    · rw [if_pos h, if_pos h]
      by_cases hd : key ∈ dels
      · simp [h, hd, touchIn]
      · simp [h, hd, touchIn, typeOf, encEntry, Function.comp_def]
    · have h1 : ¬ (f = .latest ∧ q = p ∧ key ∈ dels) := fun x => h ⟨x.1, x.2.1⟩
      rw [if_neg h, if_neg h, if_neg h1]
      rfl
  | versioned kv dels =>
    show effect (_ ++ _) f (q :: key) = _
    rw [effect_append, effect_dels, effect_puts .latest p (fun v : VVal => encVal v.data v.stale id) kv hn]
    show _ = if f = .latest ∧ q = p then _ else _
    by_cases h : f = .latest ∧ q = p
    · rw [if_pos h, if_pos h]
      by_cases hd : key ∈ dels
      · simp [h, hd, touchIn]
      · simp [h, hd, touchIn, typeOf, encEntry, Function.comp_def]
    · have h1 : ¬ (f = .latest ∧ q = p ∧ key ∈ dels) := fun x => h ⟨x.1, x.2.1⟩
      rw [if_neg h, if_neg h, if_neg h1]
      rfl
  | immutable kv =>
    show effect (kv.map fun e => KvOp.put .immut (p :: e.1) (encVal [] true id)) f (q :: key) = _
    rw [effect_puts .immut p (fun _ => encVal [] true id) kv hn]
    show _ = if f = .immut ∧ q = p then _ else _
    simp [touchIn, typeOf, encEntry, Function.comp_def]

/-- Registered categories have distinct prefixes -/
def CatsOk (cats : Cats) : Prop :=
  ∀ c c' t t' p, cats.get c = some (t, p) → cats.get c' = some (t', p) → c = c'

theorem latestOps_effect {cats : Cats} (hc : CatsOk cats) {id : Nat} {u : Updates} {ops : List KvOp}
    (hu : UpdOk cats u) (h : latestOps cats id u = .ok ops) {cat : Str} {t : CatType} {p : UInt8}
    (hcat : cats.get cat = some (t, p)) (key : Str) :
    effect ops (famOf t) (p :: key) =
      (touch u cat key).map fun o => o.map fun x => encEntry t x.1 x.2 id := by
  induction u generalizing ops with
  | nil => cases h; rfl
  | cons e u ih =>
    obtain ⟨c, i⟩ := e
    have hu' : UpdOk cats u := by
      refine ⟨?_, ?_, ?_⟩
      · have := hu.nodup
        rw [List.map_cons, List.nodup_cons] at this
        exact this.2
      · intro c' i' hm; exact hu.keys c' i' (List.mem_cons_of_mem _ hm)
      · intro c' i' t' p' hm; exact hu.typed c' i' t' p' (List.mem_cons_of_mem _ hm)
    unfold latestOps at h
    cases hg : cats.get c with
    | none => rw [hg] at h; cases h
    | some tp =>
      obtain ⟨t', p'⟩ := tp
      rw [hg] at h
      dsimp only at h
      cases ho : latestOps cats id u with
      | error e => rw [ho] at h; cases h
      | ok ops' =>
        rw [ho] at h
        have h : Except.ok (catOps p' id i ++ ops') = Except.ok ops := h
        cases h
        rw [effect_append, ih hu' ho, catOps_effect _ _ _ (hu.keys c i (List.mem_cons_self ..)), touch_eq, touch_eq,
          lookup_cons]
        have hty := hu.typed c i t' p' (List.mem_cons_self ..) hg
        by_cases hce : c = cat
        · subst hce
          rw [hcat] at hg
          cases hg
          have hnone : lookup u c = none := by
            cases hl : lookup u c with
            | none => rfl
            | some v =>
              exfalso
              have hnd := hu.nodup
              rw [List.map_cons, List.nodup_cons] at hnd
              exact hnd.1 (List.mem_map.2 ⟨_, lookup_some_mem hl, rfl⟩)
          rw [hnone, if_pos rfl, ← hty, if_pos ⟨rfl, rfl⟩]
          rfl
        · have hp : ¬ (famOf t = famOf (typeOf i) ∧ p = p') := by
            intro ⟨_, h2⟩
            subst h2
            exact hce (hc _ _ _ _ _ hg hcat)
          rw [if_neg hp, if_neg hce, Option.or_none]

/-! ## The operations that revert a block -/

theorem effect_revertPut (view : Kv) (f' : Fam) (k' : Str) (f : Fam) (k : Str) :
    effect [revertPut view f' k'] f k = if f = f' ∧ k = k' then some (view f' k') else none := by
  unfold revertPut
  cases view f' k' with
  | some v => rw [effect_put]
  | none => rw [effect_del]

theorem effect_revertPuts {β : Type} (view : Kv) (f' : Fam) (p : UInt8) (kv : List (Str × β)) (f : Fam) (q : UInt8)
    (key : Str) :
    effect (kv.map fun e => revertPut view f' (p :: e.1)) f (q :: key) =
      if f = f' ∧ q = p ∧ (lookup kv key).isSome then some (view f' (p :: key)) else none := by
  induction kv with
  | nil => simp [effect_nil, lookup]
  | cons e kv ih =>
    rw [List.map_cons, effect_cons, ih, effect_revertPut, lookup_cons]
    by_cases h : f = f' ∧ q = p
    · obtain ⟨h1, h2⟩ := h
      subst h1 h2
      by_cases hk : e.1 = key
      · subst hk
        cases hl : lookup kv e.1 <;> simp
      · have : ¬ key = e.1 := fun x => hk x.symm
        cases hl : lookup kv key <;> simp [hk, this]
    · have h1 : ¬ (f = f' ∧ q = p ∧ (lookup kv key).isSome) := fun x => h ⟨x.1, x.2.1⟩
      have h2 : ¬ (f = f' ∧ q = p ∧ (if e.1 = key then some e.2 else lookup kv key).isSome) := fun x => h ⟨x.1, x.2.1⟩
      have h3 : ¬ (f = f' ∧ q :: key = p :: e.1) := fun x => h ⟨x.1, (List.cons.inj x.2).1⟩
      rw [if_neg h1, if_neg h2, if_neg h3]
      rfl

theorem effect_revertDels (view : Kv) (p : UInt8) (ks : List Str) (f : Fam) (q : UInt8) (key : Str) :
    effect (ks.flatMap fun k => revertDel view (p :: k)) f (q :: key) =
      if f = .latest ∧ q = p ∧ key ∈ ks then (view .latest (p :: key)).map some else none := by
  induction ks with
  | nil => simp [effect_nil]
  | cons a ks ih =>
    rw [List.flatMap_cons, effect_append, ih]
    have hd : effect (revertDel view (p :: a)) f (q :: key) =
        if f = .latest ∧ q :: key = p :: a then (view .latest (p :: a)).map some else none := by
      unfold revertDel
      cases view .latest (p :: a) with
      | some v => rw [effect_put]; rfl
      | none => rw [effect_nil]; simp
    rw [hd]
    by_cases h : f = .latest ∧ q = p
    · obtain ⟨h1, h2⟩ := h
      subst h1 h2
      by_cases ha : key = a
      · subst ha
        by_cases hk : key ∈ ks
        · simp [hk]
        · simp [hk]
      · simp [ha]
    · have h1 : ¬ (f = .latest ∧ q = p ∧ key ∈ ks) := fun x => h ⟨x.1, x.2.1⟩
      have h2 : ¬ (f = .latest ∧ q = p ∧ key ∈ a :: ks) := fun x => h ⟨x.1, x.2.1⟩
      have h3 : ¬ (f = .latest ∧ q :: key = p :: a) := fun x => h ⟨x.1, (List.cons.inj x.2).1⟩
      rw [if_neg h1, if_neg h2, if_neg h3]
      rfl

/-- Reverting a block: a key it does not touch is left alone; a key it touches gets the value of the snapshot, except
that a key it deletes and that the snapshot does not have may be left alone. -/
theorem revertOps_effect {cats : Cats} (hc : CatsOk cats) {view : Kv} {u : Updates} {ops : List KvOp}
    (hu : UpdOk cats u) (h : revertOps cats view u = .ok ops) {cat : Str} {t : CatType} {p : UInt8}
    (hcat : cats.get cat = some (t, p)) (key : Str) :
    match touch u cat key with
    | none => effect ops (famOf t) (p :: key) = none
    | some (some _) => effect ops (famOf t) (p :: key) = some (view (famOf t) (p :: key))
    | some none => effect ops (famOf t) (p :: key) = some (view (famOf t) (p :: key)) ∨
        (effect ops (famOf t) (p :: key) = none ∧ view (famOf t) (p :: key) = none) := by
  have one : ∀ (i : CatInput) (q : UInt8),
      (¬ (q = p ∧ famOf (typeOf i) = famOf t) → effect (revertCatOps view q i) (famOf t) (p :: key) = none) ∧
      (q = p → typeOf i = t →
        match touchIn i key with
        | none => effect (revertCatOps view q i) (famOf t) (p :: key) = none
        | some (some _) => effect (revertCatOps view q i) (famOf t) (p :: key) = some (view (famOf t) (p :: key))
        | some none => effect (revertCatOps view q i) (famOf t) (p :: key) = some (view (famOf t) (p :: key)) ∨
            (effect (revertCatOps view q i) (famOf t) (p :: key) = none ∧ view (famOf t) (p :: key) = none)) := by
    have core : ∀ {β : Type} (kv : List (Str × β)) (dels : List Str) (q : UInt8),
        effect (kv.map (fun e => revertPut view .latest (q :: e.1)) ++ dels.flatMap fun k => revertDel view (q :: k))
          (famOf t) (p :: key) =
        (if famOf t = .latest ∧ p = q ∧ key ∈ dels then (view .latest (q :: key)).map some else none).or
          (if famOf t = .latest ∧ p = q ∧ (lookup kv key).isSome then some (view .latest (q :: key)) else none) := by
      intro β kv dels q
      rw [effect_append, effect_revertDels, effect_revertPuts]
    intro i q
    cases i with
    | merkle kv dels =>
      constructor
      · intro hne
        show effect (_ ++ _) _ _ = none
        rw [core]
        have h1 : ¬ (famOf t = .latest ∧ p = q ∧ key ∈ dels) := fun x => hne ⟨x.2.1.symm, x.1.symm⟩
        have h2 : ¬ (famOf t = .latest ∧ p = q ∧ (lookup kv key).isSome) := fun x => hne ⟨x.2.1.symm, x.1.symm⟩
        rw [if_neg h1, if_neg h2]
        rfl
      · intro hq ht
        subst hq
        have hf : famOf t = .latest := by rw [← ht]; rfl
        show (match touchIn (.merkle kv dels) key with
          | none => effect (_ ++ _) _ _ = none
          | some (some _) => effect (_ ++ _) _ _ = _
          | some none => effect (_ ++ _) _ _ = _ ∨ (effect (_ ++ _) _ _ = _ ∧ _))
        rw [core, hf]
        unfold touchIn
        by_cases hd : key ∈ dels
        · simp only [hd, if_true, and_self]
          cases hv : view .latest (q :: key) <;> cases hl : lookup kv key <;> simp
        · simp only [hd, if_false]
          cases hl : lookup kv key <;> simp
    | versioned kv dels =>
      constructor
      · intro hne
        show effect (_ ++ _) _ _ = none
        rw [core]
        have h1 : ¬ (famOf t = .latest ∧ p = q ∧ key ∈ dels) := fun x => hne ⟨x.2.1.symm, x.1.symm⟩
        have h2 : ¬ (famOf t = .latest ∧ p = q ∧ (lookup kv key).isSome) := fun x => hne ⟨x.2.1.symm, x.1.symm⟩
        rw [if_neg h1, if_neg h2]
        rfl
      · intro hq ht
        subst hq
        have hf : famOf t = .latest := by rw [← ht]; rfl
        show (match touchIn (.versioned kv dels) key with
          | none => effect (_ ++ _) _ _ = none
          | some (some _) => effect (_ ++ _) _ _ = _
          | some none => effect (_ ++ _) _ _ = _ ∨ (effect (_ ++ _) _ _ = _ ∧ _))
        rw [core, hf]
        unfold touchIn
        by_cases hd : key ∈ dels
        · simp only [hd, if_true, and_self]
          cases hv : view .latest (q :: key) <;> cases hl : lookup kv key <;> simp
        · simp only [hd, if_false]
          cases hl : lookup kv key <;> simp
    | immutable kv =>
      constructor
      · intro hne
        show effect (kv.map fun e => revertPut view .immut (q :: e.1)) _ _ = none
        rw [effect_revertPuts]
        have h2 : ¬ (famOf t = .immut ∧ p = q ∧ (lookup kv key).isSome) := fun x => hne ⟨x.2.1.symm, x.1.symm⟩
        rw [if_neg h2]
      · intro hq ht
        subst hq
        have hf : famOf t = .immut := by rw [← ht]; rfl
        show (match touchIn (.immutable kv) key with
          | none => effect (kv.map fun e => revertPut view .immut (q :: e.1)) _ _ = none
          | some (some _) => effect (kv.map fun e => revertPut view .immut (q :: e.1)) _ _ = _
          | some none => effect (kv.map fun e => revertPut view .immut (q :: e.1)) _ _ = _ ∨
              (effect (kv.map fun e => revertPut view .immut (q :: e.1)) _ _ = _ ∧ _))
        rw [effect_revertPuts, hf]
        simp only [touchIn]
        cases hl : lookup kv key <;> simp
  induction u generalizing ops with
  | nil => cases h; rfl
  | cons e u ih =>
    obtain ⟨c, i⟩ := e
    have hu' : UpdOk cats u := by
      refine ⟨?_, ?_, ?_⟩
      · have := hu.nodup
        rw [List.map_cons, List.nodup_cons] at this
        exact this.2
      · intro c' i' hm; exact hu.keys c' i' (List.mem_cons_of_mem _ hm)
      · intro c' i' t' p' hm; exact hu.typed c' i' t' p' (List.mem_cons_of_mem _ hm)
    unfold revertOps at h
    cases hg : cats.get c with
    | none => rw [hg] at h; cases h
    | some tp =>
      obtain ⟨t', p'⟩ := tp
      rw [hg] at h
      dsimp only at h
      cases ho : revertOps cats view u with
      | error e => rw [ho] at h; cases h
      | ok ops' =>
        rw [ho] at h
        have h : Except.ok (revertCatOps view p' i ++ ops') = Except.ok ops := h
        cases h
        have hi := ih hu' ho
        have hty := hu.typed c i t' p' (List.mem_cons_self ..) hg
        rw [touch_eq, lookup_cons]
        rw [touch_eq] at hi
        by_cases hce : c = cat
        · subst hce
          rw [hcat] at hg
          cases hg
          have hnone : lookup u c = none := by
            cases hl : lookup u c with
            | none => rfl
            | some v =>
              exfalso
              have hnd := hu.nodup
              rw [List.map_cons, List.nodup_cons] at hnd
              exact hnd.1 (List.mem_map.2 ⟨_, lookup_some_mem hl, rfl⟩)
          rw [hnone] at hi
          have hi : effect ops' (famOf t) (p :: key) = none := hi
          rw [if_pos rfl, effect_append, hi, Option.none_or]
          exact (one i p).2 rfl hty.symm
        · have hp : ¬ (p' = p ∧ famOf (typeOf i) = famOf t) := by
            intro ⟨h2, _⟩
            subst h2
            exact hce (hc _ _ _ _ _ hg hcat)
          rw [if_neg hce, effect_append, (one i p').1 hp, Option.or_none]
          exact hi

end Verif.V4
