import Verif.Kvbc.VersionedLemmas
set_option linter.unusedVariables false
set_option linter.unusedSimpArgs false
set_option linter.unusedSectionVars false
/-!
# Ordered maps as lists

`std::map` and the ordered database: the list of the entries in increasing order of the keys.
-/
namespace Verif.Rp

variable {α β : Type}

/-- `operator<` of the keys -/
structure Strict (lt : α → α → Bool) : Prop where
  irrefl : ∀ a, lt a a = false
  trans : ∀ a b c, lt a b = true → lt b c = true → lt a c = true
  total : ∀ a b, a ≠ b → lt a b = true ∨ lt b a = true

/-- insertion, or replacement of the value -/
def put (lt : α → α → Bool) (k : α) (v : β) : List (α × β) → List (α × β)
  | [] => [(k, v)]
  | e :: es => if lt k e.1 then (k, v) :: e :: es else if lt e.1 k then e :: put lt k v es else (k, v) :: es

/-- `find` -/
def get [DecidableEq α] (k : α) : List (α × β) → Option β
  | [] => none
  | e :: es => if e.1 = k then some e.2 else get k es

/-- `erase` -/
def del [DecidableEq α] (k : α) (m : List (α × β)) : List (α × β) := m.filter (fun e => decide (e.1 ≠ k))

/-- `lower_bound`, `seekAtLeast`: from the first key that is not below -/
def lower (lt : α → α → Bool) (k : α) (m : List (α × β)) : List (α × β) := m.dropWhile (fun e => lt e.1 k)

/-- the keys increase -/
def Inc (lt : α → α → Bool) (m : List (α × β)) : Prop := m.Pairwise (fun a b => lt a.1 b.1 = true)

theorem Strict.asymm {lt : α → α → Bool} (h : Strict lt) {a b : α} (g : lt a b = true) : lt b a = false := by
  cases e : lt b a with
  | false => rfl
  | true =>
    have := h.trans _ _ _ g e
    rw [h.irrefl] at this
    cases this

theorem Strict.ne {lt : α → α → Bool} (h : Strict lt) {a b : α} (g : lt a b = true) : a ≠ b := by
  intro e
  rw [e, h.irrefl] at g
  cases g

theorem Strict.eq_of {lt : α → α → Bool} (h : Strict lt) {a b : α} (g : lt a b = false) (g' : lt b a = false) : a = b := by
  refine Classical.byContradiction fun hne => ?_
  rcases h.total a b hne with e | e
  · rw [g] at e; cases e
  · rw [g'] at e; cases e

section
variable [DecidableEq α] {lt : α → α → Bool}

theorem Inc.nil : Inc lt ([] : List (α × β)) := List.Pairwise.nil

theorem mem_of_get {m : List (α × β)} {k : α} {v : β} (h : get k m = some v) : (k, v) ∈ m := by
  induction m with
  | nil => cases h
  | cons e es ih =>
    rw [get] at h
    split at h
    · rename_i g
      cases h
      rw [← g]
      exact List.mem_cons_self
    · exact List.mem_cons_of_mem _ (ih h)

theorem Inc.inj (hs : Strict lt) {m : List (α × β)} (h : Inc lt m) {k : α} {v w : β} (a : (k, v) ∈ m) (b : (k, w) ∈ m) : v = w := by
  induction m with
  | nil => cases a
  | cons e es ih =>
    rw [Inc, List.pairwise_cons] at h
    rcases List.mem_cons.1 a with ea | ha
    · rcases List.mem_cons.1 b with eb | hb
      · rw [← ea] at eb; cases eb; rfl
      · have := h.1 _ hb
        rw [← ea] at this
        exact absurd rfl (hs.ne this)
    · rcases List.mem_cons.1 b with eb | hb
      · have := h.1 _ ha
        rw [← eb] at this
        exact absurd rfl (hs.ne this)
      · exact ih h.2 ha hb

theorem get_none {m : List (α × β)} {k : α} : get k m = none ↔ ∀ v, (k, v) ∉ m := by
  induction m with
  | nil => exact ⟨fun _ v h => (by cases h), fun _ => rfl⟩
  | cons e es ih =>
    rw [get]
    split
    · rename_i g
      constructor
      · intro h; cases h
      · intro h
        exact absurd (by rw [← g]; exact List.mem_cons_self) (h e.2)
    · rename_i g
      rw [ih]
      constructor
      · intro h v hv
        rcases List.mem_cons.1 hv with e' | hv
        · rw [← e'] at g; exact g rfl
        · exact h v hv
      · intro h v hv
        exact h v (List.mem_cons_of_mem _ hv)

theorem Inc.get_mem (hs : Strict lt) {m : List (α × β)} (h : Inc lt m) {k : α} {v : β} : get k m = some v ↔ (k, v) ∈ m := by
  constructor
  · exact mem_of_get
  · intro hm
    cases e : get k m with
    | none => exact absurd hm (get_none.1 e v)
    | some w => rw [h.inj hs (mem_of_get e) hm]

theorem mem_put (hs : Strict lt) {m : List (α × β)} (h : Inc lt m) {k : α} {v : β} {x : α × β} : x ∈ put lt k v m ↔ x = (k, v) ∨ (x.1 ≠ k ∧ x ∈ m) := by
  induction m with
  | nil =>
    rw [put, List.mem_singleton]
    constructor
    · intro h; exact .inl h
    · rintro (h | ⟨_, h⟩)
      · exact h
      · cases h
  | cons e es ih =>
    rw [Inc, List.pairwise_cons] at h
    rw [put]
    split
    · rename_i g
      rw [List.mem_cons]
      constructor
      · rintro (e1 | e1)
        · exact .inl e1
        · refine .inr ⟨?_, e1⟩
          rcases List.mem_cons.1 e1 with e2 | e2
          · rw [e2]; exact (hs.ne g).symm
          · exact (hs.ne (hs.trans _ _ _ g (h.1 _ e2))).symm
      · rintro (e1 | ⟨_, e1⟩)
        · exact .inl e1
        · exact .inr e1
    · rename_i g1
      split
      · rename_i g2
        rw [List.mem_cons, ih h.2, List.mem_cons]
        constructor
        · rintro (e1 | e1 | ⟨e1, e2⟩)
          · exact .inr ⟨by rw [e1]; exact hs.ne g2, .inl e1⟩
          · exact .inl e1
          · exact .inr ⟨e1, .inr e2⟩
        · rintro (e1 | ⟨e1, e2 | e2⟩)
          · exact .inr (.inl e1)
          · exact .inl e2
          · exact .inr (.inr ⟨e1, e2⟩)
      · rename_i g2
        have ek : e.1 = k := hs.eq_of (by simpa using g2) (by simpa using g1)
        rw [List.mem_cons, List.mem_cons]
        constructor
        · rintro (e1 | e1)
          · exact .inl e1
          · refine .inr ⟨?_, .inr e1⟩
            rw [← ek]
            exact (hs.ne (h.1 _ e1)).symm
        · rintro (e1 | ⟨e1, e2 | e2⟩)
          · exact .inl e1
          · rw [e2] at e1; exact absurd ek e1
          · exact .inr e2

theorem Inc.put (hs : Strict lt) {m : List (α × β)} (h : Inc lt m) (k : α) (v : β) : Inc lt (put lt k v m) := by
  induction m with
  | nil => exact List.pairwise_singleton _ _
  | cons e es ih =>
    have h0 := h
    rw [Inc, List.pairwise_cons] at h
    rw [Rp.put]
    split
    · rename_i g
      rw [Inc, List.pairwise_cons]
      refine ⟨fun x hx => ?_, h0⟩
      rcases List.mem_cons.1 hx with e2 | e2
      · rw [e2]; exact g
      · exact hs.trans _ _ _ g (h.1 _ e2)
    · rename_i g1
      split
      · rename_i g2
        rw [Inc, List.pairwise_cons]
        refine ⟨fun x hx => ?_, ih h.2⟩
        rcases (mem_put hs h.2).1 hx with e2 | ⟨_, e2⟩
        · rw [e2]; exact g2
        · exact h.1 _ e2
      · rename_i g2
        have ek : e.1 = k := hs.eq_of (by simpa using g2) (by simpa using g1)
        rw [Inc, List.pairwise_cons]
        refine ⟨fun x hx => ?_, h.2⟩
        show lt k x.1 = true
        rw [← ek]
        exact h.1 _ hx

theorem get_put (hs : Strict lt) {m : List (α × β)} (h : Inc lt m) (k : α) (v : β) (k' : α) : get k' (put lt k v m) = if k' = k then some v else get k' m := by
  split
  · rename_i g
    rw [(h.put hs k v).get_mem hs, mem_put hs h, g]
    exact .inl rfl
  · rename_i g
    cases e : get k' m with
    | none =>
      rw [get_none] at e ⊢
      intro w hw
      rcases (mem_put hs h).1 hw with e2 | ⟨_, e2⟩
      · cases e2; exact g rfl
      · exact e w e2
    | some w =>
      rw [(h.put hs k v).get_mem hs, mem_put hs h]
      exact .inr ⟨g, mem_of_get e⟩

theorem Inc.del {m : List (α × β)} (h : Inc lt m) (k : α) : Inc lt (del k m) := List.Pairwise.filter _ h

theorem mem_del {m : List (α × β)} {k : α} {x : α × β} : x ∈ del k m ↔ x.1 ≠ k ∧ x ∈ m := by
  rw [del, List.mem_filter]
  simp [and_comm]

theorem get_del {m : List (α × β)} (k k' : α) : get k' (del k m) = if k' = k then none else get k' m := by
  induction m with
  | nil => split <;> rfl
  | cons e es ih =>
    rw [del, List.filter_cons]
    split
    · rename_i g
      have g : e.1 ≠ k := by simpa using g
      rw [get, get]
      have : get k' (List.filter (fun e => decide (e.1 ≠ k)) es) = get k' (del k es) := rfl
      rw [this, ih]
      by_cases h1 : e.1 = k'
      · rw [if_pos h1, if_pos h1, if_neg (by rw [← h1]; exact g)]
      · rw [if_neg h1, if_neg h1]
    · rename_i g
      have g : e.1 = k := by simpa using g
      have : get k' (List.filter (fun e => decide (e.1 ≠ k)) es) = get k' (del k es) := rfl
      rw [this, ih, get]
      split
      · rfl
      · rename_i h1
        rw [if_neg (by rw [g]; exact fun h => h1 h.symm)]

theorem mem_lower (hs : Strict lt) {m : List (α × β)} (h : Inc lt m) {k : α} {x : α × β} : x ∈ lower lt k m ↔ x ∈ m ∧ lt x.1 k = false := by
  induction m with
  | nil => exact ⟨fun h => (by cases h), fun h => (by cases h.1)⟩
  | cons e es ih =>
    rw [Inc, List.pairwise_cons] at h
    rw [lower, List.dropWhile_cons]
    split
    · rename_i g
      have : List.dropWhile (fun e => lt e.1 k) es = lower lt k es := rfl
      rw [this, ih h.2, List.mem_cons]
      constructor
      · rintro ⟨a, b⟩; exact ⟨.inr a, b⟩
      · rintro ⟨a | a, b⟩
        · rw [a, g] at b; cases b
        · exact ⟨a, b⟩
    · rename_i g
      constructor
      · intro hx
        refine ⟨hx, ?_⟩
        rcases List.mem_cons.1 hx with e2 | e2
        · rw [e2]; simpa using g
        · cases e3 : lt x.1 k with
          | false => rfl
          | true => exact absurd (hs.trans _ _ _ (h.1 _ e2) e3) g
      · exact fun hx => hx.1

theorem Inc.lower {m : List (α × β)} (h : Inc lt m) (k : α) : Inc lt (lower lt k m) :=
  h.sublist (List.dropWhile_sublist _)

/-- two increasing lists with the same entries are equal -/
theorem Inc.ext (hs : Strict lt) : ∀ {m m' : List (α × β)}, Inc lt m → Inc lt m' → (∀ x, x ∈ m ↔ x ∈ m') → m = m'
  | [], [], _, _, _ => rfl
  | [], e :: _, _, _, h => absurd ((h e).2 List.mem_cons_self) (by simp)
  | e :: _, [], _, _, h => absurd ((h e).1 List.mem_cons_self) (by simp)
  | e :: es, f :: fs, h1, h2, h => by
    rw [Inc, List.pairwise_cons] at h1 h2
    have hef : e = f := by
      rcases List.mem_cons.1 ((h e).1 List.mem_cons_self) with a | a
      · exact a
      · rcases List.mem_cons.1 ((h f).2 List.mem_cons_self) with b | b
        · exact b.symm
        · have := hs.asymm (h2.1 _ a)
          rw [h1.1 _ b] at this
          cases this
    subst hef
    congr 1
    refine Inc.ext hs h1.2 h2.2 fun x => ?_
    constructor
    · intro hx
      rcases List.mem_cons.1 ((h x).1 (List.mem_cons_of_mem _ hx)) with a | a
      · have := h1.1 _ hx
        rw [a, hs.irrefl] at this; cases this
      · exact a
    · intro hx
      rcases List.mem_cons.1 ((h x).2 (List.mem_cons_of_mem _ hx)) with a | a
      · have := h2.1 _ hx
        rw [a, hs.irrefl] at this; cases this
      · exact a

theorem Inc.nodup (hs : Strict lt) {m : List (α × β)} (h : Inc lt m) : (m.map (·.1)).Nodup := by
  rw [List.Nodup, List.pairwise_map]
  exact h.imp (fun g => hs.ne g)

end

/-- `operator<` of numbers -/
def natLt (a b : Nat) : Bool := decide (a < b)

theorem natLt_strict : Strict natLt where
  irrefl a := by simp [natLt]
  trans a b c h1 h2 := by simp only [natLt, decide_eq_true_eq] at *; omega
  total a b h := by simp only [natLt, decide_eq_true_eq]; omega

/-- `ResPageKey::operator<` (InMemoryDataStore.hpp:187-197) -/
def pageLt (a b : Nat × Nat) : Bool := if a.1 ≠ b.1 then decide (a.1 < b.1) else decide (b.2 < a.2)

theorem pageLt_iff {a b : Nat × Nat} : pageLt a b = true ↔ a.1 < b.1 ∨ (a.1 = b.1 ∧ b.2 < a.2) := by
  unfold pageLt
  split
  · rename_i h
    rw [decide_eq_true_eq]
    omega
  · rename_i h
    rw [decide_eq_true_eq]
    omega

theorem pageLt_strict : Strict pageLt where
  irrefl a := by
    cases h : pageLt a a with
    | false => rfl
    | true => rw [pageLt_iff] at h; omega
  trans a b c h1 h2 := by rw [pageLt_iff] at *; omega
  total a b h := by
    rw [pageLt_iff, pageLt_iff]
    have : a.1 ≠ b.1 ∨ a.2 ≠ b.2 := by
      refine Classical.byContradiction fun hn => h ?_
      have : a.1 = b.1 ∧ a.2 = b.2 := by omega
      exact Prod.ext this.1 this.2
    omega

/-- the order of keys in the database, byte by byte -/
theorem keyLt_strict : Strict Kvbc.keyLt where
  irrefl := Kvbc.keyLt_irrefl
  trans := Kvbc.keyLt_trans
  total a b h := by
    cases e : Kvbc.keyLt a b with
    | true => exact .inl rfl
    | false => exact .inr (Kvbc.keyLt_total a b h e)

end Verif.Rp
