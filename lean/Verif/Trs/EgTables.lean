set_option linter.unusedVariables false
/-!
# Event groups: the tables of one client (C32)

`KvbAppFilter` (kvbc/src/kvbc_app_filter/kvbc_app_filter.cpp) reads three categories.  They are written by the application, not in
the repository; their contents are documented by how they are read: "data" holds event group `g` (`g = 1, 2, …`, the *global* id);
"tag" holds for the `i`-th public event group, and for the `i`-th event group private to the client, its global id and its external
id; "latest" holds the first and last such `i` still stored.  Here the tables are derived from the list of all event groups ever
written and the number of pruned ones.  Assumption: an event group is public, or private (to this client or to others).
-/
namespace Verif.Trs

/-- what an event group is to the client -/
inductive Kind where
  | pub
  | priv
  | other
deriving DecidableEq

def isPub : Kind → Bool
  | .pub => true
  | _ => false
def isPriv : Kind → Bool
  | .priv => true
  | _ => false
/-- the client may see it (`filterEventGroupUpdate` is not empty, kvbc_app_filter.cpp:163-171) -/
def isRel : Kind → Bool
  | .other => false
  | _ => true

/-- storage: all event groups ever written, in order, and how many of the oldest are pruned -/
structure Snap where
  G : List Kind
  pruned : Nat
deriving DecidableEq

/-- number of event groups with property `p` among the first `g` -/
def cnt (p : Kind → Bool) (G : List Kind) (g : Nat) : Nat := ((G.take g).filter p).length

/-- event group `g` has property `p` -/
def At (p : Kind → Bool) (G : List Kind) (g : Nat) : Prop := 1 ≤ g ∧ ∃ x, G[g - 1]? = some x ∧ p x = true

/-- event group `g` has property `p` (computable) -/
def atB (p : Kind → Bool) (G : List Kind) (g : Nat) : Bool :=
  1 ≤ g && (match G[g - 1]? with
    | some x => p x
    | none => false)

/-- global id of the `i`-th event group with property `p` -/
def nth (p : Kind → Bool) (G : List Kind) (i : Nat) : Option Nat :=
  (List.range' 1 G.length).find? (fun g => atB p G g && cnt p G g == i)

theorem cnt_zero (p : Kind → Bool) (G : List Kind) : cnt p G 0 = 0 := rfl

theorem cnt_succ (p : Kind → Bool) (G : List Kind) (g : Nat) : cnt p G (g + 1) = cnt p G g + (match G[g]? with
    | some x => if p x then 1 else 0
    | none => 0) := by
  rw [cnt, cnt, List.take_succ]
  cases h : G[g]? with
  | none => simp
  | some x =>
    simp only [Option.toList_some, List.filter_append, List.length_append]
    cases hp : p x <;> simp [hp]

theorem cnt_mono (p : Kind → Bool) (G : List Kind) {a b : Nat} (h : a ≤ b) : cnt p G a ≤ cnt p G b := by
  induction b with
  | zero => rw [Nat.le_zero.1 h]; exact Nat.le_refl _
  | succ b ih =>
    by_cases hab : a = b + 1
    · rw [hab]; exact Nat.le_refl _
    · rw [cnt_succ]
      exact Nat.le_trans (ih (by omega)) (Nat.le_add_right _ _)

theorem cnt_all (p : Kind → Bool) (G : List Kind) {g : Nat} (h : G.length ≤ g) : cnt p G g = cnt p G G.length := by
  rw [cnt, cnt, List.take_of_length_le h, List.take_length]

theorem at_le {p : Kind → Bool} {G : List Kind} {g : Nat} (h : At p G g) : g ≤ G.length := by
  obtain ⟨h1, x, h2, _⟩ := h
  have := (List.getElem?_eq_some_iff.1 h2).1
  omega

/-- the count goes up exactly at the event groups with the property -/
theorem cnt_at {p : Kind → Bool} {G : List Kind} {g : Nat} (h : At p G g) : cnt p G g = cnt p G (g - 1) + 1 := by
  obtain ⟨h1, x, h2, h3⟩ := h
  have e : g = (g - 1) + 1 := by omega
  rw [e, cnt_succ, Nat.add_sub_cancel, h2]
  simp [h3]

theorem cnt_lt_of_at {p : Kind → Bool} {G : List Kind} {a g : Nat} (h : At p G g) (ha : a < g) : cnt p G a < cnt p G g := by
  have h1 := cnt_at h
  have h2 := cnt_mono p G (show a ≤ g - 1 by omega)
  omega

/-- below a larger count there is an event group with the property -/
theorem exists_at {p : Kind → Bool} {G : List Kind} {i : Nat} : ∀ {b : Nat}, 1 ≤ i → i ≤ cnt p G b → ∃ g, g ≤ b ∧ At p G g ∧ cnt p G g = i := by
  intro b
  induction b with
  | zero => intro h1 h2; rw [cnt_zero] at h2; omega
  | succ b ih =>
    intro h1 h2
    by_cases hb : i ≤ cnt p G b
    · obtain ⟨g, g1, g2⟩ := ih h1 hb
      exact ⟨g, by omega, g2⟩
    · have h3 := cnt_succ p G b
      cases hx : G[b]? with
      | none => rw [hx] at h3; simp at h3; omega
      | some x =>
        rw [hx] at h3
        dsimp only at h3
        cases hp : p x with
        | false => rw [hp] at h3; simp at h3; omega
        | true =>
          rw [hp] at h3
          simp only [if_true] at h3
          exact ⟨b + 1, Nat.le_refl _, ⟨by omega, x, by rw [Nat.add_sub_cancel]; exact hx, hp⟩, by omega⟩

theorem at_unique {p : Kind → Bool} {G : List Kind} {g h : Nat} (hg : At p G g) (hh : At p G h) (he : cnt p G g = cnt p G h) : g = h := by
  rcases Nat.lt_trichotomy g h with h1 | h1 | h1
  · have := cnt_lt_of_at hh h1; omega
  · exact h1
  · have := cnt_lt_of_at hg h1; omega

theorem atB_iff {p : Kind → Bool} {G : List Kind} {g : Nat} : atB p G g = true ↔ At p G g := by
  rw [atB, At]
  cases h : G[g - 1]? with
  | none => simp
  | some x => simp

/-- **Specification of `nth`.** -/
theorem nth_iff {p : Kind → Bool} {G : List Kind} {i g : Nat} : nth p G i = some g ↔ At p G g ∧ cnt p G g = i := by
  constructor
  · intro h
    have := List.find?_some h
    simp only [Bool.and_eq_true, beq_iff_eq] at this
    exact ⟨atB_iff.1 this.1, this.2⟩
  · rintro ⟨h1, h2⟩
    cases hn : nth p G i with
    | none =>
      have h3 := List.find?_eq_none.1 hn g (by
        rw [List.mem_range'_1]
        have := at_le h1
        have := h1.1
        omega)
      simp [atB_iff.2 h1, h2] at h3
    | some g' =>
      have := List.find?_some hn
      simp only [Bool.and_eq_true, beq_iff_eq] at this
      rw [at_unique (atB_iff.1 this.1) h1 (by rw [this.2, h2])]

theorem nth_some {p : Kind → Bool} {G : List Kind} {i : Nat} (h1 : 1 ≤ i) (h2 : i ≤ cnt p G G.length) :
    ∃ g, nth p G i = some g := by
  obtain ⟨g, _, h3, h4⟩ := exists_at h1 h2
  exact ⟨g, nth_iff.2 ⟨h3, h4⟩⟩

theorem nth_none {p : Kind → Bool} {G : List Kind} {i : Nat} (h : nth p G i = none) : i = 0 ∨ cnt p G G.length < i := by
  by_cases h1 : 1 ≤ i
  · by_cases h2 : i ≤ cnt p G G.length
    · obtain ⟨g, hg⟩ := nth_some h1 h2
      rw [h] at hg; cases hg
    · exact Or.inr (by omega)
  · exact Or.inl (by omega)

theorem nth_range {p : Kind → Bool} {G : List Kind} {i g : Nat} (h : nth p G i = some g) : 1 ≤ i ∧ i ≤ cnt p G G.length ∧ 1 ≤ g ∧ g ≤ G.length := by
  obtain ⟨h1, h2⟩ := nth_iff.1 h
  have h3 := cnt_at h1
  have h4 := cnt_mono p G (at_le h1)
  exact ⟨by omega, by omega, h1.1, at_le h1⟩

theorem cnt_rel (G : List Kind) (g : Nat) : cnt isRel G g = cnt isPub G g + cnt isPriv G g := by
  induction g with
  | zero => rfl
  | succ g ih =>
    rw [cnt_succ, cnt_succ, cnt_succ, ih]
    cases G[g]? with
    | none => simp
    | some x => cases x <;> simp [isRel, isPub, isPriv] <;> omega

theorem at_rel {G : List Kind} {g : Nat} : At isRel G g ↔ At isPub G g ∨ At isPriv G g := by
  constructor
  · rintro ⟨h1, x, h2, h3⟩
    cases x with
    | pub => exact Or.inl ⟨h1, _, h2, rfl⟩
    | priv => exact Or.inr ⟨h1, _, h2, rfl⟩
    | other => cases h3
  · rintro (⟨h1, x, h2, h3⟩ | ⟨h1, x, h2, h3⟩)
    · cases x with
      | pub => exact ⟨h1, _, h2, rfl⟩
      | priv => cases h3
      | other => cases h3
    · cases x with
      | priv => exact ⟨h1, _, h2, rfl⟩
      | pub => cases h3
      | other => cases h3

theorem not_both {G : List Kind} {g : Nat} (h1 : At isPub G g) (h2 : At isPriv G g) : False := by
  obtain ⟨_, x, h3, h4⟩ := h1
  obtain ⟨_, y, h5, h6⟩ := h2
  rw [h3] at h5
  cases h5
  cases x <;> simp [isPub, isPriv] at h4 h6

/-! ## The tables -/

/-- entry `<tag>_newest` of the "latest" table -/
def Snap.newest (S : Snap) (p : Kind → Bool) : Nat := cnt p S.G S.G.length
/-- entry `<tag>_oldest`; 0 if all are pruned -/
def Snap.oldest (S : Snap) (p : Kind → Bool) : Nat := if cnt p S.G S.pruned < S.newest p then cnt p S.G S.pruned + 1 else 0
/-- `getValueFromTagTable` (kvbc_app_filter.cpp:316-342): global and external id; `none` = it throws -/
def Snap.tag (S : Snap) (p : Kind → Bool) (i : Nat) : Option (Nat × Nat) :=
  match nth p S.G i with
  | some g => if S.pruned < g then some (g, cnt isRel S.G g) else none
  | none => none

/-- `oldestExternalEventGroupId` (kvbc_app_filter.cpp:348-361) -/
def Snap.oldestExt (S : Snap) : Nat :=
  let pubO := S.oldest isPub
  let privO := S.oldest isPriv
  if pubO = 0 ∧ privO = 0 then 0
  else if pubO = 0 then privO + S.newest isPub
  else if privO = 0 then pubO + S.newest isPriv
  else pubO + privO - 1

/-- `newestExternalEventGroupId` (kvbc_app_filter.cpp:365-369) -/
def Snap.newestExt (S : Snap) : Nat := S.newest isPub + S.newest isPriv

/-! ## Specification: external ids number the event groups the client may see -/

/-- global id of the client's event group `e` -/
def extGlobal (G : List Kind) (e : Nat) : Option Nat := nth isRel G e

/-- **C32.** The newest external id is the number of event groups the client may see. -/
theorem newestExt_spec (S : Snap) : S.newestExt = cnt isRel S.G S.G.length := (cnt_rel _ _).symm

theorem cnt_le_all (p : Kind → Bool) (G : List Kind) (k : Nat) : cnt p G k ≤ cnt p G G.length := by
  by_cases h : k ≤ G.length
  · exact cnt_mono p G h
  · rw [cnt_all p G (by omega)]; exact Nat.le_refl _

theorem oldest_cases (S : Snap) (p : Kind → Bool) : (cnt p S.G S.pruned < S.newest p ∧ S.oldest p = cnt p S.G S.pruned + 1) ∨
    (cnt p S.G S.pruned = S.newest p ∧ S.oldest p = 0) := by
  have h1 : cnt p S.G S.pruned ≤ S.newest p := cnt_le_all p S.G S.pruned
  by_cases a : cnt p S.G S.pruned < S.newest p
  · exact Or.inl ⟨a, by rw [Snap.oldest, if_pos a]⟩
  · exact Or.inr ⟨by omega, by rw [Snap.oldest, if_neg a]⟩

/-- **C32.** The oldest external id: 0 if none is left, else one more than the number of pruned event groups of the client. -/
theorem oldestExt_spec (S : Snap) : (cnt isRel S.G S.pruned < S.newestExt ∧ S.oldestExt = cnt isRel S.G S.pruned + 1) ∨
    (cnt isRel S.G S.pruned = S.newestExt ∧ S.oldestExt = 0) := by
  rw [cnt_rel, Snap.oldestExt, Snap.newestExt]
  rcases oldest_cases S isPub with ⟨a1, a2⟩ | ⟨a1, a2⟩ <;> rcases oldest_cases S isPriv with ⟨b1, b2⟩ | ⟨b1, b2⟩ <;>
    simp only [a2, b2]
  · left
    rw [if_neg (by omega), if_neg (by omega), if_neg (by omega)]; omega
  · left
    rw [if_neg (by omega), if_neg (by omega), if_pos trivial]; omega
  · left
    rw [if_neg (by omega), if_pos trivial]; omega
  · right
    rw [if_pos ⟨trivial, trivial⟩]; omega

end Verif.Trs
