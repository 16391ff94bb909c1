import Verif.Smt.Remove
import Verif.Smt.Spec
/-!
# The trie: well-formedness, contents, root hash
-/
set_option linter.unusedVariables false
set_option linter.unusedSimpArgs false
namespace Verif.Smt

/-- well-formed sub-trie below the bits `pre` -/
def WF (hs : Hasher) : List Bool → T → Prop
  | _, .empty => True
  | pre, .leaf o => pre <+: o.key.hash ∧ o.key.hash.length = 256
  | pre, .int h _ a b => h = hs.parent (a.hash hs) (b.hash hs) ∧ Shape a b ∧ WF hs (pre ++ [false]) a ∧ WF hs (pre ++ [true]) b

theorem WF.shaped {hs} : ∀ {pre t}, WF hs pre t → Shaped t
  | _, .empty, _ => trivial
  | _, .leaf _, _ => trivial
  | _, .int _ _ _ _, h => ⟨h.2.1, h.2.2.1.shaped, h.2.2.2.shaped⟩

theorem WF.placed {hs} : ∀ {t pre}, WF hs pre t → Placed pre t
  | .empty, _, _ => by intro p o h; rw [atT_empty] at h; simp at h
  | .leaf l, _, h => by
    intro p o e
    cases p with
    | nil =>
      have : l = o := by simpa [atT] using e
      subst this; rw [List.append_nil]; exact h
    | cons b p => rw [atT_nonint rfl] at e; simp at e
  | .int _ _ a b, pre, h => by
    intro p o e
    cases p with
    | nil => simp [atT] at e
    | cons c p =>
      cases c
      · have := h.2.2.1.placed p o e; simpa using this
      · have := h.2.2.2.placed p o e; simpa using this

theorem WF.child {hs pre h v a b} (w : WF hs pre (.int h v a b)) (c : Bool) : WF hs (pre ++ [c]) ((T.int h v a b).child c) := by
  cases c; exact w.2.2.1; exact w.2.2.2

theorem Shape.symm {a b} (h : Shape a b) : Shape b a := by
  rcases h with h | h | h
  · exact Or.inr (Or.inl h)
  · exact Or.inl h
  · exact Or.inr (Or.inr ⟨h.2, h.1⟩)

theorem Shape.child {h v a b} (w : Shape a b) (c : Bool) : Shape ((T.int h v a b).child (!c)) ((T.int h v a b).child c) := by
  cases c; exact w.symm; exact w

theorem WF.node {hs pre v b s t} (hS : Shape s t) (h1 : WF hs (pre ++ [!b]) s) (h2 : WF hs (pre ++ [b]) t) : WF hs pre (node hs v b s t) := by
  cases b
  · exact ⟨rfl, hS.symm, h2, h1⟩
  · exact ⟨rfl, hS, h1, h2⟩

theorem WF.up {hs pre b o} (h : WF hs (pre ++ [b]) (.leaf o)) : WF hs pre (.leaf o) := ⟨(List.prefix_append _ _).trans h.1, h.2⟩

theorem WF.join {hs pre v b s t} (h1 : WF hs (pre ++ [!b]) s) (h2 : WF hs (pre ++ [b]) t) : WF hs pre (join hs v b s t) := by
  cases s <;> cases t <;> first
    | trivial
    | exact h1.up
    | exact h2.up
    | exact WF.node (by simp [Shape, T.isInt, T.isLeaf]) h1 h2

theorem WF.remT {hs v} : ∀ {t : T} {bs pre}, WF hs pre t → WF hs pre (remT hs v bs t)
  | .leaf _, bs, _, _ => by rw [remT_leaf]; trivial
  | .empty, bs, _, h => by cases bs <;> exact h
  | .int h w a c, [], _, hw => hw
  | .int h w a c, b :: bs, pre, hw => by
    refine WF.join (hw.child (!b)) ?_
    cases b
    · exact WF.remT (hw.child false)
    · exact WF.remT (hw.child true)

/-- any internal place has two leaves with different keys below it -/
theorem WF.two {hs} : ∀ {t pre}, WF hs pre t → t.isInt = true → ∃ o o', InT o t ∧ InT o' t ∧ o.key.hash ≠ o'.key.hash
  | .empty, _, _, h => by simp [T.isInt] at h
  | .leaf _, _, _, h => by simp [T.isInt] at h
  | .int h v a b, pre, w, _ => by
    rcases w.2.1 with hi | hi | ⟨ha, hb⟩
    · obtain ⟨o, o', h1, h2, h3⟩ := w.2.2.1.two hi
      exact ⟨o, o', InT_int.2 (Or.inl h1), InT_int.2 (Or.inl h2), h3⟩
    · obtain ⟨o, o', h1, h2, h3⟩ := w.2.2.2.two hi
      exact ⟨o, o', InT_int.2 (Or.inr h1), InT_int.2 (Or.inr h2), h3⟩
    · cases a with
      | empty => simp [T.isLeaf] at ha
      | int _ _ _ _ => simp [T.isLeaf] at ha
      | leaf o =>
        cases b with
        | empty => simp [T.isLeaf] at hb
        | int _ _ _ _ => simp [T.isLeaf] at hb
        | leaf o' =>
          refine ⟨o, o', InT_int.2 (Or.inl (InT_leaf.2 rfl)), InT_int.2 (Or.inr (InT_leaf.2 rfl)), fun e => ?_⟩
          obtain ⟨x, hx⟩ := w.2.2.1.1
          obtain ⟨y, hy⟩ := w.2.2.2.1
          rw [e, ← hy, List.append_assoc, List.append_assoc] at hx
          have := List.append_cancel_left hx
          simp at this

theorem WF.InT_prefix {hs pre t o} (w : WF hs pre t) (h : InT o t) : pre <+: o.key.hash ∧ o.key.hash.length = 256 := w.placed.of_InT h

theorem WF.len_lt {hs pre t} (w : WF hs pre t) (hi : t.isInt = true) : pre.length < 256 := by
  obtain ⟨o, o', h1, h2, hne⟩ := w.two hi
  obtain ⟨p1, l1⟩ := w.InT_prefix h1
  obtain ⟨p2, l2⟩ := w.InT_prefix h2
  by_cases h : pre.length < 256
  · exact h
  · exfalso
    have e1 := p1.eq_of_length (by have := p1.length_le; omega)
    have e2 := p2.eq_of_length (by have := p2.length_le; omega)
    exact hne (e1.symm.trans e2)

theorem isLeaf_iff {t : T} : t.isLeaf = true ↔ ∃ o, t = .leaf o := by cases t <;> simp [T.isLeaf]

theorem splitT_wf {hs v} {o l : LeafChild} (hO : o.key.hash.length = 256) (hL : l.key.hash.length = 256) : ∀ (a b pre : List Bool), a ≠ b →
    o.key.hash = pre ++ a → l.key.hash = pre ++ b → WF hs pre (splitT hs v o l a b) ∧ (splitT hs v o l a b).isInt = true ∧
      (∀ x, InT x (splitT hs v o l a b) ↔ x = o ∨ x = l)
  | [], [], _, h, _, _ => absurd rfl h
  | [], _ :: _, pre, _, h1, h2 => by rw [h1] at hO; rw [h2] at hL; simp at hO hL; omega
  | _ :: _, [], pre, _, h1, h2 => by rw [h1] at hO; rw [h2] at hL; simp at hO hL; omega
  | x :: a, y :: b, pre, hne, h1, h2 => by
    unfold splitT
    split
    · rename_i e
      subst e
      obtain ⟨i1, i2, i3⟩ := splitT_wf hO hL a b (pre ++ [x]) (by rintro rfl; exact hne rfl) (by rw [h1]; simp) (by rw [h2]; simp)
      refine ⟨WF.node (Or.inr (Or.inl i2)) trivial i1, node_isInt _ _ _ _ _, fun z => ?_⟩
      rw [InT_node, i3]; simp [InT_empty]
    · rename_i e
      have : x = !y := by cases x <;> cases y <;> simp at e ⊢
      subst this
      refine ⟨WF.node (Or.inr (Or.inr ⟨rfl, rfl⟩)) ⟨⟨a, by rw [h1]; simp⟩, hO⟩ ⟨⟨b, by rw [h2]; simp⟩, hL⟩, node_isInt _ _ _ _ _, fun z => ?_⟩
      rw [InT_node, InT_leaf, InT_leaf]

/-- insertion keeps well-formedness; it adds the leaf and drops the one with the same key -/
theorem insT_wf {hs v} {l : LeafChild} (hL : l.key.hash.length = 256) : ∀ (t : T) (bs pre : List Bool), l.key.hash = pre ++ bs → WF hs pre t →
    WF hs pre (insT hs v l bs t) ∧ (insT hs v l bs t).isEmpty = false ∧ (t.isInt = true → (insT hs v l bs t).isInt = true) ∧
      (∀ x, InT x (insT hs v l bs t) ↔ x = l ∨ (InT x t ∧ x.key.hash ≠ l.key.hash))
  | .empty, bs, pre, hk, _ => by
    have : insT hs v l bs .empty = .leaf l := by cases bs <;> rfl
    rw [this]
    refine ⟨⟨⟨bs, hk.symm⟩, hL⟩, rfl, fun h => by simp [T.isInt] at h, fun x => ?_⟩
    rw [InT_leaf]; simp [InT_empty]
  | .leaf o, bs, pre, hk, hw => by
    have e : insT hs v l bs (.leaf o) = if o.key.hash = l.key.hash then .leaf l
        else splitT hs v o l (o.key.hash.drop (l.key.hash.length - bs.length)) bs := by cases bs <;> rfl
    rw [e]
    split
    · rename_i he
      refine ⟨⟨⟨bs, hk.symm⟩, hL⟩, rfl, fun h => by simp [T.isInt] at h, fun x => ?_⟩
      rw [InT_leaf, InT_leaf]
      constructor
      · exact Or.inl
      · rintro (h | ⟨h, h'⟩)
        · exact h
        · subst h; exact absurd he h'
    · rename_i he
      obtain ⟨⟨ro, hro⟩, hO⟩ := hw
      have hd : o.key.hash.drop (l.key.hash.length - bs.length) = ro := by
        rw [← hro, hk, List.length_append, Nat.add_sub_cancel, List.drop_left]
      rw [hd]
      obtain ⟨h1, h2, h3⟩ := splitT_wf (hs := hs) (v := v) hO hL ro bs pre (by rintro rfl; exact he (hro.symm.trans hk.symm)) hro.symm hk
      refine ⟨h1, by cases h : splitT hs v o l ro bs <;> rw [h] at h2 <;> simp [T.isInt] at h2 ⊢; rfl, fun _ => h2, fun x => ?_⟩
      rw [h3, InT_leaf]
      constructor
      · rintro (rfl | rfl)
        · exact Or.inr ⟨rfl, he⟩
        · exact Or.inl rfl
      · rintro (h | ⟨h, _⟩)
        · exact Or.inr h
        · exact Or.inl h
  | .int h w a c, [], pre, hk, hw => by
    have := hw.len_lt rfl
    rw [hk] at hL; simp at hL; omega
  | .int h w a c, b :: bs, pre, hk, hw => by
    have ih : WF hs (pre ++ [b]) (insT hs v l bs ((T.int h w a c).child b)) ∧ (insT hs v l bs ((T.int h w a c).child b)).isEmpty = false ∧
        (((T.int h w a c).child b).isInt = true → (insT hs v l bs ((T.int h w a c).child b)).isInt = true) ∧
        (∀ x, InT x (insT hs v l bs ((T.int h w a c).child b)) ↔ x = l ∨ (InT x ((T.int h w a c).child b) ∧ x.key.hash ≠ l.key.hash)) := by
      have hk' : l.key.hash = pre ++ [b] ++ bs := by rw [hk]; simp
      cases b
      · exact insT_wf hL a bs _ hk' (hw.child false)
      · exact insT_wf hL c bs _ hk' (hw.child true)
    have e : insT hs v l (b :: bs) (.int h w a c) = node hs v b ((T.int h w a c).child (!b)) (insT hs v l bs ((T.int h w a c).child b)) := rfl
    rw [e]
    have hsh := hw.2.1.child (h := h) (v := w) b
    have hs2 := hw.child (!b)
    have hoff : ∀ x, InT x ((T.int h w a c).child (!b)) → x.key.hash ≠ l.key.hash := by
      intro x hx he
      obtain ⟨⟨y, hy⟩, _⟩ := hs2.InT_prefix hx
      rw [he, hk, List.append_assoc] at hy
      have := List.append_cancel_left hy
      cases b <;> simp at this
    have hin : ∀ x, InT x (.int h w a c) ↔ InT x ((T.int h w a c).child (!b)) ∨ InT x ((T.int h w a c).child b) := by
      intro x; rw [InT_int]; cases b
      · exact or_comm
      · exact Iff.rfl
    generalize (T.int h w a c).child b = t1 at *
    generalize (T.int h w a c).child (!b) = s at *
    obtain ⟨i1, i2, i3, i4⟩ := ih
    refine ⟨WF.node ?_ hs2 i1, ?_, fun _ => node_isInt _ _ _ _ _, fun x => ?_⟩
    · rcases hsh with hh | hh | ⟨hh, hh'⟩
      · exact Or.inl hh
      · exact Or.inr (Or.inl (i3 hh))
      · cases hx : insT hs v l bs t1 with
        | empty => rw [hx] at i2; simp [T.isEmpty] at i2
        | leaf _ => exact Or.inr (Or.inr ⟨hh, rfl⟩)
        | int _ _ _ _ => exact Or.inr (Or.inl rfl)
    · cases b <;> rfl
    · rw [InT_node, i4, hin]
      constructor
      · rintro (h | h | ⟨h, h'⟩)
        · exact Or.inr ⟨Or.inl h, hoff x h⟩
        · exact Or.inl h
        · exact Or.inr ⟨Or.inr h, h'⟩
      · rintro (h | ⟨h | h, h'⟩)
        · exact Or.inr (Or.inl h)
        · exact Or.inl h
        · exact Or.inr (Or.inr ⟨h, h'⟩)

/-- removal drops exactly the leaf with the key -/
theorem remT_in {hs : Hasher} {v key} : ∀ (t : T) (bs pre : List Bool) (o : LeafChild), key = pre ++ bs → WF hs pre t → findT bs t = some o → o.key.hash = key →
    ∀ x, InT x (remT hs v bs t) ↔ InT x t ∧ x.key.hash ≠ key
  | .empty, bs, pre, o, _, _, hf, _ => by rw [findT_empty] at hf; simp at hf
  | .leaf o', bs, pre, o, hk, hw, hf, ho => by
    rw [findT_leaf] at hf
    have : o' = o := by simpa using hf
    subst this
    intro x
    rw [remT_leaf, InT_leaf]
    constructor
    · intro h; exact absurd h InT_empty
    · rintro ⟨h, h'⟩; subst h; exact absurd ho h'
  | .int h w a c, [], pre, o, hk, hw, hf, ho => by simp [findT] at hf
  | .int h w a c, b :: bs, pre, o, hk, hw, hf, ho => by
    intro x
    have hk' : key = pre ++ [b] ++ bs := by rw [hk]; simp
    have ih : InT x (remT hs v bs ((T.int h w a c).child b)) ↔ InT x ((T.int h w a c).child b) ∧ x.key.hash ≠ key := by
      cases b
      · exact remT_in a bs _ o hk' (hw.child false) hf ho x
      · exact remT_in c bs _ o hk' (hw.child true) hf ho x
    show InT x (join hs v b ((T.int h w a c).child (!b)) (remT hs v bs ((T.int h w a c).child b))) ↔ _
    have hoff : InT x ((T.int h w a c).child (!b)) → x.key.hash ≠ key := by
      intro hx he
      obtain ⟨⟨y, hy⟩, _⟩ := (hw.child (!b)).InT_prefix hx
      rw [he, hk, List.append_assoc] at hy
      have := List.append_cancel_left hy
      cases b <;> simp at this
    have hin : InT x (.int h w a c) ↔ InT x ((T.int h w a c).child (!b)) ∨ InT x ((T.int h w a c).child b) := by
      rw [InT_int]; cases b
      · exact or_comm
      · exact Iff.rfl
    rw [InT_join, ih, hin]
    constructor
    · rintro (h | ⟨h, h'⟩)
      · exact ⟨Or.inl h, hoff h⟩
      · exact ⟨Or.inr h, h'⟩
    · rintro ⟨h | h, h'⟩
      · exact Or.inl h
      · exact Or.inr ⟨h, h'⟩

/-- looking up finds exactly the leaf with the key -/
theorem findT_iff {hs : Hasher} {key : Hash} : ∀ (t : T) (bs pre : List Bool) (o : LeafChild), key = pre ++ bs → WF hs pre t → o.key.hash = key →
    (findT bs t = some o ↔ InT o t)
  | .empty, bs, pre, o, _, _, _ => by rw [findT_empty]; simp [InT_empty]
  | .leaf o', bs, pre, o, _, _, _ => by rw [findT_leaf, InT_leaf]; simp [eq_comm]
  | .int h w a c, [], pre, o, hk, hw, ho => by
    constructor
    · intro h; simp [findT] at h
    · intro hi
      have hlt := hw.len_lt rfl
      have := (hw.InT_prefix hi).2
      rw [ho, hk] at this; simp at this; omega
  | .int h w a c, b :: bs, pre, o, hk, hw, ho => by
    have hk' : key = pre ++ [b] ++ bs := by rw [hk]; simp
    have hin : InT o (.int h w a c) ↔ InT o ((T.int h w a c).child b) := by
      have hoff : ¬ InT o ((T.int h w a c).child (!b)) := by
        intro hx
        obtain ⟨⟨y, hy⟩, _⟩ := (hw.child (!b)).InT_prefix hx
        rw [ho, hk, List.append_assoc] at hy
        have := List.append_cancel_left hy
        cases b <;> simp at this
      rw [InT_int]
      cases b
      · constructor
        · rintro (h | h)
          · exact h
          · exact absurd h hoff
        · exact Or.inl
      · constructor
        · rintro (h | h)
          · exact absurd h hoff
          · exact h
        · exact Or.inr
    rw [hin]
    cases b
    · exact findT_iff a bs _ o hk' (hw.child false) ho
    · exact findT_iff c bs _ o hk' (hw.child true) ho

/-! ## internal places change only on the key's path -/

theorem atT_node_off {hs v b s t} {c : Bool} {p : List Bool} (h : c ≠ b) : atT (node hs v b s t) (c :: p) = atT s p := by
  have : c = !b := by cases b <;> cases c <;> simp at h ⊢
  subst this
  show atT ((node hs v b s t).child (!b)) p = _
  rw [node_child']

theorem atT_node_on {hs v b s t} {p : List Bool} : atT (node hs v b s t) (b :: p) = atT t p := by
  show atT ((node hs v b s t).child b) p = _
  rw [node_child]

theorem splitT_ints {hs v} {o l : LeafChild} : ∀ (a b p : List Bool), (atT (splitT hs v o l a b) p).isInt = true →
    p <+: b ∧ (atT (splitT hs v o l a b) p).ver = v
  | [], b, p, h => by
    have : splitT hs v o l [] b = .empty := by cases b <;> rfl
    rw [this, atT_empty] at h; simp [T.isInt] at h
  | x :: a, [], p, h => by
    have : splitT hs v o l (x :: a) [] = .empty := rfl
    rw [this, atT_empty] at h; simp [T.isInt] at h
  | x :: a, y :: b, p, h => by
    unfold splitT at h ⊢
    split
    · rename_i e
      subst e
      rw [if_pos rfl] at h
      cases p with
      | nil => exact ⟨List.nil_prefix, node_ver _ _ _ _ _⟩
      | cons c p =>
        by_cases hc : c = x
        · subst hc
          rw [atT_node_on] at h ⊢
          obtain ⟨h1, h2⟩ := splitT_ints a b p h
          exact ⟨List.cons_prefix_cons.2 ⟨rfl, h1⟩, h2⟩
        · rw [atT_node_off hc, atT_empty] at h; simp [T.isInt] at h
    · rename_i e
      rw [if_neg e] at h
      cases p with
      | nil => exact ⟨List.nil_prefix, node_ver _ _ _ _ _⟩
      | cons c p =>
        by_cases hc : c = y
        · subst hc
          rw [atT_node_on, atT_nonint' rfl] at h; simp at h
        · rw [atT_node_off hc, atT_nonint' rfl] at h; simp at h

theorem insT_ints {hs v} {l : LeafChild} : ∀ (t : T) (bs p : List Bool), (t.isInt = true → bs ≠ []) →
    (∀ x y, bs = x ++ y → (atT t x).isInt = true → y ≠ []) →
    (¬ p <+: bs → ((atT t p).isInt = true ∨ (atT (insT hs v l bs t) p).isInt = true) → atT (insT hs v l bs t) p = atT t p) ∧
    (p <+: bs → (atT (insT hs v l bs t) p).isInt = true → (atT (insT hs v l bs t) p).ver = v)
  | .empty, bs, p, _, _ => by
    have : insT hs v l bs .empty = .leaf l := by cases bs <;> rfl
    rw [this]
    refine ⟨fun _ h => ?_, fun _ h => ?_⟩
    · rcases h with h | h
      · rw [atT_empty] at h; simp [T.isInt] at h
      · rw [atT_nonint' rfl] at h; simp at h
    · rw [atT_nonint' rfl] at h; simp at h
  | .leaf o, bs, p, _, _ => by
    have e : insT hs v l bs (.leaf o) = if o.key.hash = l.key.hash then .leaf l
        else splitT hs v o l (o.key.hash.drop (l.key.hash.length - bs.length)) bs := by cases bs <;> rfl
    rw [e]
    split
    · refine ⟨fun _ h => ?_, fun _ h => ?_⟩
      · rcases h with h | h
        · rw [atT_nonint' rfl] at h; simp at h
        · rw [atT_nonint' rfl] at h; simp at h
      · rw [atT_nonint' rfl] at h; simp at h
    · refine ⟨fun hn h => ?_, fun _ h => (splitT_ints _ _ p h).2⟩
      rcases h with h | h
      · rw [atT_nonint' rfl] at h; simp at h
      · exact absurd (splitT_ints _ _ p h).1 hn
  | .int h w a c, [], p, hb, _ => absurd rfl (hb rfl)
  | .int h w a c, b :: bs, p, hb, hb2 => by
    have e : insT hs v l (b :: bs) (.int h w a c) = node hs v b ((T.int h w a c).child (!b)) (insT hs v l bs ((T.int h w a c).child b)) := rfl
    rw [e]
    cases p with
    | nil => exact ⟨fun hn => absurd List.nil_prefix hn, fun _ _ => node_ver _ _ _ _ _⟩
    | cons x p =>
      by_cases hx : x = b
      · subst hx
        rw [atT_node_on]
        have ih : (¬ p <+: bs → ((atT ((T.int h w a c).child x) p).isInt = true ∨ (atT (insT hs v l bs ((T.int h w a c).child x)) p).isInt = true) → atT (insT hs v l bs ((T.int h w a c).child x)) p = atT ((T.int h w a c).child x) p) ∧
            (p <+: bs → (atT (insT hs v l bs ((T.int h w a c).child x)) p).isInt = true → (atT (insT hs v l bs ((T.int h w a c).child x)) p).ver = v) := by
          cases x
          · exact insT_ints a bs p (fun hi => hb2 [false] bs rfl hi) (fun y z hyz hi => hb2 (false :: y) z (by rw [hyz]; rfl) hi)
          · exact insT_ints c bs p (fun hi => hb2 [true] bs rfl hi) (fun y z hyz hi => hb2 (true :: y) z (by rw [hyz]; rfl) hi)
        exact ⟨fun hn hh => ih.1 (fun hp => hn (List.cons_prefix_cons.2 ⟨rfl, hp⟩)) hh, fun hp hh => ih.2 (List.cons_prefix_cons.1 hp).2 hh⟩
      · rw [atT_node_off hx]
        have : x = !b := by cases b <;> cases x <;> simp at hx ⊢
        subst this
        exact ⟨fun _ _ => rfl, fun hp => absurd (List.cons_prefix_cons.1 hp).1 (by cases b <;> simp)⟩

theorem remT_ints {hs v} : ∀ (t : T) (bs p : List Bool) (o : LeafChild), findT bs t = some o →
    (¬ p <+: bs → ((atT t p).isInt = true ∨ (atT (remT hs v bs t) p).isInt = true) → atT (remT hs v bs t) p = atT t p) ∧
    (p <+: bs → (atT (remT hs v bs t) p).isInt = true → (atT (remT hs v bs t) p).ver = v)
  | .empty, bs, p, o, hf => by rw [findT_empty] at hf; simp at hf
  | .leaf o', bs, p, o, hf => by
    rw [remT_leaf]
    refine ⟨fun _ h => ?_, fun _ h => ?_⟩
    · rcases h with h | h
      · rw [atT_nonint' rfl] at h; simp at h
      · rw [atT_empty] at h; simp [T.isInt] at h
    · rw [atT_empty] at h; simp [T.isInt] at h
  | .int h w a c, [], p, o, hf => by simp [findT] at hf
  | .int h w a c, b :: bs, p, o, hf => by
    have e : remT hs v (b :: bs) (.int h w a c) = join hs v b ((T.int h w a c).child (!b)) (remT hs v bs ((T.int h w a c).child b)) := rfl
    rw [e]
    cases p with
    | nil => exact ⟨fun hn => absurd List.nil_prefix hn, fun _ hh => (join_ver hh).2⟩
    | cons x p =>
      have ih : (¬ p <+: bs → ((atT ((T.int h w a c).child b) p).isInt = true ∨ (atT (remT hs v bs ((T.int h w a c).child b)) p).isInt = true) → atT (remT hs v bs ((T.int h w a c).child b)) p = atT ((T.int h w a c).child b) p) ∧
          (p <+: bs → (atT (remT hs v bs ((T.int h w a c).child b)) p).isInt = true → (atT (remT hs v bs ((T.int h w a c).child b)) p).ver = v) := by
        cases b
        · exact remT_ints a bs p o hf
        · exact remT_ints c bs p o hf
      have hoff : x ≠ b → atT (.int h w a c) (x :: p) = atT ((T.int h w a c).child (!b)) p := by
        intro hx
        have : x = !b := by cases b <;> cases x <;> simp at hx ⊢
        subst this; rfl
      have hon : atT (.int h w a c) (b :: p) = atT ((T.int h w a c).child b) p := rfl
      generalize (T.int h w a c).child b = t1 at *
      generalize (T.int h w a c).child (!b) = s at *
      generalize hr : remT hs v bs t1 = r at *
      by_cases hj : (join hs v b s r).isInt = true
      · rw [(join_ver hj).1]
        by_cases hx : x = b
        · subst hx
          rw [atT_node_on, hon]
          exact ⟨fun hn hh => ih.1 (fun hp => hn (List.cons_prefix_cons.2 ⟨rfl, hp⟩)) hh, fun hp hh => ih.2 (List.cons_prefix_cons.1 hp).2 hh⟩
        · rw [atT_node_off hx, hoff hx]
          exact ⟨fun _ _ => rfl, fun hp => absurd (List.cons_prefix_cons.1 hp).1 hx⟩
      · have hj' : (join hs v b s r).isInt = false := by simpa using hj
        have hsr : s.isInt = false ∧ r.isInt = false := by
          constructor
          · cases hi : s.isInt with
            | false => rfl
            | true => rw [join_int_left hi, node_isInt] at hj'; exact hj'
          · cases hi : r.isInt with
            | false => rfl
            | true => rw [join_int_right hi, node_isInt] at hj'; exact hj'
        refine ⟨fun hn hh => ?_, fun _ hh => by rw [atT_nonint' hj'] at hh; simp at hh⟩
        exfalso
        rcases hh with hh | hh
        · by_cases hx : x = b
          · subst hx
            rw [hon] at hh
            have := ih.1 (fun hp => hn (List.cons_prefix_cons.2 ⟨rfl, hp⟩)) (Or.inl hh)
            rw [← this, atT_nonint' hsr.2] at hh; simp at hh
          · rw [hoff hx, atT_nonint' hsr.1] at hh; simp at hh
        · rw [atT_nonint' hj'] at hh; simp at hh

/-! ## versions -/

/-- every internal child's and every leaf's version lies in `1..v` -/
def VB (v : Ver) : T → Prop
  | .empty => True
  | .leaf o => 1 ≤ o.key.version ∧ o.key.version ≤ v
  | .int _ u a b => 1 ≤ u ∧ u ≤ v ∧ VB v a ∧ VB v b

theorem VB.mono {v v'} (h : v ≤ v') : ∀ {t}, VB v t → VB v' t
  | .empty, _ => trivial
  | .leaf _, w => ⟨w.1, Nat.le_trans w.2 h⟩
  | .int _ _ _ _, w => ⟨w.1, Nat.le_trans w.2.1 h, w.2.2.1.mono h, w.2.2.2.mono h⟩

theorem VB.child {v t} (h : VB v t) (b : Bool) : VB v (t.child b) := by
  cases t with
  | empty => cases b <;> trivial
  | leaf _ => cases b <;> trivial
  | int _ _ _ _ => cases b; exact h.2.2.1; exact h.2.2.2

theorem VB.at {v} : ∀ {t} (p), VB v t → VB v (atT t p)
  | t, [], h => h
  | t, b :: p, h => (h.child b).at p

theorem VB.ver {v t} (h : VB v t) (hi : t.isInt = true) : 1 ≤ t.ver ∧ t.ver ≤ v := by
  cases t with
  | empty => simp [T.isInt] at hi
  | leaf _ => simp [T.isInt] at hi
  | int _ _ _ _ => exact ⟨h.1, h.2.1⟩

theorem VB.leafver {v t o} (h : VB v t) (hi : InT o t) : 1 ≤ o.key.version ∧ o.key.version ≤ v := by
  obtain ⟨p, e⟩ := hi
  have := h.at p
  rw [e] at this; exact this

theorem VB.node {hs v b s t} (hv : 1 ≤ v) (h1 : VB v s) (h2 : VB v t) : VB v (node hs v b s t) := by
  cases b
  · exact ⟨hv, Nat.le_refl _, h2, h1⟩
  · exact ⟨hv, Nat.le_refl _, h1, h2⟩

theorem VB.join {hs v b s t} (hv : 1 ≤ v) (h1 : VB v s) (h2 : VB v t) : VB v (join hs v b s t) := by
  cases s <;> cases t <;> first
    | trivial
    | exact h1
    | exact h2
    | exact VB.node hv h1 h2

theorem VB.splitT {hs v} {o l : LeafChild} (hv : 1 ≤ v) (h1 : VB v (.leaf o)) (h2 : VB v (.leaf l)) : ∀ (a b : List Bool), VB v (splitT hs v o l a b)
  | [], b => by cases b <;> trivial
  | _ :: _, [] => trivial
  | x :: a, y :: b => by
    unfold Verif.Smt.splitT
    split
    · exact VB.node hv trivial (VB.splitT hv h1 h2 a b)
    · exact VB.node hv h1 h2

theorem VB.insT {hs v} {l : LeafChild} (hv : 1 ≤ v) (h2 : VB v (.leaf l)) : ∀ (t : T) (bs : List Bool), VB v t → VB v (insT hs v l bs t)
  | .empty, bs, h => by cases bs <;> exact h2
  | .leaf o, bs, h => by
    have e : Verif.Smt.insT hs v l bs (.leaf o) = if o.key.hash = l.key.hash then .leaf l
        else Verif.Smt.splitT hs v o l (o.key.hash.drop (l.key.hash.length - bs.length)) bs := by cases bs <;> rfl
    rw [e]
    split
    · exact h2
    · exact VB.splitT hv h h2 _ _
  | .int _ _ _ _, [], h => h
  | .int x y z w, b :: bs, h => by
    refine VB.node hv (h.child (!b)) ?_
    cases b
    · exact VB.insT hv h2 z bs (h.child false)
    · exact VB.insT hv h2 w bs (h.child true)

theorem VB.remT {hs v} (hv : 1 ≤ v) : ∀ (t : T) (bs : List Bool), VB v t → VB v (remT hs v bs t)
  | .empty, bs, h => by cases bs <;> trivial
  | .leaf o, bs, h => by rw [remT_leaf]; trivial
  | .int _ _ _ _, [], h => h
  | .int x y z w, b :: bs, h => by
    refine VB.join hv (h.child (!b)) ?_
    cases b
    · exact VB.remT hv z bs (h.child false)
    · exact VB.remT hv w bs (h.child true)

end Verif.Smt
