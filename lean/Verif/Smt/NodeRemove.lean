import Verif.Smt.NodeInsert
/-!
# What removing does to the trie of a batched node
-/
set_option linter.unusedVariables false
set_option linter.unusedSimpArgs false
namespace Verif.Smt

/-- an internal place whose subtree changed: a lone leaf moves up -/
def join (hs : Hasher) (v : Ver) (b : Bool) (s t : T) : T :=
  match t, s with
  | .leaf l, .empty => .leaf l
  | .empty, .leaf l => .leaf l
  | .empty, .empty => .empty
  | t, s => node hs v b s t

/-- rebuild upwards, moving lone leaves up -/
def plugJ (hs : Hasher) (v : Ver) : Ctx → T → T
  | [], t => t
  | (b, s) :: x, t => plugJ hs v x (join hs v b s t)

/-- the same, but the topmost place stays (root of the whole tree) -/
def plugRoot (hs : Hasher) (v : Ver) : Ctx → T → T
  | [], t => t
  | [(b, s)], t => node hs v b s t
  | (b, s) :: y :: x, t => plugRoot hs v (y :: x) (join hs v b s t)

theorem join_int_left {hs v b s t} (h : s.isInt = true) : join hs v b s t = node hs v b s t := by
  cases s <;> cases t <;> simp [T.isInt] at h <;> rfl
theorem join_int_right {hs v b s t} (h : t.isInt = true) : join hs v b s t = node hs v b s t := by
  cases s <;> cases t <;> simp [T.isInt] at h <;> rfl
theorem join_leaf_ne {hs v b s l} (h : s.isEmpty = false) : join hs v b s (.leaf l) = node hs v b s (.leaf l) := by
  cases s <;> simp [T.isEmpty] at h <;> rfl

theorem plugJ_int (hs v) : ∀ (x : Ctx) (t : T), t.isInt = true → plugJ hs v x t = plug hs v x t
  | [], t, _ => rfl
  | (b, s) :: x, t, h => by
    rw [plugJ, plug, join_int_right h]; exact plugJ_int hs v x _ (node_isInt _ _ _ _ _)

theorem plugRoot_int (hs v) : ∀ (x : Ctx) (t : T), t.isInt = true → plugRoot hs v x t = plug hs v x t
  | [], t, _ => rfl
  | [(b, s)], t, _ => rfl
  | (b, s) :: y :: x, t, h => by
    rw [plugRoot, plug, join_int_right h]; exact plugRoot_int hs v (y :: x) _ (node_isInt _ _ _ _ _)

theorem plug_isInt (hs v) : ∀ (x : Ctx) (t : T), (x ≠ [] ∨ t.isInt = true) → (plug hs v x t).isInt = true
  | [], t, h => by rcases h with h | h; · exact absurd rfl h
                   · exact h
  | (b, s) :: x, t, h => plug_isInt hs v x _ (Or.inr (node_isInt _ _ _ _ _))

/-! ## the 31 indexes are the paths of at most four bits -/

def allPaths : List (List Bool) :=
  [[]] ++ [[false], [true]] ++
  [[false, false], [false, true], [true, false], [true, true]] ++
  [[false, false, false], [false, false, true], [false, true, false], [false, true, true],
   [true, false, false], [true, false, true], [true, true, false], [true, true, true]] ++
  [[false, false, false, false], [false, false, false, true], [false, false, true, false], [false, false, true, true],
   [false, true, false, false], [false, true, false, true], [false, true, true, false], [false, true, true, true],
   [true, false, false, false], [true, false, false, true], [true, false, true, false], [true, false, true, true],
   [true, true, false, false], [true, true, false, true], [true, true, true, false], [true, true, true, true]]

theorem allPaths_ix : allPaths.map ix = List.range MAX_CHILDREN := by decide
theorem allPaths_len : ∀ s ∈ allPaths, s.length ≤ 4 := by decide
theorem mem_allPaths : ∀ (s : List Bool), s.length ≤ 4 → s ∈ allPaths
  | [], _ => by decide
  | [a], _ => by revert a; decide
  | [a, b], _ => by revert a b; decide
  | [a, b, c], _ => by revert a b c; decide
  | [a, b, c, d], _ => by revert a b c d; decide
  | _ :: _ :: _ :: _ :: _ :: _, h => by simp at h

theorem range_countP (f : Nat → Bool) : (List.range MAX_CHILDREN).countP f = allPaths.countP (fun s => f (ix s)) := by
  rw [← allPaths_ix, List.countP_map]; rfl

theorem numChildren_zero {c : Node} (h : ∀ s : List Bool, s.length ≤ 4 → c (ix s) = none) : numChildren c = 0 := by
  unfold numChildren
  rw [range_countP, List.countP_eq_zero]
  intro s hs; simp [h s (allPaths_len s hs)]

theorem numChildren_one {c : Node} {x} (h0 : c (ix []) = some x) (h : ∀ s : List Bool, s ≠ [] → s.length ≤ 4 → c (ix s) = none) :
    numChildren c = 1 := by
  unfold numChildren
  rw [range_countP]
  have : allPaths = [] :: allPaths.tail := rfl
  rw [this, List.countP_cons, h0]
  have h2 : List.countP (fun s => (c (ix s)).isSome) allPaths.tail = 0 := by
    rw [List.countP_eq_zero]
    intro s hs
    have hne : s ≠ [] := by revert s; decide
    rw [h s hne (allPaths_len s (List.mem_of_mem_tail hs))]; simp
  rw [h2]; rfl

theorem safeToRemove_iff {c : Node} : safeToRemove c = true ↔
    (∀ s : List Bool, s.length ≤ 4 → notLeaf (c (ix s))) ∧ (∀ s : List Bool, s.length = 4 → c (ix s) = none) := by
  unfold safeToRemove numLeafChildren numLevel0Children
  rw [Bool.and_eq_true, beq_iff_eq, beq_iff_eq, range_countP, range_countP, List.countP_eq_zero, List.countP_eq_zero]
  have hix : ∀ s ∈ allPaths, (MAX_CHILDREN / 2 ≤ ix s ↔ s.length = 4) := by decide
  constructor
  · rintro ⟨h1, h2⟩
    refine ⟨fun s hs l e => ?_, fun s hs => ?_⟩
    · exact h1 s (mem_allPaths s hs) (by rw [e])
    · have := h2 s (mem_allPaths s (by omega))
      have h15 := (hix s (mem_allPaths s (by omega))).2 hs
      simp [h15] at this; exact this
  · rintro ⟨h1, h2⟩
    refine ⟨fun s hs => ?_, fun s hs => ?_⟩
    · have := h1 s (allPaths_len s hs)
      cases hc : c (ix s) with
      | none => simp
      | some y =>
        cases y with
        | leaf l => exact absurd hc (this l)
        | internal _ _ => simp
    · by_cases h4 : s.length = 4
      · rw [h2 s h4]; simp
      · have : ¬ MAX_CHILDREN / 2 ≤ ix s := fun h => h4 ((hix s hs).1 h)
        simp [this]

/-! ## the promotion loop -/

theorem isNone_tag {t : T} : t.tag.isNone = t.isEmpty := by cases t <;> rfl

/-- what a removal leaves of a node: an internal trie that the node represents, or nothing with one leaf handed up -/
def Outcome (c' : Node) (L : List Bool → T → Prop) (R : T) (up : Option LeafChild) : Prop :=
  (R.isInt = true ∧ up = none ∧ Rep c' L 4 [] R) ∨ (∃ p, R = .leaf p ∧ up = some p ∧ Rep c' L 4 [] .empty)

theorem Rep.emptyAll {c L} (h : ∀ s : List Bool, s.length ≤ 4 → c (ix s) = none) : Rep c L 4 [] .empty :=
  Rep.of_empty (fun s' _ hl => h s' (by simpa using hl))

/-- a free place below a context of empty siblings down to nothing: clear and go up -/
theorem promote_spec (hs : Hasher) (peer : LeafChild) (v rv : Ver) (d : Nat) {L} : ∀ (up : Ctx) (n h : Nat) (c : Node) (e : Bool),
    up.length + 2 ≤ n → h + 1 + up.length = 4 → RepR c L (h + 1) up →
    (∀ s', pathOf up <+: s' → s' ≠ pathOf up → s'.length ≤ 4 → c (ix s') = none) → notLeaf (c (ix (pathOf up))) →
    ∃ c' res, promoteLoop hs peer v rv d n c (ix (pathOf up ++ [e])) = some (c', res) ∧
      ((d = 0 ∧ res = .complete rv ∧ Rep c' L 4 [] (plugRoot hs v ((e, .empty) :: up) (.leaf peer))) ∨
       (d ≠ 0 ∧ ∃ u, Outcome c' L (plugJ hs v up (.leaf peer)) u ∧ res = (match u with | none => .complete rv | some p => .removeNode (some p) rv)))
  | up, 0, _, _, _, hn, _, _, _, _ => by omega
  | [], n + 1, h, c, e, hn, hh, rr, hb, hnl => by
    rw [promoteLoop, parentIndex_ix]
    simp only
    have hp0 : ix (pathOf []) = 0 := rfl
    rw [hp0]
    have : peerIndex c 0 = none := rfl
    rw [this, if_neg (by simp)]
    by_cases hd : d = 0
    · rw [if_pos ⟨rfl, hd⟩]
      have hre : ∀ b, Rep c L h (pathOf [] ++ [b]) .empty := fun b =>
        Rep.of_empty (fun s' hp hl => hb s' ((List.prefix_append _ _).trans hp) (by rintro rfl; exact not_snoc_prefix _ _ hp)
          (by simp [pathOf] at hl hh; omega))
      have hu := updateHashes_full hs v (x := [(e, T.empty)]) (h := h) (L := L) (t := .leaf peer)
        (c := set c (ix (pathOf [] ++ [e])) (some (.leaf peer))) (by simp) (by simpa using hh) ?_ ?_
      · obtain ⟨c', h1, h2⟩ := hu
        rw [pathOf_cons] at h1
        rw [h1]
        exact ⟨c', _, rfl, Or.inl ⟨hd, rfl, h2⟩⟩
      · refine ⟨?_, ?_, trivial⟩
        · rw [set_ix _ _ (snoc_ne _ _).symm]; exact hnl
        · refine (hre (!e)).frame (fun s' hp => set_ix _ _ ?_) (fun _ _ _ _ h => h)
          rintro rfl; exact not_prefix_sib List.prefix_rfl hp
      · rw [pathOf_cons]; exact (hre e).set_leafish (t := .leaf peer) rfl
    · rw [if_neg (by simp [hd])]
      cases n with
      | zero => simp at hn
      | succ n =>
        rw [promoteLoop]
        have : parentIndex 0 = none := rfl
        rw [this]
        refine ⟨_, _, rfl, Or.inr ⟨hd, some peer, Or.inr ⟨peer, rfl, rfl, Rep.emptyAll (fun s hl => ?_)⟩, rfl⟩⟩
        by_cases hs0 : s = []
        · subst hs0; exact set_same _ _ _
        · rw [show (0 : Nat) = ix [] from rfl, set_ix _ _ hs0]
          exact hb s (List.nil_prefix) hs0 hl
  | (b, s) :: up, n + 1, h, c, e, hn, hh, rr, hb, hnl => by
    rw [promoteLoop, parentIndex_ix]
    simp only
    rw [pathOf_cons, peerIndex_ix, rr.2.1.tag, isNone_tag]
    have hlen := pathOf_length up
    simp at hh hn
    have hre : Rep (set c (ix (pathOf up ++ [b])) none) L (h + 1) (pathOf up ++ [b]) .empty := by
      refine Rep.of_empty (fun s' hp hl => ?_)
      by_cases hs' : s' = pathOf up ++ [b]
      · subst hs'; exact set_same _ _ _
      · rw [set_ix _ _ hs']
        rw [pathOf_cons] at hb
        exact hb s' hp hs' (by rw [List.length_append] at hl; simp at hl; omega)
    cases hse : s.isEmpty with
    | false =>
      rw [if_pos (by simp)]
      have hss : set (set c (ix (pathOf up ++ [b])) none) (ix (pathOf up ++ [b])) (some (Child.leaf peer)) = set c (ix (pathOf up ++ [b])) (some (Child.leaf peer)) := by
        funext j; unfold set; split <;> rfl
      have r1 := hre.set_leafish (t := .leaf peer) rfl
      simp only [T.tag, hss] at r1
      have rr1 : RepR (set c (ix (pathOf up ++ [b])) (some (Child.leaf peer))) L (h + 1) ((b, s) :: up) :=
        RepR.set (by rw [pathOf_cons]; exact List.prefix_rfl) rr
      obtain ⟨c', h1, h2⟩ := updateHashes_full hs v (x := (b, s) :: up) (h := h + 1) (by simp) (by simp; omega) rr1
        (by rw [pathOf_cons]; exact r1)
      rw [pathOf_cons] at h1
      rw [h1]
      refine ⟨c', _, rfl, ?_⟩
      by_cases hd : d = 0
      · refine Or.inl ⟨hd, rfl, ?_⟩
        cases up with
        | nil =>
          exact h2
        | cons y up =>
          rw [plugRoot, plugRoot, show join hs v e T.empty (.leaf peer) = .leaf peer from rfl, join_leaf_ne hse,
            plugRoot_int _ _ _ _ (node_isInt _ _ _ _ _)]
          exact h2
      · refine Or.inr ⟨hd, none, Or.inl ⟨?_, rfl, ?_⟩, rfl⟩
        all_goals rw [plugJ, join_leaf_ne hse, plugJ_int _ _ _ _ (node_isInt _ _ _ _ _)]
        · exact plug_isInt _ _ _ _ (Or.inr (node_isInt _ _ _ _ _))
        · exact h2
    | true =>
      have hs0 : s = .empty := by cases s <;> simp [T.isEmpty] at hse; rfl
      subst hs0
      rw [if_neg (by simp), if_neg (by rintro ⟨h, _⟩; rw [ix_snoc] at h; exact step_ne_zero _ _ h)]
      have := promote_spec hs peer v rv d (L := L) up n (h + 1) (set c (ix (pathOf up ++ [b])) none) b (by omega) (by omega)
        (rr.2.2.set (List.prefix_append _ _)) ?_ ?_
      · obtain ⟨c', res, h1, h2⟩ := this
        refine ⟨c', res, h1, ?_⟩
        rcases h2 with ⟨g1, g2, g3⟩ | ⟨g1, g2⟩
        · exact Or.inl ⟨g1, g2, by rw [plugRoot]; exact g3⟩
        · exact Or.inr ⟨g1, by rw [plugJ]; exact g2⟩
      · intro s' hp hne hl
        by_cases hs' : s' = pathOf up ++ [b]
        · subst hs'; exact set_same _ _ _
        · rw [set_ix _ _ hs']
          obtain ⟨z, rfl⟩ := hp
          cases z with
          | nil => simp at hne
          | cons a z =>
            by_cases hab : a = b
            · subst hab
              rw [pathOf_cons] at hb
              exact hb _ ⟨z, by simp⟩ hs' hl
            · have : a = !b := by cases a <;> cases b <;> simp at hab ⊢
              subst this
              refine rr.2.1.empty_below _ ⟨z, by simp⟩ ?_
              simp at hl ⊢; omega
      · rw [set_ix _ _ (snoc_ne _ _).symm]; exact rr.1

/-- `removeLeafChild` on a node of the tree -/
theorem removeLeaf_spec (hs : Hasher) {c : Node} {L} {x : Ctx} {h d : Nat} {o : LeafChild} {v rv : Ver}
    (hx : x ≠ []) (hh : h + x.length = 4) (rr : RepR c L h x) (r : Rep c L h (pathOf x) (.leaf o))
    (hroot : ∃ y, c 0 = some y)
    (hsib : ∀ b s up, x = (b, s) :: up → s = .empty → up = [] ∧ d = 0) :
    ∃ c' res, removeLeafChild hs c (ix (pathOf x)) v rv d = some (c', res) ∧
      ((d = 0 ∧ res = .complete rv ∧ Rep c' L 4 [] (plugRoot hs v x .empty) ∧ ¬ ∃ b, x = [(b, .empty)]) ∨
       (d = 0 ∧ (∃ b, x = [(b, .empty)]) ∧ res = .removeNode none rv ∧ safeToRemove c' = true) ∨
       (d ≠ 0 ∧ ∃ u, Outcome c' L (plugJ hs v x .empty) u ∧ res = (match u with | none => .complete rv | some p => .removeNode (some p) rv))) := by
  match x, hx with
  | (b, s) :: up, _ =>
  simp at hh
  have hlen := pathOf_length up
  have hre : Rep (set c (ix (pathOf up ++ [b])) none) L h (pathOf up ++ [b]) .empty := by
    rw [pathOf_cons] at r; exact r.clear rfl
  have rr1 : RepR (set c (ix (pathOf up ++ [b])) none) L h ((b, s) :: up) := rr.set (by rw [pathOf_cons]; exact List.prefix_rfl)
  unfold removeLeafChild
  rw [pathOf_cons, if_neg (by rw [ix_snoc]; exact step_ne_zero _ _)]
  simp only
  rw [peerIndex_ix, rr1.2.1.tag, isNone_tag]
  cases s with
  | empty =>
    obtain ⟨hup, hd⟩ := hsib b .empty up rfl rfl
    subst hup
    obtain ⟨y, hy⟩ := hroot
    have hnone : ∀ s : List Bool, s ≠ [] → s.length ≤ 4 → set c (ix (pathOf [] ++ [b])) none (ix s) = none := by
      intro s hne hl
      match s, hne with
      | a :: z, _ =>
      by_cases hab : a = b
      · subst hab
        exact hre.empty_below _ ⟨z, by simp [pathOf]⟩ (by simp [pathOf] at hl hh ⊢; omega)
      · have : a = !b := by cases a <;> cases b <;> simp at hab ⊢
        subst this
        exact rr1.2.1.empty_below _ ⟨z, by simp [pathOf]⟩ (by simp [pathOf] at hl hh ⊢; omega)
    have hy' : set c (ix (pathOf [] ++ [b])) none (ix []) = some y := by
      rw [set_ix _ _ (by simp [pathOf])]; exact hy
    simp only [T.isEmpty, if_true]
    rw [if_pos (numChildren_one hy' hnone)]
    obtain ⟨c', h1, h2⟩ := updateHashes_full hs v (x := [(b, .empty)]) (h := h) (by simp) (by simp at hh ⊢; omega) rr1
      (by rw [pathOf_cons]; exact hre)
    rw [pathOf_cons] at h1
    rw [h1]
    refine ⟨c', _, rfl, Or.inr (Or.inl ⟨hd, ⟨b, rfl⟩, rfl, ?_⟩)⟩
    have hch : ∀ s : List Bool, s ≠ [] → s.length ≤ 4 → c' (ix s) = none := by
      intro s hne hl
      match s, hne with
      | a :: z, _ =>
      have hch : (node hs v b T.empty T.empty).child a = .empty := by cases a <;> cases b <;> rfl
      have := h2.child a
      rw [plug, plug, hch] at this
      exact this.empty_below _ ⟨z, by simp⟩ (by simp at hl ⊢; omega)
    rw [safeToRemove_iff]
    refine ⟨fun s hl l e => ?_, fun s hl => hch s (by rintro rfl; simp at hl) (by omega)⟩
    by_cases hs0 : s = []
    · subst hs0
      rw [h2.tag] at e
      cases b <;> simp [plug, node, T.tag] at e
    · rw [hch s hs0 hl] at e; simp at e
  | int sh sv sa sb =>
    simp only [T.isEmpty, Bool.false_eq_true, if_false]
    rw [rr1.2.1.tag]
    simp only [T.tag]
    obtain ⟨c', h1, h2⟩ := updateHashes_full hs v (x := (b, .int sh sv sa sb) :: up) (h := h) (by simp) (by simp; omega) rr1
      (by rw [pathOf_cons]; exact hre)
    rw [pathOf_cons] at h1
    rw [h1]
    refine ⟨c', _, rfl, ?_⟩
    by_cases hd : d = 0
    · refine Or.inl ⟨hd, rfl, ?_, by simp⟩
      cases up with
      | nil => exact h2
      | cons y up =>
        rw [plugRoot, join_int_left rfl, plugRoot_int _ _ _ _ (node_isInt _ _ _ _ _)]; exact h2
    · refine Or.inr (Or.inr ⟨hd, none, Or.inl ⟨?_, rfl, ?_⟩, rfl⟩)
      all_goals rw [plugJ, join_int_left rfl, plugJ_int _ _ _ _ (node_isInt _ _ _ _ _)]
      · exact plug_isInt _ _ _ _ (Or.inr (node_isInt _ _ _ _ _))
      · exact h2
  | leaf p =>
    simp only [T.isEmpty, Bool.false_eq_true, if_false]
    rw [rr1.2.1.tag]
    simp only [T.tag]
    have hsibne : pathOf up ++ [!b] ≠ pathOf up ++ [b] := by
      intro e; have := List.append_cancel_left e; cases b <;> simp at this
    have hrs : Rep (set (set c (ix (pathOf up ++ [b])) none) (ix (pathOf up ++ [!b])) none) L h (pathOf up ++ [!b]) .empty :=
      rr1.2.1.clear rfl
    have hrb : Rep (set (set c (ix (pathOf up ++ [b])) none) (ix (pathOf up ++ [!b])) none) L h (pathOf up ++ [b]) .empty := by
      refine hre.frame (fun s' hp => set_ix _ _ ?_) (fun _ _ _ _ h => h)
      rintro rfl; exact not_prefix_sib hp List.prefix_rfl
    have hu := promote_spec hs p v rv d (L := L) up 6 h
      (set (set c (ix (pathOf up ++ [b])) none) (ix (pathOf up ++ [!b])) none) (!b) (by omega) (by omega)
      ((rr.2.2.set (List.prefix_append _ _)).set (List.prefix_append _ _)) ?_ ?_
    · obtain ⟨c', res, h1, h2⟩ := hu
      refine ⟨c', res, h1, ?_⟩
      rcases h2 with ⟨g1, g2, g3⟩ | ⟨g1, u, g2, g3⟩
      · refine Or.inl ⟨g1, g2, ?_, by simp⟩
        cases up with
        | nil =>
          have : plugRoot hs v [(b, T.leaf p)] T.empty = plugRoot hs v [(!b, T.empty)] (T.leaf p) := by
            cases b <;> rfl
          rw [this]; exact g3
        | cons y up => rw [plugRoot] at g3 ⊢; exact g3
      · exact Or.inr (Or.inr ⟨g1, u, by rw [plugJ]; exact g2, g3⟩)
    · intro s' hp hne hl
      obtain ⟨z, rfl⟩ := hp
      cases z with
      | nil => simp at hne
      | cons a z =>
        by_cases hab : a = b
        · subst hab; exact hrb.empty_below _ ⟨z, by simp⟩ (by simp at hl hh ⊢; omega)
        · have : a = !b := by cases a <;> cases b <;> simp at hab ⊢
          subst this; exact hrs.empty_below _ ⟨z, by simp⟩ (by simp at hl hh ⊢; omega)
    · rw [set_ix _ _ (snoc_ne _ _).symm, set_ix _ _ (snoc_ne _ _).symm]; exact rr.1

/-! ## unlinkChild -/

theorem unlinkLoop_spec (hs : Hasher) (p : LeafChild) (v : Ver) {L} : ∀ (x : Ctx) (n h : Nat) (c : Node),
    x.length + 1 ≤ n → h + x.length = 4 → RepR c L h x → Rep c L h (pathOf x) (.leaf p) →
    ∃ c' u, unlinkLoop hs v n c (ix (pathOf x)) = some (c', u) ∧ Outcome c' L (plugJ hs v x (.leaf p)) u
  | x, 0, _, _, hn, _, _, _ => by omega
  | [], n + 1, h, c, hn, hh, rr, r => by
    rw [unlinkLoop]
    have h0 : ix (pathOf []) = 0 := rfl
    have hp : parentIndex (ix (pathOf [])) = none := rfl
    rw [hp]
    simp only
    rw [r.tag]
    simp only [T.tag]
    have hr : Rep (set c (ix (pathOf [])) none) L h (pathOf []) .empty := r.clear rfl
    rw [if_pos (numChildren_zero (fun s hl => hr.empty_below s (List.nil_prefix) (by simp [pathOf] at hh ⊢; omega)))]
    refine ⟨_, _, rfl, Or.inr ⟨p, rfl, rfl, ?_⟩⟩
    simp at hh; subst hh; exact hr
  | (b, s) :: x, n + 1, h, c, hn, hh, rr, r => by
    rw [unlinkLoop, pathOf_cons, parentIndex_ix]
    simp only
    rw [peerIndex_ix, rr.2.1.tag, isNone_tag]
    rw [pathOf_cons] at r
    simp at hn hh
    cases hse : s.isEmpty with
    | false =>
      simp only [Bool.false_eq_true, if_false]
      rw [r.tag]
      simp only [T.tag, Option.isSome_some, Bool.true_or, if_true]
      obtain ⟨c', h1, h2⟩ := updateHashes_full hs v (x := (b, s) :: x) (h := h) (by simp) (by simp; omega) rr (by rw [pathOf_cons]; exact r)
      rw [pathOf_cons] at h1
      rw [h1]
      refine ⟨c', _, rfl, Or.inl ⟨?_, rfl, ?_⟩⟩
      all_goals rw [plugJ, join_leaf_ne hse, plugJ_int _ _ _ _ (node_isInt _ _ _ _ _)]
      · exact plug_isInt _ _ _ _ (Or.inr (node_isInt _ _ _ _ _))
      · exact h2
    | true =>
      have hs0 : s = .empty := by cases s <;> simp [T.isEmpty] at hse; rfl
      subst hs0
      simp only [if_true]
      rw [r.tag]
      have hlen := pathOf_length x
      have := unlinkLoop_spec hs p v (L := L) x n (h + 1)
        (set (set c (ix (pathOf x)) (T.leaf p).tag) (ix (pathOf x ++ [b])) none) (by omega) (by omega)
        ((rr.2.2.set List.prefix_rfl).set (List.prefix_append _ _)) ?_
      · obtain ⟨c', u, h1, h2⟩ := this
        exact ⟨c', u, h1, by rw [plugJ]; exact h2⟩
      · have hb : Rep (set (set c (ix (pathOf x)) (T.leaf p).tag) (ix (pathOf x ++ [b])) none) L h (pathOf x ++ [b]) .empty := by
          have : Rep (set c (ix (pathOf x)) (T.leaf p).tag) L h (pathOf x ++ [b]) (.leaf p) :=
            r.frame (fun s' hp => set_ix _ _ (by rintro rfl; exact not_snoc_prefix _ _ hp)) (fun _ _ _ _ h => h)
          exact this.clear rfl
        refine Rep.mk b ?_ hb ?_
        · rw [set_ix _ _ (snoc_ne _ _).symm]; exact set_same _ _ _
        · refine rr.2.1.frame (fun s' hp => ?_) (fun _ _ _ _ h => h)
          rw [set_ix, set_ix]
          · rintro rfl; exact not_snoc_prefix _ _ hp
          · rintro rfl; exact not_prefix_sib List.prefix_rfl hp

theorem unlinkChild_spec (hs : Hasher) {c : Node} {L L'} {x : Ctx} {key : Hash} {d : Nat} {v : Ver} {p : LeafChild}
    (hk : 4 * d + 4 ≤ key.length) (hx : pathOf x = bitsAt key d) (rr : RepR c L 0 x)
    (hL : ∀ s' t', s' ≠ bitsAt key d → L s' t' → L' s' t') :
    ∃ c' u, unlinkChild hs c (getNibble key d) v (some p) = some (c', u) ∧ Outcome c' L' (plugJ hs v x (.leaf p)) u := by
  unfold unlinkChild
  rw [index_getNibble hk, ← hx]
  have hlen : x.length = 4 := by rw [← pathOf_length, hx, bitsAt_length hk]
  have rr' : RepR (set c (ix (pathOf x)) (some (.leaf p))) L' 0 x := by
    refine RepR.set List.prefix_rfl (rr.frame (fun _ _ => rfl) (fun s' t' hn => hL s' t' ?_))
    rintro rfl; exact hn (hx ▸ List.prefix_rfl)
  have r' : Rep (set c (ix (pathOf x)) (some (.leaf p))) L' 0 (pathOf x) (.leaf p) :=
    ⟨set_same _ _ _, fun h => by simp [T.isInt] at h⟩
  simp only [Option.map_some, Option.isSome_some, Bool.and_true]
  match x, hlen with
  | (b, s) :: x, hlen =>
  have hpi : peerIndex (set c (ix (pathOf ((b, s) :: x))) (some (.leaf p))) (ix (pathOf ((b, s) :: x))) =
      if s.isEmpty then none else some (ix (pathOf x ++ [!b])) := by
    conv => lhs; rw [pathOf_cons]
    rw [peerIndex_ix]
    have := rr'.2.1.tag
    rw [pathOf_cons] at this
    rw [this, isNone_tag]
  rw [hpi]
  cases hse : s.isEmpty with
  | false =>
    simp only [Bool.false_eq_true, if_false, Option.isSome_some, if_true]
    obtain ⟨c', h1, h2⟩ := updateHashes_full hs v (x := (b, s) :: x) (h := 0) (by simp) (by omega) rr' r'
    rw [h1]
    refine ⟨c', _, rfl, Or.inl ⟨?_, rfl, ?_⟩⟩
    all_goals rw [plugJ, join_leaf_ne hse, plugJ_int _ _ _ _ (node_isInt _ _ _ _ _)]
    · exact plug_isInt _ _ _ _ (Or.inr (node_isInt _ _ _ _ _))
    · exact h2
  | true =>
    simp only [if_true, Option.isSome_none, Bool.false_eq_true, if_false]
    exact unlinkLoop_spec hs p v _ 6 0 _ (by omega) (by omega) rr' r'

/-- `BatchedInternalNode::remove` -/
theorem nodeRemove_spec (hs : Hasher) {c : Node} {L} {t : T} {key : Hash} {d : Nat} {v : Ver}
    (r : Rep c L 4 [] t) (hl : t.isLeaf = false) (hk : 4 * d + 4 ≤ key.length)
    (hsib : ∀ b s up o, (zipN (bitsAt key d) t).2.1 = .leaf o → (zipN (bitsAt key d) t).1 = (b, s) :: up → s = .empty → up = [] ∧ d = 0) :
    ∃ c' res, nodeRemove hs c key d v = some (c', res) ∧
      (((zipN (bitsAt key d) t).2.1.isInt = true ∧ c' = c ∧ res = .descend (zipN (bitsAt key d) t).2.1.ver) ∨
       ((∀ o, (zipN (bitsAt key d) t).2.1 = .leaf o → o.key.hash ≠ key) ∧ (zipN (bitsAt key d) t).2.1.isInt = false ∧ c' = c ∧ res = .notFound) ∨
       (∃ o, (zipN (bitsAt key d) t).2.1 = .leaf o ∧ o.key.hash = key ∧
        ((d = 0 ∧ res = .complete o.key.version ∧ Rep c' L 4 [] (plugRoot hs v (zipN (bitsAt key d) t).1 .empty) ∧ ¬ ∃ b, (zipN (bitsAt key d) t).1 = [(b, .empty)]) ∨
         (d = 0 ∧ (∃ b, (zipN (bitsAt key d) t).1 = [(b, .empty)]) ∧ res = .removeNode none o.key.version ∧ safeToRemove c' = true) ∨
         (d ≠ 0 ∧ ∃ u, Outcome c' L (plugJ hs v (zipN (bitsAt key d) t).1 .empty) u ∧
            res = (match u with | none => .complete o.key.version | some p => .removeNode (some p) o.key.version))))) := by
  have hbl := bitsAt_length hk
  obtain ⟨rr, rs, hw⟩ := walkN_spec (getNibble key d) t r hl
  have hlen := zipN_len hbl t
  have hne : (zipN (bitsAt key d) t).1 ≠ [] := by
    match hb : bitsAt key d, hbl with
    | b :: bs, _ => exact zipN_ne b bs t
  rw [nibBits_getNibble hk] at rr rs hw
  have htop : (zipN (bitsAt key d) t).2.1 = .empty ∨ ∃ y, c 0 = some y := by
    cases t with
    | empty =>
      left
      match hb : bitsAt key d, hbl with
      | b :: b' :: bs, _ =>
        have : zipN (b :: b' :: bs) T.empty = ([(b, .empty)], .empty, b' :: bs) := rfl
        rw [this]
    | leaf l => simp [T.isLeaf] at hl
    | int h w a b => exact Or.inr ⟨_, r.tag⟩
  generalize zipN (bitsAt key d) t = z at *
  obtain ⟨x, sub, rest⟩ := z
  simp only at *
  unfold nodeRemove
  rw [show NIBBLE_BITS = 4 from rfl, hw]
  cases sub with
  | int h w a b =>
    simp only [T.isInt, if_true]
    rw [rs.tag]
    exact ⟨c, _, rfl, Or.inl ⟨trivial, rfl, rfl⟩⟩
  | empty =>
    simp only [T.isInt, Bool.false_eq_true, if_false]
    rw [rs.tag]
    exact ⟨c, _, rfl, Or.inr (Or.inl ⟨by simp, trivial, rfl, rfl⟩)⟩
  | leaf o =>
    simp only [T.isInt, Bool.false_eq_true, if_false]
    rw [rs.tag]
    simp only [T.tag]
    by_cases hkey : o.key.hash = key
    · rw [if_pos hkey]
      obtain ⟨c', res, h1, h2⟩ := removeLeaf_spec hs (v := v) (rv := o.key.version) (d := d) hne (by omega) rr rs
        (by rcases htop with h | h; · simp at h
            · exact h) (fun b s up e1 e2 => hsib b s up o rfl e1 e2)
      exact ⟨c', res, h1, Or.inr (Or.inr ⟨o, rfl, hkey, h2⟩)⟩
    · rw [if_neg hkey]
      refine ⟨c, _, rfl, Or.inr (Or.inl ⟨?_, trivial, rfl, rfl⟩)⟩
      intro o' e; simp at e; subst e; exact hkey

end Verif.Smt
