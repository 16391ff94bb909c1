import Verif.Smt.Model
/-!
# The binary trie behind the batched nodes (proof-side notion), and how a node represents a part of it
-/
set_option linter.unusedVariables false
set_option linter.unusedSimpArgs false
namespace Verif.Smt

/-- the logical tree: every `Child` in its place -/
inductive T
  | empty
  | leaf (l : LeafChild)
  | int (h : Hash) (v : Ver) (l r : T)

namespace T
def hash (hs : Hasher) : T → Hash
  | empty => hs.placeholder
  | leaf l => l.hash
  | int h _ _ _ => h
def tag : T → Option Child
  | empty => none
  | leaf l => some (.leaf l)
  | int h v _ _ => some (.internal h v)
def child : T → Bool → T
  | int _ _ l _, false => l
  | int _ _ _ r, true => r
  | _, _ => empty
def isInt : T → Bool
  | int _ _ _ _ => true
  | _ => false
def isLeaf : T → Bool
  | leaf _ => true
  | _ => false
def isEmpty : T → Bool
  | empty => true
  | _ => false
def ver : T → Ver
  | int _ v _ _ => v
  | _ => 0
end T

/-- a fresh internal node with version `v`; `t` is on side `b`, `s` on the other -/
def node (hs : Hasher) (v : Ver) (b : Bool) (s t : T) : T :=
  if b then .int (hs.parent (s.hash hs) (t.hash hs)) v s t else .int (hs.parent (t.hash hs) (s.hash hs)) v t s

theorem node_isInt (hs v b s t) : (node hs v b s t).isInt = true := by unfold node; split <;> rfl
theorem node_ver (hs v b s t) : (node hs v b s t).ver = v := by unfold node; split <;> rfl
theorem node_child (hs v b s t) : (node hs v b s t).child b = t := by cases b <;> rfl
theorem node_child' (hs v b s t) : (node hs v b s t).child (!b) = s := by cases b <;> rfl

/-- index of the child reached from the root of a node by some bits -/
def ix (s : List Bool) : Nat := s.foldl step 0

theorem ix_snoc (s : List Bool) (b : Bool) : ix (s ++ [b]) = step (ix s) b := by simp [ix]

theorem step_inj {i j : Nat} {a b : Bool} (h : step i a = step j b) : i = j ∧ a = b := by
  cases a <;> cases b <;> simp [step, leftChildIndex, rightChildIndex] at h ⊢ <;> omega

theorem step_ne_zero (i : Nat) (b : Bool) : step i b ≠ 0 := by
  cases b <;> simp [step, leftChildIndex, rightChildIndex]

theorem ix_inj_rev : ∀ (p q : List Bool), ix p.reverse = ix q.reverse → p = q
  | [], [], _ => rfl
  | [], b :: q, h => by
    rw [List.reverse_cons, ix_snoc] at h; exact absurd h.symm (step_ne_zero _ _)
  | a :: p, [], h => by
    rw [List.reverse_cons, ix_snoc] at h; exact absurd h (step_ne_zero _ _)
  | a :: p, b :: q, h => by
    rw [List.reverse_cons, List.reverse_cons, ix_snoc, ix_snoc] at h
    obtain ⟨h1, h2⟩ := step_inj h
    rw [ix_inj_rev p q h1, h2]

theorem ix_inj {p q : List Bool} (h : ix p = ix q) : p = q := by
  have := ix_inj_rev p.reverse q.reverse (by simpa using h)
  simpa using this

theorem ix_lt : ∀ (s : List Bool), ix s.reverse + 2 ≤ 2 ^ (s.length + 1)
  | [] => by decide
  | b :: s => by
    have ih := ix_lt s
    rw [List.reverse_cons, ix_snoc, List.length_cons, Nat.pow_succ]
    cases b <;> simp [step, leftChildIndex, rightChildIndex] <;> omega

/-- every index used by the code is inside the array of 31 -/
theorem at_lt {s : List Bool} (h : s.length ≤ 4) : ix s < MAX_CHILDREN := by
  have h1 := ix_lt s.reverse
  rw [List.reverse_reverse, List.length_reverse] at h1
  have : 2 ^ (s.length + 1) ≤ 2 ^ 5 := Nat.pow_le_pow_right (by decide) (by omega)
  simp [MAX_CHILDREN]; omega

theorem ix_eq_zero {s : List Bool} : ix s = 0 ↔ s = [] :=
  ⟨fun h => ix_inj (q := []) h, fun h => by rw [h]; rfl⟩

theorem parent_ix (s : List Bool) (b : Bool) : (ix (s ++ [b]) - 1) / 2 = ix s := by
  rw [ix_snoc]; cases b <;> simp [step, leftChildIndex, rightChildIndex] <;> omega

theorem parentIndex_ix (s : List Bool) (b : Bool) : parentIndex (ix (s ++ [b])) = some (ix s) := by
  unfold parentIndex
  rw [if_neg (by rw [ix_snoc]; exact step_ne_zero _ _), parent_ix]

theorem isLeft_ix (s : List Bool) (b : Bool) : isLeftChild (ix (s ++ [b])) = !b := by
  rw [ix_snoc]; cases b <;> simp [step, leftChildIndex, rightChildIndex, isLeftChild] <;> omega

theorem peer_ix (s : List Bool) (b : Bool) :
    (if isLeftChild (ix (s ++ [b])) then ix (s ++ [b]) + 1 else ix (s ++ [b]) - 1) = ix (s ++ [!b]) := by
  rw [isLeft_ix, ix_snoc, ix_snoc]
  cases b <;> simp [step, leftChildIndex, rightChildIndex]

theorem peerIndex_ix (c : Node) (s : List Bool) (b : Bool) :
    peerIndex c (ix (s ++ [b])) = if (c (ix (s ++ [!b]))).isNone then none else some (ix (s ++ [!b])) := by
  unfold peerIndex
  rw [if_neg (by rw [ix_snoc]; exact step_ne_zero _ _)]
  simp only [peer_ix, isEmpty]

/-- node `c` represents, below the bits `s`, the trie `t` with `h` levels left; an internal child at level 0 satisfies `L` -/
def Rep (c : Node) (L : List Bool → T → Prop) : Nat → List Bool → T → Prop
  | 0, s, t => c (ix s) = t.tag ∧ (t.isInt = true → L s t)
  | h + 1, s, t => c (ix s) = t.tag ∧ Rep c L h (s ++ [false]) (t.child false) ∧ Rep c L h (s ++ [true]) (t.child true)

theorem Rep.tag {c L h s t} (r : Rep c L h s t) : c (ix s) = t.tag := by
  cases h with
  | zero => exact r.1
  | succ h => exact r.1

theorem Rep.child {c L h s t} (r : Rep c L (h + 1) s t) (b : Bool) : Rep c L h (s ++ [b]) (t.child b) := by
  cases b
  · exact r.2.1
  · exact r.2.2

theorem Rep.mk {c : Node} {L h s t} (b : Bool) (h0 : c (ix s) = t.tag) (h1 : Rep c L h (s ++ [b]) (t.child b))
    (h2 : Rep c L h (s ++ [!b]) (t.child (!b))) : Rep c L (h + 1) s t := by
  cases b
  · exact ⟨h0, h1, h2⟩
  · exact ⟨h0, h2, h1⟩

theorem Rep.frame {c c' : Node} {L L' : List Bool → T → Prop} : ∀ {h s t}, (∀ s', s <+: s' → c' (ix s') = c (ix s')) →
    (∀ s' t', s <+: s' → s'.length = s.length + h → L s' t' → L' s' t') → Rep c L h s t → Rep c' L' h s t
  | 0, s, t, hf, hl, r => ⟨by rw [hf s (List.prefix_rfl)]; exact r.1, fun hi => hl s t List.prefix_rfl rfl (r.2 hi)⟩
  | h + 1, s, t, hf, hl, r =>
    ⟨by rw [hf s (List.prefix_rfl)]; exact r.1,
      Rep.frame (fun s' hp => hf s' ((List.prefix_append s [false]).trans hp))
        (fun s' t' hp hlen => hl s' t' ((List.prefix_append s [false]).trans hp) (by rw [hlen, List.length_append]; simp; omega)) r.2.1,
      Rep.frame (fun s' hp => hf s' ((List.prefix_append s [true]).trans hp))
        (fun s' t' hp hlen => hl s' t' ((List.prefix_append s [true]).trans hp) (by rw [hlen, List.length_append]; simp; omega)) r.2.2⟩

/-- nothing below an empty place -/
theorem Rep.empty_below {c L} : ∀ {h s}, Rep c L h s .empty → ∀ s', s <+: s' → s'.length ≤ s.length + h → c (ix s') = none
  | 0, s, r, s', hp, hl => by
    have : s = s' := hp.eq_of_length (by have := hp.length_le; omega)
    subst this; exact r.1
  | h + 1, s, r, s', hp, hl => by
    obtain ⟨x, rfl⟩ := hp
    cases x with
    | nil => rw [List.append_nil]; exact r.1
    | cons b x =>
      have h1 : Rep c L h (s ++ [b]) .empty := r.child b
      refine h1.empty_below _ ⟨x, by simp⟩ ?_
      rw [List.length_append] at hl ⊢; rw [List.length_append]; simp at hl ⊢; omega

theorem Rep.of_empty {c : Node} {L} : ∀ {h s}, (∀ s', s <+: s' → s'.length ≤ s.length + h → c (ix s') = none) → Rep c L h s .empty
  | 0, s, hn => ⟨hn s List.prefix_rfl (by omega), fun h => by simp [T.isInt] at h⟩
  | h + 1, s, hn =>
    ⟨hn s List.prefix_rfl (by omega),
      Rep.of_empty (fun s' hp hl => hn s' ((List.prefix_append s [false]).trans hp) (by rw [List.length_append] at hl; simp at hl; omega)),
      Rep.of_empty (fun s' hp hl => hn s' ((List.prefix_append s [true]).trans hp) (by rw [List.length_append] at hl; simp at hl; omega))⟩

theorem set_same (c : Node) (i : Nat) (x) : set c i x i = x := by simp [set]
theorem set_ne (c : Node) {i j : Nat} (x) (h : j ≠ i) : set c i x j = c j := by simp [set, h]
theorem set_ix (c : Node) {s s' : List Bool} (x) (h : s' ≠ s) : set c (ix s) x (ix s') = c (ix s') :=
  set_ne c x (fun e => h (ix_inj e))

theorem not_snoc_prefix (s : List Bool) (b : Bool) : ¬ (s ++ [b] <+: s) := by
  intro h; have := h.length_le; rw [List.length_append, List.length_singleton] at this; omega

theorem snoc_ne (s : List Bool) (b : Bool) : s ++ [b] ≠ s := by
  intro h; have := congrArg List.length h; simp at this

theorem not_prefix_sib {s s' : List Bool} {b : Bool} (h : s ++ [b] <+: s') : ¬ (s ++ [!b] <+: s') := by
  intro h2
  obtain ⟨x, rfl⟩ := h
  obtain ⟨y, hy⟩ := h2
  rw [List.append_assoc, List.append_assoc] at hy
  have := List.append_cancel_left hy
  cases b <;> simp at this

/-- setting the place of a subtree that was (or becomes) free below: the leaf/empty case -/
theorem Rep.set_leafish {c : Node} {L h s} {t : T} (r : Rep c L h s .empty) (ht : t.isInt = false) :
    Rep (set c (ix s) t.tag) L h s t := by
  have he := r.empty_below
  have hc : ∀ b, t.child b = .empty := by
    intro b; cases t <;> first | rfl | simp [T.isInt] at ht
  cases h with
  | zero => exact ⟨set_same _ _ _, fun h => by rw [ht] at h; simp at h⟩
  | succ h =>
    refine Rep.mk false (set_same _ _ _) ?_ ?_
    all_goals
      rw [hc]
      refine Rep.of_empty (fun s' hp hl => ?_)
      rw [set_ix _ _ (by rintro rfl; exact not_snoc_prefix _ _ hp)]
      refine he s' ((List.prefix_append _ _).trans hp) (by rw [List.length_append] at hl; simp at hl; omega)

/-- clearing the place of a leaf -/
theorem Rep.clear {c : Node} {L h s} {t : T} (r : Rep c L h s t) (ht : t.isInt = false) :
    Rep (set c (ix s) none) L h s .empty := by
  have hc : ∀ b, t.child b = .empty := by
    intro b; cases t <;> first | rfl | simp [T.isInt] at ht
  cases h with
  | zero => exact ⟨set_same _ _ _, fun h => by simp [T.isInt] at h⟩
  | succ h =>
    refine Rep.mk false (set_same _ _ _) ?_ ?_
    · have := r.child false
      rw [hc] at this
      refine this.frame (fun s' hp => ?_) (fun _ _ _ _ h => h)
      exact set_ix _ _ (by rintro rfl; exact not_snoc_prefix _ _ hp)
    · have := r.child true
      rw [hc] at this
      refine this.frame (fun s' hp => ?_) (fun _ _ _ _ h => h)
      exact set_ix _ _ (by rintro rfl; exact not_snoc_prefix _ _ hp)

/-! ## contexts (bottom first) -/

/-- a context: from the bottom up, the side taken and the sibling -/
abbrev Ctx := List (Bool × T)

def pathOf (x : Ctx) : List Bool := (x.map (·.1)).reverse

theorem pathOf_cons (b : Bool) (s : T) (x : Ctx) : pathOf ((b, s) :: x) = pathOf x ++ [b] := by simp [pathOf]
theorem pathOf_length (x : Ctx) : (pathOf x).length = x.length := by simp [pathOf]

/-- rebuild upwards with fresh nodes -/
def plug (hs : Hasher) (v : Ver) : Ctx → T → T
  | [], t => t
  | (b, s) :: x, t => plug hs v x (node hs v b s t)

theorem plug_append (hs v) : ∀ (x y : Ctx) (t : T), plug hs v (x ++ y) t = plug hs v y (plug hs v x t)
  | [], y, t => rfl
  | (b, s) :: x, y, t => by simp only [List.cons_append, plug]; exact plug_append hs v x y _

def notLeaf (o : Option Child) : Prop := ∀ l, o ≠ some (.leaf l)

/-- the siblings of a context are represented, and no ancestor is a leaf -/
def RepR (c : Node) (L : List Bool → T → Prop) : Nat → Ctx → Prop
  | _, [] => True
  | h, (b, s) :: x => notLeaf (c (ix (pathOf x))) ∧ Rep c L h (pathOf x ++ [!b]) s ∧ RepR c L (h + 1) x

theorem RepR.frame {c c' : Node} {L L' : List Bool → T → Prop} : ∀ {h} {x : Ctx}, (∀ s', ¬ (pathOf x <+: s') → c' (ix s') = c (ix s')) →
    (∀ s' t', ¬ (pathOf x <+: s') → L s' t' → L' s' t') → RepR c L h x → RepR c' L' h x
  | h, [], _, _, _ => trivial
  | h, (b, s) :: x, hf, hl, r => by
    have hnp : ∀ s', pathOf x ++ [!b] <+: s' → ¬ (pathOf ((b, s) :: x) <+: s') := by
      intro s' hp hq
      rw [pathOf_cons] at hq
      exact not_prefix_sib hq hp
    refine ⟨?_, r.2.1.frame (fun s' hp => hf s' (hnp s' hp)) (fun s' t' hp _ => hl s' t' (hnp s' hp)), ?_⟩
    · rw [hf]
      · exact r.1
      · rw [pathOf_cons]; exact not_snoc_prefix _ _
    · refine RepR.frame (fun s' hp => hf s' ?_) (fun s' t' hp => hl s' t' ?_) r.2.2
      all_goals
        intro hq; rw [pathOf_cons] at hq
        exact hp ((List.prefix_append _ _).trans hq)

theorem RepR.set {c : Node} {L h} {x : Ctx} {s : List Bool} {o} (hp : pathOf x <+: s) (r : RepR c L h x) :
    RepR (set c (ix s) o) L h x :=
  r.frame (fun s' hn => set_ix _ _ (by rintro rfl; exact hn hp)) (fun _ _ _ h => h)

theorem getHash_of {hs : Hasher} {c : Node} {i : Nat} {t : T} (h : c i = t.tag) : getHash hs c i = t.hash hs := by
  unfold getHash; rw [h]; cases t <;> rfl

/-- `updateHashes` rebuilds the path upwards with fresh hashes and versions -/
theorem updateHashes_spec (hs : Hasher) (v : Ver) : ∀ (x : Ctx) (n h : Nat) (c : Node) (L) (t : T), x ≠ [] → x.length ≤ n →
    RepR c L h x → Rep c L h (pathOf x) t →
    ∃ c', updateHashesLoop hs n c (ix (pathOf x)) v = some c' ∧ Rep c' L (h + x.length) [] (plug hs v x t)
  | [], _, _, _, _, _, hne, _, _, _ => absurd rfl hne
  | (b, s) :: x, 0, _, _, _, _, _, hn, _, _ => by simp at hn
  | (b, s) :: x, n + 1, h, c, L, t, _, hn, rr, r => by
    rw [pathOf_cons] at r
    rw [pathOf_cons, updateHashesLoop, if_neg (by rw [ix_snoc]; exact step_ne_zero _ _)]
    simp only [parent_ix]
    have hpar : (if isLeftChild (ix (pathOf x ++ [b])) then hs.parent (getHash hs c (ix (pathOf x ++ [b]))) (getHash hs c (ix (pathOf x ++ [b]) + 1))
        else hs.parent (getHash hs c (ix (pathOf x ++ [b]) - 1)) (getHash hs c (ix (pathOf x ++ [b])))) = (node hs v b s t).hash hs := by
      have hq := peer_ix (pathOf x) b
      rw [isLeft_ix] at hq ⊢
      have e1 := getHash_of (hs := hs) r.tag
      have e2 := getHash_of (hs := hs) rr.2.1.tag
      cases b
      · simp only [Bool.not_false, if_true] at hq ⊢
        rw [hq, e1]; simp only [Bool.not_false] at e2; rw [e2]; rfl
      · simp only [Bool.not_true, Bool.false_eq_true, if_false] at hq ⊢
        rw [hq, e1]; simp only [Bool.not_true] at e2; rw [e2]; rfl
    rw [hpar]
    have hnl := rr.1
    generalize hc' : Verif.Smt.set c (ix (pathOf x)) (some (Child.internal ((node hs v b s t).hash hs) v)) = c'
    have htag : (node hs v b s t).tag = some (Child.internal ((node hs v b s t).hash hs) v) := by
      cases b <;> rfl
    have hr' : Rep c' L (h + 1) (pathOf x) (node hs v b s t) := by
      refine Rep.mk b ?_ ?_ ?_
      · rw [htag, ← hc']; exact set_same _ _ _
      · rw [node_child, ← hc']
        refine r.frame (fun s' hp => set_ix _ _ ?_) (fun _ _ _ _ h => h)
        rintro rfl; exact not_snoc_prefix _ _ hp
      · rw [node_child', ← hc']
        refine rr.2.1.frame (fun s' hp => set_ix _ _ ?_) (fun _ _ _ _ h => h)
        rintro rfl; exact not_snoc_prefix _ _ hp
    have hrr' : RepR c' L (h + 1) x := by
      rw [← hc']; exact rr.2.2.set List.prefix_rfl
    have key : ∃ c'', (if ix (pathOf x) = 0 then some c' else updateHashesLoop hs n c' (ix (pathOf x)) v) = some c'' ∧
        Rep c'' L (h + ((b, s) :: x).length) [] (plug hs v ((b, s) :: x) t) := by
     by_cases hx : x = []
     · subst hx
       rw [if_pos (by rfl)]
       exact ⟨c', rfl, hr'⟩
     · rw [if_neg (by rw [ix_eq_zero]; intro e; have := pathOf_length x; rw [e] at this; exact hx (List.length_eq_zero_iff.1 this.symm))]
       obtain ⟨c'', h1, h2⟩ := updateHashes_spec hs v x n (h + 1) c' L _ hx (by simp at hn; omega) hrr' hr'
       refine ⟨c'', h1, ?_⟩
       rw [List.length_cons, show h + (x.length + 1) = h + 1 + x.length by omega]
       exact h2
    cases hc : c (ix (pathOf x)) with
    | none => exact key
    | some y =>
      cases y with
      | leaf l => exact absurd hc (hnl l)
      | internal _ _ => exact key

end Verif.Smt
