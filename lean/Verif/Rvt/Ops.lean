import Verif.Rvt.Model
set_option linter.unusedVariables false
set_option linter.unusedSimpArgs false
/-!
# Range validation tree: the operations in coordinates (C29)

A node of level `l` has index `p * K^l + 1`; here it is called `(l, p)`.  Its parent is `(l + 1, p / K)`.
-/
namespace Verif.Rvt
open Verif.Bytes

/-- the node `(l, p)` -/
def Par.pos (P : Par) (l p : Nat) : Id := ⟨l, p * P.K ^ l + 1⟩

/-- what the theorems assume of the constants -/
structure Par.Ok (P : Par) : Prop where
  K : 2 ≤ P.K
  M : 0 < P.M

theorem Par.Ok.pow {P : Par} (h : P.Ok) (l : Nat) : 0 < P.K ^ l := Nat.pow_pos (by have := h.K; omega)
theorem Par.Ok.K0 {P : Par} (h : P.Ok) : 0 < P.K := by have := h.K; omega

@[simp] theorem pos_lvl (P : Par) (l p : Nat) : (P.pos l p).lvl = l := rfl
theorem pos_idx (P : Par) (l p : Nat) : (P.pos l p).idx = p * P.K ^ l + 1 := rfl

theorem pos_inj {P : Par} (h : P.Ok) {l p l' p' : Nat} : P.pos l p = P.pos l' p' ↔ l = l' ∧ p = p' := by
  constructor
  · intro e
    have e1 : l = l' := congrArg Id.lvl e
    subst e1
    have e2 : p * P.K ^ l + 1 = p' * P.K ^ l + 1 := congrArg Id.idx e
    exact ⟨rfl, Nat.eq_of_mul_eq_mul_right (h.pow l) (by omega)⟩
  · rintro ⟨rfl, rfl⟩; rfl

theorem up_pos {P : Par} (h : P.Ok) (l p : Nat) : P.up l (P.pos l p).idx = (P.pos (l + 1) (p / P.K)).idx := by
  simp only [Par.up, pos_idx, Nat.add_sub_cancel]
  rw [Nat.pow_succ, Nat.mul_comm p, Nat.mul_div_mul_left _ _ (h.pow l)]

theorem next_pos {P : Par} (h : P.Ok) (l p : Nat) : P.nextIdx (P.pos l p) = some (P.pos l (p + 1)).idx := by
  simp only [Par.nextIdx, pos_idx, pos_lvl, Nat.add_sub_cancel, Nat.mul_mod_left, if_pos]
  congr 1
  rw [Nat.add_mul]; omega

/-- the position of a child below its parent -/
theorem cnt_pos {P : Par} (h : P.Ok) (l p : Nat) : ((P.pos l p).idx - P.up l (P.pos l p).idx) / P.K ^ l = p % P.K := by
  rw [up_pos h]
  simp only [pos_idx]
  rw [Nat.pow_succ, ← Nat.mul_assoc, Nat.mul_right_comm, Nat.add_sub_add_right, ← Nat.sub_mul, Nat.mul_div_cancel _ (h.pow l)]
  have := Nat.div_add_mod p P.K
  rw [Nat.mul_comm] at this
  omega

/-- the map given by the nodes `(l, p)` -/
def Par.lift (P : Par) (f : Nat → Nat → Option Node) (x : Id) : Option Node :=
  if x.idx = (x.idx - 1) / P.K ^ x.lvl * P.K ^ x.lvl + 1 then f x.lvl ((x.idx - 1) / P.K ^ x.lvl) else none

theorem lift_pos {P : Par} (h : P.Ok) (f : Nat → Nat → Option Node) (l p : Nat) : P.lift f (P.pos l p) = f l p := by
  have : (P.pos l p).idx - 1 = p * P.K ^ l := by rw [pos_idx]; omega
  rw [Par.lift, this, pos_lvl, Nat.mul_div_cancel _ (h.pow l), if_pos (pos_idx _ _ _)]

def upd (f : Nat → Nat → Option Node) (l p : Nat) (n : Node) : Nat → Nat → Option Node := fun l' p' => if l' = l ∧ p' = p then some n else f l' p'

@[simp] theorem upd_same (f : Nat → Nat → Option Node) (l p : Nat) (n : Node) : upd f l p n l p = some n := by simp [upd]
theorem upd_ne (f : Nat → Nat → Option Node) {l p l' p' : Nat} (n : Node) (h : ¬ (l' = l ∧ p' = p)) : upd f l p n l' p' = f l' p' := by
  rw [upd, if_neg h]

/-- everything but the nodes -/
structure Rest where
  root : Option (Nat × Nat)
  left : Nat → Option Nat
  right : Nat → Option Nat
  min : Nat
  max : Nat
  erase : List Id

/-- the tree in coordinates -/
def Par.tree (P : Par) (f : Nat → Nat → Option Node) (R : Rest) : Tree where
  node := P.lift f
  root := R.root.map (fun x => P.pos x.1 x.2)
  left := fun l => (R.left l).map (P.pos l)
  right := fun l => (R.right l).map (P.pos l)
  min := R.min
  max := R.max
  erase := R.erase

theorem set_tree {P : Par} (h : P.Ok) (f : Nat → Nat → Option Node) (R : Rest) (l p : Nat) (n : Node) :
    (P.tree f R).set (P.pos l p) n = P.tree (upd f l p n) R := by
  simp only [Tree.set, Par.tree, Tree.mk.injEq, and_true]
  funext y
  by_cases e : y = P.pos l p
  · rw [if_pos e, e, lift_pos h, upd_same]
  · rw [if_neg e]
    simp only [Par.lift]
    by_cases hy : y.idx = (y.idx - 1) / P.K ^ y.lvl * P.K ^ y.lvl + 1
    · rw [if_pos hy, if_pos hy, upd_ne]
      rintro ⟨e1, e2⟩
      apply e
      cases y with
      | mk yl yi =>
        dsimp only at hy e1 e2
        subst e1
        rw [e2] at hy
        rw [Par.pos, hy]
    · rw [if_neg hy, if_neg hy]

theorem node_tree {P : Par} (h : P.Ok) (f : Nat → Nat → Option Node) (R : Rest) (l p : Nat) : (P.tree f R).node (P.pos l p) = f l p :=
  lift_pos h f l p

theorem root_tree {P : Par} (h : P.Ok) (f : Nat → Nat → Option Node) (R : Rest) (l p : Nat) :
    (P.tree f R).root = some (P.pos l p) ↔ R.root = some (l, p) := by
  simp only [Par.tree]
  cases R.root with
  | none => simp
  | some x =>
    obtain ⟨a, b⟩ := x
    simp [pos_inj h]

theorem addValue_tree {P : Par} (h : P.Ok) {f : Nat → Nat → Option Node} {R : Rest} {l p : Nat} {n : Node} (hn : f l p = some n) (v : Int) :
    (P.tree f R).addValue P (P.pos l p) v = some (P.tree (upd f l p { n with cv := P.add n.cv v }) R) := by
  rw [Tree.addValue, node_tree h, hn]
  exact congrArg some (set_tree h _ _ _ _ _)

theorem subValue_tree {P : Par} (h : P.Ok) {f : Nat → Nat → Option Node} {R : Rest} {l p : Nat} {n : Node} (hn : f l p = some n) (v : Int) :
    (P.tree f R).subValue P (P.pos l p) v = some (P.tree (upd f l p { n with cv := P.sub n.cv v }) R) := by
  rw [Tree.subValue, node_tree h, hn]
  exact congrArg some (set_tree h _ _ _ _ _)

theorem setParent_tree {P : Par} (h : P.Ok) {f : Nat → Nat → Option Node} {R : Rest} {l p : Nat} {n : Node} (hn : f l p = some n) (x : Option Id) :
    (P.tree f R).setParent (P.pos l p) x = some (P.tree (upd f l p { n with parent := x }) R) := by
  rw [Tree.setParent, node_tree h, hn]
  exact congrArg some (set_tree h _ _ _ _ _)

theorem guard_yes {p : Prop} [Decidable p] (h : p) : (guard p : Option Unit) = some () := if_pos h

theorem push_tree {P : Par} (h : P.Ok) {f : Nat → Nat → Option Node} {R : Rest} {l p c : Nat} {n : Node} (hn : f (l + 1) p = some n)
    (hlast : ∀ x ∈ n.kids.getLast?, x.lt (P.pos l c)) (hk : n.cnt.getD (c % P.K) < P.K) :
    (P.tree f R).push P (P.pos (l + 1) p) (P.pos l c) = some (P.tree (upd f (l + 1) p { n with
      kids := n.kids ++ [P.pos l c]
      cnt := some (n.cnt.getD (c % P.K) + 1) }) R) := by
  rw [Tree.push, node_tree h, hn]
  simp only [Option.bind_eq_bind, Option.bind_some, cnt_pos h, pos_lvl]
  rw [guard_yes hlast]
  simp only [Option.bind_some]
  rw [guard_yes hk]
  exact congrArg some (set_tree h _ _ _ _ _)

theorem pop_tree {P : Par} (h : P.Ok) {f : Nat → Nat → Option Node} {R : Rest} {l p c : Nat} {n : Node} {ks : List Id} (hn : f (l + 1) p = some n)
    (hk : n.kids = P.pos l c :: ks) :
    (P.tree f R).pop (P.pos (l + 1) p) (P.pos l c) = some (P.tree (upd f (l + 1) p { n with kids := ks }) R) := by
  rw [Tree.pop, node_tree h, hn]
  simp only [Option.bind_eq_bind, Option.bind_some]
  rw [show (guard (n.kids.head? = some (P.pos l c)) : Option Unit) = some () from if_pos (by rw [hk]; rfl)]
  simp only [Option.bind_some, hk, List.tail_cons]
  exact congrArg some (set_tree h _ _ _ _ _)

theorem above_pos {P : Par} (h : P.Ok) (l c : Nat) : P.above (P.pos l c) = P.pos (l + 1) (c / P.K) := by
  have := up_pos h l c
  show (⟨l + 1, P.up l (P.pos l c).idx⟩ : Id) = _
  rw [this]; rfl

theorem make_tree {P : Par} (h : P.Ok) {f : Nat → Nat → Option Node} {R : Rest} {l c : Nat} (hn : f (l + 1) (c / P.K) = none) :
    (P.tree f R).make P (P.pos l c) = some (P.tree (upd f (l + 1) (c / P.K)
      ⟨none, [], none, P.iv (P.pos (l + 1) (c / P.K)), P.iv (P.pos (l + 1) (c / P.K))⟩) R, P.pos (l + 1) (c / P.K)) := by
  rw [Tree.make, above_pos h, node_tree h, hn, set_tree h]
  rfl

theorem parentOf_tree {P : Par} (h : P.Ok) {f : Nat → Nat → Option Node} {R : Rest} {l p l' p' : Nat} {n n' : Node} (hr : R.root ≠ some (l, p))
    (hn : f l p = some n) (hp : n.parent = some (P.pos l' p')) (hn' : f l' p' = some n') :
    (P.tree f R).parentOf (P.pos l p) = some (some (P.pos l' p')) := by
  rw [Tree.parentOf, if_neg (fun e => hr ((root_tree h _ _ _ _).1 e)), node_tree h, hn]
  simp only [Option.bind_eq_bind, Option.bind_some, hp]
  rw [node_tree h, hn']
  rfl

theorem parentOf_root {P : Par} (h : P.Ok) {f : Nat → Nat → Option Node} {R : Rest} {l p : Nat} (hr : R.root = some (l, p)) :
    (P.tree f R).parentOf (P.pos l p) = some none := by
  rw [Tree.parentOf, if_pos ((root_tree h _ _ _ _).2 hr)]

/-- the arrays are both set or both not -/
def Rest.both (R : Rest) (l : Nat) : Prop := (R.left l).isSome = (R.right l).isSome

theorem guard_both {P : Par} {f : Nat → Nat → Option Node} {R : Rest} {l : Nat} (hb : R.both l) : (P.tree f R).arraysOk l = true := by
  simp only [Par.tree, Rest.both, Tree.arraysOk] at hb ⊢
  cases h1 : R.left l <;> cases h2 : R.right l <;> simp [h1, h2] at hb ⊢


theorem left_tree (P : Par) (f : Nat → Nat → Option Node) (R : Rest) (l : Nat) : (P.tree f R).left l = (R.left l).map (P.pos l) := rfl
theorem right_tree (P : Par) (f : Nat → Nat → Option Node) (R : Rest) (l : Nat) : (P.tree f R).right l = (R.right l).map (P.pos l) := rfl

theorem addRight_tree {P : Par} (h : P.Ok) {f : Nat → Nat → Option Node} {R : Rest} {l p : Nat} (hb : R.both l) :
    (P.tree f R).addRight (P.pos l p) = some (P.tree f { R with
      right := fun k => if k = l then some p else R.right k
      left := fun k => if k = l then some ((R.left l).getD p) else R.left k }) := by
  rw [Tree.addRight, guard_yes (show (P.tree f R).arraysOk (P.pos l p).lvl = true from guard_both hb)]
  simp only [Option.bind_eq_bind, Option.bind_some, Option.some.injEq, pos_lvl]
  simp only [Par.tree, Tree.mk.injEq, true_and, and_true]
  constructor
  · funext k
    by_cases e : k = l
    · subst e
      have hc : R.left k = none ∨ ∃ q, R.left k = some q := by
        rcases R.left k with _ | q
        · exact .inl rfl
        · exact .inr ⟨q, rfl⟩
      rcases hc with hc | ⟨q, hc⟩ <;> simp [hc]
    · simp [e]
  · funext k
    by_cases e : k = l
    · subst e; simp
    · simp [e]

/-- removing the leftmost node of a level -/
theorem checkRemove_tree {P : Par} (h : P.Ok) {f : Nat → Nat → Option Node} {R : Rest} {l p : Nat} (hl : R.left l = some p) {r : Nat}
    (hr : R.right l = some r) :
    (P.tree f R).checkRemove P (P.pos l p) = some (P.tree f { R with
      left := fun k => if k = l then (if (f l (p + 1)).isSome then some (p + 1) else none) else R.left k
      right := fun k => if k = l then (if r = p then none else some r) else R.right k }) := by
  have hb : R.both l := by rw [Rest.both, hl, hr]; rfl
  have hL : (P.tree f R).left l = some (P.pos l p) := by rw [left_tree, hl]; rfl
  have hR : (P.tree f R).right l = some (P.pos l r) := by rw [right_tree, hr]; rfl
  have hN : (P.tree f R).nextLeft P (P.pos l p) = some (if (f l (p + 1)).isSome then some (P.pos l (p + 1)) else none) := by
    rw [Tree.nextLeft, if_pos (show (P.tree f R).left (P.pos l p).lvl = _ from hL), next_pos h]
    have e : (⟨l, (P.pos l (p + 1)).idx⟩ : Id) = P.pos l (p + 1) := rfl
    simp only [pos_lvl, e, node_tree h]
  rw [Tree.checkRemove, guard_yes (show (P.tree f R).arraysOk (P.pos l p).lvl = true from guard_both hb)]
  rw [guard_yes (show ¬ ((P.tree f R).right (P.pos l p).lvl = some (P.pos l p) ∧ (P.tree f R).left (P.pos l p).lvl ≠ some (P.pos l p)) from
    fun hh => hh.2 hL)]
  simp only [Option.bind_eq_bind, Option.bind_some, hN, pos_lvl]
  simp only [Option.some.injEq, Par.tree, Tree.mk.injEq, true_and, and_true]
  constructor
  · funext k
    by_cases e : k = l
    · subst e
      cases (f k (p + 1)).isSome <;> simp
    · simp [e]
  · funext k
    by_cases e : k = l
    · subst e
      by_cases e2 : r = p
      · subst e2; simp [hr]
      · simp [hr, e2, pos_inj h]
    · simp [e]

theorem checkRemove_absent {P : Par} (h : P.Ok) {f : Nat → Nat → Option Node} {R : Rest} {l p : Nat} (hl : R.left l = none) (hr : R.right l = none) :
    (P.tree f R).checkRemove P (P.pos l p) = some (P.tree f R) := by
  have hb : R.both l := by rw [Rest.both, hl, hr]
  have hL : (P.tree f R).left l = none := by rw [left_tree, hl]; rfl
  have hR : (P.tree f R).right l = none := by rw [right_tree, hr]; rfl
  have hN : (P.tree f R).nextLeft P (P.pos l p) = some none := by
    rw [Tree.nextLeft, if_neg (by rw [pos_lvl, hL]; simp), pos_lvl, hL]
  rw [Tree.checkRemove, guard_yes (show (P.tree f R).arraysOk (P.pos l p).lvl = true from guard_both hb)]
  rw [guard_yes (show ¬ ((P.tree f R).right (P.pos l p).lvl = some (P.pos l p) ∧ (P.tree f R).left (P.pos l p).lvl ≠ some (P.pos l p)) from
    fun hh => (by rw [pos_lvl, hR] at hh; simp at hh))]
  simp only [Option.bind_eq_bind, Option.bind_some, hN, pos_lvl]
  simp only [Option.some.injEq, Par.tree, Tree.mk.injEq, true_and, and_true]
  constructor
  · funext k
    by_cases e : k = l
    · subst e; simp [hl]
    · simp [e]
  · funext k
    by_cases e : k = l
    · subst e; simp [hr]
    · simp [e]

theorem openIns_tree {P : Par} (h : P.Ok) {f : Nat → Nat → Option Node} {R : Rest} {l p k : Nat} {n : Node} (hr : R.right l = some p) (hn : f l p = some n)
    (hc : n.cnt = some k) : (P.tree f R).openIns P l = if k < P.K then some (P.pos l p) else none := by
  rw [Tree.openIns]
  have hR : (P.tree f R).right l = some (P.pos l p) := by simp [Par.tree, hr]
  rw [hR]
  simp only [Option.bind_eq_bind, Option.bind_some]
  rw [node_tree h, hn]
  simp [hc]

theorem openIns_none {P : Par} {f : Nat → Nat → Option Node} {R : Rest} {l : Nat} (hr : R.right l = none) : (P.tree f R).openIns P l = none := by
  rw [Tree.openIns]
  have hR : (P.tree f R).right l = none := by simp [Par.tree, hr]
  rw [hR]; rfl

/-! ## Values -/

theorem add_mod {P : Par} (h : P.Ok) (x y : Int) : P.add (x % P.M) (y % P.M) = (x + y) % P.M := by
  have hM : (0 : Int) < P.M := by exact_mod_cast h.M
  have h1 := Int.emod_nonneg x (by omega : (P.M : Int) ≠ 0)
  have h2 := Int.emod_nonneg y (by omega : (P.M : Int) ≠ 0)
  rw [Par.add, Int.tmod_eq_emod_of_nonneg (by omega), ← Int.add_emod]

theorem iv_mod {P : Par} (h : P.Ok) (x : Id) : P.iv x % P.M = P.iv x := by
  have : P.hash x (List.replicate 32 0) % P.M < P.M := Nat.mod_lt _ h.M
  rw [Par.iv]
  exact_mod_cast Nat.mod_eq_of_lt this

theorem leaf_mod {P : Par} (h : P.Ok) (i : Nat) (d : Bytes) : P.leaf i d % P.M = P.leaf i d := by
  have : P.hash ⟨0, i⟩ d % P.M < P.M := Nat.mod_lt _ h.M
  rw [Par.leaf]
  exact_mod_cast Nat.mod_eq_of_lt this

/-- adding to a value in `(-M, M)` stays there and is right modulo `M` -/
theorem add_any {P : Par} (h : P.Ok) (x y : Int) : -(P.M : Int) < P.add x y ∧ P.add x y < P.M ∧ P.add x y % P.M = (x + y) % P.M := by
  have hM : (0 : Int) < P.M := by exact_mod_cast h.M
  rw [Par.add]
  refine ⟨Int.lt_tmod_of_pos _ hM, Int.tmod_lt_of_pos _ hM, ?_⟩
  rw [Int.tmod_def, Int.sub_mul_emod_self_left]

theorem sub_any {P : Par} (h : P.Ok) {x s v : Int} (hx : x % P.M = s % P.M) : P.sub x v = (s - v) % P.M := by
  have hM : (0 : Int) < P.M := by exact_mod_cast h.M
  have key : ((P.M : Int) + x - v).tmod P.M % P.M = (s - v) % P.M := by
    rw [Int.tmod_def, Int.sub_mul_emod_self_left]
    have e : (P.M : Int) + x - v = (x - v) + P.M := by omega
    rw [e, Int.add_emod_right, Int.sub_emod, hx, ← Int.sub_emod]
  rw [Par.sub, Par.toPos]
  split
  · exact key
  · rename_i hn
    have h2 : ((P.M : Int) + x - v).tmod P.M < P.M := Int.tmod_lt_of_pos _ hM
    rw [← key, Int.emod_eq_of_lt (by omega) h2]

end Verif.Rvt
