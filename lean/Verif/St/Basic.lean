import Verif.St.Spec
set_option linter.unusedVariables false
set_option linter.unusedSimpArgs false
/-!
# State transfer: what every result of a computation satisfies
-/
namespace Verif.St
open Verif.Bytes

/-- whatever the computation returns satisfies `p` -/
def R.All {α : Type} (x : R α) (p : α → Prop) : Prop := ∀ a, x = .ok a → p a

theorem all_ok {α : Type} {a : α} {p : α → Prop} : (R.ok a).All p ↔ p a := ⟨fun h => h a rfl, fun h b e => by cases e; exact h⟩
theorem all_abort {α : Type} {p : α → Prop} : (R.abort : R α).All p := fun a e => by cases e
theorem all_fault {α : Type} {p : α → Prop} : (R.fault : R α).All p := fun a e => by cases e

theorem all_bind {α β : Type} {x : R α} {f : α → R β} {p : β → Prop} : (x >>= f).All p ↔ x.All (fun a => (f a).All p) := by
  cases x with
  | ok a => exact ⟨fun h b e => (by cases e; exact h), fun h => h a rfl⟩
  | abort => exact ⟨fun _ => all_abort, fun _ => all_abort⟩
  | fault => exact ⟨fun _ => all_fault, fun _ => all_fault⟩

theorem all_require {p : Prop} [Decidable p] {q : Unit → Prop} : (require p).All q ↔ (p → q ()) := by
  unfold require
  by_cases h : p
  · rw [if_pos h, all_ok]; exact ⟨fun g _ => g, fun g => g h⟩
  · rw [if_neg h]; exact ⟨fun _ g => absurd g h, fun _ => all_abort⟩

theorem all_option {α : Type} {o : Option α} {p : α → Prop} : (ofOption o).All p ↔ ∀ a, o = some a → p a := by
  cases o with
  | none => exact ⟨fun _ a e => (by cases e), fun _ => all_abort⟩
  | some a => exact ⟨fun h b e => (by cases e; exact h a rfl), fun h => all_ok.2 (h a rfl)⟩

theorem all_ite {α : Type} {k : Prop} [Decidable k] {x y : R α} {p : α → Prop} : (if k then x else y).All p ↔ (k → x.All p) ∧ (¬ k → y.All p) := by
  by_cases h : k
  · rw [if_pos h]; exact ⟨fun g => ⟨fun _ => g, fun n => absurd h n⟩, fun g => g.1 h⟩
  · rw [if_neg h]; exact ⟨fun g => ⟨fun n => absurd n h, fun _ => g⟩, fun g => g.2 h⟩

theorem R.All.mono {α : Type} {x : R α} {p q : α → Prop} (h : x.All p) (g : ∀ a, p a → q a) : x.All q := fun a e => g a (h a e)
theorem R.All.and {α : Type} {x : R α} {p q : α → Prop} (h : x.All p) (g : x.All q) : x.All (fun a => p a ∧ q a) := fun a e => ⟨h a e, g a e⟩

/-! ## The log -/

def isAdopt : Out → Bool
  | .adopt .. => true
  | _ => false

theorem cycle_snoc (l : List Out) (x : Out) (h : isAdopt x = false) : cycle (l ++ [x]) = cycle l ++ [x] := by
  simp only [cycle, List.foldl_append, List.foldl_cons, List.foldl_nil]
  cases x <;> first | rfl | cases h

theorem cycle_adopt (l : List Out) (d : Desc) (r : Nat) : cycle (l ++ [.adopt d r]) = [.adopt d r] := by
  simp only [cycle, List.foldl_append, List.foldl_cons, List.foldl_nil]

theorem cycle_append (l m : List Out) (h : ∀ x ∈ m, isAdopt x = false) : cycle (l ++ m) = cycle l ++ m := by
  induction m generalizing l with
  | nil => simp
  | cons x m ih =>
    have e : l ++ x :: m = (l ++ [x]) ++ m := by simp
    rw [e, ih _ (fun y hy => h y (List.mem_cons_of_mem _ hy)), cycle_snoc _ _ (h x (List.mem_cons_self ..))]
    simp

theorem head_append {l m : List Out} {x : Out} (h : l.head? = some x) : (l ++ m).head? = some x := by
  cases l with
  | nil => cases h
  | cons y l => exact h

/-- the cycle is a part of the log -/
theorem cycle_sub (l : List Out) : ∃ p, l = p ++ cycle l := by
  suffices h : ∀ n (l : List Out), l.length = n → ∃ p, l = p ++ cycle l from h _ l rfl
  intro n
  induction n with
  | zero => intro l hl; cases l with
    | nil => exact ⟨[], rfl⟩
    | cons => cases hl
  | succ n ih =>
    intro l hl
    rcases List.eq_nil_or_concat l with rfl | ⟨l', x, rfl⟩
    · cases hl
    · rw [List.concat_eq_append] at hl ⊢
      obtain ⟨p, hp⟩ := ih l' (by simp at hl; omega)
      cases hx : isAdopt x with
      | false => exact ⟨p, by rw [cycle_snoc _ _ hx, ← List.append_assoc, ← hp]⟩
      | true =>
        cases x with
        | adopt d r => exact ⟨l', by rw [cycle_adopt]⟩
        | _ => cases hx

theorem mem_cycle {l : List Out} {x : Out} (h : x ∈ cycle l) : x ∈ l := by
  obtain ⟨p, hp⟩ := cycle_sub l
  rw [hp]; exact List.mem_append_right _ h

theorem Chains.mono {c : Cfg} {d : Desc} {l m : List Out} (h : ∀ x ∈ l, x ∈ m) {i : Nat} {b : Bytes} (hc : Chains c d l i b) : Chains c d m i b := by
  induction hc with
  | group h1 h2 h3 => exact .group (h _ h1) h2 h3
  | top h1 h2 => exact .top h1 h2
  | link h1 _ h3 ih => exact .link (h _ h1) ih h3

theorem Settled.mono {l m : List Out} (h : ∀ x ∈ l, x ∈ m) {j : Nat} (hs : Settled l j) : Settled m j := by
  rcases hs with g | ⟨r, g, e⟩
  · exact .inl (h _ g)
  · exact .inr ⟨r, h _ g, e⟩

theorem Vouched.mono {c : Cfg} {evs evs' : List Ev} {d : Desc} (h : ∀ e ∈ evs, e ∈ evs') (hv : Vouched c evs d) : Vouched c evs' d := by
  obtain ⟨ids, h1, h2, h3⟩ := hv
  refine ⟨ids, h1, h2, fun r hr => ?_⟩
  obtain ⟨g1, g2, m, reach, o, cut, g3, g4⟩ := h3 r hr
  exact ⟨g1, g2, m, reach, o, cut, h _ g3, g4⟩

theorem Ok.mono {c : Cfg} {evs evs' : List Ev} (h : ∀ e ∈ evs, e ∈ evs') {l : List Out} {x : Out} (ho : Ok c evs l x) : Ok c evs' l x := by
  cases x with
  | adopt d r => exact Vouched.mono h ho
  | _ => exact ho

theorem Good.mono {c : Cfg} {evs evs' : List Ev} (h : ∀ e ∈ evs, e ∈ evs') {l : List Out} (hg : Good c evs l) : Good c evs' l :=
  fun p x q e => (hg p x q e).mono h

theorem Good.snoc {c : Cfg} {evs : List Ev} {l : List Out} {x : Out} (hg : Good c evs l) (hx : Ok c evs l x) : Good c evs (l ++ [x]) := by
  intro p y q e
  rcases List.eq_nil_or_concat q with rfl | ⟨q', z, rfl⟩
  · have := List.append_inj' e rfl
    obtain ⟨e1, e2⟩ := this
    injection e2 with e3 _
    subst e1; subst e3; exact hx
  · rw [List.concat_eq_append] at e
    have e' : l ++ [x] = (p ++ y :: q') ++ [z] := by rw [e]; simp
    exact hg p y q' (List.append_inj' e' rfl).1

theorem Good.nil (c : Cfg) (evs : List Ev) : Good c evs [] := by
  intro p x q e
  cases p <;> cases e

/-- writes reported done, each of a block handed over in this cycle -/
theorem Good.dones {c : Cfg} {evs : List Ev} : ∀ (m : List Nat) {l : List Out}, Good c evs l → (∀ i ∈ m, ∃ b, Out.put i b ∈ cycle l) → Good c evs (l ++ m.map .done) := by
  intro m
  induction m with
  | nil => intro l h _; simpa using h
  | cons i m ih =>
    intro l h hp
    have e : l ++ (i :: m).map Out.done = (l ++ [.done i]) ++ m.map .done := by simp
    rw [e]
    refine ih (h.snoc (hp i (List.mem_cons_self ..))) (fun j hj => ?_)
    obtain ⟨b, hb⟩ := hp j (List.mem_cons_of_mem _ hj)
    exact ⟨b, by rw [cycle_snoc _ _ rfl]; exact List.mem_append_left _ hb⟩

theorem cycle_dones (l : List Out) (m : List Nat) : cycle (l ++ m.map .done) = cycle l ++ m.map .done :=
  cycle_append _ _ (fun x hx => by simp only [List.mem_map] at hx; obtain ⟨i, _, rfl⟩ := hx; rfl)

/-! ## Digests of a group -/

theorem collect_spec (c : Cfg) (rv : Rvbm) (need : Option Rvt.Id) (mx : Nat) : ∀ (l : List (Nat × Bytes)) (ex : Nat) (acc : List (Nat × Bytes)),
    (∀ e ∈ acc, ∃ g, need = some g ∧ rv.tree.groupIds c.P e.1 e.1 true = some [g]) →
    (rv.collect c need mx l ex acc).All (fun o => ∀ ds, o = some ds → ∀ e ∈ ds, ∃ g, need = some g ∧ rv.tree.groupIds c.P e.1 e.1 true = some [g]) := by
  intro l
  induction l with
  | nil => intro ex acc h; rw [Rvbm.collect, all_ok]; intro ds e; cases e; exact h
  | cons e l ih =>
    intro ex acc h
    rw [Rvbm.collect]
    refine all_ite.2 ⟨fun _ => all_ok.2 (fun ds e => by cases e), fun _ => ?_⟩
    refine all_ite.2 ⟨fun _ => all_ok.2 (fun ds e => by cases e; exact h), fun _ => ?_⟩
    refine all_ite.2 ⟨fun _ => all_ok.2 (fun ds e => by cases e), fun _ => ?_⟩
    refine all_bind.2 (all_option.2 fun g hg => all_bind.2 (all_require.2 fun hl => ?_))
    refine all_ite.2 ⟨fun _ => all_ok.2 (fun ds e => by cases e), fun hn => ih _ _ ?_⟩
    intro x hx
    rcases List.mem_append.1 hx with hx | hx
    · exact h x hx
    · cases List.mem_singleton.1 hx
      match g, hl, hg, hn with
      | [g0], _, hg, hn => exact ⟨g0, Decidable.not_not.1 hn, hg⟩

theorem buildTree_spec (c : Cfg) : ∀ (ds : List (Nat × Bytes)) (t : Rvt.Tree), (buildTree c t ds).All (fun t' => t.run c.P (ds.map (fun e => .add e.1 e.2)) = some t') := by
  intro ds
  induction ds with
  | nil => intro t; rw [buildTree, all_ok]; rfl
  | cons e ds ih =>
    intro t
    rw [buildTree]
    refine all_bind.2 (all_option.2 fun t1 h1 => (ih t1).mono fun t' h => ?_)
    rw [List.map_cons, Rvt.Tree.run, Rvt.Tree.step, h1]
    exact h

theorem insertKey_mem {e x : Nat × Bytes} : ∀ {l : List (Nat × Bytes)}, x ∈ insertKey e l → x = e ∨ x ∈ l := by
  intro l
  induction l with
  | nil => intro h; rw [insertKey] at h; exact .inl (List.mem_singleton.1 h)
  | cons y l ih =>
    intro h
    rw [insertKey] at h
    split at h
    · exact List.mem_cons.1 h
    · split at h
      · exact .inr h
      · rcases List.mem_cons.1 h with rfl | h
        · exact .inr (List.mem_cons_self ..)
        · rcases ih h with g | g
          · exact .inl g
          · exact .inr (List.mem_cons_of_mem _ g)

theorem foldl_insertKey_mem {x : Nat × Bytes} : ∀ {ds l : List (Nat × Bytes)}, x ∈ ds.foldl (fun l e => insertKey e l) l → x ∈ ds ∨ x ∈ l := by
  intro ds
  induction ds with
  | nil => intro l h; exact .inr h
  | cons e ds ih =>
    intro l h
    rcases ih h with g | g
    · exact .inl (List.mem_cons_of_mem _ g)
    · rcases insertKey_mem g with rfl | g
      · exact .inl (List.mem_cons_self ..)
      · exact .inr g

theorem dropGroup_spec (c : Cfg) (rv : Rvbm) (g : Rvt.Id) : ∀ (l : List (Nat × Bytes)), (rv.dropGroup c g l).All (fun l' => ∀ x ∈ l', x ∈ l) := by
  intro l
  induction l with
  | nil => rw [Rvbm.dropGroup, all_ok]; exact fun x h => h
  | cons e l ih =>
    rw [Rvbm.dropGroup]
    refine all_bind.2 (all_option.2 fun gs _ => all_bind.2 (all_require.2 fun _ => all_bind.2 (ih.mono fun r hr => all_ok.2 ?_)))
    intro x hx
    split at hx
    · exact List.mem_cons_of_mem _ (hr x hx)
    · rcases List.mem_cons.1 hx with rfl | hx
      · exact List.mem_cons_self ..
      · exact List.mem_cons_of_mem _ (hr x hx)

theorem keep_spec (c : Cfg) (rv : Rvbm) (g : Rvt.Id) (ds : List (Nat × Bytes)) :
    (rv.keep c g ds).All (fun rv' => rv'.tree = rv.tree ∧ ∀ e ∈ rv'.stored, e ∈ ds ∨ e ∈ rv.stored) := by
  unfold Rvbm.keep
  split
  · refine all_bind.2 ((dropGroup_spec c rv _ _).mono fun st h => all_ok.2 ⟨rfl, fun e he => ?_⟩)
    rcases foldl_insertKey_mem he with g | g
    · exact .inl g
    · exact .inr (h _ g)
  · exact all_ok.2 ⟨rfl, fun e he => foldl_insertKey_mem he⟩

theorem nextGroup_spec (c : Cfg) (rv : Rvbm) (a b : Nat) : (rv.nextGroup c a b).All (fun g => g ≠ none → a ≤ b) := by
  unfold Rvbm.nextGroup
  refine all_ite.2 ⟨fun _ => all_ok.2 (fun h => absurd rfl h), fun h => ?_⟩
  exact all_bind.2 (all_option.2 fun l _ => all_ok.2 fun _ => Nat.le_of_not_lt h)

/-- digests that are accepted: they are those of a whole group of the tree -/
theorem setDigests_spec (c : Cfg) (rv : Rvbm) (buf : Bytes) (size lo hi mx : Nat) :
    (rv.setDigests c buf size lo hi mx).All (fun o => ∀ rv' ds, o = some (rv', ds) →
      c.nextRvb lo ≤ c.prevRvb hi ∧ rv'.tree = rv.tree ∧ (∀ e ∈ rv'.stored, e ∈ ds ∨ e ∈ rv.stored) ∧ ds ≠ [] ∧
      ∃ g t, (∀ e ∈ ds, rv.tree.groupIds c.P e.1 e.1 true = some [g]) ∧ ds.map (·.1) = rv.tree.rvbIds c.P g ∧
        Rvt.Tree.empty.run c.P (ds.map (fun e => .add e.1 e.2)) = some t ∧ t.rootValue = rv.tree.groupValue c.P ((ds.head?.map (·.1)).getD 0)) := by
  unfold Rvbm.setDigests
  refine all_bind.2 ((nextGroup_spec c rv _ _).mono fun need hneed => ?_)
  have nope : ∀ {p : Rvbm → List (Nat × Bytes) → Prop}, (R.ok (none : Option (Rvbm × List (Nat × Bytes)))).All (fun o => ∀ rv' ds, o = some (rv', ds) → p rv' ds) :=
    fun {p} => all_ok.2 (fun _ _ e => by cases e)
  refine all_ite.2 ⟨fun _ => nope, fun _ => all_ite.2 ⟨fun _ => nope, fun _ => all_ite.2 ⟨fun _ => all_fault, fun _ => ?_⟩⟩⟩
  refine all_bind.2 ((collect_spec c rv need mx _ 0 [] (fun e he => absurd he (by simp))).mono fun o ho => ?_)
  match o, ho with
  | none, _ => exact nope
  | some [], _ => exact nope
  | some (e :: ds), ho =>
    have ho := ho _ rfl
    match need, hneed, ho with
    | none, _, _ => exact nope
    | some g, hneed, ho =>
      unfold Rvbm.checkGroup
      refine all_bind.2 (all_ite.2 ⟨fun _ => all_ok.2 ?_, fun hids => ?_⟩)
      · exact nope
      · refine all_bind.2 ((buildTree_spec c (e :: ds) .empty).mono fun t ht => all_ok.2 ?_)
        refine all_ite.2 ⟨fun hv => ?_, fun _ => nope⟩
        refine all_bind.2 ((keep_spec c rv g (e :: ds)).mono fun rv1 h1 => all_ok.2 ?_)
        intro rv' ds' e'
        injection e' with e'
        injection e' with ea eb
        subst ea; subst eb
        refine ⟨hneed (by simp), h1.1, h1.2, by simp, g, t, fun x hx => ?_, Decidable.not_not.1 hids, ht, of_decide_eq_true hv⟩
        obtain ⟨g', hg', hx'⟩ := ho x hx
        injection hg' with hg'
        rw [hg']; exact hx'

end Verif.St
