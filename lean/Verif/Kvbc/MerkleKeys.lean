import Verif.Kvbc.MerkleSpec
import Verif.Kvbc.VersionedMore
set_option linter.unusedSimpArgs false
set_option linter.unusedVariables false
/-!
# Block-Merkle category: effect of each operation on the entries of one key
-/
namespace Verif.Kvbc
open Verif.Bytes

/-- what the category's column families hold for one key, seen as in the versioned category -/
def proj (H : MHash) (s : MState) (k : Key) : KState :=
  { values := fun b => s.values (H.h k) b, latest := s.latest k, active := s.active (H.h k) }

theorem encode_false (b : Nat) : Tagged.encode ⟨false, b⟩ = b := rfl

theorem proj_putAdded {H : MHash} {U : Key → Prop} (hU : InjOn H U) (b : Nat) (s : MState) (kv : Key × Bytes)
    (h1 : U kv.1) {k : Key} (hk : U k) :
    proj H (putAdded H b s kv) k = if k = kv.1 then (proj H s k).write b ⟨false, kv.2⟩ else proj H s k := by
  by_cases e : k = kv.1
  · rw [if_pos e]
    simp only [proj, putAdded, MState.putValue, MState.setLatest, KState.write, KState.putLatest, KState.putValue, e,
      true_and, if_true, encode_false]
  · rw [if_neg e]
    have : H.h k ≠ H.h kv.1 := fun h => e (hU _ _ hk h1 h)
    simp only [proj, putAdded, MState.putValue, MState.setLatest, e, this, false_and, if_false]

theorem proj_putDeleted {H : MHash} {U : Key → Prop} (hU : InjOn H U) (b : Nat) (s : MState) (d : Key)
    (h1 : U d) {k : Key} (hk : U k) :
    proj H (putDeleted H b s d) k = if k = d then (proj H s k).write b ⟨true, []⟩ else proj H s k := by
  by_cases e : k = d
  · rw [if_pos e]
    simp only [proj, putDeleted, MState.putValue, MState.setLatest, KState.write, KState.putLatest, KState.putValue, e,
      true_and, if_true]
  · rw [if_neg e]
    have : H.h k ≠ H.h d := fun h => e (hU _ _ hk h1 h)
    simp only [proj, putDeleted, MState.putValue, MState.setLatest, e, this, false_and, if_false]

theorem foldl_putDeleted {H : MHash} {U : Key → Prop} (hU : InjOn H U) (b : Nat) (ds : List Key) (hd : ∀ d ∈ ds, U d)
    (s : MState) {k : Key} (hk : U k) :
    proj H (ds.foldl (putDeleted H b) s) k = if k ∈ ds then (proj H s k).write b ⟨true, []⟩ else proj H s k := by
  induction ds generalizing s with
  | nil => simp
  | cons d ds ih =>
    simp only [List.foldl_cons]
    rw [ih (fun x hx => hd x (List.mem_cons_of_mem _ hx)), proj_putDeleted hU b s d (hd d List.mem_cons_self) hk]
    by_cases h1 : k = d
    · subst h1
      simp only [if_true, List.mem_cons, true_or]
      by_cases h2 : k ∈ ds
      · rw [if_pos h2, write_write]
      · rw [if_neg h2]
    · simp [h1]

theorem foldl_putAdded {H : MHash} {U : Key → Prop} (hU : InjOn H U) (b : Nat) (l : List (Key × Bytes))
    (hn : (l.map (·.1)).Nodup) (hl : ∀ x ∈ l, U x.1) (s : MState) {k : Key} (hk : U k) :
    proj H (l.foldl (putAdded H b) s) k = match l.lookup k with
      | some v => (proj H s k).write b ⟨false, v⟩
      | none => proj H s k := by
  induction l generalizing s with
  | nil => rfl
  | cons d ds ih =>
    obtain ⟨dk, dv⟩ := d
    simp only [List.map_cons, List.nodup_cons] at hn
    simp only [List.foldl_cons]
    rw [ih hn.2 (fun x hx => hl x (List.mem_cons_of_mem _ hx)),
      proj_putAdded hU b s (dk, dv) (hl (dk, dv) List.mem_cons_self) hk, List.lookup_cons]
    by_cases h1 : k = dk
    · subst h1
      rw [lookup_none_of_not_mem hn.1]
      simp
    · simp [h1, beq_eq_false_iff_ne.2 h1]

/-! ### the corresponding updates of the versioned category -/

theorem eff_keys (inp : MInput) : inp.eff.kv.map (·.1) = (inp.kv.filter (fun kv => !inp.deletes.contains kv.1)).map (·.1) := by
  simp only [MInput.eff, List.map_map]
  rfl

theorem eff_wf {inp : MInput} (h : inp.wf) : inp.eff.wf := by
  rw [VInput.wf, eff_keys]
  exact h.sublist (List.filter_sublist.map _)

theorem eff_disjoint (inp : MInput) : inp.eff.disjoint := by
  intro k hk hm
  rw [eff_keys, List.mem_map] at hm
  obtain ⟨x, hx, e⟩ := hm
  rw [List.mem_filter] at hx
  rw [e] at hx
  have : inp.deletes.contains k = true := List.contains_iff_mem.2 hk
  rw [this] at hx
  exact absurd hx.2 (by simp)

theorem effO_wf {inp : Option MInput} (h : ∀ i, inp = some i → i.wf) : (effO inp).wf := by
  cases inp with
  | none => exact List.nodup_nil
  | some i => exact eff_wf (h i rfl)

theorem effO_disjoint (inp : Option MInput) : (effO inp).disjoint := by
  cases inp with
  | none => intro k h; cases h
  | some i => exact eff_disjoint i

theorem eff_lookup (inp : MInput) (k : Key) : inp.eff.kv.lookup k =
    if k ∈ inp.deletes then none else (inp.kv.lookup k).map (fun v => ⟨v, false⟩) := by
  simp only [MInput.eff]
  generalize inp.deletes = ds
  generalize inp.kv = l
  induction l with
  | nil => simp
  | cons x xs ih =>
    obtain ⟨xk, xv⟩ := x
    rw [List.filter_cons]
    by_cases hd : xk ∈ ds
    · have : ds.contains xk = true := List.contains_iff_mem.2 hd
      simp only [this, Bool.not_true, Bool.false_eq_true, if_false]
      rw [ih, List.lookup_cons]
      by_cases hk : k = xk
      · rw [hk, if_pos hd, if_pos hd]
      · rw [beq_eq_false_iff_ne.2 hk]
    · have : ds.contains xk = false := by
        rw [Bool.eq_false_iff]; intro h; exact hd (List.contains_iff_mem.1 h)
      simp only [this, Bool.not_false, if_true, List.map_cons]
      rw [List.lookup_cons, List.lookup_cons, ih]
      by_cases hk : k = xk
      · rw [hk, if_neg hd]; simp [hd]
      · rw [beq_eq_false_iff_ne.2 hk]

theorem eff_touch (inp : MInput) (k : Key) : touch inp.eff k =
    if k ∈ inp.deletes then some (⟨true, []⟩, ⟨true, false⟩)
    else (inp.kv.lookup k).map (fun v => (⟨false, v⟩, ⟨false, false⟩)) := by
  rw [touch, eff_lookup]
  by_cases hd : k ∈ inp.deletes
  · rw [if_pos hd]
    simp only
    rw [if_pos hd]
    simp only [MInput.eff, hd, if_true]
  · rw [if_neg hd, if_neg hd]
    cases inp.kv.lookup k with
    | none => simp only [Option.map_none, MInput.eff, hd, if_false]
    | some v => simp only [Option.map_some, MInput.eff, hd, if_false]

theorem putKeys_key {H : MHash} {U : Key → Prop} (hU : InjOn H U) (b : Nat) {inp : MInput} (hw : inp.wf)
    (hin : inp.within U) (s : MState) {k : Key} (hk : U k) :
    proj H (putKeys H b inp s) k = match touch inp.eff k with
      | some (v, _) => (proj H s k).write b v
      | none => proj H s k := by
  rw [putKeys, foldl_putDeleted hU b _ hin.2 _ hk, foldl_putAdded hU b _ hw hin.1 _ hk, eff_touch]
  by_cases hd : k ∈ inp.deletes
  · rw [if_pos hd, if_pos hd]
    simp only
    cases inp.kv.lookup k with
    | none => rfl
    | some v => exact write_write _ _ _ _
  · rw [if_neg hd, if_neg hd]
    cases inp.kv.lookup k <;> rfl

/-! ### update info -/
theorem emplace_keys {α : Type} (k k' : Key) (v : α) (l : List (Key × α)) :
    k' ∈ (emplace k v l).map (·.1) ↔ k' = k ∨ k' ∈ l.map (·.1) := by
  induction l with
  | nil => simp [emplace]
  | cons y ys ih =>
    simp only [emplace]
    split
    · rename_i h
      constructor
      · intro hm; exact Or.inr hm
      · rintro (e | hm)
        · rw [e, h]; exact List.mem_cons_self
        · exact hm
    · split
      · rw [List.map_cons, List.mem_cons]
      · rw [List.map_cons, List.mem_cons, ih, List.map_cons, List.mem_cons]
        constructor
        · rintro (h | h | h)
          · exact Or.inr (Or.inl h)
          · exact Or.inl h
          · exact Or.inr (Or.inr h)
        · rintro (h | h | h)
          · exact Or.inr (Or.inl h)
          · exact Or.inl h
          · exact Or.inr (Or.inr h)

theorem foldl_emplace {α β : Type} (f : β → Key) (g : β → α) (l : List β) (o : List (Key × α)) (ho : Sorted o) :
    Sorted (l.foldl (fun o x => emplace (f x) (g x) o) o) ∧
    ∀ k, k ∈ (l.foldl (fun o x => emplace (f x) (g x) o) o).map (·.1) ↔ k ∈ o.map (·.1) ∨ k ∈ l.map f := by
  induction l generalizing o with
  | nil => exact ⟨ho, fun k => by simp⟩
  | cons x xs ih =>
    simp only [List.foldl_cons]
    obtain ⟨h1, h2⟩ := ih _ (emplace_sorted (f x) (g x) o ho)
    refine ⟨h1, fun k => ?_⟩
    rw [h2 k, emplace_keys, List.map_cons, List.mem_cons]
    constructor
    · rintro ((h | h) | h)
      · exact Or.inr (Or.inl h)
      · exact Or.inl h
      · exact Or.inr (Or.inr h)
    · rintro (h | h | h)
      · exact Or.inl (Or.inr h)
      · exact Or.inl (Or.inl h)
      · exact Or.inr h

theorem inputToOutput_spec (inp : MInput) : Sorted (inputToOutput inp) ∧
    ∀ k, k ∈ (inputToOutput inp).map (·.1) ↔ k ∈ inp.kv.map (·.1) ∨ k ∈ inp.deletes := by
  obtain ⟨h1, h2⟩ := foldl_emplace (·.1) (fun _ => false) inp.kv [] List.Pairwise.nil
  obtain ⟨h3, h4⟩ := foldl_emplace id (fun _ => true) inp.deletes _ h1
  refine ⟨h3, fun k => ?_⟩
  rw [show inputToOutput inp = inp.deletes.foldl (fun o x => emplace (id x) true o)
    (inp.kv.foldl (fun o x => emplace x.1 false o) []) from rfl, h4 k, h2 k]
  simp

theorem mem_keys_iff_lookup {α : Type} {l : List (Key × α)} {k : Key} : k ∈ l.map (·.1) ↔ l.lookup k ≠ none := by
  constructor
  · intro h hn
    induction l with
    | nil => cases h
    | cons x xs ih =>
      rw [List.lookup_cons] at hn
      by_cases e : k = x.1
      · simp [e] at hn
      · rw [beq_eq_false_iff_ne.2 e] at hn
        rw [List.map_cons, List.mem_cons] at h
        rcases h with h | h
        · exact e h
        · exact ih h hn
  · intro h
    cases hl : l.lookup k with
    | none => exact absurd hl h
    | some v => exact List.mem_map.2 ⟨_, mem_of_lookup hl, rfl⟩

/-- the update info names exactly the keys the block touches -/
theorem out_touch (inp : MInput) (k : Key) : k ∈ (inputToOutput inp).map (·.1) ↔ touch inp.eff k ≠ none := by
  rw [(inputToOutput_spec inp).2, eff_touch, mem_keys_iff_lookup]
  by_cases hd : k ∈ inp.deletes
  · simp [hd]
  · simp [hd]

/-! ### deleteGenesisBlock -/
theorem dropOverwritten_fields (ow : List (KHash × Nat)) (s : MState) :
    (∀ h b, (dropOverwritten ow s).values h b = if (h, b) ∈ ow then none else s.values h b) ∧
    (∀ h, (dropOverwritten ow s).active h = if h ∈ ow.map (·.1) then none else s.active h) ∧
    (dropOverwritten ow s).latest = s.latest ∧ (dropOverwritten ow s).pruned = s.pruned ∧
    (dropOverwritten ow s).tree = s.tree := by
  induction ow generalizing s with
  | nil => exact ⟨fun h b => by simp [dropOverwritten], fun h => by simp [dropOverwritten], rfl, rfl, rfl⟩
  | cons x xs ih =>
    obtain ⟨h1, h2, h3, h4, h5⟩ := ih ((s.delValue x.1 x.2).setActive x.1 none)
    have e : dropOverwritten (x :: xs) s = dropOverwritten xs ((s.delValue x.1 x.2).setActive x.1 none) := rfl
    rw [e]
    refine ⟨fun h b => ?_, fun h => ?_, h3, h4, h5⟩
    · rw [h1]
      simp only [MState.delValue, MState.setActive, List.mem_cons]
      by_cases hx : h = x.1 ∧ b = x.2
      · have : (h, b) = x := by rw [hx.1, hx.2]
        rw [if_pos hx, if_pos (Or.inl this)]
        split <;> rfl
      · have : (h, b) ≠ x := fun e => hx (by rw [← e]; exact ⟨rfl, rfl⟩)
        simp [hx, this]
    · rw [h2]
      simp only [MState.delValue, MState.setActive, List.map_cons, List.mem_cons]
      by_cases hx : h = x.1
      · rw [if_pos hx, if_pos (Or.inl hx)]
        split <;> rfl
      · rw [if_neg hx]
        by_cases hm : h ∈ xs.map (·.1)
        · rw [if_pos hm, if_pos (Or.inr hm)]
        · rw [if_neg hm, if_neg (fun h => h.elim hx hm)]

theorem mem_findActive {hs : List KHash} {s : MState} {h : KHash} {p : Nat} :
    (h, p) ∈ findActive hs s ↔ h ∈ hs ∧ s.active h = some p := by
  simp only [findActive, List.mem_filterMap]
  constructor
  · rintro ⟨h', hm, he⟩
    cases ha : s.active h' with
    | none => rw [ha] at he; cases he
    | some q =>
      rw [ha] at he
      simp only [Option.map_some, Option.some.injEq, Prod.mk.injEq] at he
      rw [← he.1, ← he.2]
      exact ⟨hm, ha⟩
  · rintro ⟨hm, ha⟩
    exact ⟨h, hm, by rw [ha]; rfl⟩

theorem mem_findActive_fst {hs : List KHash} {s : MState} {h : KHash} :
    h ∈ (findActive hs s).map (·.1) ↔ h ∈ hs ∧ s.active h ≠ none := by
  rw [List.mem_map]
  constructor
  · rintro ⟨⟨h', p⟩, hm, e⟩
    simp only at e
    rw [mem_findActive, e] at hm
    exact ⟨hm.1, by rw [hm.2]; simp⟩
  · rintro ⟨hm, ha⟩
    cases hp : s.active h with
    | none => exact absurd hp ha
    | some p => exact ⟨(h, p), mem_findActive.2 ⟨hm, hp⟩, rfl⟩

theorem dropOverwritten_key {H : MHash} (hs : List KHash) (s : MState) (k : Key) :
    proj H (dropOverwritten (findActive hs s) s) k =
      if H.h k ∈ hs then dropActive (proj H s k) (proj H s k) else proj H s k := by
  obtain ⟨h1, h2, h3, h4, h5⟩ := dropOverwritten_fields (findActive hs s) s
  simp only [proj, h3, h2, h1, mem_findActive, mem_findActive_fst]
  by_cases hm : H.h k ∈ hs
  · simp only [hm, true_and, if_true, dropActive]
    cases ha : s.active (H.h k) with
    | none => simp
    | some p =>
      simp only [KState.delValue, KState.delActive, ne_eq, reduceCtorEq, not_false_iff, if_true, Option.some.injEq]
      congr 1
      funext b
      by_cases e : b = p
      · rw [if_pos e, if_pos e.symm]
      · rw [if_neg e, if_neg (fun h => e h.symm)]
  · simp only [hm, false_and, if_false]

theorem rewriteAll_fields {H : MHash} {s : MState} {ow : List (KHash × Nat)} : ∀ {ps : List Nat} {acc acc' : MState}
    {adds adds' : List (Nat × Bytes)} {rems rems' : List Nat},
    rewriteAll H s ow ps (acc, adds, rems) = some (acc', adds', rems') →
    acc'.values = acc.values ∧ acc'.latest = acc.latest ∧ acc'.active = acc.active ∧ acc'.tree = acc.tree := by
  intro ps
  induction ps with
  | nil => intro acc acc' adds adds' rems rems' h; cases h; exact ⟨rfl, rfl, rfl, rfl⟩
  | cons p ps ih =>
    intro acc acc' adds adds' rems rems' h
    rw [rewriteAll] at h
    split at h
    · cases h
    · obtain ⟨h1, h2, h3, h4⟩ := ih h; exact ⟨h1, h2, h3, h4⟩
    · obtain ⟨h1, h2, h3, h4⟩ := ih h; exact ⟨h1, h2, h3, h4⟩

/-- the key's value in the block is still the latest one -/
def isActive (b : Nat) (s : MState) (k : Key) : Bool :=
  match (s.latest k).map Tagged.decode with
  | some t => decide (b = t.version) && !t.deleted
  | none => false

/-- effect of `deleteInactive` on the entries of its key -/
def pruneM (b : Nat) (l : Option Nat) (x : KState) : KState :=
  match l.map Tagged.decode with
  | none => x
  | some t => if b = t.version then (if t.deleted then (x.delValue b).delLatest else x) else x.delValue b

theorem deleteInactive_some {H : MHash} {b : Nat} {s : MState} {acc r : MState × List KHash} {k : Key}
    (h : deleteInactive H b s acc k = some r) :
    (∃ t, (s.latest k).map Tagged.decode = some t ∧ b ≤ t.version) ∧
    r.2 = acc.2 ++ (if isActive b s k then [H.h k] else []) ∧
    r.1.active = acc.1.active ∧ r.1.pruned = acc.1.pruned ∧ r.1.tree = acc.1.tree ∧
    (∀ h' b', (h' ≠ H.h k ∨ b' ≠ b) → r.1.values h' b' = acc.1.values h' b') ∧
    (isActive b s k = true → r.1.values = acc.1.values) ∧
    (isActive b s k = false → r.1.values (H.h k) b = none) ∧
    (∀ k', k' ≠ k → r.1.latest k' = acc.1.latest k') ∧
    proj H r.1 k = pruneM b (s.latest k) (proj H acc.1 k) := by
  simp only [deleteInactive] at h
  split at h
  · cases h
  · rename_i t ht
    have hpm : ∀ x, pruneM b (s.latest k) x =
        if b = t.version then (if t.deleted then (x.delValue b).delLatest else x) else x.delValue b := by
      intro x; simp only [pruneM, ht]
    have hact : isActive b s k = (decide (b = t.version) && !t.deleted) := by simp only [isActive, ht]
    rw [hpm]
    have hne : ∀ h' b' , (h' ≠ H.h k ∨ b' ≠ b) → ¬ (h' = H.h k ∧ b' = b) := by
      rintro h' b' hh ⟨e1, e2⟩
      exact hh.elim (fun h => h e1) (fun h => h e2)
    split at h
    · rename_i hle
      refine ⟨⟨t, ht, hle⟩, ?_⟩
      split at h
      · rename_i he
        rw [if_pos he]
        split at h
        · rename_i hd
          have ha : isActive b s k = false := by rw [hact, hd]; simp
          rw [if_pos hd, ha]
          cases h
          refine ⟨by simp, rfl, rfl, rfl, ?_, fun h => (by cases h), ?_, ?_, ?_⟩
          · intro h' b' hh
            simp only [MState.setLatest, MState.delValue]
            rw [if_neg (hne _ _ hh)]
          · intro _
            simp [MState.setLatest, MState.delValue]
          · intro k' hk
            simp only [MState.setLatest, MState.delValue]
            rw [if_neg hk]
          · simp only [proj, MState.setLatest, MState.delValue, KState.delValue, KState.delLatest, true_and, if_true]
        · rename_i hd
          have ha : isActive b s k = true := by rw [hact]; simp [he, hd]
          rw [if_neg hd, ha]
          cases h
          exact ⟨rfl, rfl, rfl, rfl, fun _ _ _ => rfl, fun _ => rfl, fun h => (by cases h), fun _ _ => rfl, rfl⟩
      · rename_i he
        have ha : isActive b s k = false := by rw [hact]; simp [he]
        rw [if_neg he, ha]
        cases h
        refine ⟨by simp, rfl, rfl, rfl, ?_, fun h => (by cases h), ?_, fun _ _ => rfl, ?_⟩
        · intro h' b' hh
          simp only [MState.delValue]
          rw [if_neg (hne _ _ hh)]
        · intro _
          simp [MState.delValue]
        · simp only [proj, MState.delValue, KState.delValue, true_and]
    · cases h

theorem deleteInactive_other {H : MHash} {U : Key → Prop} (hU : InjOn H U) {b : Nat} {s : MState}
    {acc r : MState × List KHash} {k k' : Key} (h : deleteInactive H b s acc k = some r) (hk : U k) (hk' : U k')
    (hne : k' ≠ k) : proj H r.1 k' = proj H acc.1 k' := by
  obtain ⟨_, _, h3, _, _, h6, _, _, h9, _⟩ := deleteInactive_some h
  have : H.h k' ≠ H.h k := fun e => hne (hU _ _ hk' hk e)
  simp only [proj, h3, h9 k' hne]
  congr 1
  funext b'
  exact h6 _ _ (Or.inl this)

theorem deleteInactive_fold {H : MHash} {U : Key → Prop} (hU : InjOn H U) {b : Nat} {s : MState} :
    ∀ {keys : List Key} {acc r : MState × List KHash}, keys.Nodup → (∀ k ∈ keys, U k) →
    keys.foldlM (deleteInactive H b s) acc = some r →
    (∀ k ∈ keys, ∃ t, (s.latest k).map Tagged.decode = some t ∧ b ≤ t.version) ∧
    r.2 = acc.2 ++ (keys.filter (isActive b s)).map H.h ∧
    r.1.active = acc.1.active ∧ r.1.pruned = acc.1.pruned ∧ r.1.tree = acc.1.tree ∧
    (∀ h' b', r.1.values h' b' = if b' = b ∧ ∃ k ∈ keys, h' = H.h k ∧ isActive b s k = false then none
      else acc.1.values h' b') ∧
    (∀ k, U k → proj H r.1 k = if k ∈ keys then pruneM b (s.latest k) (proj H acc.1 k) else proj H acc.1 k) := by
  intro keys
  induction keys with
  | nil =>
    intro acc r _ _ h
    cases h
    exact ⟨fun k h => (by cases h), by simp, rfl, rfl, rfl, fun h' b' => by simp, fun k _ => by simp⟩
  | cons x xs ih =>
    intro acc r hn hin h
    rw [List.nodup_cons] at hn
    simp only [List.foldlM_cons, Option.bind_eq_bind] at h
    cases hx : deleteInactive H b s acc x with
    | none => rw [hx] at h; cases h
    | some r1 =>
      rw [hx] at h
      simp only [Option.bind_some] at h
      have hxU := hin x List.mem_cons_self
      obtain ⟨i1, i2, i3, i4, i5, i6, i7⟩ := ih hn.2 (fun k hk => hin k (List.mem_cons_of_mem _ hk)) h
      obtain ⟨j1, j2, j3, j4, j5, j6, j7, j8, j9, j10⟩ := deleteInactive_some hx
      refine ⟨?_, ?_, i3.trans j3, i4.trans j4, i5.trans j5, ?_, ?_⟩
      · intro k hk
        rcases List.mem_cons.1 hk with e | hk
        · rw [e]; exact j1
        · exact i1 k hk
      · rw [i2, j2, List.filter_cons, List.append_assoc]
        by_cases ha : isActive b s x = true
        · simp [ha]
        · simp [ha]
      · intro h' b'
        rw [i6]
        by_cases c1 : b' = b ∧ ∃ k ∈ xs, h' = H.h k ∧ isActive b s k = false
        · rw [if_pos c1, if_pos]
          obtain ⟨e, k, hk, e2⟩ := c1
          exact ⟨e, k, List.mem_cons_of_mem _ hk, e2⟩
        · rw [if_neg c1]
          by_cases c2 : b' = b ∧ h' = H.h x ∧ isActive b s x = false
          · obtain ⟨e1, e2, e3⟩ := c2
            rw [if_pos ⟨e1, x, List.mem_cons_self, e2, e3⟩, e1, e2]
            exact j8 e3
          · rw [if_neg]
            · by_cases ha : isActive b s x = true
              · rw [j7 ha]
              · apply j6
                by_cases e1 : h' = H.h x
                · right; intro e2; exact c2 ⟨e2, e1, by simpa using ha⟩
                · exact Or.inl e1
            · rintro ⟨e, k, hk, e2, e3⟩
              rcases List.mem_cons.1 hk with hk | hk
              · rw [hk] at e2 e3; exact c2 ⟨e, e2, e3⟩
              · exact c1 ⟨e, k, hk, e2, e3⟩
      · intro k hk
        rw [i7 k hk]
        by_cases e : k = x
        · subst e
          rw [if_neg hn.1, if_pos List.mem_cons_self]
          exact j10
        · rw [deleteInactive_other hU hx hxU hk e]
          by_cases hm : k ∈ xs
          · rw [if_pos hm, if_pos (List.mem_cons_of_mem _ hm)]
          · rw [if_neg hm, if_neg (fun h => (List.mem_cons.1 h).elim e hm)]

theorem setActive_fold (b : Nat) (act : List KHash) (s : MState) :
    (∀ h, (act.foldl (fun acc h => acc.setActive h (some b)) s).active h = if h ∈ act then some b else s.active h) ∧
    (act.foldl (fun acc h => acc.setActive h (some b)) s).values = s.values ∧
    (act.foldl (fun acc h => acc.setActive h (some b)) s).latest = s.latest ∧
    (act.foldl (fun acc h => acc.setActive h (some b)) s).pruned = s.pruned ∧
    (act.foldl (fun acc h => acc.setActive h (some b)) s).tree = s.tree := by
  induction act generalizing s with
  | nil => exact ⟨fun h => by simp, rfl, rfl, rfl, rfl⟩
  | cons x xs ih =>
    simp only [List.foldl_cons]
    obtain ⟨h1, h2, h3, h4, h5⟩ := ih (s.setActive x (some b))
    refine ⟨fun h => ?_, h2, h3, h4, h5⟩
    rw [h1]
    simp only [MState.setActive, List.mem_cons]
    by_cases e : h = x
    · simp [e]
    · simp [e]

end Verif.Kvbc
