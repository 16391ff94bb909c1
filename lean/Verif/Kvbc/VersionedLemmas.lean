import Verif.Kvbc.VersionedSpec
set_option linter.unusedSimpArgs false
set_option linter.unusedVariables false
/-! Lemmas on the versioned category: effect of each operation on one key, and the invariant of the chain. -/
namespace Verif.Kvbc
open Verif.Bytes

/-! ### tagged versions -/
theorem decode_encode (t : Tagged) (h : t.version < 2 ^ 63) : Tagged.decode t.encode = t := by
  obtain ⟨d, v⟩ := t
  simp only at h
  have e1 : (0x7FFFFFFFFFFFFFFF : Nat) = 2 ^ 63 - 1 := by decide
  have e2 : (0x8000000000000000 : Nat) = 2 ^ 63 := by decide
  have hv : (2 ^ 63) &&& v = 0 := by
    apply Nat.eq_of_testBit_eq
    intro i
    rw [Nat.testBit_and, Nat.testBit_two_pow, Nat.zero_testBit]
    by_cases hi : 63 = i
    · subst hi; simp [Nat.testBit_lt_two_pow h]
    · simp [hi]
  cases d
  · simp only [Tagged.encode, Tagged.decode, Bool.false_eq_true, if_false]
    rw [e1, e2, Nat.and_comm (2 ^ 63 - 1), Nat.and_two_pow_sub_one_eq_mod, Nat.mod_eq_of_lt h, hv]
    rfl
  · simp only [Tagged.encode, Tagged.decode, if_true]
    rw [e1, e2, Nat.and_comm (2 ^ 63 - 1), Nat.and_two_pow_sub_one_eq_mod]
    have h1 : (v ||| 2 ^ 63) % 2 ^ 63 = v := by
      apply Nat.eq_of_testBit_eq
      intro i
      rw [Nat.testBit_mod_two_pow, Nat.testBit_or, Nat.testBit_two_pow]
      by_cases hi : i < 63
      · have : ¬ 63 = i := by omega
        simp [hi, this]
      · have h2 : v < 2 ^ i := Nat.lt_of_lt_of_le h (Nat.pow_le_pow_right (by decide) (by omega))
        simp [hi, Nat.testBit_lt_two_pow h2]
    have h2 : (2 ^ 63) &&& (v ||| 2 ^ 63) = 2 ^ 63 := by
      apply Nat.eq_of_testBit_eq
      intro i
      rw [Nat.testBit_and, Nat.testBit_or, Nat.testBit_two_pow]
      by_cases hi : 63 = i <;> simp [hi]
    rw [h1, h2]
    rfl

/-! ### key order and ordered maps -/
theorem keyLt_irrefl (a : Key) : keyLt a a = false := by
  induction a with
  | nil => rfl
  | cons x xs ih => simp [keyLt, ih]

theorem keyLt_trans : ∀ (a b c : Key), keyLt a b = true → keyLt b c = true → keyLt a c = true
  | [], [], _, h, _ => by simp [keyLt] at h
  | [], _ :: _, [], _, h => by simp [keyLt] at h
  | [], _ :: _, _ :: _, _, _ => rfl
  | _ :: _, [], _, h, _ => by simp [keyLt] at h
  | _ :: _, _ :: _, [], _, h => by simp [keyLt] at h
  | x :: xs, y :: ys, z :: zs, h1, h2 => by
    have ih := keyLt_trans xs ys zs
    simp only [keyLt] at h1 h2 ⊢
    split at h1 <;> split at h2 <;> (try split at h1) <;> (try split at h2) <;> (try contradiction) <;>
      (split <;> (try rfl) <;> (try split) <;> (try omega) <;> (try exact ih h1 h2))

theorem keyLt_total : ∀ (a b : Key), a ≠ b → keyLt a b = false → keyLt b a = true
  | [], [], h, _ => absurd rfl h
  | [], _ :: _, _, h => by simp [keyLt] at h
  | _ :: _, [], _, _ => rfl
  | x :: xs, y :: ys, h, h1 => by
    have ih := keyLt_total xs ys
    simp only [keyLt] at h1 ⊢
    split at h1
    · contradiction
    · split at h1
      · rename_i h3 h4; simp [h4]
      · rename_i h3 h4
        have e : x = y := UInt8.toNat_inj.1 (by omega)
        subst e
        simp only [Nat.lt_irrefl, if_false]
        exact ih (fun e => h (by rw [e])) h1

/-- entries in increasing key order -/
def Sorted {α : Type} (l : List (Key × α)) : Prop := l.Pairwise (fun a b => keyLt a.1 b.1 = true)

theorem mem_of_lookup {α : Type} {k : Key} {v : α} : ∀ {l : List (Key × α)}, l.lookup k = some v → (k, v) ∈ l
  | [], h => by simp at h
  | (k', v') :: l, h => by
    rw [List.lookup_cons] at h
    split at h
    · rename_i e
      have : k = k' := by simpa using e
      cases h; subst this; exact List.mem_cons_self
    · exact List.mem_cons_of_mem _ (mem_of_lookup h)

theorem lookup_none_of_not_mem {α : Type} {k : Key} : ∀ {l : List (Key × α)}, k ∉ l.map (·.1) → l.lookup k = none
  | [], _ => rfl
  | (k', v') :: l, h => by
    have h1 : k ≠ k' := fun e => h (by simp [e])
    have h2 : k ∉ l.map (·.1) := fun e => h (by simp only [List.map_cons, List.mem_cons]; exact Or.inr e)
    rw [List.lookup_cons, beq_eq_false_iff_ne.2 h1]
    exact lookup_none_of_not_mem h2

theorem lookup_of_mem_nodup {α : Type} {k : Key} {v : α} : ∀ {l : List (Key × α)}, (l.map (·.1)).Nodup →
    (k, v) ∈ l → l.lookup k = some v
  | [], _, h => by simp at h
  | (k', v') :: l, hn, h => by
    simp only [List.map_cons, List.nodup_cons] at hn
    rw [List.lookup_cons]
    rcases List.mem_cons.1 h with e | e
    · cases e; simp
    · have : k ≠ k' := fun e' => hn.1 (by subst e'; exact List.mem_map.2 ⟨_, e, rfl⟩)
      rw [beq_eq_false_iff_ne.2 this]
      exact lookup_of_mem_nodup hn.2 e

theorem sorted_nodup {α : Type} {l : List (Key × α)} (h : Sorted l) : (l.map (·.1)).Nodup := by
  induction l with
  | nil => simp
  | cons y ys ih =>
    have h' := List.pairwise_cons.1 h
    simp only [List.map_cons, List.nodup_cons]
    refine ⟨?_, ih h'.2⟩
    intro hm
    obtain ⟨z, hz, e⟩ := List.mem_map.1 hm
    have := h'.1 z hz
    rw [e, keyLt_irrefl] at this
    cases this

theorem emplace_mem {α : Type} (k : Key) (v : α) (l : List (Key × α)) (x : Key × α)
    (h : x ∈ emplace k v l) : x = (k, v) ∨ x ∈ l := by
  induction l with
  | nil => simp [emplace] at h; exact Or.inl h
  | cons y ys ih =>
    simp only [emplace] at h
    split at h
    · exact Or.inr h
    · split at h
      · rcases List.mem_cons.1 h with e | e
        · exact Or.inl e
        · exact Or.inr e
      · rcases List.mem_cons.1 h with e | e
        · exact Or.inr (by rw [e]; exact List.mem_cons_self)
        · rcases ih e with e | e
          · exact Or.inl e
          · exact Or.inr (List.mem_cons_of_mem _ e)

theorem emplace_sorted {α : Type} (k : Key) (v : α) (l : List (Key × α)) (h : Sorted l) :
    Sorted (emplace k v l) := by
  induction l with
  | nil => exact List.pairwise_singleton _ _
  | cons y ys ih =>
    have h' := List.pairwise_cons.1 h
    simp only [emplace]
    split
    · exact h
    · rename_i hne
      split
      · rename_i hlt
        refine List.pairwise_cons.2 ⟨?_, h⟩
        intro z hz
        rcases List.mem_cons.1 hz with e | e
        · rw [e]; exact hlt
        · exact keyLt_trans _ _ _ hlt (h'.1 z e)
      · rename_i hlt
        refine List.pairwise_cons.2 ⟨?_, ih h'.2⟩
        intro z hz
        rcases emplace_mem _ _ _ _ hz with e | e
        · rw [e]; exact keyLt_total _ _ hne (by simpa using hlt)
        · exact h'.1 z e

theorem emplace_lookup {α : Type} (k k' : Key) (v : α) (l : List (Key × α)) (hs : Sorted l) :
    (emplace k v l).lookup k' = if k' = k then (l.lookup k).or (some v) else l.lookup k' := by
  induction l with
  | nil =>
    by_cases h : k' = k
    · subst h; simp [emplace]
    · simp [emplace, List.lookup, h, beq_eq_false_iff_ne.2 h]
  | cons y ys ih =>
    obtain ⟨ky, vy⟩ := y
    have hs' := List.pairwise_cons.1 hs
    simp only [emplace]
    split
    · rename_i h1
      subst h1
      by_cases h : k' = k
      · subst h; simp [List.lookup_cons]
      · simp [h]
    · rename_i h1
      split
      · rename_i h2
        by_cases h : k' = k
        · subst h
          have : k' ∉ ((ky, vy) :: ys).map (·.1) := by
            intro hm
            obtain ⟨z, hz, e⟩ := List.mem_map.1 hm
            rcases List.mem_cons.1 hz with e' | e'
            · rw [e'] at e; exact h1 e.symm
            · have := keyLt_trans _ _ _ h2 (hs'.1 z e')
              rw [e, keyLt_irrefl] at this; cases this
          rw [lookup_none_of_not_mem this]
          simp
        · rw [List.lookup_cons, beq_eq_false_iff_ne.2 h]
          simp [h]
      · have := ih hs'.2
        rw [List.lookup_cons, this]
        by_cases h3 : k' = ky
        · subst h3
          have h4 : ¬ (k' = k) := fun e => h1 e.symm
          simp [List.lookup_cons, h4]
        · rw [List.lookup_cons, List.lookup_cons, beq_eq_false_iff_ne.2 h3, beq_eq_false_iff_ne.2 h1]

/-- two sorted lists with the same entries are equal -/
theorem sorted_ext {α : Type} : ∀ {l l' : List (Key × α)}, Sorted l → Sorted l' →
    (∀ k, l.lookup k = l'.lookup k) → l = l'
  | [], [], _, _, _ => rfl
  | [], (k, v) :: l', _, _, h => by have := h k; simp [List.lookup_cons] at this
  | (k, v) :: l, [], _, _, h => by have := h k; simp [List.lookup_cons] at this
  | (k, v) :: l, (k', v') :: l', hs, hs', h => by
    have p := List.pairwise_cons.1 hs
    have p' := List.pairwise_cons.1 hs'
    have e : k = k' := by
      by_cases e : k = k'
      · exact e
      · exfalso
        have h1 := h k
        have h2 := h k'
        rw [List.lookup_cons, List.lookup_cons, beq_self_eq_true, beq_eq_false_iff_ne.2 e] at h1
        rw [List.lookup_cons, List.lookup_cons, beq_self_eq_true, beq_eq_false_iff_ne.2 (Ne.symm e)] at h2
        have m1 := p'.1 _ (mem_of_lookup h1.symm)
        have m2 := p.1 _ (mem_of_lookup h2)
        have := keyLt_trans _ _ _ m1 m2
        simp [keyLt_irrefl] at this
    subst e
    have ev : v = v' := by
      have := h k
      simpa [List.lookup_cons] using this
    subst ev
    have : l = l' := by
      apply sorted_ext p.2 p'.2
      intro x
      by_cases hx : x = k
      · subst hx
        have n1 := sorted_nodup hs
        have n2 := sorted_nodup hs'
        simp only [List.map_cons, List.nodup_cons] at n1 n2
        rw [lookup_none_of_not_mem n1.1, lookup_none_of_not_mem n2.1]
      · have := h x
        rw [List.lookup_cons, List.lookup_cons, beq_eq_false_iff_ne.2 hx] at this
        exact this
    rw [this]

/-! ### adding a block: effect on one key -/

/-- value and flags that a block leaves for `k` -/
def touch (inp : VInput) (k : Key) : Option (DbValue × VFlags) :=
  match inp.kv.lookup k with
  | some v => some (⟨false, v.data⟩, if k ∈ inp.deletes then ⟨true, false⟩ else ⟨false, v.staleOnUpdate⟩)
  | none => if k ∈ inp.deletes then some (⟨true, []⟩, ⟨true, false⟩) else none

/-- the update info of a block depends only on the updates -/
def outOf (inp : VInput) : VOut :=
  inp.kv.foldl (fun o kv => emplace kv.1 ⟨false, kv.2.staleOnUpdate⟩ o)
    (inp.deletes.foldl (fun o k => emplace k ⟨true, false⟩ o) [])

theorem foldl_addDelete_out (b : Nat) (ds : List Key) (acc : VState × VOut) :
    (ds.foldl (addDelete b) acc).2 = ds.foldl (fun o k => emplace k ⟨true, false⟩ o) acc.2 := by
  induction ds generalizing acc with
  | nil => rfl
  | cons d ds ih => simp only [List.foldl_cons]; rw [ih]; rfl

theorem foldl_addUpdate_out (b : Nat) (l : List (Key × ValueWithFlags)) (acc : VState × VOut) :
    (l.foldl (addUpdate b) acc).2 = l.foldl (fun o kv => emplace kv.1 ⟨false, kv.2.staleOnUpdate⟩ o) acc.2 := by
  induction l generalizing acc with
  | nil => rfl
  | cons d ds ih => simp only [List.foldl_cons]; rw [ih]; rfl

theorem add_out (b : Nat) (inp : VInput) (s : VState) : (add b inp s).2 = outOf inp := by
  rw [add, foldl_addUpdate_out, foldl_addDelete_out]; rfl

/-- the entries of a key after putting `v` at block `b` -/
def KState.write (b : Nat) (v : DbValue) (x : KState) : KState := (x.putLatest ⟨v.deleted, b⟩).putValue b v

theorem write_write (b : Nat) (v w : DbValue) (x : KState) : (x.write b v).write b w = x.write b w := by
  simp only [KState.write, KState.putLatest, KState.putValue]
  congr 1
  funext b'
  by_cases h : b' = b <;> simp [h]

theorem foldl_addDelete_st (b : Nat) (ds : List Key) (acc : VState × VOut) (k : Key) :
    (ds.foldl (addDelete b) acc).1 k = if k ∈ ds then (acc.1 k).write b ⟨true, []⟩ else acc.1 k := by
  induction ds generalizing acc with
  | nil => simp
  | cons d ds ih =>
    simp only [List.foldl_cons]
    rw [ih]
    have e : (addDelete b acc d).1 k = if k = d then (acc.1 k).write b ⟨true, []⟩ else acc.1 k := by
      simp only [addDelete, upd]; rfl
    rw [e]
    by_cases h1 : k = d
    · subst h1
      simp only [if_true, List.mem_cons, true_or]
      by_cases h2 : k ∈ ds
      · rw [if_pos h2, write_write]
      · rw [if_neg h2]
    · simp [h1]

theorem foldl_addUpdate_st (b : Nat) (l : List (Key × ValueWithFlags)) (hn : (l.map (·.1)).Nodup)
    (acc : VState × VOut) (k : Key) :
    (l.foldl (addUpdate b) acc).1 k = match l.lookup k with
      | some v => (acc.1 k).write b ⟨false, v.data⟩
      | none => acc.1 k := by
  induction l generalizing acc with
  | nil => rfl
  | cons d ds ih =>
    obtain ⟨dk, dv⟩ := d
    simp only [List.map_cons, List.nodup_cons] at hn
    simp only [List.foldl_cons]
    rw [ih hn.2]
    have e : (addUpdate b acc (dk, dv)).1 k = if k = dk then (acc.1 k).write b ⟨false, dv.data⟩ else acc.1 k := by
      simp only [addUpdate, upd]; rfl
    rw [e, List.lookup_cons]
    by_cases h1 : k = dk
    · subst h1
      rw [lookup_none_of_not_mem hn.1]
      simp
    · simp [h1, beq_eq_false_iff_ne.2 h1]

theorem add_key (b : Nat) (inp : VInput) (hw : inp.wf) (s : VState) (k : Key) :
    (add b inp s).1 k = match touch inp k with
      | some (v, _) => (s k).write b v
      | none => s k := by
  rw [add, foldl_addUpdate_st b inp.kv hw, touch]
  cases h : inp.kv.lookup k with
  | some v =>
    simp only
    rw [foldl_addDelete_st]
    by_cases hd : k ∈ inp.deletes
    · rw [if_pos hd, write_write]
    · rw [if_neg hd]
  | none =>
    simp only
    rw [foldl_addDelete_st]
    by_cases hd : k ∈ inp.deletes
    · rw [if_pos hd, if_pos hd]
    · rw [if_neg hd, if_neg hd]

theorem deletesOut_spec (ds : List Key) (o : VOut) (ho : Sorted o) :
    Sorted (ds.foldl (fun o k => emplace k (⟨true, false⟩ : VFlags) o) o) ∧
    ∀ k, (ds.foldl (fun o k => emplace k (⟨true, false⟩ : VFlags) o) o).lookup k =
      (o.lookup k).or (if k ∈ ds then some ⟨true, false⟩ else none) := by
  induction ds generalizing o with
  | nil => exact ⟨ho, fun k => by simp⟩
  | cons d ds ih =>
    simp only [List.foldl_cons]
    have := ih _ (emplace_sorted d ⟨true, false⟩ o ho)
    refine ⟨this.1, fun k => ?_⟩
    rw [this.2 k, emplace_lookup _ _ _ _ ho]
    by_cases h1 : k = d
    · subst h1
      cases h : o.lookup k <;> simp
    · simp [h1]

theorem updatesOut_spec (l : List (Key × ValueWithFlags)) (hn : (l.map (·.1)).Nodup) (o : VOut) (ho : Sorted o) :
    Sorted (l.foldl (fun o kv => emplace kv.1 (⟨false, kv.2.staleOnUpdate⟩ : VFlags) o) o) ∧
    ∀ k, (l.foldl (fun o kv => emplace kv.1 (⟨false, kv.2.staleOnUpdate⟩ : VFlags) o) o).lookup k =
      (o.lookup k).or ((l.lookup k).map (fun v => ⟨false, v.staleOnUpdate⟩)) := by
  induction l generalizing o with
  | nil => exact ⟨ho, fun k => by simp⟩
  | cons d ds ih =>
    obtain ⟨dk, dv⟩ := d
    simp only [List.map_cons, List.nodup_cons] at hn
    simp only [List.foldl_cons]
    have := ih hn.2 _ (emplace_sorted dk ⟨false, dv.staleOnUpdate⟩ o ho)
    refine ⟨this.1, fun k => ?_⟩
    rw [this.2 k, emplace_lookup _ _ _ _ ho, List.lookup_cons]
    by_cases h1 : k = dk
    · subst h1
      cases h : o.lookup k <;> simp
    · simp [h1, beq_eq_false_iff_ne.2 h1]

theorem outOf_sorted (inp : VInput) (hw : inp.wf) : Sorted (outOf inp) :=
  (updatesOut_spec inp.kv hw _ (deletesOut_spec inp.deletes [] List.Pairwise.nil).1).1

theorem outOf_lookup (inp : VInput) (hw : inp.wf) (k : Key) : (outOf inp).lookup k = (touch inp k).map (·.2) := by
  rw [outOf, (updatesOut_spec inp.kv hw _ (deletesOut_spec inp.deletes [] List.Pairwise.nil).1).2,
    (deletesOut_spec inp.deletes [] List.Pairwise.nil).2, touch]
  cases h : inp.kv.lookup k with
  | some v => by_cases hd : k ∈ inp.deletes <;> simp [hd]
  | none => by_cases hd : k ∈ inp.deletes <;> simp [hd]

/-! ### pruning and deleting: effect on one key -/
theorem foldl_upd_key (out : VOut) (hn : (out.map (·.1)).Nodup) (f : Key → KState → KState) (s : VState) (k : Key) :
    (out.foldl (fun acc kf => upd acc kf.1 (f kf.1)) s) k =
      match out.lookup k with | some _ => f k (s k) | none => s k := by
  induction out generalizing s with
  | nil => rfl
  | cons d ds ih =>
    obtain ⟨dk, df⟩ := d
    simp only [List.map_cons, List.nodup_cons] at hn
    simp only [List.foldl_cons]
    rw [ih hn.2, List.lookup_cons]
    by_cases h1 : k = dk
    · subst h1
      rw [lookup_none_of_not_mem hn.1]
      simp [upd]
    · rw [beq_eq_false_iff_ne.2 h1]
      simp [upd, h1]

theorem foldlM_upd_key (b : Nat) (s0 : VState) (out : VOut) (hn : (out.map (·.1)).Nodup) (s s' : VState)
    (h : out.foldlM (fun acc kf => (pruneKey b kf.2 (s0 kf.1) (acc kf.1)).map (fun r => upd acc kf.1 (fun _ => r))) s
      = some s') (k : Key) :
    match out.lookup k with
      | some fl => pruneKey b fl (s0 k) (s k) = some (s' k)
      | none => s' k = s k := by
  induction out generalizing s with
  | nil => simp at h; subst h; rfl
  | cons d ds ih =>
    obtain ⟨dk, df⟩ := d
    simp only [List.map_cons, List.nodup_cons] at hn
    simp only [List.foldlM_cons, Option.bind_eq_bind] at h
    cases hp : pruneKey b df (s0 dk) (s dk) with
    | none => simp [hp] at h
    | some r =>
      simp only [hp, Option.map_some, Option.bind_some] at h
      have := ih hn.2 _ h
      rw [List.lookup_cons]
      by_cases h1 : k = dk
      · subst h1
        rw [lookup_none_of_not_mem hn.1] at this
        simp only [beq_self_eq_true]
        rw [this, hp]
        simp [upd]
      · rw [beq_eq_false_iff_ne.2 h1]
        simp only [upd, h1, if_false] at this
        exact this

theorem foldlM_upd_some (b : Nat) (s0 : VState) (out : VOut)
    (h : ∀ kf ∈ out, (s0 kf.1).latest ≠ none) (s : VState) :
    ∃ s', out.foldlM (fun acc kf => (pruneKey b kf.2 (s0 kf.1) (acc kf.1)).map
      (fun r => upd acc kf.1 (fun _ => r))) s = some s' := by
  induction out generalizing s with
  | nil => exact ⟨s, rfl⟩
  | cons d ds ih =>
    have hd := h d List.mem_cons_self
    have : ∃ r, pruneKey b d.2 (s0 d.1) (s d.1) = some r := by
      cases hl : (s0 d.1).latest with
      | none => exact absurd hl hd
      | some n =>
        simp only [pruneKey, hl, Option.map_some]
        split
        · exact ⟨_, rfl⟩
        · split
          · exact ⟨_, rfl⟩
          · split
            · exact ⟨_, rfl⟩
            · exact ⟨_, rfl⟩
    obtain ⟨r, hr⟩ := this
    simp only [List.foldlM_cons, Option.bind_eq_bind, hr, Option.map_some, Option.bind_some]
    exact ih (fun kf hk => h kf (List.mem_cons_of_mem _ hk)) _

theorem deleteGenesis_key (b : Nat) (out : VOut) (hs : Sorted out) (s s' : VState)
    (h : deleteGenesis b out s = some s') (k : Key) :
    match out.lookup k with
      | some fl => pruneKey b fl (s k) (dropActive (s k) (s k)) = some (s' k)
      | none => s' k = s k := by
  have := foldlM_upd_key b s out (sorted_nodup hs) _ s' h k
  rw [foldl_upd_key out (sorted_nodup hs) (fun k => dropActive (s k))] at this
  cases hl : out.lookup k with
  | some fl => rw [hl] at this; exact this
  | none => rw [hl] at this; exact this

theorem deleteLastReachable_key (b : Nat) (out : VOut) (hs : Sorted out) (s : VState) (k : Key) :
    deleteLastReachable b out s k = match out.lookup k with | some _ => unlinkKey b (s k) (s k) | none => s k :=
  foldl_upd_key out (sorted_nodup hs) (fun k => unlinkKey b (s k)) s k

theorem prevVersion_some {x : KState} : ∀ {b v : Nat} {d : DbValue}, prevVersion x b = some (v, d) →
    v < b ∧ x.values v = some d ∧ ∀ v', v < v' → v' < b → x.values v' = none
  | 0, _, _, h => by simp [prevVersion] at h
  | b + 1, v, d, h => by
    simp only [prevVersion] at h
    cases hv : x.values b with
    | some w =>
      simp only [hv, Option.some.injEq, Prod.mk.injEq] at h
      obtain ⟨rfl, rfl⟩ := h
      exact ⟨Nat.lt_succ_self _, hv, fun v' h1 h2 => by omega⟩
    | none =>
      simp only [hv] at h
      have := prevVersion_some h
      refine ⟨by omega, this.2.1, fun v' h1 h2 => ?_⟩
      by_cases e : v' = b
      · rw [e, hv]
      · exact this.2.2 v' h1 (by omega)

theorem prevVersion_none {x : KState} : ∀ {b : Nat}, prevVersion x b = none → ∀ v, v < b → x.values v = none
  | 0, _, _, h => by omega
  | b + 1, h, v, hv => by
    simp only [prevVersion] at h
    cases hw : x.values b with
    | some w => simp [hw] at h
    | none =>
      simp only [hw] at h
      by_cases e : v = b
      · rw [e, hw]
      · exact prevVersion_none h v (by omega)

end Verif.Kvbc
