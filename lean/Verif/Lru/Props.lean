import Verif.Lru.Model
import Verif.Util.ListLemmas
set_option linter.unusedSimpArgs false
set_option linter.unusedVariables false
set_option linter.unusedSectionVars false
/-! Properties of the LRU cache (C30), stated about histories of calls only. -/
namespace Verif.Lru
variable {K V : Type} [DecidableEq K]

/-! ## Specification -/

/-- the value of the last `put` of `k` in the history; `clear` forgets it -/
def lastPut (k : K) (h : List (Op K V)) : Option V :=
  h.foldl (fun acc o => match o with | .put k' v => if k' = k then some v else acc | .get _ => acc | .clear => none) none

/-- the keys put or looked up -/
def touched : List (Op K V) → List K
  | [] => []
  | .put k _ :: os => k :: touched os
  | .get k :: os => k :: touched os
  | .clear :: os => touched os

/-- the keys put -/
def putKeys : List (Op K V) → List K
  | [] => []
  | .put k _ :: os => k :: putKeys os
  | .get _ :: os => putKeys os
  | .clear :: os => putKeys os

/-- number of distinct elements -/
def distinct (l : List K) : Nat := l.eraseDups.length

/-! ## Invariant -/

/-- keys are distinct, and the map has exactly one entry per key -/
structure Inv (c : Cache K V) : Prop where
  nodup : c.keys.Nodup
  mapNodup : (c.map.map (·.1)).Nodup
  same : ∀ k, k ∈ c.map.map (·.1) ↔ k ∈ c.keys
  size : c.keys.length ≤ c.capacity

theorem find_eq_none {m : List (K × V)} {k : K} : find m k = none ↔ k ∉ m.map (·.1) := by
  unfold find
  simp only [Option.map_eq_none_iff, List.find?_eq_none, List.mem_map, decide_eq_true_eq, not_exists, not_and]

theorem find_isSome {m : List (K × V)} {k : K} : (∃ v, find m k = some v) ↔ k ∈ m.map (·.1) := by
  constructor
  · rintro ⟨v, hv⟩
    refine Decidable.byContradiction fun h => ?_
    rw [find_eq_none.2 h] at hv; cases hv
  · intro h
    cases hf : find m k with
    | none => exact absurd h (find_eq_none.1 hf)
    | some v => exact ⟨v, rfl⟩

theorem find_cons {m : List (K × V)} {k k' : K} {v : V} : find ((k', v) :: m) k = if k' = k then some v else find m k := by
  unfold find; by_cases h : k' = k <;> simp [List.find?_cons, h]

theorem find_setVal {m : List (K × V)} {k k' : K} {v : V} : find (setVal m k' v) k = if k' = k then (find m k).map (fun _ => v) else find m k := by
  induction m with
  | nil => simp [setVal, find]
  | cons p m ih =>
    obtain ⟨a, b⟩ := p
    simp only [setVal, List.map_cons] at ih ⊢
    by_cases ha : a = k'
    · subst ha
      simp only [if_true, find_cons]
      by_cases hk : a = k
      · simp [hk]
      · simp only [hk, if_false] at ih ⊢; exact ih
    · simp only [ha, if_false, find_cons]
      by_cases hk : k' = k
      · subst hk; simp only [ha, if_false, if_true] at ih ⊢; exact ih
      · simp only [hk, if_false] at ih ⊢; rw [ih]

theorem find_eraseKey {m : List (K × V)} {k k' : K} : find (eraseKey m k') k = if k' = k then none else find m k := by
  induction m with
  | nil => simp [eraseKey, find]
  | cons p m ih =>
    obtain ⟨a, b⟩ := p
    unfold eraseKey at ih ⊢
    by_cases ha : a = k'
    · subst ha
      simp only [List.filter_cons, ne_eq, not_true_eq_false, decide_false, Bool.false_eq_true, if_false, find_cons]
      rw [ih]
      by_cases hk : a = k <;> simp [hk]
    · simp only [List.filter_cons, ne_eq, ha, not_false_eq_true, decide_true, if_true, find_cons]
      rw [ih]
      by_cases hk : k' = k
      · subst hk; simp [ha]
      · simp [hk]

theorem setVal_keys {m : List (K × V)} {k : K} {v : V} : (setVal m k v).map (·.1) = m.map (·.1) := by
  unfold setVal
  rw [List.map_map]
  apply List.map_congr_left
  intro p _
  by_cases h : p.1 = k <;> simp [h]

theorem new_inv (cap : Nat) : Inv (new cap : Cache K V) := ⟨by simp [new], by simp [new], by simp [new], by simp [new]⟩

theorem moveToFront_mem {keys : List K} {k x : K} (hk : k ∈ keys) : x ∈ moveToFront keys k ↔ x ∈ keys := by
  unfold moveToFront
  by_cases h : x = k
  · subst h; simp [hk]
  · simp [h, List.mem_erase_of_ne h]

theorem moveToFront_nodup {keys : List K} {k : K} (hn : keys.Nodup) : (moveToFront keys k).Nodup := by
  unfold moveToFront
  rw [List.nodup_cons]
  exact ⟨fun h => by rw [List.Nodup.mem_erase_iff hn] at h; exact h.1 rfl, hn.erase k⟩

theorem moveToFront_length {keys : List K} {k : K} (hk : k ∈ keys) : (moveToFront keys k).length = keys.length := by
  unfold moveToFront
  rw [List.length_cons, List.length_erase_of_mem hk]
  have := List.length_pos_of_mem hk
  omega

theorem mem_keys_of_find {c : Cache K V} (hi : Inv c) {k : K} {v : V} (h : find c.map k = some v) : k ∈ c.keys :=
  (hi.same k).1 (find_isSome.1 ⟨v, h⟩)

theorem get_inv {c : Cache K V} (hi : Inv c) (k : K) : Inv (get c k).2 := by
  unfold get
  cases hf : find c.map k with
  | none => exact ⟨hi.nodup, hi.mapNodup, hi.same, hi.size⟩
  | some v =>
    have hk := mem_keys_of_find hi hf
    exact ⟨moveToFront_nodup hi.nodup, hi.mapNodup, fun x => by rw [moveToFront_mem hk]; exact hi.same x,
      by show (moveToFront c.keys k).length ≤ c.capacity; rw [moveToFront_length hk]; exact hi.size⟩

theorem clear_inv {c : Cache K V} : Inv (clear c) := ⟨by simp [clear], by simp [clear], by simp [clear], by simp [clear]⟩

/-- what `put` does to a new key, with the list of keys split -/
theorem put_cases {c : Cache K V} (hcap : 0 < c.capacity) (hi : Inv c) (k : K) (v : V) :
    ∃ c', put c k v = some c' ∧ c'.capacity = c.capacity ∧
      ((k ∈ c.keys ∧ c'.keys = moveToFront c.keys k ∧ c'.map = setVal c.map k v) ∨
       (k ∉ c.keys ∧ c.keys.length < c.capacity ∧ c'.keys = k :: c.keys ∧ c'.map = (k, v) :: c.map) ∨
       (k ∉ c.keys ∧ ∃ ks last, c.keys = ks ++ [last] ∧ c.keys.length = c.capacity ∧ c'.keys = k :: ks ∧ c'.map = (k, v) :: eraseKey c.map last)) := by
  unfold put
  simp only
  cases hf : find c.map k with
  | some w => exact ⟨_, rfl, rfl, Or.inl ⟨mem_keys_of_find hi hf, rfl, rfl⟩⟩
  | none =>
    have hk : k ∉ c.keys := fun h => find_eq_none.1 hf ((hi.same k).2 h)
    by_cases hl : c.keys.length = c.capacity
    · simp only [hl, if_true]
      have hne : c.keys ≠ [] := by intro h; rw [h] at hl; simp at hl; omega
      rw [List.getLast?_eq_some_getLast hne]
      exact ⟨_, rfl, rfl, Or.inr (Or.inr ⟨hk, c.keys.dropLast, c.keys.getLast hne, (List.dropLast_concat_getLast hne).symm, by first | exact hl | rfl | trivial, rfl, rfl⟩)⟩
    · simp only [hl, if_false]
      have := hi.size
      exact ⟨_, rfl, rfl, Or.inr (Or.inl ⟨hk, by omega, rfl, rfl⟩)⟩

theorem eraseKey_keys {m : List (K × V)} {k : K} : (eraseKey m k).map (·.1) = (m.map (·.1)).filter (fun x => x ≠ k) := by
  unfold eraseKey
  rw [List.filter_map]
  rfl

theorem put_inv {c c' : Cache K V} (hcap : 0 < c.capacity) (hi : Inv c) {k : K} {v : V} (h : put c k v = some c') : Inv c' := by
  obtain ⟨c'', h1, h2, h3⟩ := put_cases hcap hi k v
  rw [h] at h1; injection h1 with h1; subst h1
  rcases h3 with ⟨a, b, d⟩ | ⟨a, b, d, e⟩ | ⟨a, ks, last, b, l, d, e⟩
  · exact ⟨by rw [b]; exact moveToFront_nodup hi.nodup, by rw [d, setVal_keys]; exact hi.mapNodup,
      fun x => by rw [d, setVal_keys, b, moveToFront_mem a]; exact hi.same x, by rw [b, moveToFront_length a, h2]; exact hi.size⟩
  · refine ⟨by rw [d]; exact List.nodup_cons.2 ⟨a, hi.nodup⟩, ?_, fun x => ?_, by rw [d, h2, List.length_cons]; omega⟩
    · rw [e, List.map_cons, List.nodup_cons]; exact ⟨fun hh => a ((hi.same k).1 hh), hi.mapNodup⟩
    · rw [e, d, List.map_cons, List.mem_cons, List.mem_cons, hi.same x]
  · have hn := hi.nodup
    rw [b] at hn
    rw [List.nodup_append] at hn
    have hlast : last ∉ ks := fun hh => hn.2.2 last hh last (by simp) rfl
    refine ⟨?_, ?_, fun x => ?_, ?_⟩
    · rw [d]; exact List.nodup_cons.2 ⟨fun hh => a (by rw [b]; simp [hh]), hn.1⟩
    · rw [e, List.map_cons, List.nodup_cons, eraseKey_keys]
      exact ⟨fun hh => a ((hi.same k).1 (List.mem_filter.1 hh).1), hi.mapNodup.filter _⟩
    · rw [e, d, List.map_cons, List.mem_cons, List.mem_cons, eraseKey_keys, List.mem_filter, hi.same x, b]
      by_cases hx : x = last
      · subst hx; simp [hlast]
      · simp [hx]
    · have := hi.size
      rw [b, List.length_append] at l
      rw [d, h2, List.length_cons]
      simp at l; omega

theorem step_inv {c c' : Cache K V} (hcap : 0 < c.capacity) (hi : Inv c) {o : Op K V} (h : step c o = some c') : Inv c' ∧ c'.capacity = c.capacity := by
  cases o with
  | put k v =>
    obtain ⟨c'', h1, h2, _⟩ := put_cases hcap hi k v
    simp only [step] at h
    have := put_inv hcap hi h
    rw [h] at h1; injection h1 with h1; subst h1
    exact ⟨this, h2⟩
  | get k =>
    simp only [step] at h; injection h with h; subst h
    refine ⟨get_inv hi k, ?_⟩
    unfold get; cases find c.map k <;> rfl
  | clear => simp only [step] at h; injection h with h; subst h; exact ⟨clear_inv, rfl⟩

theorem run_inv : ∀ (h : List (Op K V)) {c c' : Cache K V}, 0 < c.capacity → Inv c → run c h = some c' → Inv c' ∧ c'.capacity = c.capacity
  | [], c, c', _, hi, hr => by simp only [run] at hr; injection hr with hr; subst hr; exact ⟨hi, rfl⟩
  | o :: os, c, c', hcap, hi, hr => by
    simp only [run] at hr
    cases hs : step c o with
    | none => simp [hs] at hr
    | some c1 =>
      simp only [hs] at hr
      obtain ⟨i1, e1⟩ := step_inv hcap hi hs
      obtain ⟨i2, e2⟩ := run_inv os (by omega) i1 hr
      exact ⟨i2, by omega⟩

theorem run_append : ∀ (h h' : List (Op K V)) (c : Cache K V), run c (h ++ h') = (run c h).bind (fun c' => run c' h')
  | [], h', c => rfl
  | o :: os, h', c => by
    simp only [run, List.cons_append]
    cases step c o with
    | none => rfl
    | some c1 => exact run_append os h' c1

/-- C30: a cache with positive capacity never gets stuck (no undefined behaviour), the assertion in `size` holds, and the size never exceeds the capacity. -/
theorem never_stuck_and_bounded {cap : Nat} (hcap : 0 < cap) (h : List (Op K V)) :
    ∃ c, run (new cap) h = some c ∧ ∃ n, size c = some n ∧ n ≤ cap := by
  have key : ∀ (h : List (Op K V)) (c : Cache K V), 0 < c.capacity → Inv c → ∃ c', run c h = some c' := by
    intro h
    induction h with
    | nil => intro c _ _; exact ⟨c, rfl⟩
    | cons o os ih =>
      intro c hc hi
      have : ∃ c1, step c o = some c1 := by
        cases o with
        | put k v => obtain ⟨c1, h1, _⟩ := put_cases hc hi k v; exact ⟨c1, h1⟩
        | get k => exact ⟨_, rfl⟩
        | clear => exact ⟨_, rfl⟩
      obtain ⟨c1, h1⟩ := this
      obtain ⟨i1, e1⟩ := step_inv hc hi h1
      obtain ⟨c2, h2⟩ := ih c1 (by omega) i1
      exact ⟨c2, by simp only [run, h1, h2]⟩
  obtain ⟨c, hc⟩ := key h (new cap) hcap (new_inv cap)
  obtain ⟨hi, he⟩ := run_inv h hcap (new_inv cap) hc
  refine ⟨c, hc, c.keys.length, ?_, by rw [show cap = c.capacity from he.symm]; exact hi.size⟩
  unfold size
  rw [if_pos]
  have h1 := Verif.ListU.nodup_subset_length hi.mapNodup (fun x hx => (hi.same x).1 hx)
  have h2 := Verif.ListU.nodup_subset_length hi.nodup (fun x hx => (hi.same x).2 hx)
  rw [List.length_map] at h1 h2
  omega

/-! ## Reads return the last value put -/

theorem find_put {c c' : Cache K V} (hcap : 0 < c.capacity) (hi : Inv c) {k k' : K} {v w : V} (h : put c k' v = some c') (hf : find c'.map k = some w) :
    if k' = k then w = v else find c.map k = some w := by
  obtain ⟨c'', h1, h2, h3⟩ := put_cases hcap hi k' v
  rw [h] at h1; injection h1 with h1; subst h1
  rcases h3 with ⟨a, b, d⟩ | ⟨a, b, d, e⟩ | ⟨a, ks, last, b, l, d, e⟩
  · rw [d, find_setVal] at hf
    by_cases hk : k' = k
    · simp only [hk, if_true] at hf ⊢
      cases hm : find c.map k with
      | none => simp [hm] at hf
      | some x => simp [hm] at hf; exact hf.symm
    · simp only [hk, if_false] at hf ⊢; exact hf
  · rw [e, find_cons] at hf
    by_cases hk : k' = k
    · simp only [hk, if_true] at hf ⊢; injection hf with hf; exact hf.symm
    · simp only [hk, if_false] at hf ⊢; exact hf
  · rw [e, find_cons] at hf
    by_cases hk : k' = k
    · simp only [hk, if_true] at hf ⊢; injection hf with hf; exact hf.symm
    · simp only [hk, if_false] at hf ⊢
      rw [find_eraseKey] at hf
      split at hf
      · cases hf
      · exact hf

theorem get_fst {c : Cache K V} {k : K} : (get c k).1 = find c.map k := by
  unfold get; cases find c.map k <;> rfl

theorem get_map {c : Cache K V} {k : K} : (get c k).2.map = c.map := by
  unfold get; cases find c.map k <;> rfl

/-- C30: a lookup that returns a value returns the one of the last `put` of that key. -/
theorem get_last_put {cap : Nat} (hcap : 0 < cap) {h : List (Op K V)} {c : Cache K V} (hr : run (new cap) h = some c) {k : K} {v : V}
    (hg : (get c k).1 = some v) : lastPut k h = some v := by
  rw [get_fst] at hg
  have key : ∀ (h : List (Op K V)) (c0 c : Cache K V) (acc : Option V), 0 < c0.capacity → Inv c0 → (∀ w, find c0.map k = some w → acc = some w) →
      run c0 h = some c → ∀ v, find c.map k = some v →
      h.foldl (fun acc o => match o with | .put k' v => if k' = k then some v else acc | .get _ => acc | .clear => none) acc = some v := by
    intro h
    induction h with
    | nil => intro c0 c acc _ _ ha hr v hv; simp only [run] at hr; injection hr with hr; subst hr; exact ha v hv
    | cons o os ih =>
      intro c0 c acc hc hi ha hr v hv
      simp only [run] at hr
      cases hs : step c0 o with
      | none => simp [hs] at hr
      | some c1 =>
        simp only [hs] at hr
        obtain ⟨i1, e1⟩ := step_inv hc hi hs
        rw [List.foldl_cons]
        refine ih c1 c _ (by omega) i1 ?_ hr v hv
        intro w hw
        cases o with
        | put k' v' =>
          have := find_put hc hi hs hw
          by_cases hk : k' = k
          · simp only [hk, if_true] at this ⊢; rw [this]
          · simp only [hk, if_false] at this ⊢; exact ha w this
        | get k' =>
          simp only [step] at hs; injection hs with hs; subst hs
          rw [get_map] at hw
          exact ha w hw
        | clear =>
          simp only [step] at hs; injection hs with hs; subst hs
          simp [clear, find] at hw
  exact key h (new cap) c none hcap (new_inv cap) (by intro w hw; simp [new, find] at hw) hr v hg

/-! ## Retention and eviction -/

/-- the keys more recent than `k` are among `T` -/
def Ahead (c : Cache K V) (k : K) (T : K → Prop) : Prop := ∃ xs ys, c.keys = xs ++ k :: ys ∧ ∀ x ∈ xs, T x

theorem moveToFront_split {xs ys : List K} {k k' : K} (hn : (xs ++ k :: ys).Nodup) (hne : k' ≠ k) :
    ∃ xs' ys', moveToFront (xs ++ k :: ys) k' = xs' ++ k :: ys' ∧ ∀ x ∈ xs', x = k' ∨ x ∈ xs := by
  unfold moveToFront
  by_cases h : k' ∈ xs
  · rw [List.erase_append_left _ h]
    exact ⟨k' :: xs.erase k', ys, rfl, fun x hx => (List.mem_cons.1 hx).elim Or.inl (fun e => Or.inr (List.mem_of_mem_erase e))⟩
  · rw [List.erase_append_right _ h, List.erase_cons_tail (by simpa using Ne.symm hne)]
    exact ⟨k' :: xs, ys.erase k', rfl, fun x hx => List.mem_cons.1 hx⟩

theorem distinct_bound {l : List K} {xs : List K} (hn : xs.Nodup) (h : ∀ x ∈ xs, x ∈ l) : xs.length ≤ distinct l := by
  unfold distinct
  exact Verif.ListU.nodup_subset_length hn (fun x hx => List.mem_eraseDups.2 (h x hx))

/-- the keys other than `k` touched by the calls -/
def others (k : K) (h : List (Op K V)) : List K := (touched h).filter (fun x => x ≠ k)

theorem retain_key (k : K) (v : V) (cap : Nat) : ∀ (h : List (Op K V)) (c0 c : Cache K V) (T : List K), 0 < c0.capacity → c0.capacity = cap → Inv c0 → find c0.map k = some v →
    Ahead c0 k (· ∈ T) → (∀ o ∈ h, o ≠ .clear) → k ∉ putKeys h → distinct (T ++ others k h) < cap → run c0 h = some c → find c.map k = some v := by
  intro h
  induction h with
  | nil => intro c0 c T _ _ _ hf _ _ _ _ hr; simp only [run] at hr; injection hr with hr; subst hr; exact hf
  | cons o os ih =>
    intro c0 c T hc hcap hi hf ha hnc hnp hd hr
    simp only [run] at hr
    cases hs : step c0 o with
    | none => simp [hs] at hr
    | some c1 =>
      simp only [hs] at hr
      obtain ⟨i1, e1⟩ := step_inv hc hi hs
      obtain ⟨xs, ys, hk, hx⟩ := ha
      have hn := hi.nodup
      rw [hk] at hn
      have hnc' : ∀ o ∈ os, o ≠ .clear := fun x hx => hnc x (List.mem_cons_of_mem _ hx)
      cases o with
      | clear => exact absurd rfl (hnc _ (List.mem_cons_self ..))
      | get k' =>
        simp only [step] at hs; injection hs with hs
        have hm : c1.map = c0.map := by rw [← hs]; exact get_map
        by_cases hkk : k' = k
        · subst hkk
          have hkeys : c1.keys = moveToFront c0.keys k' := by rw [← hs]; unfold get; rw [hf]
          refine ih c1 c T (by omega) (by omega) i1 (by rw [hm]; exact hf) ⟨[], c0.keys.erase k', by rw [hkeys]; rfl, by simp⟩ hnc' hnp ?_ hr
          simpa [others, touched] using hd
        · have ho : others k (.get k' :: os : List (Op K V)) = k' :: others k os := by simp [others, touched, hkk]
          rw [ho] at hd
          have hd' : distinct ((T ++ [k']) ++ others k os) < cap := by simpa using hd
          refine ih c1 c (T ++ [k']) (by omega) (by omega) i1 (by rw [hm]; exact hf) ?_ hnc' hnp hd' hr
          cases hf' : find c0.map k' with
          | none =>
            have hkeys : c1.keys = c0.keys := by rw [← hs]; unfold get; rw [hf']
            exact ⟨xs, ys, by rw [hkeys]; exact hk, fun x hx' => List.mem_append.2 (Or.inl (hx x hx'))⟩
          | some w =>
            have hkeys : c1.keys = moveToFront c0.keys k' := by rw [← hs]; unfold get; rw [hf']
            obtain ⟨xs', ys', h1, h2⟩ := moveToFront_split hn hkk
            refine ⟨xs', ys', by rw [hkeys, hk]; exact h1, fun x hx' => ?_⟩
            rcases h2 x hx' with e | e
            · simp [e]
            · exact List.mem_append.2 (Or.inl (hx x e))
      | put k' v' =>
        have hkk : k' ≠ k := by intro h; subst h; exact hnp (by simp [putKeys])
        have hnp' : k ∉ putKeys os := fun h => hnp (by simp [putKeys, h])
        have ho : others k (.put k' v' :: os : List (Op K V)) = k' :: others k os := by simp [others, touched, hkk]
        rw [ho] at hd
        have hd' : distinct ((T ++ [k']) ++ others k os) < cap := by simpa using hd
        obtain ⟨c'', h1, h2, h3⟩ := put_cases hc hi k' v'
        simp only [step] at hs
        rw [hs] at h1; injection h1 with h1; subst h1
        rcases h3 with ⟨a, b, d⟩ | ⟨a, b, d, e⟩ | ⟨a, ks, last, b, l, d, e⟩
        · obtain ⟨xs', ys', g1, g2⟩ := moveToFront_split hn hkk
          refine ih c1 c (T ++ [k']) (by omega) (by omega) i1 (by rw [d, find_setVal, if_neg hkk]; exact hf) ⟨xs', ys', by rw [b, hk]; exact g1, fun x hx' => ?_⟩ hnc' hnp' hd' hr
          rcases g2 x hx' with e | e
          · simp [e]
          · exact List.mem_append.2 (Or.inl (hx x e))
        · refine ih c1 c (T ++ [k']) (by omega) (by omega) i1 (by rw [e, find_cons, if_neg hkk]; exact hf) ⟨k' :: xs, ys, by rw [d, hk]; rfl, fun x hx' => ?_⟩ hnc' hnp' hd' hr
          rcases List.mem_cons.1 hx' with e | e
          · simp [e]
          · exact List.mem_append.2 (Or.inl (hx x e))
        · -- full: `k` is not the last one
          rcases List.eq_nil_or_concat ys with hy | ⟨ys', y, hy⟩
          · exfalso
            subst hy
            have hxl : xs.length + 1 = cap := by rw [hk, List.length_append] at l; simp at l; omega
            have hk'x : k' ∉ xs := fun hh => a (by rw [hk]; simp [hh])
            have hnx : (k' :: xs).Nodup := List.nodup_cons.2 ⟨hk'x, (List.nodup_append.1 hn).1⟩
            have := distinct_bound (l := T ++ k' :: others k os) hnx (fun x hx' => by
              rcases List.mem_cons.1 hx' with e | e
              · simp [e]
              · exact List.mem_append.2 (Or.inl (hx x e)))
            rw [List.length_cons] at this
            omega
          · subst hy
            have hb : ks = xs ++ k :: ys' ∧ last = y := by
              rw [hk] at b
              have : (xs ++ k :: ys') ++ [y] = ks ++ [last] := by rw [← b]; simp
              have := List.append_inj' this rfl
              exact ⟨this.1.symm, by have := this.2; simp at this; exact this.symm⟩
            have hlk : last ≠ k := by
              intro h
              rw [hb.2] at h
              subst h
              have hn2 : (xs ++ y :: ys' ++ [y]).Nodup := by simpa using hn
              exact (List.nodup_append.1 hn2).2.2 y (by simp) y (by simp) rfl
            refine ih c1 c (T ++ [k']) (by omega) (by omega) i1 (by rw [e, find_cons, if_neg hkk, find_eraseKey, if_neg hlk]; exact hf)
              ⟨k' :: xs, ys', by rw [d, hb.1]; rfl, fun x hx' => ?_⟩ hnc' hnp' hd' hr
            rcases List.mem_cons.1 hx' with e | e
            · simp [e]
            · exact List.mem_append.2 (Or.inl (hx x e))

/-- C30 (retention): a key put is found, with that value, as long as fewer than `capacity` distinct other keys were put or looked up since. -/
theorem retained_after_put {cap : Nat} (hcap : 0 < cap) {h h' : List (Op K V)} {k : K} {v : V} {c : Cache K V} (hr : run (new cap) (h ++ .put k v :: h') = some c)
    (hnc : ∀ o ∈ h', o ≠ .clear) (hnp : k ∉ putKeys h') (hd : distinct (others k h') < cap) : (get c k).1 = some v := by
  rw [run_append] at hr
  cases h1 : run (new cap) h with
  | none => simp [h1] at hr
  | some c0 =>
    simp only [h1, Option.bind_some, run, step] at hr
    obtain ⟨i0, e0⟩ := run_inv h hcap (new_inv cap) h1
    have e0' : c0.capacity = cap := e0
    obtain ⟨c1, p1, p2, p3⟩ := put_cases (by omega) i0 k v
    rw [p1] at hr
    simp only at hr
    have i1 := put_inv (by omega) i0 p1
    rw [get_fst]
    refine retain_key k v cap h' c1 c [] (by omega) (by omega) i1 ?_ ?_ hnc hnp (by simpa using hd) hr
    · rcases p3 with ⟨a, b, d⟩ | ⟨a, b, d, e⟩ | ⟨a, ks, last, b, l, d, e⟩
      · rw [d, find_setVal, if_pos rfl]
        obtain ⟨w, hw⟩ := find_isSome.2 ((i0.same k).2 a)
        rw [hw]; rfl
      · rw [e, find_cons, if_pos rfl]
      · rw [e, find_cons, if_pos rfl]
    · rcases p3 with ⟨a, b, d⟩ | ⟨a, b, d, e⟩ | ⟨a, ks, last, b, l, d, e⟩
      · exact ⟨[], _, b, by simp⟩
      · exact ⟨[], _, d, by simp⟩
      · exact ⟨[], _, d, by simp⟩

/-- C30 (retention): the same after a successful lookup of the key. -/
theorem retained_after_get {cap : Nat} (hcap : 0 < cap) {h h' : List (Op K V)} {k : K} {v : V} {c0 c : Cache K V} (h0 : run (new cap) h = some c0) (hg : (get c0 k).1 = some v)
    (hr : run (new cap) (h ++ .get k :: h') = some c) (hnc : ∀ o ∈ h', o ≠ .clear) (hnp : k ∉ putKeys h') (hd : distinct (others k h') < cap) :
    (get c k).1 = some v := by
  rw [run_append, h0] at hr
  simp only [Option.bind_some, run, step] at hr
  obtain ⟨i0, e0⟩ := run_inv h hcap (new_inv cap) h0
  have e0' : c0.capacity = cap := e0
  rw [get_fst] at hg ⊢
  have hcap' : (get c0 k).2.capacity = cap := by unfold get; rw [hg]; exact e0'
  refine retain_key k v cap h' _ c [] (by omega) hcap' (get_inv i0 k) (by rw [get_map]; exact hg) ⟨[], c0.keys.erase k, by unfold get; rw [hg]; rfl, by simp⟩ hnc hnp (by simpa using hd) hr

theorem evict_key (k : K) (cap : Nat) : ∀ (h : List (Op K V)) (c0 c : Cache K V) (P : List K), 0 < c0.capacity → c0.capacity = cap → Inv c0 →
    (k ∈ c0.keys → ∃ xs ys, c0.keys = xs ++ k :: ys ∧ ∀ x ∈ P, x ∈ xs) → k ∉ touched h → run c0 h = some c →
    (k ∈ c.keys → ∃ xs ys, c.keys = xs ++ k :: ys ∧ ∀ x ∈ P ++ putKeys h, x ∈ xs) := by
  intro h
  induction h with
  | nil => intro c0 c P _ _ _ ha _ hr; simp only [run] at hr; injection hr with hr; subst hr; simpa [putKeys] using ha
  | cons o os ih =>
    intro c0 c P hc hcap hi ha hnt hr
    simp only [run] at hr
    cases hs : step c0 o with
    | none => simp [hs] at hr
    | some c1 =>
      simp only [hs] at hr
      obtain ⟨i1, e1⟩ := step_inv hc hi hs
      have hn := hi.nodup
      cases o with
      | clear =>
        simp only [step] at hs; injection hs with hs
        have hkeys : c1.keys = [] := by rw [← hs]; rfl
        have hpk : putKeys (.clear :: os : List (Op K V)) = putKeys os := rfl
        rw [hpk]
        exact ih c1 c P (by omega) (by omega) i1 (by rw [hkeys]; intro h; simp at h) (by simpa [touched] using hnt) hr
      | get k' =>
        have hkk : k' ≠ k := by intro h; subst h; exact hnt (by simp [touched])
        have hnt' : k ∉ touched os := fun h => hnt (by simp [touched, h])
        have hpk : putKeys (.get k' :: os : List (Op K V)) = putKeys os := rfl
        rw [hpk]
        refine ih c1 c P (by omega) (by omega) i1 ?_ hnt' hr
        simp only [step] at hs; injection hs with hs
        cases hf' : find c0.map k' with
        | none =>
          have hkeys : c1.keys = c0.keys := by rw [← hs]; unfold get; rw [hf']
          rw [hkeys]; exact ha
        | some w =>
          have hkeys : c1.keys = moveToFront c0.keys k' := by rw [← hs]; unfold get; rw [hf']
          have hk' := mem_keys_of_find hi hf'
          rw [hkeys, moveToFront_mem hk']
          intro hkm
          obtain ⟨xs, ys, h1, h2⟩ := ha hkm
          rw [h1] at hn ⊢
          unfold moveToFront
          by_cases hx : k' ∈ xs
          · rw [List.erase_append_left _ hx]
            refine ⟨k' :: xs.erase k', ys, rfl, fun x hxP => ?_⟩
            by_cases he : x = k'
            · simp [he]
            · exact List.mem_cons_of_mem _ ((List.mem_erase_of_ne he).2 (h2 x hxP))
          · rw [List.erase_append_right _ hx, List.erase_cons_tail (by simpa using Ne.symm hkk)]
            exact ⟨k' :: xs, ys.erase k', rfl, fun x hxP => List.mem_cons_of_mem _ (h2 x hxP)⟩
      | put k' v' =>
        have hkk : k' ≠ k := by intro h; subst h; exact hnt (by simp [touched])
        have hnt' : k ∉ touched os := fun h => hnt (by simp [touched, h])
        have hpk : P ++ putKeys (.put k' v' :: os : List (Op K V)) = (P ++ [k']) ++ putKeys os := by simp [putKeys]
        rw [hpk]
        refine ih c1 c (P ++ [k']) (by omega) (by omega) i1 ?_ hnt' hr
        obtain ⟨c'', h1, h2, h3⟩ := put_cases hc hi k' v'
        simp only [step] at hs
        rw [hs] at h1; injection h1 with h1; subst h1
        rcases h3 with ⟨a, b, d⟩ | ⟨a, b, d, e⟩ | ⟨a, ks, last, b, l, d, e⟩
        · rw [b, moveToFront_mem a]
          intro hkm
          obtain ⟨xs, ys, g1, g2⟩ := ha hkm
          rw [g1] at hn ⊢
          unfold moveToFront
          have hsub : ∀ x ∈ P ++ [k'], x ∈ k' :: xs.erase k' := by
            intro x hx
            by_cases he : x = k'
            · simp [he]
            · rcases List.mem_append.1 hx with e | e
              · exact List.mem_cons_of_mem _ ((List.mem_erase_of_ne he).2 (g2 x e))
              · simp at e; exact absurd e he
          by_cases hx : k' ∈ xs
          · rw [List.erase_append_left _ hx]
            exact ⟨k' :: xs.erase k', ys, rfl, hsub⟩
          · rw [List.erase_append_right _ hx, List.erase_cons_tail (by simpa using Ne.symm hkk)]
            refine ⟨k' :: xs, ys.erase k', rfl, fun x hxP => ?_⟩
            have := hsub x hxP
            rwa [List.erase_of_not_mem hx] at this
        · rw [d]
          intro hkm
          rcases List.mem_cons.1 hkm with e | hkm
          · exact absurd e.symm hkk
          obtain ⟨xs, ys, g1, g2⟩ := ha hkm
          refine ⟨k' :: xs, ys, by rw [g1]; rfl, fun x hx => ?_⟩
          rcases List.mem_append.1 hx with e | e
          · exact List.mem_cons_of_mem _ (g2 x e)
          · simp at e; simp [e]
        · rw [d]
          intro hkm
          rcases List.mem_cons.1 hkm with e | hkm
          · exact absurd e.symm hkk
          obtain ⟨xs, ys, g1, g2⟩ := ha (by rw [b]; simp [hkm])
          rcases List.eq_nil_or_concat ys with hy | ⟨ys', y, hy⟩
          · exfalso
            subst hy
            rw [g1] at b
            have hb := List.append_inj' (show xs ++ [k] = ks ++ [last] from b) rfl
            have hlast : last = k := by have := hb.2; simp at this; exact this.symm
            rw [g1] at hn
            have := (List.nodup_append.1 hn).2.2 k (by rw [hb.1]; exact hkm) k (by simp)
            exact this rfl
          · subst hy
            rw [g1] at b
            have hb := List.append_inj' (show (xs ++ k :: ys') ++ [y] = ks ++ [last] by rw [← b]; simp) rfl
            refine ⟨k' :: xs, ys', by rw [← hb.1]; rfl, fun x hx => ?_⟩
            rcases List.mem_append.1 hx with e | e
            · exact List.mem_cons_of_mem _ (g2 x e)
            · simp at e; simp [e]

/-- C30 (eviction): a key that was not touched while `capacity` distinct other keys were put is not found. -/
theorem evicted {cap : Nat} (hcap : 0 < cap) {h h' : List (Op K V)} {k : K} {c : Cache K V} (hr : run (new cap) (h ++ h') = some c)
    (hnt : k ∉ touched h') (hd : cap ≤ distinct (putKeys h')) : (get c k).1 = none := by
  rw [run_append] at hr
  cases h1 : run (new cap) h with
  | none => simp [h1] at hr
  | some c0 =>
    simp only [h1, Option.bind_some] at hr
    obtain ⟨i0, e0⟩ := run_inv h hcap (new_inv cap) h1
    have e0' : c0.capacity = cap := e0
    obtain ⟨i1, e1⟩ := run_inv h' (by omega) i0 hr
    rw [get_fst]
    rw [find_eq_none, i1.same]
    intro hk
    obtain ⟨xs, ys, g1, g2⟩ := evict_key k cap h' c0 c [] (by omega) e0' i0 (fun hk => by
      obtain ⟨xs, ys, h⟩ := List.append_of_mem hk
      exact ⟨xs, ys, h, by simp⟩) hnt hr hk
    have hsub : (putKeys h').eraseDups.length ≤ xs.length := by
      apply Verif.ListU.nodup_subset_length
      · exact Verif.ListU.nodup_eraseDups _ _ (Nat.le_refl _)
      · intro x hx
        rw [List.mem_eraseDups] at hx
        exact g2 x (by simpa using hx)
    have hs := i1.size
    rw [g1, List.length_append, List.length_cons] at hs
    unfold distinct at hd
    omega

/-- both thresholds are exact: capacity 2, keys 0,1,2 -/
example : ∃ c, run (new 2 : Cache Nat Nat) [.put 0 10, .put 1 11, .get 0, .put 2 12] = some c ∧ (get c 0).1 = some 10 ∧ (get c 1).1 = none :=
  ⟨_, rfl, rfl, rfl⟩

/-- the hypotheses of `retained_after_put` and of `evicted` are met in that history -/
example : distinct (others 0 ([.get 0, .put 2 12] : List (Op Nat Nat))) < 2 ∧ 2 ≤ distinct (putKeys ([.put 0 1, .put 2 12, .put 0 4] : List (Op Nat Nat))) := by decide

/-- capacity 0: the first `put` is undefined behaviour -/
theorem zero_capacity_undefined (k : K) (v : V) : run (new 0) [Op.put k v] = none := by
  simp [run, step, put, new, find]

end Verif.Lru
