/-
The timers run when they are due (C51).
-/
import Verif.Timers.Spec

set_option linter.unusedSimpArgs false
set_option linter.unusedVariables false

namespace Verif.Timers
open Spec

abbrev Timer.armed (x : Timer) : Armed := ⟨x.exp, x.dur, x.oneShot⟩

/-! ### Lists of timers -/

theorem find_id {ts : List Timer} {h : Nat} {x : Timer} (hf : find ts h = some x) : x.id = h := by
  unfold find at hf
  have := List.find?_some hf
  simpa using this

theorem find_mem {ts : List Timer} {h : Nat} {x : Timer} (hf : find ts h = some x) : x ∈ ts :=
  List.mem_of_find?_eq_some hf

theorem find_none {ts : List Timer} {h : Nat} : find ts h = none ↔ h ∉ ts.map (·.id) := by
  unfold find
  simp [List.find?_eq_none]

theorem find_cons (x : Timer) (r : List Timer) (h : Nat) :
    find (x :: r) h = if x.id = h then some x else find r h := by
  unfold find
  rw [List.find?_cons]
  by_cases hh : x.id = h
  · simp [hh]
  · have : (x.id == h) = false := by simpa using hh
    rw [this, if_neg hh]

theorem find_append (a b : List Timer) (h : Nat) :
    find (a ++ b) h = (find a h).or (find b h) := by
  unfold find; rw [List.find?_append]

theorem find_of_mem {ts : List Timer} (hn : (ts.map (·.id)).Nodup) {x : Timer} (hx : x ∈ ts) :
    find ts x.id = some x := by
  induction ts with
  | nil => simp at hx
  | cons y r ih =>
    rw [find_cons]
    simp only [List.map_cons, List.nodup_cons] at hn
    rcases List.mem_cons.mp hx with e | e
    · simp [e]
    · have : y.id ≠ x.id := by
        intro he; exact hn.1 (he ▸ List.mem_map_of_mem e)
      simp [this, ih hn.2 e]

theorem setFirst_ids {h : Nat} {f : Timer → Timer} (hf : ∀ x, (f x).id = x.id) (ts : List Timer) :
    (setFirst h f ts).map (·.id) = ts.map (·.id) := by
  induction ts with
  | nil => rfl
  | cons x r ih =>
    unfold setFirst
    split
    · simp [hf]
    · simp [ih]

theorem find_setFirst {h : Nat} {f : Timer → Timer} (hf : ∀ x, (f x).id = x.id) (ts : List Timer) (k : Nat) :
    find (setFirst h f ts) k = if k = h then (find ts k).map f else find ts k := by
  induction ts with
  | nil => simp [setFirst, find]
  | cons x r ih =>
    unfold setFirst
    by_cases hx : x.id = h
    · simp only [hx, beq_self_eq_true, if_true]
      rw [find_cons, find_cons, hf, hx]
      by_cases hk : k = h
      · simp [hk]
      · simp [hk, Ne.symm hk]
    · simp only [beq_iff_eq, hx, if_false]
      rw [find_cons, find_cons, ih]
      by_cases hxk : x.id = k
      · have : ¬ k = h := fun e => hx (hxk.trans e)
        simp [hxk, this]
      · simp [hxk]

theorem setFirst_get {h : Nat} {f : Timer → Timer} (ts : List Timer) (j : Nat) (x : Timer)
    (hx : ts[j]? = some x) :
    ∃ y, (setFirst h f ts)[j]? = some y ∧ (y = x ∨ (x.id = h ∧ y = f x)) := by
  induction ts generalizing j with
  | nil => simp at hx
  | cons a r ih =>
    unfold setFirst
    by_cases ha : a.id = h
    · simp only [ha, beq_self_eq_true, if_true]
      cases j with
      | zero =>
        simp at hx
        exact ⟨f a, by simp, Or.inr (hx ▸ ⟨ha, rfl⟩)⟩
      | succ j =>
        simp at hx
        exact ⟨x, by simpa using hx, Or.inl rfl⟩
    · simp only [beq_iff_eq, ha, if_false]
      cases j with
      | zero =>
        simp at hx
        exact ⟨a, by simp, Or.inl hx⟩
      | succ j =>
        simp at hx
        obtain ⟨y, h1, h2⟩ := ih j hx
        exact ⟨y, by simpa using h1, h2⟩

theorem eraseFirst_sublist (h : Nat) (ts : List Timer) : (eraseFirst h ts).Sublist ts := by
  induction ts with
  | nil => exact List.Sublist.refl _
  | cons x r ih =>
    unfold eraseFirst
    split
    · exact List.sublist_cons_self x r
    · exact ih.cons_cons x

theorem find_eraseFirst {h : Nat} {ts : List Timer} (hn : (ts.map (·.id)).Nodup) (k : Nat) :
    find (eraseFirst h ts) k = if k = h then none else find ts k := by
  induction ts with
  | nil => simp [eraseFirst, find]
  | cons x r ih =>
    simp only [List.map_cons, List.nodup_cons] at hn
    unfold eraseFirst
    by_cases hx : x.id = h
    · simp only [hx, beq_self_eq_true, if_true]
      rw [find_cons, hx]
      by_cases hk : k = h
      · subst hk
        simp only [if_true]
        rw [find_none]; exact hx ▸ hn.1
      · simp [hk, Ne.symm hk]
    · simp only [beq_iff_eq, hx, if_false]
      rw [find_cons, find_cons, ih hn.2]
      by_cases hxk : x.id = k
      · have : ¬ k = h := fun e => hx (hxk.trans e)
        simp [hxk, this]
      · simp [hxk]

theorem setAt_ids {f : Timer → Timer} (hf : ∀ x, (f x).id = x.id) (i : Nat) (ts : List Timer) :
    (setAt i f ts).map (·.id) = ts.map (·.id) := by
  unfold setAt
  split
  · rename_i x hx
    rw [List.map_set, hf]
    have : (ts.map (·.id))[i]? = some x.id := by simp [hx]
    apply List.ext_getElem?
    intro j
    rw [List.getElem?_set]
    split
    · subst_vars
      split
      · rw [this]
      · rename_i h1 h2
        rw [this] at *
        have := (List.getElem?_eq_some_iff.mp hx).1
        simp at h2; omega
    · rfl
  · rfl

/-- In a vector without two timers of the same id, the element at an index is the one its id finds. -/
theorem setAt_eq {f : Timer → Timer} {i : Nat} {ts : List Timer} {x : Timer}
    (hn : (ts.map (·.id)).Nodup) (hx : ts[i]? = some x) : setAt i f ts = setFirst x.id f ts := by
  unfold setAt
  rw [hx]
  show ts.set i (f x) = _
  induction ts generalizing i with
  | nil => simp at hx
  | cons y r ih =>
    simp only [List.map_cons, List.nodup_cons] at hn
    cases i with
    | zero =>
      simp at hx
      subst hx
      simp [setFirst]
    | succ i =>
      simp at hx
      have : y.id ≠ x.id := by
        intro he
        exact hn.1 (he ▸ List.mem_map_of_mem (List.mem_of_getElem? hx))
      simp only [setFirst, beq_iff_eq, this, if_false, List.set_cons_succ]
      rw [ih hn.2 hx]

/-! ### The invariant -/

/-- The vector says what the log says; `tc` are the one-shot timers that ran and are still in the vector. -/
structure Inv (tc : List Nat) (s : State) : Prop where
  nodup : (s.ts.map (·.id)).Nodup
  bound : ∀ x ∈ s.ts, x.id ≠ 0 ∧ x.id ≤ s.ctr
  added : ∀ h d o t, Ev.added h d o t ∈ s.log → h ≤ s.ctr
  right : Right s.log
  same : ∀ h, armed s.log h = if h ∈ tc then none else (find s.ts h).map Timer.armed

theorem Inv.init : Inv [] State.init := by
  refine ⟨by simp [State.init], by simp [State.init], by simp [State.init], trivial, ?_⟩
  intro h; simp [State.init, Spec.armed, find]

theorem Inv.add {tc s} (hi : Inv tc s) (htc : ∀ h ∈ tc, h ≤ s.ctr) (d : Int) (o : Bool) (t : Int) :
    Inv tc (add d o t s) := by
  refine ⟨?_, ?_, ?_, ?_, ?_⟩
  · show ((s.ts ++ [(⟨s.ctr + 1, d, t + d, o⟩ : Timer)]).map (·.id)).Nodup
    rw [List.map_append, List.nodup_append]
    refine ⟨hi.nodup, by simp, ?_⟩
    intro a ha b hb
    obtain ⟨x, hx, rfl⟩ := List.mem_map.mp ha
    have := (hi.bound x hx).2
    simp at hb
    omega
  · intro x hx
    have hx : x ∈ s.ts ++ [⟨s.ctr + 1, d, t + d, o⟩] := hx
    rcases List.mem_append.mp hx with h | h
    · have := hi.bound x h
      exact ⟨this.1, show x.id ≤ s.ctr + 1 by omega⟩
    · simp at h
      rw [h]
      exact ⟨by simp, Nat.le_refl _⟩
  · intro h d' o' t' hm
    have hm : Ev.added h d' o' t' ∈ Ev.added (s.ctr + 1) d o t :: s.log := hm
    rcases List.mem_cons.mp hm with e | e
    · cases e; exact Nat.le_refl _
    · exact Nat.le_succ_of_le (hi.added _ _ _ _ e)
  · refine ⟨hi.right, by simp, ?_⟩
    intro d' o' t' hm
    have := hi.added _ _ _ _ hm
    omega
  · intro h
    show armed (Ev.added (s.ctr + 1) d o t :: s.log) h = if h ∈ tc then none
      else (find (s.ts ++ [⟨s.ctr + 1, d, t + d, o⟩]) h).map Timer.armed
    rw [find_append]
    unfold Spec.armed
    by_cases hh : h = s.ctr + 1
    · subst hh
      have h1 : s.ctr + 1 ∉ tc := fun hm => by have := htc _ hm; omega
      have h2 : find s.ts (s.ctr + 1) = none := by
        rw [find_none]
        intro hm
        obtain ⟨x, hx, he⟩ := List.mem_map.mp hm
        have := (hi.bound x hx).2
        omega
      have h3 : find [(⟨s.ctr + 1, d, t + d, o⟩ : Timer)] (s.ctr + 1) = some ⟨s.ctr + 1, d, t + d, o⟩ := by
        rw [find_cons]; simp
      rw [h2, h3]
      simp [h1, Timer.armed]
    · have h3 : find [⟨s.ctr + 1, d, t + d, o⟩] h = none := by
        rw [find_none]; simp; omega
      simp only [hh, if_false, h3, Option.or_none]
      exact hi.same h

theorem Inv.reset {tc s} (hi : Inv tc s) (h : Nat) (d t : Int) : Inv tc (reset h d t s) := by
  have hf : ∀ x : Timer, (Timer.resetTo d t x).id = x.id := fun _ => rfl
  refine ⟨?_, ?_, ?_, hi.right, ?_⟩
  · show ((setFirst h _ s.ts).map (·.id)).Nodup
    rw [setFirst_ids hf]; exact hi.nodup
  · intro x hx
    have : x.id ∈ (setFirst h (Timer.resetTo d t) s.ts).map (·.id) := List.mem_map_of_mem hx
    rw [setFirst_ids hf] at this
    obtain ⟨y, hy, he⟩ := List.mem_map.mp this
    have := hi.bound y hy
    rw [he] at this
    exact this
  · intro h' d' o' t' hm
    have hm : Ev.added h' d' o' t' ∈ Ev.reset h d t :: s.log := hm
    rcases List.mem_cons.mp hm with e | e
    · cases e
    · exact hi.added _ _ _ _ e
  · intro k
    show armed (Ev.reset h d t :: s.log) k = if k ∈ tc then none
      else (find (setFirst h (Timer.resetTo d t) s.ts) k).map Timer.armed
    rw [find_setFirst hf]
    unfold Spec.armed
    rw [hi.same]
    by_cases hk : k = h
    · by_cases hm : k ∈ tc
      · simp [hk, hm, hk ▸ hm]
      · have hm' : h ∉ tc := hk ▸ hm
        simp only [hk, hm', if_true, if_false, Option.map_map]
        congr 1
    · simp [hk]

theorem Inv.cancel {tc s} (hi : Inv tc s) (h : Nat) (hq : h ∉ tc) : Inv tc (cancel h s) := by
  have hs := eraseFirst_sublist h s.ts
  refine ⟨(hs.map _).nodup hi.nodup, fun x hx => hi.bound x (hs.subset hx), ?_, hi.right, ?_⟩
  · intro h' d' o' t' hm
    have hm : Ev.added h' d' o' t' ∈ Ev.cancelled h :: s.log := hm
    rcases List.mem_cons.mp hm with e | e
    · cases e
    · exact hi.added _ _ _ _ e
  · intro k
    show armed (Ev.cancelled h :: s.log) k = if k ∈ tc then none
      else (find (eraseFirst h s.ts) k).map Timer.armed
    rw [find_eraseFirst hi.nodup]
    unfold Spec.armed
    rw [hi.same]
    by_cases hk : k = h
    · simp [hk]
    · simp [hk]

/-! ### Callbacks -/

/-- Every timer of the vector is where it was, the same unless one of the new events resets it. -/
def Keeps (s s' : State) (new : List Ev) : Prop :=
  ∀ (j : Nat) (x : Timer), s.ts[j]? = some x → ∃ y : Timer, s'.ts[j]? = some y ∧ y.id = x.id ∧ y.oneShot = x.oneShot ∧
    (y = x ∨ ∃ d t, Ev.reset x.id d t ∈ new)

theorem Keeps.refl (s : State) (new : List Ev) : Keeps s s new := fun j x hx => ⟨x, hx, rfl, rfl, Or.inl rfl⟩

theorem Keeps.trans {s s' s'' : State} {n1 n2 : List Ev} (h1 : Keeps s s' n1) (h2 : Keeps s' s'' n2) :
    Keeps s s'' (n2 ++ n1) := by
  intro j x hx
  obtain ⟨y, hy, hi, ho, hc⟩ := h1 j x hx
  obtain ⟨z, hz, hi', ho', hc'⟩ := h2 j y hy
  refine ⟨z, hz, hi'.trans hi, ho'.trans ho, ?_⟩
  rcases hc' with e | ⟨d, t, e⟩
  · rcases hc with e' | ⟨d, t, e'⟩
    · exact Or.inl (e.trans e')
    · exact Or.inr ⟨d, t, List.mem_append_right _ e'⟩
  · exact Or.inr ⟨d, t, List.mem_append_left _ (hi ▸ e)⟩

/-- Events of calls only. -/
def Calls (new : List Ev) : Prop := ∀ e ∈ new, (∀ h t, e ≠ .began h t) ∧ (∀ h t, e ≠ .finished h t)

theorem actInside_spec {a s s' tc} (hi : Inv tc s) (htc : ∀ h ∈ tc, h ∈ s.ts.map (·.id))
    (h : actInside a s = .ok s') :
    ∃ e, s'.log = e :: s.log ∧ Inv tc s' ∧ (∀ h ∈ tc, h ∈ s'.ts.map (·.id)) ∧ Keeps s s' [e] ∧ Calls [e] ∧
      running s'.log = running s.log := by
  cases a with
  | add d o t =>
    simp only [actInside] at h
    split at h
    · cases h
      refine ⟨_, rfl, hi.add (fun k hk => ?_) d o t, ?_, ?_, ?_, rfl⟩
      · obtain ⟨x, hx, he⟩ := List.mem_map.mp (htc k hk)
        exact he ▸ (hi.bound x hx).2
      · intro k hk
        show k ∈ (s.ts ++ [(⟨s.ctr + 1, d, t + d, o⟩ : Timer)]).map (·.id)
        rw [List.map_append]
        exact List.mem_append_left _ (htc k hk)
      · intro j x hx
        refine ⟨x, ?_, rfl, rfl, Or.inl rfl⟩
        show (s.ts ++ [_])[j]? = _
        rw [List.getElem?_append_left (List.getElem?_eq_some_iff.mp hx).1]; exact hx
      · intro e he; simp at he; subst he; simp
    · cases h
  | reset k d t =>
    simp only [actInside] at h
    cases h
    refine ⟨_, rfl, hi.reset k d t, ?_, ?_, ?_, rfl⟩
    · intro q hq
      show q ∈ (setFirst k _ s.ts).map (·.id)
      rw [setFirst_ids (f := Timer.resetTo d t) (fun _ => rfl)]; exact htc q hq
    · intro j x hx
      obtain ⟨y, hy, hc⟩ := setFirst_get (h := k) (f := Timer.resetTo d t) s.ts j x hx
      rcases hc with e | ⟨e1, e2⟩
      · exact ⟨y, hy, by rw [e], by rw [e], Or.inl e⟩
      · exact ⟨y, hy, by rw [e2]; rfl, by rw [e2]; rfl, Or.inr ⟨d, t, by rw [e1]; simp⟩⟩
    · intro e he; simp at he; subst he; simp
  | cancel k =>
    simp only [actInside] at h
    split at h
    · cases h
    · rename_i hf
      cases h
      have hf : find s.ts k = none := by simpa using hf
      have hk : k ∉ s.ts.map (·.id) := find_none.mp hf
      have he : eraseFirst k s.ts = s.ts := by
        generalize s.ts = ts at hk
        induction ts with
        | nil => rfl
        | cons x r ih =>
          simp only [List.map_cons, List.mem_cons, not_or] at hk
          have : ¬ x.id = k := fun e => hk.1 e.symm
          simp only [eraseFirst, beq_iff_eq, this, if_false]
          rw [ih hk.2]
      refine ⟨_, rfl, hi.cancel k (fun hm => hk (htc k hm)), ?_, ?_, ?_, rfl⟩
      · intro q hq
        show q ∈ (eraseFirst k s.ts).map (·.id)
        rw [he]; exact htc q hq
      · intro j x hx
        refine ⟨x, ?_, rfl, rfl, Or.inl rfl⟩
        show (eraseFirst k s.ts)[j]? = _
        rw [he]; exact hx
      · intro e he; simp at he; subst he; simp

theorem actsInside_spec {as s s' tc} (hi : Inv tc s) (htc : ∀ h ∈ tc, h ∈ s.ts.map (·.id))
    (h : actsInside as s = .ok s') :
    ∃ new, s'.log = new ++ s.log ∧ Inv tc s' ∧ (∀ h ∈ tc, h ∈ s'.ts.map (·.id)) ∧ Keeps s s' new ∧ Calls new ∧
      running s'.log = running s.log := by
  induction as generalizing s with
  | nil => cases h; exact ⟨[], rfl, hi, htc, Keeps.refl _ _, fun e he => by simp at he, rfl⟩
  | cons a r ih =>
    simp only [actsInside] at h
    cases ha : actInside a s with
    | error e => rw [ha] at h; cases h
    | ok s1 =>
      rw [ha] at h
      obtain ⟨e, h1, h2, h3, h4, h5, h6⟩ := actInside_spec hi htc ha
      obtain ⟨new, g1, g2, g3, g4, g5, g6⟩ := ih h2 h3 h
      refine ⟨new ++ [e], by rw [g1, h1]; simp, g2, g3, h4.trans g4, ?_, g6.trans h6⟩
      intro e' he'
      rcases List.mem_append.mp he' with hx | hx
      · exact g5 e' hx
      · exact h5 e' hx

/-! ### The loop -/

/-- The handles whose callbacks were entered, newest first. -/
def begunIn (l : List Ev) : List (Nat × Int) :=
  l.filterMap (fun e => match e with | .began h t => some (h, t) | _ => none)

theorem begunIn_append (a b : List Ev) : begunIn (a ++ b) = begunIn a ++ begunIn b := by
  unfold begunIn; rw [List.filterMap_append]

theorem begunIn_calls {l : List Ev} (h : Calls l) : begunIn l = [] := by
  induction l with
  | nil => rfl
  | cons e r ih =>
    have hr : begunIn r = [] := ih (fun e' he' => h e' (List.mem_cons_of_mem _ he'))
    have he := (h e (List.mem_cons_self ..)).1
    cases e with
    | began a b => exact absurd rfl (he a b)
    | _ => exact hr

theorem mem_begunIn {l : List Ev} {h : Nat} {t : Int} : (h, t) ∈ begunIn l ↔ Ev.began h t ∈ l := by
  unfold begunIn
  rw [List.mem_filterMap]
  constructor
  · rintro ⟨e, he, hx⟩
    cases e <;> simp at hx
    obtain ⟨rfl, rfl⟩ := hx
    exact he
  · intro he
    exact ⟨_, he, rfl⟩

theorem armed_began (h t l k) : armed (Ev.began h t :: l) k = armed l k := rfl

theorem loop_spec (cb : Nat → List Act) (now : Int) (k : Nat) :
    ∀ (i : Nat) (tc tc' : List Nat) (s s' : State), Inv tc s → i + k ≤ s.ts.length →
      running s.log = none →
      (∀ h ∈ tc, ∃ j x, j < i ∧ s.ts[j]? = some x ∧ x.id = h) →
      loop cb now k i tc s = .ok (tc', s') →
      ∃ new, s'.log = new ++ s.log ∧ Inv tc' s' ∧ running s'.log = none ∧
        (∀ p ∈ begunIn new, p.2 = now ∧ ∃ (j : Nat) (x : Timer), i ≤ j ∧ j < i + k ∧ s.ts[j]? = some x ∧ x.id = p.1) ∧
        ((begunIn new).map (·.1)).Nodup ∧
        (∀ j x, i ≤ j → j < i + k → s.ts[j]? = some x → x.exp ≤ now →
          Ev.began x.id now ∈ new ∨ ∃ d t, Ev.reset x.id d t ∈ new) := by
  induction k with
  | zero =>
    intro i tc tc' s s' hi hk hr htc h
    simp only [loop, Except.ok.injEq, Prod.mk.injEq] at h
    obtain ⟨rfl, rfl⟩ := h
    exact ⟨[], rfl, hi, hr, by simp [begunIn], by simp [begunIn], fun j x h1 h2 => by omega⟩
  | succ k ih =>
    intro i tc tc' s s' hi hk hr htc h
    have hlt : i < s.ts.length := by omega
    obtain ⟨x, hx⟩ : ∃ x, s.ts[i]? = some x := ⟨_, List.getElem?_eq_getElem hlt⟩
    simp only [loop, hx] at h
    have idx : ∀ (j j' : Nat) (a b : Timer), s.ts[j]? = some a → s.ts[j']? = some b → a.id = b.id → j = j' := by
      intro j j' a b ha hb he
      have e1 : (s.ts.map (·.id))[j]? = some a.id := by simp [ha]
      have e2 : (s.ts.map (·.id))[j']? = some a.id := by simp [hb, he]
      have l1 := (List.getElem?_eq_some_iff.mp e1)
      have l2 := (List.getElem?_eq_some_iff.mp e2)
      exact (List.getElem_inj hi.nodup).mp (l1.2.trans l2.2.symm)
    by_cases hexp : x.expired now = true
    · rw [if_pos hexp] at h
      have hxe : x.exp ≤ now := by simpa [Timer.expired] using hexp
      have hxt : x.id ∉ tc := by
        intro hm
        obtain ⟨j, y, hj, hy, he⟩ := htc _ hm
        have := idx j i y x hy hx he
        omega
      have hfind : find s.ts x.id = some x := find_of_mem hi.nodup (List.mem_of_getElem? hx)
      have harm : armed s.log x.id = some x.armed := by rw [hi.same]; simp [hxt, hfind]
      have hi0 : Inv tc { s with log := .began x.id now :: s.log } := by
        refine ⟨hi.nodup, hi.bound, ?_, ⟨hi.right, hr, x.armed, harm, hxe⟩, hi.same⟩
        intro h d o t hm
        rcases List.mem_cons.mp hm with e | e
        · cases e
        · exact hi.added _ _ _ _ e
      have htc0 : ∀ h ∈ tc, h ∈ ({ s with log := .began x.id now :: s.log } : State).ts.map (·.id) := by
        intro h hm
        obtain ⟨j, y, _, hy, he⟩ := htc _ hm
        exact List.mem_map.mpr ⟨y, List.mem_of_getElem? hy, he⟩
      cases ha : actsInside (cb x.id) { s with log := .began x.id now :: s.log } with
      | error e => rw [ha] at h; cases h
      | ok s1 =>
        rw [ha] at h
        obtain ⟨new, g1, g2, g3, g4, g5, g6⟩ := actsInside_spec hi0 htc0 ha
        have g6 : running s1.log = some (x.id, now) := g6
        obtain ⟨y, hy, hyi, hyo, hyc⟩ := g4 i x hx
        have hyf : find s1.ts x.id = some y := hyi ▸ find_of_mem g2.nodup (List.mem_of_getElem? hy)
        have harm1 : armed s1.log x.id = some y.armed := by rw [g2.same]; simp [hxt, hyf]
        have hlen : s.ts.length ≤ s1.ts.length := by
          cases hl : s.ts.length with
          | zero => exact Nat.zero_le _
          | succ m =>
            have : m < s.ts.length := by omega
            obtain ⟨z, hz, _⟩ := g4 m _ (List.getElem?_eq_getElem this)
            have := (List.getElem?_eq_some_iff.mp hz).1
            omega
        -- what is common to the two kinds of timers
        have wrap : ∀ (tc1 : List Nat) (s2 : State), Inv tc1 s2 → s2.log = .finished x.id now :: s1.log →
            (∀ j a, j ≠ i → s1.ts[j]? = some a → s2.ts[j]? = some a) →
            (∀ (j : Nat) (a : Timer), s1.ts[j]? = some a → ∃ b : Timer, s2.ts[j]? = some b ∧ b.id = a.id) →
            s1.ts.length ≤ s2.ts.length →
            (∀ h ∈ tc1, h ∈ tc ∨ h = x.id) →
            loop cb now k (i + 1) tc1 s2 = .ok (tc', s') →
            ∃ new, s'.log = new ++ s.log ∧ Inv tc' s' ∧ running s'.log = none ∧
              (∀ p ∈ begunIn new, p.2 = now ∧ ∃ (j : Nat) (x : Timer), i ≤ j ∧ j < i + (k + 1) ∧ s.ts[j]? = some x ∧ x.id = p.1) ∧
              ((begunIn new).map (·.1)).Nodup ∧
              (∀ j x, i ≤ j → j < i + (k + 1) → s.ts[j]? = some x → x.exp ≤ now →
                Ev.began x.id now ∈ new ∨ ∃ d t, Ev.reset x.id d t ∈ new) := by
          intro tc1 s2 hi2 hl2 hother hall hlen2 htc1 hloop
          have hrun2 : running s2.log = none := by rw [hl2]; rfl
          have htc2 : ∀ h ∈ tc1, ∃ j x, j < i + 1 ∧ s2.ts[j]? = some x ∧ x.id = h := by
            intro h hm
            rcases htc1 h hm with e | e
            · obtain ⟨j, z, hj, hz, he⟩ := htc h e
              obtain ⟨z1, hz1, hzi, _⟩ := g4 j z hz
              obtain ⟨z2, hz2, hzi2⟩ := hall j z1 hz1
              exact ⟨j, z2, by omega, hz2, hzi2.trans (hzi.trans he)⟩
            · obtain ⟨z2, hz2, hzi2⟩ := hall i y hy
              exact ⟨i, z2, by omega, hz2, hzi2.trans (hyi.trans e.symm)⟩
          obtain ⟨new2, k1, k2, k3, k4, k5, k6⟩ :=
            ih (i + 1) tc1 tc' s2 s' hi2 (by omega) hrun2 htc2 hloop
          have hb : begunIn (new2 ++ (Ev.finished x.id now :: (new ++ [Ev.began x.id now])))
              = begunIn new2 ++ [(x.id, now)] := by
            rw [begunIn_append]
            congr 1
            show begunIn (new ++ [Ev.began x.id now]) = _
            rw [begunIn_append, begunIn_calls g5]
            rfl
          have back : ∀ p ∈ begunIn new2, p.2 = now ∧ ∃ (j : Nat) (a : Timer), i + 1 ≤ j ∧ j < i + 1 + k ∧
              s.ts[j]? = some a ∧ a.id = p.1 := by
            intro p hp
            obtain ⟨e1, j, b, hj, hj2, hb, he⟩ := k4 p hp
            have hlj : j < s.ts.length := by omega
            obtain ⟨a1, ha1, hai, _⟩ := g4 j _ (List.getElem?_eq_getElem hlj)
            obtain ⟨a2, ha2, hai2⟩ := hall j a1 ha1
            rw [hb] at ha2
            cases ha2
            exact ⟨e1, j, _, hj, hj2, List.getElem?_eq_getElem hlj, (hai2.trans hai).symm.trans he⟩
          refine ⟨new2 ++ (Ev.finished x.id now :: (new ++ [Ev.began x.id now])), ?_, k2, k3, ?_, ?_, ?_⟩
          · rw [k1, hl2, g1]; simp
          · intro p hp
            rw [hb] at hp
            rcases List.mem_append.mp hp with e | e
            · obtain ⟨e1, j, a, h1, h2, h3, h4⟩ := back p e
              exact ⟨e1, j, a, by omega, by omega, h3, h4⟩
            · simp at e
              subst e
              exact ⟨rfl, i, x, Nat.le_refl _, by omega, hx, rfl⟩
          · rw [hb, List.map_append, List.nodup_append]
            refine ⟨k5, by simp, ?_⟩
            intro a ha b hb' hab
            simp at hb'
            obtain ⟨p, hp, rfl⟩ := List.mem_map.mp ha
            obtain ⟨e1, j, c, h1, h2, h3, h4⟩ := back p hp
            have := idx j i c x h3 hx (h4.trans (hab.trans hb'))
            omega
          · intro j z hj hj2 hz hze
            by_cases hji : j = i
            · subst hji
              rw [hx] at hz
              cases hz
              exact Or.inl (by simp)
            · obtain ⟨z1, hz1, hzi, hzo, hzc⟩ := g4 j z hz
              rcases hzc with e | ⟨d, t, e⟩
              · subst e
                have hz2 := hother j z1 hji hz1
                rcases k6 j z1 (by omega) (by omega) hz2 hze with e | ⟨d, t, e⟩
                · exact Or.inl (List.mem_append_left _ e)
                · exact Or.inr ⟨d, t, List.mem_append_left _ e⟩
              · exact Or.inr ⟨d, t, List.mem_append_right _ (List.mem_cons_of_mem _ (List.mem_append_left _ e))⟩
        by_cases hos : x.oneShot = true
        · have h : loop cb now k (i + 1) (tc ++ [x.id]) { s1 with log := .finished x.id now :: s1.log }
              = .ok (tc', s') := by simpa only [hos, if_true] using h
          have hi2 : Inv (tc ++ [x.id]) { s1 with log := .finished x.id now :: s1.log } := by
            refine ⟨g2.nodup, g2.bound, ?_, ⟨g2.right, g6⟩, ?_⟩
            · intro h d o t hm
              rcases List.mem_cons.mp hm with e | e
              · cases e
              · exact g2.added _ _ _ _ e
            · intro q
              show armed (.finished x.id now :: s1.log) q = if q ∈ tc ++ [x.id] then none
                else (find s1.ts q).map Timer.armed
              unfold Spec.armed
              by_cases hq : q = x.id
              · have : y.armed.oneShot = true := hyo.trans hos
                rw [if_pos hq, hq, harm1, if_pos (by simp)]
                show (if y.armed.oneShot then none else _) = _
                rw [this]; rfl
              · simp [hq, g2.same]
          exact wrap _ _ hi2 rfl (fun j a _ ha => ha) (fun j a ha => ⟨a, ha, rfl⟩) (Nat.le_refl _)
            (fun h hm => by simpa using hm) h
        · have h : loop cb now k (i + 1) tc
              { s1 with
                ts := setAt i (Timer.again now) s1.ts
                log := .finished x.id now :: s1.log } = .ok (tc', s') := by
            have h' := h
            dsimp only at h'
            rw [if_neg hos] at h'
            exact h'
          have hid : ∀ z : Timer, (Timer.again now z).id = z.id := fun _ => rfl
          have hset : setAt i (Timer.again now) s1.ts = setFirst x.id (Timer.again now) s1.ts := by
            rw [setAt_eq g2.nodup hy, hyi]
          have hi2 : Inv tc { s1 with
                ts := setAt i (Timer.again now) s1.ts
                log := .finished x.id now :: s1.log } := by
            refine ⟨?_, ?_, ?_, ⟨g2.right, g6⟩, ?_⟩
            · show ((setAt i _ s1.ts).map (·.id)).Nodup
              rw [setAt_ids hid]; exact g2.nodup
            · intro z hz
              have : z.id ∈ (setAt i (Timer.again now) s1.ts).map (·.id) := List.mem_map_of_mem hz
              rw [setAt_ids hid] at this
              obtain ⟨w, hw, he⟩ := List.mem_map.mp this
              have := g2.bound w hw
              rw [he] at this
              exact this
            · intro h d o t hm
              rcases List.mem_cons.mp hm with e | e
              · cases e
              · exact g2.added _ _ _ _ e
            · intro q
              show armed (.finished x.id now :: s1.log) q = if q ∈ tc then none
                else (find (setAt i (Timer.again now) s1.ts) q).map Timer.armed
              rw [hset, find_setFirst hid]
              unfold Spec.armed
              by_cases hq : q = x.id
              · have : y.oneShot = false := by rw [hyo]; simpa using hos
                simp [hq, harm1, hxt, hyf, Timer.armed, Timer.again, this]
              · simp [hq, g2.same]
          refine wrap _ _ hi2 rfl ?_ ?_ ?_ (fun h hm => Or.inl hm) h
          · intro j a hj ha
            show (setAt i _ s1.ts)[j]? = _
            unfold setAt
            rw [hy]
            show (s1.ts.set i _)[j]? = _
            rw [List.getElem?_set_ne (Ne.symm hj)]; exact ha
          · intro j a ha
            show ∃ b, (setAt i (Timer.again now) s1.ts)[j]? = some b ∧ _
            unfold setAt
            rw [hy]
            show ∃ b, (s1.ts.set i (Timer.again now y))[j]? = some b ∧ _
            by_cases hj : j = i
            · subst hj
              rw [hy] at ha
              cases ha
              exact ⟨_, List.getElem?_set_self (List.getElem?_eq_some_iff.mp hy).1, rfl⟩
            · rw [List.getElem?_set_ne (Ne.symm hj)]
              exact ⟨a, ha, rfl⟩
          · have := congrArg List.length (setAt_ids hid i s1.ts)
            simp only [List.length_map] at this
            exact Nat.le_of_eq this.symm
    · rw [if_neg hexp] at h
      have hxe : ¬ x.exp ≤ now := by simpa [Timer.expired] using hexp
      obtain ⟨new, k1, k2, k3, k4, k5, k6⟩ := ih (i + 1) tc tc' s s' hi (by omega) hr
        (fun h hm => by
          obtain ⟨j, z, h1, h2⟩ := htc h hm
          exact ⟨j, z, by omega, h2⟩) h
      refine ⟨new, k1, k2, k3, ?_, k5, ?_⟩
      · intro p hp
        obtain ⟨e1, j, a, h1, h2, h3⟩ := k4 p hp
        exact ⟨e1, j, a, by omega, by omega, h3⟩
      · intro j z h1 h2 h3 h4
        by_cases hji : j = i
        · subst hji
          rw [hx] at h3
          cases h3
          exact absurd h4 hxe
        · exact k6 j z (by omega) (by omega) h3 h4

/-! ### One evaluation, one history -/

theorem dropAll_spec (l : List Nat) : ∀ (ts : List Timer), (ts.map (·.id)).Nodup →
    (dropAll l ts).Sublist ts ∧ ∀ k, find (dropAll l ts) k = if k ∈ l then none else find ts k := by
  induction l with
  | nil => intro ts hn; exact ⟨List.Sublist.refl _, fun k => by simp [dropAll]⟩
  | cons h r ih =>
    intro ts hn
    have hs := eraseFirst_sublist h ts
    obtain ⟨h1, h2⟩ := ih (eraseFirst h ts) ((hs.map _).nodup hn)
    refine ⟨h1.trans hs, fun k => ?_⟩
    show find (dropAll r (eraseFirst h ts)) k = _
    rw [h2, find_eraseFirst hn]
    by_cases e1 : k = h <;> by_cases e2 : k ∈ r <;> simp [e1, e2]

/-- Between two calls: the vector and the log agree, and no callback is running. -/
structure Ok (s : State) : Prop where
  inv : Inv [] s
  idle : running s.log = none

theorem Ok.init : Ok State.init := ⟨Inv.init, rfl⟩

theorem evaluate_spec {now cb s s'} (h : Ok s) (he : evaluate now cb s = .ok s') :
    ∃ new, s'.log = new ++ s.log ∧ Ok s' ∧
      (∀ p ∈ begunIn new, p.2 = now ∧ p.1 ∈ s.ts.map (·.id)) ∧
      ((begunIn new).map (·.1)).Nodup ∧
      (∀ x ∈ s.ts, x.exp ≤ now → Ev.began x.id now ∈ new ∨ ∃ d t, Ev.reset x.id d t ∈ new) := by
  simp only [evaluate] at he
  cases hl : loop cb now s.ts.length 0 [] s with
  | error e => rw [hl] at he; cases he
  | ok p =>
    obtain ⟨tc, s1⟩ := p
    rw [hl] at he
    cases he
    obtain ⟨new, h1, h2, h3, h4, h5, h6⟩ :=
      loop_spec cb now s.ts.length 0 [] tc s s1 h.inv (by omega) h.idle (by simp) hl
    obtain ⟨d1, d2⟩ := dropAll_spec tc s1.ts h2.nodup
    refine ⟨new, h1, ⟨⟨(d1.map _).nodup h2.nodup, fun x hx => h2.bound x (d1.subset hx), h2.added, h2.right, ?_⟩,
      h3⟩, ?_, h5, ?_⟩
    · intro k
      show armed s1.log k = if k ∈ [] then none else (find (dropAll tc s1.ts) k).map Timer.armed
      rw [d2, h2.same]
      by_cases e : k ∈ tc <;> simp [e]
    · intro p hp
      obtain ⟨e1, j, x, _, _, e2, e3⟩ := h4 p hp
      exact ⟨e1, List.mem_map.mpr ⟨x, List.mem_of_getElem? e2, e3⟩⟩
    · intro x hx hxe
      obtain ⟨j, hj, he⟩ := List.mem_iff_getElem.mp hx
      exact h6 j x (Nat.zero_le _) (by omega) (by rw [List.getElem?_eq_getElem hj, he]) hxe

theorem step_ok {s s' op} (h : Ok s) (hs : step s op = .ok s') :
    Ok s' ∧ ∃ new, s'.log = new ++ s.log := by
  cases op with
  | act a =>
    cases a with
    | add d o t => cases hs; exact ⟨⟨h.inv.add (by simp) d o t, h.idle⟩, [_], rfl⟩
    | reset k d t => cases hs; exact ⟨⟨h.inv.reset k d t, h.idle⟩, [_], rfl⟩
    | cancel k => cases hs; exact ⟨⟨h.inv.cancel k (by simp), h.idle⟩, [_], rfl⟩
  | evaluate now cb =>
    obtain ⟨new, h1, h2, _⟩ := evaluate_spec h hs
    exact ⟨h2, new, h1⟩

theorem run_ok {ops s s'} (h : Ok s) (hs : run ops s = .ok s') : Ok s' := by
  induction ops generalizing s with
  | nil => cases hs; exact h
  | cons op r ih =>
    simp only [run] at hs
    cases he : step s op with
    | error e => rw [he] at hs; cases hs
    | ok s1 => rw [he] at hs; exact ih (step_ok h he).1 hs

/-- **C51**: the log of every history is right: handles are new, callbacks run one at a time and only for
timers that wait and are due. -/
theorem history_right {ops s} (h : run ops State.init = .ok s) : Right s.log :=
  (run_ok Ok.init h).inv.right

/-- **C51**: after every history the timers in the object are those that wait according to the log. -/
theorem history_armed {ops s} (h : run ops State.init = .ok s) (k : Nat) :
    armed s.log k = (find s.ts k).map Timer.armed := by
  have := (run_ok Ok.init h).inv.same k
  simpa using this

/-- **C51**: nothing that is due is missed: after any history, if `h` waits and is due at `now`, then
`evaluate(now)` runs its callback - unless the callback of another timer, run in the same evaluation,
resets it. -/
theorem due_runs {ops s s' now cb h a} (hr : run ops State.init = .ok s) (ha : armed s.log h = some a)
    (hd : a.due ≤ now) (he : evaluate now cb s = .ok s') :
    ∃ new, s'.log = new ++ s.log ∧ (Ev.began h now ∈ new ∨ ∃ d t, Ev.reset h d t ∈ new) := by
  obtain ⟨new, h1, _, _, _, h5⟩ := evaluate_spec (run_ok Ok.init hr) he
  refine ⟨new, h1, ?_⟩
  rw [history_armed hr] at ha
  cases hf : find s.ts h with
  | none => rw [hf] at ha; cases ha
  | some x =>
    rw [hf] at ha
    cases ha
    have := h5 x (find_mem hf) hd
    rw [find_id hf] at this
    exact this

/-- **C51**: one evaluation enters the callback of a handle at most once, whatever the callbacks do. -/
theorem evaluate_once {ops s s' now cb} (hr : run ops State.init = .ok s) (he : evaluate now cb s = .ok s')
    (h : Nat) : ∃ new, s'.log = new ++ s.log ∧ runsOf h new ≤ 1 := by
  obtain ⟨new, h1, _, _, h4, _⟩ := evaluate_spec (run_ok Ok.init hr) he
  refine ⟨new, h1, ?_⟩
  clear h1 he hr
  have key : ∀ l : List Ev, runsOf h l = ((begunIn l).map (·.1)).count h := by
    intro l
    induction l with
    | nil => rfl
    | cons e r ih =>
      cases e with
      | began k t =>
        show (List.filter _ (Ev.began k t :: r)).length = (((k, t) :: begunIn r).map (fun p => p.1)).count h
        rw [List.filter_cons, List.map_cons, List.count_cons, ← ih]
        by_cases e : k = h
        · simp [e, runsOf]
        · simp [e, runsOf]
      | _ => exact ih
  rw [key]
  exact List.nodup_iff_count.mp h4 h

/-- (The model's third way to stop cannot happen.) -/
theorem loop_no_outside (cb : Nat → List Act) (now : Int) (k : Nat) :
    ∀ (i : Nat) (tc : List Nat) (s : State), i + k ≤ s.ts.length → loop cb now k i tc s ≠ .error .outside := by
  have grow : ∀ (as : List Act) (s s' : State), actsInside as s = .ok s' → s.ts.length ≤ s'.ts.length := by
    intro as
    induction as with
    | nil => intro s s' h; cases h; exact Nat.le_refl _
    | cons a r ih =>
      intro s s' h
      simp only [actsInside] at h
      cases ha : actInside a s with
      | error e => rw [ha] at h; cases h
      | ok s1 =>
        rw [ha] at h
        refine Nat.le_trans ?_ (ih s1 s' h)
        cases a with
        | add d o t =>
          simp only [actInside] at ha
          split at ha
          · cases ha; show s.ts.length ≤ (s.ts ++ _).length; simp
          · cases ha
        | reset q d t =>
          cases ha
          have := congrArg List.length (setFirst_ids (h := q) (f := Timer.resetTo d t) (fun _ => rfl) s.ts)
          simp only [List.length_map] at this
          exact Nat.le_of_eq this.symm
        | cancel q =>
          simp only [actInside] at ha
          split at ha
          · cases ha
          · rename_i hf
            cases ha
            have hf : find s.ts q = none := by simpa using hf
            have hk : q ∉ s.ts.map (·.id) := find_none.mp hf
            show s.ts.length ≤ (eraseFirst q s.ts).length
            generalize s.ts = ts at hk
            induction ts with
            | nil => simp
            | cons x r ih2 =>
              simp only [List.map_cons, List.mem_cons, not_or] at hk
              have : ¬ x.id = q := fun e => hk.1 e.symm
              simp only [eraseFirst, beq_iff_eq, this, if_false, List.length_cons]
              have := ih2 hk.2
              omega
  have noOut : ∀ (as : List Act) (s : State), actsInside as s ≠ .error .outside := by
    intro as
    induction as with
    | nil => intro s h; cases h
    | cons a r ih =>
      intro s h
      simp only [actsInside] at h
      cases ha : actInside a s with
      | error e =>
        rw [ha] at h
        cases h
        cases a <;> simp only [actInside] at ha <;> (try split at ha) <;> cases ha
      | ok s1 => rw [ha] at h; exact ih s1 h
  induction k with
  | zero => intro i tc s _ h; simp [loop] at h
  | succ k ih =>
    intro i tc s hk h
    have hlt : i < s.ts.length := by omega
    simp only [loop, List.getElem?_eq_getElem hlt] at h
    split at h
    · split at h
      · rename_i e he
        cases h
        exact noOut _ _ he
      · rename_i s1 he
        have hg : s.ts.length ≤ s1.ts.length := grow (cb s.ts[i].id) { s with log := Ev.began s.ts[i].id now :: s.log } s1 he
        split at h
        · refine ih _ _ _ ?_ h
          show i + 1 + k ≤ s1.ts.length
          omega
        · refine ih _ _ _ ?_ h
          show i + 1 + k ≤ (setAt i _ s1.ts).length
          have := congrArg List.length (setAt_ids (f := Timer.again now) (fun _ => rfl) i s1.ts)
          simp only [List.length_map] at this
          omega
    · exact ih _ _ _ (by omega) h

theorem evaluate_no_outside (now cb s) : evaluate now cb s ≠ .error .outside := by
  intro h
  simp only [evaluate] at h
  split at h
  · rename_i e he
    cases h
    exact loop_no_outside cb now _ 0 [] s (by omega) he
  · cases h

/-- A callback that only resets timers. -/
def Quiet (as : List Act) : Prop := ∀ a ∈ as, ∃ h d t, a = .reset h d t

theorem quiet_ok {as s} (h : Quiet as) : ∃ s', actsInside as s = .ok s' ∧ s'.ts.length = s.ts.length := by
  induction as generalizing s with
  | nil => exact ⟨s, rfl, rfl⟩
  | cons a r ih =>
    obtain ⟨k, d, t, rfl⟩ := h a (List.mem_cons_self ..)
    obtain ⟨s', h1, h2⟩ := ih (s := reset k d t s) (fun b hb => h b (List.mem_cons_of_mem _ hb))
    refine ⟨s', h1, h2.trans ?_⟩
    have := congrArg List.length (setFirst_ids (h := k) (f := Timer.resetTo d t) (fun _ => rfl) s.ts)
    simp only [List.length_map] at this
    exact this

/-- **C51**: if the callbacks add and cancel nothing, an evaluation always comes to its end. -/
theorem quiet_evaluates {now cb s} (h : ∀ k, Quiet (cb k)) : ∃ s', evaluate now cb s = .ok s' := by
  have key : ∀ (k i : Nat) (tc : List Nat) (s : State), i + k ≤ s.ts.length →
      ∃ p, loop cb now k i tc s = .ok p := by
    intro k
    induction k with
    | zero => intro i tc s _; exact ⟨_, rfl⟩
    | succ k ih =>
      intro i tc s hk
      have hlt : i < s.ts.length := by omega
      simp only [loop, List.getElem?_eq_getElem hlt]
      split
      · obtain ⟨s1, h1, h2⟩ := quiet_ok (s := { s with log := .began (s.ts[i]).id now :: s.log }) (h (s.ts[i]).id)
        rw [h1]
        have h2 : s1.ts.length = s.ts.length := h2
        dsimp only
        split
        · exact ih _ _ _ (show i + 1 + k ≤ s1.ts.length by omega)
        · refine ih _ _ _ ?_
          show i + 1 + k ≤ (setAt i _ s1.ts).length
          have := congrArg List.length (setAt_ids (f := Timer.again now) (fun _ => rfl) i s1.ts)
          simp only [List.length_map] at this
          omega
      · exact ih _ _ _ (by omega)
  obtain ⟨⟨tc, s1⟩, hp⟩ := key s.ts.length 0 [] s (by omega)
  simp only [evaluate, hp]
  exact ⟨_, rfl⟩

/-- BUG119: when the vector is full and the first timer that is due adds a timer from its callback, the
loop goes on over memory that was given back. -/
theorem add_in_callback_stops {now cb s x r d o t acts} (hf : s.ts.length = s.cap)
    (hs : s.ts = x :: r) (hx : x.exp ≤ now) (hc : cb x.id = .add d o t :: acts) :
    evaluate now cb s = .error .moved := by
  have hlen : s.ts.length = r.length + 1 := by rw [hs]; rfl
  have h0 : s.ts[0]? = some x := by rw [hs]; rfl
  have hexp : x.expired now = true := by simpa [Timer.expired] using hx
  simp only [evaluate, hlen, loop, h0, hexp, if_true, hc, actsInside, actInside]
  rw [if_neg (by omega)]

/-- BUG119, the other half: a callback that cancels its own timer (or any other) does the same. -/
theorem cancel_in_callback_stops {now cb s x r acts} (hs : s.ts = x :: r) (hx : x.exp ≤ now)
    (hc : cb x.id = .cancel x.id :: acts) : evaluate now cb s = .error .erased := by
  have hlen : s.ts.length = r.length + 1 := by rw [hs]; rfl
  have h0 : s.ts[0]? = some x := by rw [hs]; rfl
  have hexp : x.expired now = true := by simpa [Timer.expired] using hx
  have hfind : (find s.ts x.id).isSome = true := by rw [hs, find_cons]; simp
  simp only [evaluate, hlen, loop, h0, hexp, if_true, hc, actsInside, actInside, hfind]

/-! ### What a right log means -/

theorem Spec.Right.suffix {a b : List Ev} (h : Right (a ++ b)) : Right b := by
  induction a with
  | nil => exact h
  | cons e r ih =>
    cases e with
    | began _ _ => exact ih h.1
    | finished _ _ => exact ih h.1
    | added _ _ _ _ => exact ih h.1
    | reset _ _ _ => exact ih h
    | cancelled _ => exact ih h

theorem armed_added {l h a} (ha : armed l h = some a) : ∃ d o t, Ev.added h d o t ∈ l := by
  induction l generalizing a with
  | nil => cases ha
  | cons e r ih =>
    have up : (∃ d o t, Ev.added h d o t ∈ r) → ∃ d o t, Ev.added h d o t ∈ e :: r :=
      fun ⟨d, o, t, hm⟩ => ⟨d, o, t, List.mem_cons_of_mem _ hm⟩
    cases e with
    | added k d o t =>
      unfold Spec.armed at ha
      by_cases hk : h = k
      · exact ⟨d, o, t, by rw [hk]; exact List.mem_cons_self ..⟩
      · rw [if_neg hk] at ha; exact up (ih ha)
    | reset k d t =>
      unfold Spec.armed at ha
      by_cases hk : h = k
      · rw [if_pos hk] at ha
        cases hr : armed r h with
        | none => rw [hr] at ha; cases ha
        | some b => exact up (ih hr)
      · rw [if_neg hk] at ha; exact up (ih ha)
    | cancelled k =>
      unfold Spec.armed at ha
      by_cases hk : h = k
      · rw [if_pos hk] at ha; cases ha
      · rw [if_neg hk] at ha; exact up (ih ha)
    | began k t => exact up (ih ha)
    | finished k t =>
      unfold Spec.armed at ha
      by_cases hk : h = k
      · rw [if_pos hk] at ha
        cases hr : armed r h with
        | none => rw [hr] at ha; cases ha
        | some b => exact up (ih hr)
      · rw [if_neg hk] at ha; exact up (ih ha)

/-- Once a handle was given out and does not wait, it never waits again. -/
theorem armed_none_stays {a b : List Ev} {h : Nat} (hr : Right (a ++ b)) (hb : ∃ d o t, Ev.added h d o t ∈ b)
    (hn : armed b h = none) : armed (a ++ b) h = none := by
  induction a with
  | nil => exact hn
  | cons e r ih =>
    obtain ⟨d0, o0, t0, hm⟩ := hb
    cases e with
    | added k d o t =>
      have hi := ih hr.1
      show (if h = k then _ else armed (r ++ b) h) = none
      by_cases hk : h = k
      · subst hk
        exact absurd (List.mem_append_right r hm) (hr.2.2 d0 o0 t0)
      · rw [if_neg hk]; exact hi
    | reset k d t =>
      have hi := ih hr
      show (if h = k then (armed (r ++ b) h).map _ else armed (r ++ b) h) = none
      rw [hi]; simp
    | cancelled k =>
      have hi := ih hr
      show (if h = k then none else armed (r ++ b) h) = none
      rw [hi]; simp
    | began k t => exact ih hr.1
    | finished k t =>
      have hi := ih hr.1
      show (if h = k then (armed (r ++ b) h).bind _ else armed (r ++ b) h) = none
      rw [hi]; simp

/-- **C51**: every run of a callback was due: the timer waited, and its time was not after the time of the
evaluation. -/
theorem runs_due {ops s newer older h t} (hr : run ops State.init = .ok s)
    (hl : s.log = newer ++ Ev.began h t :: older) : ∃ a, armed older h = some a ∧ a.due ≤ t := by
  have := history_right hr
  rw [hl] at this
  exact (this.suffix).2.2

/-- **C51**: a timer that was cancelled never runs again. -/
theorem cancelled_never_runs {ops s newer older h t} (hr : run ops State.init = .ok s)
    (hl : s.log = newer ++ Ev.cancelled h :: older) (ha : ∃ d o t, Ev.added h d o t ∈ older) :
    Ev.began h t ∉ newer := by
  intro hm
  have hright := history_right hr
  rw [hl] at hright
  obtain ⟨n1, n2, rfl⟩ := List.append_of_mem hm
  rw [List.append_assoc] at hright
  have h1 := hright.suffix
  obtain ⟨a, h2, _⟩ := h1.2.2
  have h3 : armed (n2 ++ Ev.cancelled h :: older) h = none := by
    refine armed_none_stays h1.1 ?_ ?_
    · obtain ⟨d, o, t, hm⟩ := ha
      exact ⟨d, o, t, List.mem_cons_of_mem _ hm⟩
    · show (if h = h then none else _) = none
      simp
  rw [show (n2.append (Ev.cancelled h :: older)) = n2 ++ Ev.cancelled h :: older from rfl] at h2
  rw [h3] at h2
  cases h2

/-- **C51**: no two calls of `add` return the same handle, and none returns the handle 0 that a default
`Handle` has. -/
theorem handles_new {ops s newer older h d o t} (hr : run ops State.init = .ok s)
    (hl : s.log = newer ++ Ev.added h d o t :: older) : h ≠ 0 ∧ ∀ d o t, Ev.added h d o t ∉ older := by
  have := history_right hr
  rw [hl] at this
  exact this.suffix.2

/-- **C51**: a recurring timer runs again no sooner than its duration after it ran - measured from the time
of the evaluation it ran in. -/
theorem recurring_spacing {ops s newer mid older h t1 t2 a} (hr : run ops State.init = .ok s)
    (hl : s.log = newer ++ Ev.began h t2 :: (mid ++ Ev.finished h t1 :: older))
    (ha : armed older h = some a) (hmid : ∀ d t, Ev.reset h d t ∉ mid)
    (hmid2 : ∀ t, Ev.finished h t ∉ mid) : t1 + a.dur ≤ t2 := by
  have hright := history_right hr
  rw [hl] at hright
  have h1 := hright.suffix
  obtain ⟨b, hb, hdue⟩ := h1.2.2
  have hadd := armed_added ha
  have key : ∀ m : List Ev, Right (m ++ Ev.finished h t1 :: older) → (∀ d t, Ev.reset h d t ∉ m) →
      (∀ t, Ev.finished h t ∉ m) → ∀ b, armed (m ++ Ev.finished h t1 :: older) h = some b → b.due = t1 + a.dur := by
    intro m
    induction m with
    | nil =>
      intro _ _ _ b hb
      have hb : (if h = h then (armed older h).bind _ else _) = some b := hb
      rw [if_pos rfl, ha] at hb
      simp only [Option.bind_some] at hb
      split at hb
      · cases hb
      · cases hb; rfl
    | cons e r ih =>
      intro hR h1 h2 b hb
      have h1' : ∀ d t, Ev.reset h d t ∉ r := fun d t hm => h1 d t (List.mem_cons_of_mem _ hm)
      have h2' : ∀ t, Ev.finished h t ∉ r := fun t hm => h2 t (List.mem_cons_of_mem _ hm)
      cases e with
      | added k d o t =>
        have hb : (if h = k then _ else armed (r ++ _) h) = some b := hb
        by_cases hk : h = k
        · subst hk
          obtain ⟨d', o', t', hm⟩ := hadd
          exact absurd (List.mem_append_right r (List.mem_cons_of_mem _ hm)) (hR.2.2 d' o' t')
        · rw [if_neg hk] at hb; exact ih hR.1 h1' h2' b hb
      | reset k d t =>
        have hb : (if h = k then _ else armed (r ++ _) h) = some b := hb
        by_cases hk : h = k
        · subst hk; exact absurd (List.mem_cons_self ..) (h1 d t)
        · rw [if_neg hk] at hb; exact ih hR h1' h2' b hb
      | cancelled k =>
        have hb : (if h = k then none else armed (r ++ _) h) = some b := hb
        by_cases hk : h = k
        · rw [if_pos hk] at hb; cases hb
        · rw [if_neg hk] at hb; exact ih hR h1' h2' b hb
      | began k t => exact ih hR.1 h1' h2' b hb
      | finished k t =>
        have hb : (if h = k then _ else armed (r ++ _) h) = some b := hb
        by_cases hk : h = k
        · subst hk; exact absurd (List.mem_cons_self ..) (h2 t)
        · rw [if_neg hk] at hb; exact ih hR.1 h1' h2' b hb
  rw [← key mid h1.1 hmid hmid2 b hb]
  exact hdue

/-- A log in which `h` is a one-shot timer: after it began once, it is running or does not wait. -/
theorem oneShot_log {l : List Ev} {h : Nat} (hr : Right l) (ho : ∀ d o t, Ev.added h d o t ∈ l → o = true) :
    (∀ a, armed l h = some a → a.oneShot = true) ∧
    (runsOf h l = 0 ∨ (runsOf h l = 1 ∧ (∃ d o t, Ev.added h d o t ∈ l) ∧
      ((∃ t, running l = some (h, t)) ∨ armed l h = none))) := by
  induction l with
  | nil => exact ⟨fun a ha => (by cases ha), Or.inl rfl⟩
  | cons e r ih =>
    have ho' : ∀ d o t, Ev.added h d o t ∈ r → o = true := fun d o t hm => ho d o t (List.mem_cons_of_mem _ hm)
    have up : (∃ d o t, Ev.added h d o t ∈ r) → ∃ d o t, Ev.added h d o t ∈ e :: r :=
      fun ⟨d, o, t, hm⟩ => ⟨d, o, t, List.mem_cons_of_mem _ hm⟩
    cases e with
    | added k d o t =>
      obtain ⟨h1, h2⟩ := ih hr.1 ho'
      have hruns : runsOf h (Ev.added k d o t :: r) = runsOf h r := rfl
      have harm : armed (Ev.added k d o t :: r) h = if h = k then some ⟨t + d, d, o⟩ else armed r h := rfl
      rw [hruns, harm]
      constructor
      · intro a ha
        by_cases hk : h = k
        · rw [if_pos hk] at ha
          cases ha
          exact ho d o t (by rw [hk]; exact List.mem_cons_self ..)
        · rw [if_neg hk] at ha; exact h1 a ha
      · rcases h2 with e | ⟨e1, ⟨d', o', t', hm⟩, e3⟩
        · exact Or.inl e
        · have hk : h ≠ k := by
            intro hk; subst hk
            exact hr.2.2 d' o' t' hm
          rw [if_neg hk]
          exact Or.inr ⟨e1, up ⟨d', o', t', hm⟩, e3⟩
    | reset k d t =>
      obtain ⟨h1, h2⟩ := ih hr ho'
      have hruns : runsOf h (Ev.reset k d t :: r) = runsOf h r := rfl
      have harm : armed (Ev.reset k d t :: r) h =
        if h = k then (armed r h).map (fun a => ⟨t + d, d, a.oneShot⟩) else armed r h := rfl
      rw [hruns, harm]
      constructor
      · intro a ha
        by_cases hk : h = k
        · rw [if_pos hk] at ha
          cases hx : armed r h with
          | none => rw [hx] at ha; cases ha
          | some b => rw [hx] at ha; cases ha; exact h1 b hx
        · rw [if_neg hk] at ha; exact h1 a ha
      · rcases h2 with e | ⟨e1, e2, e3⟩
        · exact Or.inl e
        · refine Or.inr ⟨e1, up e2, ?_⟩
          rcases e3 with e | e
          · exact Or.inl e
          · right; rw [e]; simp
    | cancelled k =>
      obtain ⟨h1, h2⟩ := ih hr ho'
      have hruns : runsOf h (Ev.cancelled k :: r) = runsOf h r := rfl
      have harm : armed (Ev.cancelled k :: r) h = if h = k then none else armed r h := rfl
      rw [hruns, harm]
      constructor
      · intro a ha
        by_cases hk : h = k
        · rw [if_pos hk] at ha; cases ha
        · rw [if_neg hk] at ha; exact h1 a ha
      · rcases h2 with e | ⟨e1, e2, e3⟩
        · exact Or.inl e
        · refine Or.inr ⟨e1, up e2, ?_⟩
          rcases e3 with e | e
          · exact Or.inl e
          · right; rw [e]; simp
    | began k t =>
      obtain ⟨h1, h2⟩ := ih hr.1 ho'
      obtain ⟨_, hrun, b, hb, _⟩ := hr
      have harm : armed (Ev.began k t :: r) h = armed r h := rfl
      refine ⟨h1, ?_⟩
      by_cases hk : k = h
      · subst hk
        have hruns : runsOf k (Ev.began k t :: r) = runsOf k r + 1 := by simp [runsOf]
        right
        rw [hruns]
        rcases h2 with e | ⟨e1, e2, e3⟩
        · exact ⟨by omega, up (armed_added hb), Or.inl ⟨t, rfl⟩⟩
        · exfalso
          rcases e3 with ⟨t', e⟩ | e
          · rw [hrun] at e; cases e
          · rw [hb] at e; cases e
      · have hruns : runsOf h (Ev.began k t :: r) = runsOf h r := by simp [runsOf, hk]
        rw [hruns, harm]
        rcases h2 with e | ⟨e1, e2, e3⟩
        · exact Or.inl e
        · refine Or.inr ⟨e1, up e2, ?_⟩
          rcases e3 with ⟨t', e⟩ | e
          · rw [hrun] at e; cases e
          · exact Or.inr e
    | finished k t =>
      obtain ⟨h1, h2⟩ := ih hr.1 ho'
      have hruns : runsOf h (Ev.finished k t :: r) = runsOf h r := rfl
      have harm : armed (Ev.finished k t :: r) h =
        if h = k then (armed r h).bind (fun a => if a.oneShot then none else some ⟨t + a.dur, a.dur, false⟩)
        else armed r h := rfl
      have gone : h = k → armed (Ev.finished k t :: r) h = none := by
        intro hk
        rw [harm, if_pos hk]
        cases hx : armed r h with
        | none => rfl
        | some b => simp [h1 b hx]
      constructor
      · intro a ha
        by_cases hk : h = k
        · rw [gone hk] at ha; cases ha
        · rw [harm, if_neg hk] at ha; exact h1 a ha
      · rw [hruns]
        rcases h2 with e | ⟨e1, e2, e3⟩
        · exact Or.inl e
        · refine Or.inr ⟨e1, up e2, Or.inr ?_⟩
          by_cases hk : h = k
          · exact gone hk
          · rcases e3 with ⟨t', e⟩ | e
            · rw [hr.2] at e
              cases e
              exact absurd rfl hk
            · rw [harm, if_neg hk]; exact e

/-- **C51**: a one-shot timer runs at most once in its life, whatever happens. -/
theorem one_shot_once {ops s h d t} (hr : run ops State.init = .ok s) (ha : Ev.added h d true t ∈ s.log) :
    runsOf h s.log ≤ 1 := by
  have hR := history_right hr
  have uniq : ∀ (l : List Ev), Right l → Ev.added h d true t ∈ l →
      ∀ d' o' t', Ev.added h d' o' t' ∈ l → o' = true := by
    intro l
    induction l with
    | nil => intro _ hm; cases hm
    | cons e r ih =>
      intro hR hm d' o' t' hm'
      have hRr : Right r := Spec.Right.suffix (a := [e]) hR
      rcases List.mem_cons.mp hm with e1 | e1
      · rcases List.mem_cons.mp hm' with e2 | e2
        · rw [← e1] at e2; cases e2; rfl
        · rw [← e1] at hR
          exact absurd e2 (hR.2.2 d' o' t')
      · rcases List.mem_cons.mp hm' with e2 | e2
        · rw [← e2] at hR
          exact absurd e1 (hR.2.2 d true t)
        · exact ih hRr e1 d' o' t' e2
  rcases (oneShot_log hR (uniq s.log hR ha)).2 with e | e
  · omega
  · omega

end Verif.Timers
