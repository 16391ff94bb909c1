/-
When ticks are generated (C56).
-/
import Verif.Ticks.Spec

set_option linter.unusedSimpArgs false
set_option linter.unusedVariables false

namespace Verif.Ticks
open Verif.Ticks.Spec

/-! ### An evaluation of recurring timers whose callbacks call no timer -/

/-- A timer after the evaluation. -/
def after (now : Int) (x : Timers.Timer) : Timers.Timer := if x.expired now then Timers.Timer.again now x else x

/-- What the evaluation of a timer adds to the log, oldest first. -/
def logOf (now : Int) (x : Timers.Timer) : List Timers.Ev :=
  if x.expired now then [.began x.id now, .finished x.id now] else []

theorem loop_plain (now : Int) (rest : List Timers.Timer) :
    ∀ (pre : List Timers.Timer) (cap ctr : Nat) (log : List Timers.Ev) (tc : List Nat), (∀ x ∈ rest, x.oneShot = false) →
    Timers.loop (fun _ => []) now rest.length pre.length tc ⟨pre ++ rest, cap, ctr, log⟩ =
      .ok (tc, ⟨pre ++ rest.map (after now), cap, ctr, (rest.flatMap (logOf now)).reverse ++ log⟩) := by
  induction rest with
  | nil => intro pre cap ctr log tc _; simp [Timers.loop]
  | cons x r ih =>
    intro pre cap ctr log tc hall
    have hx : x.oneShot = false := hall x List.mem_cons_self
    have hget : (pre ++ x :: r)[pre.length]? = some x := by simp
    have hr : ∀ y ∈ r, y.oneShot = false := fun y hy => hall y (List.mem_cons_of_mem _ hy)
    simp only [List.length_cons, Timers.loop, hget, Timers.actsInside, hx]
    by_cases he : x.expired now = true
    · simp only [he, if_true, Bool.false_eq_true, if_false]
      have hset : Timers.setAt pre.length (Timers.Timer.again now) (pre ++ x :: r) =
          (pre ++ [Timers.Timer.again now x]) ++ r := by
        simp [Timers.setAt]
      rw [hset]
      have hlen : pre.length + 1 = (pre ++ [Timers.Timer.again now x]).length := by simp
      rw [hlen, ih _ _ _ _ _ hr]
      simp [after, he, logOf]
    · simp only [he, Bool.false_eq_true, if_false]
      have hlen : pre.length + 1 = (pre ++ [x]).length := by simp
      have hts : pre ++ x :: r = (pre ++ [x]) ++ r := by simp
      rw [hlen, hts, ih _ _ _ _ _ hr]
      simp [after, he, logOf]

theorem evaluate_plain (now : Int) (s : Timers.State) (hall : ∀ x ∈ s.ts, x.oneShot = false) :
    Timers.evaluate now (fun _ => []) s =
      .ok ⟨s.ts.map (after now), s.cap, s.ctr, (s.ts.flatMap (logOf now)).reverse ++ s.log⟩ := by
  have := loop_plain now s.ts [] s.cap s.ctr s.log [] hall
  simp only [List.nil_append, List.length_nil] at this
  unfold Timers.evaluate
  rw [show (s : Timers.State) = ⟨s.ts, s.cap, s.ctr, s.log⟩ from rfl] at *
  simp only [this, Timers.dropAll]

theorem callbacks_plain (now : Int) (ts : List Timers.Timer) :
    callbacksOf (ts.flatMap (logOf now)).reverse = (ts.filter (fun x => x.expired now)).map (·.id) := by
  unfold callbacksOf
  rw [List.reverse_reverse]
  induction ts with
  | nil => rfl
  | cons x r ih =>
    simp only [List.flatMap_cons, List.filterMap_append, ih, logOf, List.filter_cons]
    cases h : x.expired now <;> simp

/-- The thread of the generator never stops by itself. -/
theorem evaluate_eq (now : Int) (g : Gen) (hall : ∀ x ∈ g.timers.ts, x.oneShot = false) :
    evaluate now g = .ok (((g.timers.ts.filter (fun x => x.expired now)).map (·.id)).filterMap g.captured,
      { g with
        timers := ⟨g.timers.ts.map (after now), g.timers.cap, g.timers.ctr,
          (g.timers.ts.flatMap (logOf now)).reverse ++ g.timers.log⟩ }) := by
  unfold evaluate
  rw [evaluate_plain now _ hall]
  simp only [List.length_append, Nat.add_sub_cancel, List.take_left, callbacks_plain]

/-! ### The generator and the plan -/

structure K (p : Plan) (g : Gen) : Prop where
  nodup : (g.timers.ts.map (·.id)).Nodup
  bound : ∀ x ∈ g.timers.ts, x.id ≤ g.timers.ctr
  recurring : ∀ x ∈ g.timers.ts, x.oneShot = false
  plan : ∀ c, p c = (handleOf g c).bind (fun h => (Timers.find g.timers.ts h).map (fun x => (x.exp, x.dur)))
  alive : ∀ c h, handleOf g c = some h → (Timers.find g.timers.ts h).isSome ∧ g.captured h = some c
  owned : ∀ x ∈ g.timers.ts, ∃ c, handleOf g c = some x.id

theorem K.init : K Plan.init Gen.init := by
  refine ⟨?_, ?_, ?_, ?_, ?_, ?_⟩ <;> simp [Gen.init, Timers.State.init, Plan.init, handleOf]

theorem K.bnd {p g} (k : K p g) {c h} (hh : handleOf g c = some h) : h ≤ g.timers.ctr := by
  have := (k.alive c h hh).1
  cases hf : Timers.find g.timers.ts h with
  | none => rw [hf] at this; cases this
  | some x =>
    have := k.bound x (Timers.find_mem hf)
    rwa [Timers.find_id hf] at this

theorem K.inj {p g} (k : K p g) {c c' h} (h1 : handleOf g c = some h) (h2 : handleOf g c' = some h) : c = c' := by
  have a := (k.alive c h h1).2
  have b := (k.alive c' h h2).2
  rw [a] at b
  exact Option.some.inj b

theorem handleOf_filter (g : Gen) (c k : Nat) (t : Timers.State) (f : Nat → Option Nat) :
    handleOf ⟨t, g.handles.filter (fun x => x.1 != c), f⟩ k = if k = c then none else handleOf g k := by
  unfold handleOf
  simp only
  induction g.handles with
  | nil => simp
  | cons y r ih =>
    obtain ⟨a, b⟩ := y
    by_cases hac : a = c
    · subst hac
      simp only [List.filter_cons, bne_self_eq_false, Bool.false_eq_true, if_false, List.find?_cons]
      rw [ih]
      by_cases hka : k = a
      · simp [hka]
      · simp only [hka, if_false]
        rw [show (a == k) = false from by simpa using Ne.symm hka]
    · simp only [List.filter_cons, List.find?_cons, show (a != c) = true from by simpa using hac, if_true]
      by_cases hak : a = k
      · subst hak
        simp [hac]
      · rw [show (a == k) = false from by simpa using hak]
        exact ih

theorem K.stop {p g} (k : K p g) (c : Nat) : K (p.next (.stop c)) (stop c g) := by
  unfold Ticks.stop
  cases hc : handleOf g c with
  | none =>
    refine ⟨k.nodup, k.bound, k.recurring, ?_, k.alive, k.owned⟩
    intro j
    simp only [Plan.next]
    split
    · rename_i hj; subst hj; simp [hc]
    · exact k.plan j
  | some h =>
    have hsub := Timers.eraseFirst_sublist h g.timers.ts
    have hh : ∀ j, handleOf
        { g with
          timers := Timers.cancel h g.timers
          handles := g.handles.filter (fun x => x.1 != c) } j = if j = c then none else handleOf g j :=
      fun j => handleOf_filter g c j _ _
    have hf : ∀ j, Timers.find (Timers.eraseFirst h g.timers.ts) j = if j = h then none else Timers.find g.timers.ts j :=
      fun j => Timers.find_eraseFirst k.nodup j
    refine ⟨(hsub.map _).nodup k.nodup, fun x hx => k.bound x (hsub.subset hx),
      fun x hx => k.recurring x (hsub.subset hx), ?_, ?_, ?_⟩
    · intro j
      rw [hh]
      simp only [Plan.next]
      by_cases hjc : j = c
      · simp [hjc]
      · simp only [hjc, if_false]
        rw [k.plan j]
        cases hj : handleOf g j with
        | none => rfl
        | some h' =>
          have hne : ¬ h' = h := fun he => hjc (k.inj hj (he ▸ hc))
          simp only [Option.bind_some]
          show _ = (Timers.find (Timers.eraseFirst h g.timers.ts) h').map _
          rw [hf, if_neg hne]
    · intro j h' hj
      rw [hh] at hj
      by_cases hjc : j = c
      · simp [hjc] at hj
      · simp only [hjc, if_false] at hj
        have hne : ¬ h' = h := fun he => hjc (k.inj hj (he ▸ hc))
        refine ⟨?_, (k.alive j h' hj).2⟩
        show (Timers.find (Timers.eraseFirst h g.timers.ts) h').isSome = true
        rw [hf, if_neg hne]
        exact (k.alive j h' hj).1
    · intro x hx
      obtain ⟨j, hj⟩ := k.owned x (hsub.subset hx)
      refine ⟨j, ?_⟩
      rw [hh]
      have hjc : ¬ j = c := by
        rintro rfl
        rw [hc] at hj
        have hid : h = x.id := Option.some.inj hj
        have hx' : x ∈ Timers.eraseFirst h g.timers.ts := hx
        have hn : Timers.find (Timers.eraseFirst h g.timers.ts) h = none := by rw [hf]; simp
        rw [Timers.find_none] at hn
        exact hn (List.mem_map.mpr ⟨x, hx', hid.symm⟩)
      simp [hjc, hj]

theorem find_added (ts : List Timers.Timer) (x : Timers.Timer) (h : Nat) (hn : x.id ∉ ts.map (·.id)) :
    Timers.find (ts ++ [x]) h = if h = x.id then some x else Timers.find ts h := by
  unfold Timers.find
  rw [List.find?_append]
  by_cases hh : h = x.id
  · subst hh
    have : ts.find? (fun y => y.id == x.id) = none := Timers.find_none.mpr hn
    simp [this]
  · have : (x.id == h) = false := by simpa using Ne.symm hh
    simp [hh, this]

theorem K.start {p g} (k : K p g) (c : Nat) (period now : Int) :
    K (p.next (.start c period now)) (start c period now g) := by
  unfold Ticks.start
  by_cases hp : period > 0
  · rw [if_pos hp]
    cases hc : handleOf g c with
    | some h =>
      have hid : ∀ x : Timers.Timer, (Timers.Timer.resetTo period now x).id = x.id := fun _ => rfl
      have hf : ∀ j, Timers.find (Timers.setFirst h (Timers.Timer.resetTo period now) g.timers.ts) j =
          if j = h then (Timers.find g.timers.ts h).map (Timers.Timer.resetTo period now)
          else Timers.find g.timers.ts j := by
        intro j
        have := Timers.find_setFirst (h := h) hid g.timers.ts j
        rw [this]
        by_cases hj : j = h
        · subst hj; simp
        · simp [hj]
      have hids : (Timers.setFirst h (Timers.Timer.resetTo period now) g.timers.ts).map (·.id) =
          g.timers.ts.map (·.id) := Timers.setFirst_ids hid g.timers.ts
      have hmem : ∀ x ∈ Timers.setFirst h (Timers.Timer.resetTo period now) g.timers.ts,
          ∃ y ∈ g.timers.ts, x.id = y.id ∧ x.oneShot = y.oneShot := by
        intro x hx
        obtain ⟨i, hi⟩ := List.getElem?_of_mem hx
        have hset : ∀ (ts : List Timers.Timer) (i : Nat) (x : Timers.Timer),
            (Timers.setFirst h (Timers.Timer.resetTo period now) ts)[i]? = some x →
            ∃ y ∈ ts, x.id = y.id ∧ x.oneShot = y.oneShot := by
          intro ts
          induction ts with
          | nil => intro i x hx; simp [Timers.setFirst] at hx
          | cons y r ih =>
            intro i x hx
            simp only [Timers.setFirst] at hx
            split at hx
            · cases i with
              | zero =>
                simp at hx; subst hx
                exact ⟨y, List.mem_cons_self, rfl, rfl⟩
              | succ i =>
                simp at hx
                exact ⟨x, List.mem_cons_of_mem _ (List.mem_of_getElem? hx), rfl, rfl⟩
            · cases i with
              | zero =>
                simp at hx; subst hx
                exact ⟨y, List.mem_cons_self, rfl, rfl⟩
              | succ i =>
                simp at hx
                obtain ⟨z, hz, h1⟩ := ih i x hx
                exact ⟨z, List.mem_cons_of_mem _ hz, h1⟩
        exact hset _ i x hi
      refine ⟨?_, ?_, ?_, ?_, ?_, ?_⟩
      · show ((Timers.setFirst h (Timers.Timer.resetTo period now) g.timers.ts).map (·.id)).Nodup
        rw [hids]; exact k.nodup
      · intro x hx
        obtain ⟨y, hy, h1, _⟩ := hmem x hx
        rw [h1]; exact k.bound y hy
      · intro x hx
        obtain ⟨y, hy, _, h1⟩ := hmem x hx
        rw [h1]; exact k.recurring y hy
      · intro j
        show _ = (handleOf g j).bind (fun h' =>
          (Timers.find (Timers.setFirst h (Timers.Timer.resetTo period now) g.timers.ts) h').map (fun x => (x.exp, x.dur)))
        simp only [Plan.next]
        by_cases hj : j = c
        · subst hj
          have ha := (k.alive j h hc).1
          rw [hc]
          simp only [Option.bind_some, hf, if_true, hp]
          cases hx : Timers.find g.timers.ts h with
          | none => rw [hx] at ha; cases ha
          | some x => simp [Timers.Timer.resetTo]
        · simp only [hj, if_false]
          rw [k.plan j]
          cases hj' : handleOf g j with
          | none => rfl
          | some h' =>
            have hne : ¬ h' = h := fun he => hj (k.inj hj' (he ▸ hc))
            simp only [Option.bind_some, hf, hne, if_false]
      · intro j h' hj
        refine ⟨?_, (k.alive j h' hj).2⟩
        show (Timers.find (Timers.setFirst h (Timers.Timer.resetTo period now) g.timers.ts) h').isSome = true
        rw [hf]
        have ha := (k.alive j h' hj).1
        split
        · rename_i he; subst he; simpa using ha
        · exact ha
      · intro x hx
        obtain ⟨y, hy, h1, _⟩ := hmem x hx
        obtain ⟨j, hj⟩ := k.owned y hy
        exact ⟨j, h1 ▸ hj⟩
    | none =>
      have hnew : g.timers.ctr + 1 ∉ g.timers.ts.map (·.id) := by
        intro hm
        rw [List.mem_map] at hm
        obtain ⟨x, hx, he⟩ := hm
        have := k.bound x hx
        omega
      have hf : ∀ j, Timers.find (g.timers.ts ++ [⟨g.timers.ctr + 1, period, now + period, false⟩]) j =
          if j = g.timers.ctr + 1 then some ⟨g.timers.ctr + 1, period, now + period, false⟩
          else Timers.find g.timers.ts j := fun j => find_added _ _ j hnew
      have hh : ∀ j, handleOf
          { timers := Timers.add period false now g.timers
            handles := (c, g.timers.ctr + 1) :: g.handles
            captured := fun k => if k = g.timers.ctr + 1 then some c else g.captured k } j =
          if j = c then some (g.timers.ctr + 1) else handleOf g j := by
        intro j
        simp only [handleOf, List.find?_cons]
        by_cases hj : j = c
        · simp [hj]
        · rw [show (c == j) = false from by simpa using Ne.symm hj]
          simp [hj]
      refine ⟨?_, ?_, ?_, ?_, ?_, ?_⟩
      · show ((g.timers.ts ++ [(⟨g.timers.ctr + 1, period, now + period, false⟩ : Timers.Timer)]).map (·.id)).Nodup
        rw [List.map_append, List.nodup_append]
        refine ⟨k.nodup, by simp, ?_⟩
        intro a ha b hb
        simp at hb
        subst hb
        rintro rfl
        exact hnew ha
      · intro x hx
        show x.id ≤ g.timers.ctr + 1
        have hx : x ∈ g.timers.ts ++ [⟨g.timers.ctr + 1, period, now + period, false⟩] := hx
        rw [List.mem_append] at hx
        rcases hx with hx | hx
        · have := k.bound x hx; omega
        · simp at hx; subst hx; simp
      · intro x hx
        have hx : x ∈ g.timers.ts ++ [⟨g.timers.ctr + 1, period, now + period, false⟩] := hx
        rw [List.mem_append] at hx
        rcases hx with hx | hx
        · exact k.recurring x hx
        · simp at hx; subst hx; rfl
      · intro j
        rw [hh]
        show _ = (if j = c then some (g.timers.ctr + 1) else handleOf g j).bind (fun h' =>
          (Timers.find (g.timers.ts ++ [⟨g.timers.ctr + 1, period, now + period, false⟩]) h').map (fun x => (x.exp, x.dur)))
        simp only [Plan.next]
        by_cases hj : j = c
        · subst hj
          simp [hf, hp]
        · simp only [hj, if_false]
          rw [k.plan j]
          cases hj' : handleOf g j with
          | none => rfl
          | some h' =>
            have hne : ¬ h' = g.timers.ctr + 1 := by
              have := k.bnd hj'; omega
            simp only [Option.bind_some, hf, hne, if_false]
      · intro j h' hj
        rw [hh] at hj
        show (Timers.find (g.timers.ts ++ [⟨g.timers.ctr + 1, period, now + period, false⟩]) h').isSome = true ∧
          (if h' = g.timers.ctr + 1 then some c else g.captured h') = some j
        rw [hf]
        by_cases hjc : j = c
        · subst hjc
          simp at hj
          subst hj
          simp
        · simp only [hjc, if_false] at hj
          have hne : ¬ h' = g.timers.ctr + 1 := by
            have := k.bnd hj; omega
          simp only [hne, if_false]
          exact k.alive j h' hj
      · intro x hx
        have hx : x ∈ g.timers.ts ++ [⟨g.timers.ctr + 1, period, now + period, false⟩] := hx
        rw [List.mem_append] at hx
        rcases hx with hx | hx
        · obtain ⟨j, hj⟩ := k.owned x hx
          refine ⟨j, ?_⟩
          rw [hh]
          have hjc : ¬ j = c := by
            rintro rfl
            rw [hc] at hj; cases hj
          simp [hjc, hj]
        · simp at hx; subst hx
          exact ⟨c, by rw [hh]; simp⟩
  · rw [if_neg hp]
    have hs := k.stop c
    have he : p.next (.start c period now) = p.next (.stop c) := by
      funext j
      simp [Plan.next, hp]
    rw [he]
    exact hs

theorem after_id (now : Int) (x : Timers.Timer) : (after now x).id = x.id := by
  unfold after; split <;> rfl

theorem find_after (now : Int) (ts : List Timers.Timer) (h : Nat) :
    Timers.find (ts.map (after now)) h = (Timers.find ts h).map (after now) := by
  unfold Timers.find
  rw [List.find?_map]
  congr 2
  funext x
  simp [after_id]

theorem K.evaluate {p g} (k : K p g) (now : Int) :
    ∃ out g', Ticks.evaluate now g = .ok (out, g') ∧ K (p.next (.evaluate now)) g' ∧ out.Nodup ∧
      ∀ c, c ∈ out ↔ p.ticks (.evaluate now) c := by
  refine ⟨_, _, evaluate_eq now g k.recurring, ⟨?_, ?_, ?_, ?_, ?_, ?_⟩, ?_, ?_⟩
  · show ((g.timers.ts.map (after now)).map (·.id)).Nodup
    have : (g.timers.ts.map (after now)).map (·.id) = g.timers.ts.map (·.id) := by
      simp [List.map_map, Function.comp_def, after_id]
    rw [this]; exact k.nodup
  · intro x hx
    obtain ⟨y, hy, rfl⟩ := List.mem_map.mp hx
    show (after now y).id ≤ g.timers.ctr
    rw [after_id]; exact k.bound y hy
  · intro x hx
    obtain ⟨y, hy, rfl⟩ := List.mem_map.mp hx
    have := k.recurring y hy
    unfold after
    split
    · exact this
    · exact this
  · intro j
    show _ = (handleOf g j).bind (fun h' => (Timers.find (g.timers.ts.map (after now)) h').map (fun x => (x.exp, x.dur)))
    simp only [Plan.next]
    rw [k.plan j]
    cases hj : handleOf g j with
    | none => rfl
    | some h' =>
      simp only [Option.bind_some, find_after]
      cases hx : Timers.find g.timers.ts h' with
      | none => rfl
      | some x =>
        by_cases he : x.exp ≤ now
        · simp [after, Timers.Timer.expired, Timers.Timer.again, he]
        · simp [after, Timers.Timer.expired, Timers.Timer.again, he]
  · intro j h' hj
    have := k.alive j h' hj
    refine ⟨?_, this.2⟩
    show (Timers.find (g.timers.ts.map (after now)) h').isSome = true
    rw [find_after]
    simpa using this.1
  · intro x hx
    obtain ⟨y, hy, rfl⟩ := List.mem_map.mp hx
    rw [after_id]
    exact k.owned y hy
  · rw [List.Nodup, List.pairwise_filterMap]
    have hn : ((g.timers.ts.filter (fun x => x.expired now)).map (·.id)).Nodup :=
      ((List.filter_sublist (p := fun x : Timers.Timer => x.expired now) (l := g.timers.ts)).map _).nodup k.nodup
    refine List.Pairwise.imp_of_mem ?_ hn
    intro a b ha hb hab x hx y hy
    rintro rfl
    obtain ⟨ta, ha1, rfl⟩ := List.mem_map.mp ha
    obtain ⟨tb, hb1, rfl⟩ := List.mem_map.mp hb
    obtain ⟨ca, hca⟩ := k.owned ta (List.mem_filter.mp ha1).1
    obtain ⟨cb, hcb⟩ := k.owned tb (List.mem_filter.mp hb1).1
    have e1 := (k.alive ca _ hca).2
    have e2 := (k.alive cb _ hcb).2
    rw [hx] at e1
    rw [hy] at e2
    have : ca = cb := by
      rw [← Option.some.inj e1, ← Option.some.inj e2]
    rw [this, hcb] at hca
    exact hab (Option.some.inj hca).symm
  · intro c
    simp only [List.mem_filterMap, List.mem_map, List.mem_filter, Plan.ticks]
    constructor
    · rintro ⟨h, ⟨x, ⟨hx, he⟩, rfl⟩, hcap⟩
      obtain ⟨c', hc'⟩ := k.owned x hx
      have e1 := (k.alive c' _ hc').2
      rw [hcap] at e1
      have hcc : c = c' := Option.some.inj e1
      subst hcc
      refine ⟨x.exp, x.dur, ?_, ?_⟩
      · rw [k.plan c, hc']
        simp only [Option.bind_some]
        rw [Timers.find_of_mem k.nodup hx]
        rfl
      · simpa [Timers.Timer.expired] using he
    · rintro ⟨due, per, hp, hd⟩
      rw [k.plan c] at hp
      cases hh : handleOf g c with
      | none => rw [hh] at hp; cases hp
      | some h =>
        rw [hh] at hp
        simp only [Option.bind_some] at hp
        cases hx : Timers.find g.timers.ts h with
        | none => rw [hx] at hp; cases hp
        | some x =>
          rw [hx] at hp
          simp only [Option.map_some, Option.some.injEq, Prod.mk.injEq] at hp
          refine ⟨h, ⟨x, ⟨Timers.find_mem hx, ?_⟩, Timers.find_id hx⟩, (k.alive c h hh).2⟩
          simp only [Timers.Timer.expired, decide_eq_true_eq]
          rw [hp.1]; exact hd

/-! ### The properties -/

theorem grun_right (calls : List Call) : ∀ {p g}, K p g →
    ∃ outs g', grun g calls = .ok (outs, g') ∧ Right p calls outs ∧ K (Plan.after p calls) g' := by
  induction calls with
  | nil => intro p g k; exact ⟨[], g, rfl, trivial, k⟩
  | cons o r ih =>
    intro p g k
    obtain ⟨out, g1, h1, h2, h3, h4⟩ : ∃ out g1, gstep g o = .ok (out, g1) ∧ K (p.next o) g1 ∧ out.Nodup ∧
        ∀ c, c ∈ out ↔ p.ticks o c := by
      cases o with
      | start c period now =>
        exact ⟨[], _, rfl, k.start c period now, List.nodup_nil, fun c => by simp [Plan.ticks]⟩
      | stop c => exact ⟨[], _, rfl, k.stop c, List.nodup_nil, fun c => by simp [Plan.ticks]⟩
      | evaluate now => exact k.evaluate now
    obtain ⟨outs, g2, e1, e2, e3⟩ := ih h2
    refine ⟨out :: outs, g2, ?_, ⟨h3, h4, e2⟩, e3⟩
    simp only [grun, h1, e1]

/-- **C56**: for every history of `start`, `stop` and rounds of the thread: the internal ticks of each round
are exactly those of the components whose tick is due, once each; the thread never fails; and a component is
generating exactly if its last call was `start` with a positive period. -/
theorem ticks_when_due (calls : List Call) :
    ∃ outs g, grun Gen.init calls = .ok (outs, g) ∧ Right Plan.init calls outs ∧
      ∀ c, isGenerating c g = ((Plan.init.after calls) c).isSome := by
  obtain ⟨outs, g, h1, h2, h3⟩ := grun_right calls K.init
  refine ⟨outs, g, h1, h2, ?_⟩
  intro c
  rw [h3.plan c]
  unfold isGenerating
  cases hh : handleOf g c with
  | none => rfl
  | some h =>
    have := (h3.alive c h hh).1
    simp only [Option.bind_some, Option.isSome_map, this]
    rfl

/-- **C56**: no timer is left over: there is exactly one for each generating component, and it recurs with the
period of the last `start`. -/
theorem one_timer_each {calls outs g} (h : grun Gen.init calls = .ok (outs, g)) :
    (∀ x ∈ g.timers.ts, x.oneShot = false ∧ ∃ c, Plan.init.after calls c = some (x.exp, x.dur) ∧
      handleOf g c = some x.id) ∧
    (∀ x ∈ g.timers.ts, ∀ y ∈ g.timers.ts, ∀ c, handleOf g c = some x.id → handleOf g c = some y.id → x = y) ∧
    (g.timers.ts.map (·.id)).Nodup := by
  obtain ⟨outs', g', h1, h2, h3⟩ := grun_right calls K.init
  rw [h] at h1
  cases h1
  refine ⟨?_, ?_, h3.nodup⟩
  · intro x hx
    obtain ⟨c, hc⟩ := h3.owned x hx
    refine ⟨h3.recurring x hx, c, ?_, hc⟩
    rw [h3.plan c, hc]
    simp only [Option.bind_some]
    rw [Timers.find_of_mem h3.nodup hx]
    rfl
  · intro x hx y hy c h4 h5
    rw [h4] at h5
    have e : x.id = y.id := Option.some.inj h5
    have a := Timers.find_of_mem h3.nodup hx
    have b := Timers.find_of_mem h3.nodup hy
    rw [e, b] at a
    exact (Option.some.inj a).symm

theorem Plan.after_append (p : Plan) (a b : List Call) : p.after (a ++ b) = (p.after a).after b := by
  induction a generalizing p with
  | nil => rfl
  | cons o r ih => exact ih _

/-- The last `start` or `stop` of `c` decides. -/
theorem plan_last (p : Plan) (c : Nat) (pre post : List Call)
    (hpost : ∀ o ∈ post, (∀ d n, o ≠ .start c d n) ∧ o ≠ .stop c) :
    (∀ period now, (p.after (pre ++ .start c period now :: post) c).isSome = decide (period > 0)) ∧
    p.after (pre ++ .stop c :: post) c = none := by
  have keep : ∀ (post : List Call), (∀ o ∈ post, (∀ d n, o ≠ .start c d n) ∧ o ≠ .stop c) → ∀ q : Plan,
      (q.after post c).isSome = (q c).isSome := by
    intro post
    induction post with
    | nil => intro _ q; rfl
    | cons o r ih =>
      intro hp q
      have h1 := hp o List.mem_cons_self
      have h2 := ih (fun o' ho' => hp o' (List.mem_cons_of_mem _ ho')) (q.next o)
      show ((q.next o).after r c).isSome = _
      rw [h2]
      cases o with
      | start k d n =>
        have hk : ¬ c = k := by
          rintro rfl
          exact h1.1 d n rfl
        simp [Plan.next, hk]
      | stop k =>
        have hk : ¬ c = k := by
          rintro rfl
          exact h1.2 rfl
        simp [Plan.next, hk]
      | evaluate now => simp [Plan.next]
  constructor
  · intro period now
    rw [Plan.after_append]
    show (((p.after pre).next (.start c period now)).after post c).isSome = _
    rw [keep post hpost]
    by_cases hp : period > 0 <;> simp [Plan.next, hp]
  · rw [Plan.after_append]
    show ((p.after pre).next (.stop c)).after post c = none
    have := keep post hpost ((p.after pre).next (.stop c))
    simpa [Plan.next] using this

/-- **C56**: `isGenerating` tells if the last call for the component was a `start` with a positive period. -/
theorem generating_after_start {pre post c period now outs g}
    (hpost : ∀ o ∈ post, (∀ d n, o ≠ .start c d n) ∧ o ≠ .stop c)
    (h : grun Gen.init (pre ++ .start c period now :: post) = .ok (outs, g)) :
    isGenerating c g = decide (period > 0) := by
  obtain ⟨outs', g', h1, _, h3⟩ := ticks_when_due (pre ++ .start c period now :: post)
  rw [h] at h1
  cases h1
  rw [h3 c]
  exact (plan_last Plan.init c pre post hpost).1 period now

/-- **C56**: after `stop` nothing ticks for the component, until it is started again. -/
theorem nothing_after_stop {pre post c outs g} (hpost : ∀ o ∈ post, (∀ d n, o ≠ .start c d n) ∧ o ≠ .stop c)
    (h : grun Gen.init (pre ++ .stop c :: post) = .ok (outs, g)) :
    isGenerating c g = false ∧ ∀ out ∈ outs.drop (pre.length + 1), c ∉ out := by
  obtain ⟨outs', g', h1, h2, h3⟩ := ticks_when_due (pre ++ .stop c :: post)
  rw [h] at h1
  cases h1
  refine ⟨by rw [h3 c, (plan_last Plan.init c pre post hpost).2]; rfl, ?_⟩
  have split : ∀ (a b : List Call) (p : Plan) (o : List (List Nat)), Right p (a ++ b) o →
      Right (p.after a) b (o.drop a.length) := by
    intro a
    induction a with
    | nil => intro b p o ho; simpa [Plan.after] using ho
    | cons x r ih =>
      intro b p o ho
      cases o with
      | nil => exact ho.elim
      | cons y ys => exact ih b _ ys ho.2.2
  have hs := split (pre ++ [.stop c]) post Plan.init outs (by simpa using h2)
  have hn : Plan.init.after (pre ++ [.stop c]) c = none := (plan_last Plan.init c pre [] (by simp)).2
  have quiet : ∀ (post : List Call), (∀ o ∈ post, (∀ d n, o ≠ .start c d n) ∧ o ≠ .stop c) → ∀ (p : Plan) o,
      p c = none → Right p post o → ∀ out ∈ o, c ∉ out := by
    intro post
    induction post with
    | nil =>
      intro _ p o _ hr out ho
      cases o with
      | nil => cases ho
      | cons y ys => exact hr.elim
    | cons x r ih =>
      intro hp p o hpc hr out ho
      cases o with
      | nil => exact hr.elim
      | cons y ys =>
        have hx := hp x List.mem_cons_self
        rcases List.mem_cons.mp ho with rfl | ho
        · intro hc
          have := (hr.2.1 c).mp hc
          cases x with
          | start k d n => exact this
          | stop k => exact this
          | evaluate now =>
            obtain ⟨due, per, h1, _⟩ := this
            rw [hpc] at h1; cases h1
        · refine ih (fun o' ho' => hp o' (List.mem_cons_of_mem _ ho')) (p.next x) ys ?_ hr.2.2 out ho
          cases x with
          | start k d n =>
            have hk : ¬ c = k := by
              rintro rfl
              exact hx.1 d n rfl
            simp [Plan.next, hk, hpc]
          | stop k =>
            have hk : ¬ c = k := by
              rintro rfl
              exact hx.2 rfl
            simp [Plan.next, hk, hpc]
          | evaluate now => simp [Plan.next, hpc]
  have := quiet post hpost _ _ hn hs
  simpa using this

end Verif.Ticks
