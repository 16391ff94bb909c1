import Verif.Cron.Model
set_option linter.unusedSimpArgs false
set_option linter.unusedVariables false
/-! Properties of cron tables and periodic actions (C18). -/
namespace Verif.Cron

/-! ## One tick -/

/-- A position occurs once, in increasing order (`std::map`). -/
def Sorted (t : Table) : Prop := t.Pairwise (fun a b => a.1 < b.1)

theorem mem_addEntry {t : Table} {p : Nat} {k : Kind} {e : Nat × Kind} (h : e ∈ addEntry t p k) : e = (p, k) ∨ e ∈ t := by
  induction t with
  | nil => simp [addEntry] at h; exact Or.inl h
  | cons a t ih =>
    simp only [addEntry] at h
    split at h
    · simp at h; simp; exact h
    · split at h
      · exact Or.inr h
      · rcases List.mem_cons.1 h with h | h
        · exact Or.inr (by simp [h])
        · rcases ih h with h | h
          · exact Or.inl h
          · exact Or.inr (by simp [h])

/-- tables built by `addEntry` are sorted -/
theorem addEntry_sorted {t : Table} (h : Sorted t) (p : Nat) (k : Kind) : Sorted (addEntry t p k) := by
  induction t with
  | nil => simp [addEntry, Sorted]
  | cons a t ih =>
    unfold Sorted at h ⊢
    rw [List.pairwise_cons] at h
    simp only [addEntry]
    split
    · next hlt =>
      rw [List.pairwise_cons, List.pairwise_cons]
      exact ⟨fun b hb => by rcases List.mem_cons.1 hb with e | e; · (subst e; exact hlt)
                            · have := h.1 b e; omega, h⟩
    · split
      · rw [List.pairwise_cons]; exact h
      · rw [List.pairwise_cons]
        refine ⟨fun b hb => ?_, ih h.2⟩
        rcases mem_addEntry hb with e | e
        · subst e; simp; omega
        · exact h.1 b e

/-- C18 (specification of "due"): a periodic action is due when the tick has a time and no next time is recorded, or it has been reached. -/
def Due (s : St) (c p : Nat) (tick : Tick) : Prop :=
  ∃ now, tick.time = some now ∧ ∀ next, s.schedule c p = some next → next ≤ now

theorem due_iff {s : St} {p : Nat} {k : Int} {tick : Tick} : rule (.periodic k) p tick s = true ↔ Due s tick.comp p tick := by
  unfold rule Due
  cases ht : tick.time with
  | none => simp
  | some now =>
    simp only
    cases hs : s.schedule tick.comp p with
    | none => simp
    | some next => simp

theorem step_sched (k : Kind) (p c q : Nat) (tick : Tick) (s : St) (h : ¬(c = tick.comp ∧ q = p)) :
    (actionEffect k (scheduleNext k p tick s)).schedule c q = s.schedule c q := by
  cases k with
  | periodic per =>
    cases ht : tick.time with
    | none => simp [actionEffect, scheduleNext, ht]
    | some now => simp [actionEffect, scheduleNext, ht, Sched.set, h]
  | persist => simp [actionEffect, scheduleNext]
  | user r => simp [actionEffect, scheduleNext]

theorem eval_sched_other (comp : Nat) : ∀ (t : Table) (tick : Tick) (s : St) (c q : Nat), (c ≠ tick.comp ∨ ∀ e ∈ t, e.1 ≠ q) →
    (evaluate comp t tick s).2.schedule c q = s.schedule c q := by
  intro t
  induction t with
  | nil => intro tick s c q _; rfl
  | cons a t ih =>
    intro tick s c q h
    obtain ⟨p, k⟩ := a
    have h' : c ≠ tick.comp ∨ ∀ e ∈ t, e.1 ≠ q := h.imp id (fun h e he => h e (List.mem_cons_of_mem _ he))
    have hne : ¬(c = tick.comp ∧ q = p) := by
      rintro ⟨h1, h2⟩
      rcases h with h | h
      · exact h h1
      · exact h (p, k) (List.mem_cons_self ..) h2.symm
    simp only [evaluate]
    split
    · simp only; rw [ih _ _ _ _ h', step_sched _ _ _ _ _ _ hne]
    · exact ih _ _ _ _ h'

theorem eval_mem (comp : Nat) : ∀ (t : Table) (tick : Tick) (s : St) (p : Nat), p ∈ (evaluate comp t tick s).1 → ∃ k, (p, k) ∈ t := by
  intro t
  induction t with
  | nil => intro tick s p h; simp [evaluate] at h
  | cons a t ih =>
    intro tick s p h
    obtain ⟨q, k⟩ := a
    simp only [evaluate] at h
    split at h
    · simp only [List.mem_cons] at h
      rcases h with h | h
      · exact ⟨k, by simp [h]⟩
      · obtain ⟨k', hk⟩ := ih _ _ _ h; exact ⟨k', by simp [hk]⟩
    · obtain ⟨k', hk⟩ := ih _ _ _ h; exact ⟨k', by simp [hk]⟩

/-- C18: a tick of another component runs nothing and changes nothing. -/
theorem other_component (comp : Nat) (t : Table) (tick : Tick) (s : St) (h : tick.comp ≠ comp) : evaluate comp t tick s = ([], s) := by
  induction t with
  | nil => rfl
  | cons a t ih => obtain ⟨p, k⟩ := a; simp only [evaluate, h, false_and, if_false, ih]

/-- C18: actions run in the order of positions, each at most once. -/
theorem order {comp : Nat} {t : Table} (hs : Sorted t) (tick : Tick) (s : St) : (evaluate comp t tick s).1.Pairwise (· < ·) := by
  induction t generalizing s with
  | nil => simp [evaluate]
  | cons a t ih =>
    obtain ⟨p, k⟩ := a
    unfold Sorted at hs
    rw [List.pairwise_cons] at hs
    simp only [evaluate]
    split
    · simp only
      rw [List.pairwise_cons]
      refine ⟨fun q hq => ?_, ih hs.2 _⟩
      obtain ⟨k', hk⟩ := eval_mem _ _ _ _ _ hq
      exact hs.1 _ hk
    · exact ih hs.2 _

/-- C18: an entry of a user runs exactly if its rule says so; a periodic action exactly if it is due before the tick. -/
theorem runs_iff {t : Table} (hs : Sorted t) (tick : Tick) (s : St) (p : Nat) :
    (∀ r, (p, Kind.user r) ∈ t → (p ∈ (evaluate tick.comp t tick s).1 ↔ r tick = true)) ∧
    (∀ per, (p, Kind.periodic per) ∈ t → (p ∈ (evaluate tick.comp t tick s).1 ↔ Due s tick.comp p tick)) := by
  induction t generalizing s with
  | nil => simp
  | cons a t ih =>
    obtain ⟨q, k⟩ := a
    unfold Sorted at hs
    rw [List.pairwise_cons] at hs
    have hnot : ∀ s', q ∉ (evaluate tick.comp t tick s').1 := by
      intro s' hq
      obtain ⟨k', hk⟩ := eval_mem _ _ _ _ _ hq
      exact absurd (hs.1 _ hk) (Nat.lt_irrefl _)
    have hhead : q ∈ (evaluate tick.comp ((q, k) :: t) tick s).1 ↔ rule k q tick s = true := by
      simp only [evaluate, true_and]
      split
      · next h => simp [h]
      · next h => simp [hnot, h]
    have htail : ∀ k', (p, k') ∈ t → (p ∈ (evaluate tick.comp ((q, k) :: t) tick s).1 ↔ p ∈ (evaluate tick.comp t tick
        (if rule k q tick s = true then actionEffect k (scheduleNext k q tick s) else s)).1) := by
      intro k' hk'
      have hpq : p ≠ q := by intro h; subst h; exact absurd (hs.1 _ hk') (Nat.lt_irrefl _)
      simp only [evaluate, true_and]
      split
      · next h => simp [h, hpq]
      · next h => simp [h]
    constructor
    · intro r hr
      rcases List.mem_cons.1 hr with e | e
      · injection e with e1 e2; subst e1; subst e2; rw [hhead]; rfl
      · rw [htail _ e]; exact (ih hs.2 _).1 r e
    · intro per hr
      rcases List.mem_cons.1 hr with e | e
      · injection e with e1 e2; subst e1; subst e2; rw [hhead]; exact due_iff
      · rw [htail _ e, (ih hs.2 _).2 per e]
        have hpq : p ≠ q := by intro h; subst h; exact absurd (hs.1 _ e) (Nat.lt_irrefl _)
        unfold Due
        have : ∀ c, (if rule k q tick s = true then actionEffect k (scheduleNext k q tick s) else s).schedule c p = s.schedule c p := by
          intro c
          split
          · exact step_sched _ _ _ _ _ _ (by rintro ⟨_, h⟩; exact hpq h)
          · rfl
        rw [this]

/-- the next time recorded by a tick -/
theorem sched_after {t : Table} (hs : Sorted t) (tick : Tick) (s : St) {p : Nat} {per now : Int} (hp : (p, Kind.periodic per) ∈ t) (hnow : tick.time = some now) :
    (Due s tick.comp p tick → (evaluate tick.comp t tick s).2.schedule tick.comp p = some (now + per)) ∧
    (¬ Due s tick.comp p tick → (evaluate tick.comp t tick s).2.schedule tick.comp p = s.schedule tick.comp p) := by
  induction t generalizing s with
  | nil => simp at hp
  | cons a t ih =>
    obtain ⟨q, k⟩ := a
    unfold Sorted at hs
    rw [List.pairwise_cons] at hs
    rcases List.mem_cons.1 hp with e | e
    · injection e with e1 e2; subst e1; subst e2
      have hne : ∀ e ∈ t, e.1 ≠ p := fun e he h => by have := hs.1 e he; omega
      constructor
      · intro hd
        simp only [evaluate, true_and, due_iff.2 hd, if_true]
        rw [eval_sched_other _ _ _ _ _ _ (Or.inr hne)]
        simp [actionEffect, scheduleNext, hnow, Sched.set]
      · intro hd
        have : rule (.periodic per) p tick s = false := by
          cases h : rule (.periodic per) p tick s with
          | false => rfl
          | true => exact absurd (due_iff.1 h) hd
        simp only [evaluate, this, and_false, Bool.false_eq_true, if_false]
        exact eval_sched_other _ _ _ _ _ _ (Or.inr hne)
    · have hpq : p ≠ q := by intro h; subst h; exact absurd (hs.1 _ e) (Nat.lt_irrefl _)
      have hsch : ∀ c, (if rule k q tick s = true then actionEffect k (scheduleNext k q tick s) else s).schedule c p = s.schedule c p := by
        intro c
        split
        · exact step_sched _ _ _ _ _ _ (by rintro ⟨_, h⟩; exact hpq h)
        · rfl
      have hev : (evaluate tick.comp ((q, k) :: t) tick s).2 = (evaluate tick.comp t tick (if rule k q tick s = true then actionEffect k (scheduleNext k q tick s) else s)).2 := by
        simp only [evaluate, true_and]
        split
        · next h => simp [h]
        · next h => simp [h]
      have hdue : Due (if rule k q tick s = true then actionEffect k (scheduleNext k q tick s) else s) tick.comp p tick ↔ Due s tick.comp p tick := by
        unfold Due; rw [hsch]
      have := ih hs.2 (if rule k q tick s = true then actionEffect k (scheduleNext k q tick s) else s) e
      rw [hev, hdue, hsch] at *
      exact this

/-! ## Histories with restarts -/

/-- how the header asks tables to be built (periodic_action.hpp:41-42): a table with periodic actions has, after all of them, the entry that persists -/
def Good (reg : Registry) : Prop :=
  ∀ c, Sorted (reg c) ∧ ((∃ p per, (p, Kind.periodic per) ∈ reg c) → ∃ l P, reg c = l ++ [(P, Kind.persist)])

/-- specification: with a next time `next` (none at first), which of the tick times run an action of period `per` -/
def expected (per : Int) : Option Int → List Int → List Int
  | _, [] => []
  | none, t :: ts => t :: expected per (some (t + per)) ts
  | some n, t :: ts => if n ≤ t then t :: expected per (some (t + per)) ts else expected per (some n) ts

/-- the times of the ticks of component `c` in a history -/
def tickTimes (c : Nat) : List Ev → List Int
  | [] => []
  | .tick t :: es => if t.comp = c then (match t.time with | some x => x :: tickTimes c es | none => tickTimes c es) else tickTimes c es
  | _ :: es => tickTimes c es

/-- the times at which the action at `c`, `p` ran -/
def runTimes (c p : Nat) (l : List (Nat × Nat × Option Int)) : List Int :=
  l.filterMap (fun x => if x.1 = c ∧ x.2.1 = p then x.2.2 else none)

/-- memory and page agree -/
def Saved (s : St) : Prop := s.pending = false ∧ s.page.getD emptySched = s.schedule

theorem restart_saved {s : St} (h : Saved s) : restart s = s := by
  cases s with
  | mk sch pd pg => obtain ⟨h1, h2⟩ := h; simp only at h1 h2; subst h1; simp only [restart]; rw [h2]

theorem eval_append (comp : Nat) (tick : Tick) : ∀ (l r : Table) (s : St), evaluate comp (l ++ r) tick s =
    ((evaluate comp l tick s).1 ++ (evaluate comp r tick (evaluate comp l tick s).2).1, (evaluate comp r tick (evaluate comp l tick s).2).2) := by
  intro l r
  induction l with
  | nil => intro s; rfl
  | cons a l ih =>
    intro s
    obtain ⟨p, k⟩ := a
    simp only [List.cons_append, evaluate]
    split
    · simp only [ih]; rfl
    · exact ih s

/-- entries without the persisting one at the end: if nothing is pending, memory did not change since the page was written -/
theorem eval_pending (comp : Nat) (tick : Tick) : ∀ (l : Table) (s : St), ((s.pending = false → s.page.getD emptySched = s.schedule) →
    ((evaluate comp l tick s).2.pending = false → (evaluate comp l tick s).2.page.getD emptySched = (evaluate comp l tick s).2.schedule)) := by
  intro l
  induction l with
  | nil => intro s h; exact h
  | cons a l ih =>
    intro s h
    obtain ⟨p, k⟩ := a
    simp only [evaluate]
    split
    · simp only
      apply ih
      cases k with
      | periodic per =>
        cases ht : tick.time with
        | none => simpa [actionEffect, scheduleNext, ht] using h
        | some now => simp [actionEffect, scheduleNext, ht]
      | persist => simp [actionEffect, scheduleNext]
      | user r => simpa [actionEffect, scheduleNext] using h
    · exact ih s h

theorem eval_noperiodic (comp : Nat) (tick : Tick) : ∀ (l : Table) (s : St), (∀ p per, (p, Kind.periodic per) ∉ l) → Saved s → Saved (evaluate comp l tick s).2 := by
  intro l
  induction l with
  | nil => intro s _ h; exact h
  | cons a l ih =>
    intro s hn h
    obtain ⟨p, k⟩ := a
    have hn' : ∀ p per, (p, Kind.periodic per) ∉ l := fun p per hp => hn p per (List.mem_cons_of_mem _ hp)
    simp only [evaluate]
    split
    · simp only
      apply ih _ hn'
      cases k with
      | periodic per => exact absurd (List.mem_cons_self ..) (hn p per)
      | persist => exact ⟨rfl, rfl⟩
      | user r => exact h
    · exact ih s hn' h

theorem tick_saved {reg : Registry} (hg : Good reg) {s : St} (h : Saved s) (tick : Tick) : Saved (onTick reg tick s).2 := by
  unfold onTick
  by_cases hp : ∃ p per, (p, Kind.periodic per) ∈ reg tick.comp
  · obtain ⟨l, P, hl⟩ := (hg tick.comp).2 hp
    rw [hl, eval_append]
    simp only [evaluate, true_and]
    have := eval_pending tick.comp tick l s (fun _ => h.2)
    cases hpd : (evaluate tick.comp l tick s).2.pending with
    | true => simp only [rule, hpd, if_true]; exact ⟨rfl, rfl⟩
    | false => simp only [rule, hpd, Bool.false_eq_true, if_false]; exact ⟨hpd, this hpd⟩
  · exact eval_noperiodic _ _ _ _ (fun p per h => hp ⟨p, per, h⟩) h

/-- what one tick adds to the run times of an action -/
theorem tick_runTimes {reg : Registry} (hg : Good reg) {c p : Nat} {per : Int} (hp : (p, Kind.periodic per) ∈ reg c) (tick : Tick) (s : St) :
    runTimes c p ((onTick reg tick s).1.map (fun p => (tick.comp, p, tick.time))) =
      (if tick.comp = c ∧ p ∈ (onTick reg tick s).1 then tick.time.toList else []) := by
  have hord := order (hg tick.comp).1 tick s (comp := tick.comp)
  unfold onTick runTimes
  rw [List.filterMap_map]
  generalize (evaluate tick.comp (reg tick.comp) tick s).1 = l at *
  by_cases hc : tick.comp = c
  · subst hc
    simp only [true_and]
    induction l with
    | nil => simp
    | cons a l ih =>
      rw [List.pairwise_cons] at hord
      rw [List.filterMap_cons]
      simp only [Function.comp, true_and]
      by_cases ha : a = p
      · subst ha
        have hnone : List.filterMap (fun x => if x = a then tick.time else none) l = [] := by
          rw [List.filterMap_eq_nil_iff]
          intro x hx
          have := hord.1 x hx
          rw [if_neg (by omega)]
        have hnone' : List.filterMap ((fun x : Nat × Nat × Option Int => if x.1 = tick.comp ∧ x.2.1 = a then x.2.2 else none) ∘ fun p => (tick.comp, p, tick.time)) l = [] := by
          rw [← hnone]; congr 1; funext x; simp
        rw [hnone']
        simp
        cases tick.time <;> simp
      · rw [if_neg ha]
        simp only
        rw [ih hord.2]
        simp [Ne.symm ha]
  · rw [if_neg (by simp [hc]), List.filterMap_eq_nil_iff]
    intro x _; simp [hc]

theorem runTimes_append (c p : Nat) (a b : List (Nat × Nat × Option Int)) : runTimes c p (a ++ b) = runTimes c p a ++ runTimes c p b := by
  unfold runTimes; rw [List.filterMap_append]

theorem run_expected {reg : Registry} (hg : Good reg) {c p : Nat} {per : Int} (hp : (p, Kind.periodic per) ∈ reg c) :
    ∀ (es : List Ev) (s : St), (∀ e ∈ es, ∀ pg, e ≠ .transfer pg) → Saved s →
      runTimes c p (run reg es s).1 = expected per (s.schedule c p) (tickTimes c es) := by
  intro es
  induction es with
  | nil => intro s _ _; simp [run, runTimes, tickTimes, expected]
  | cons e es ih =>
    intro s hnt hsv
    have hnt' : ∀ e ∈ es, ∀ pg, e ≠ .transfer pg := fun x hx => hnt x (List.mem_cons_of_mem _ hx)
    cases e with
    | restart => simp only [run, tickTimes]; rw [restart_saved hsv]; exact ih s hnt' hsv
    | transfer pg => exact absurd rfl (hnt _ (List.mem_cons_self ..) pg)
    | tick t =>
      simp only [run]
      rw [runTimes_append, tick_runTimes hg hp, ih _ hnt' (tick_saved hg hsv t)]
      simp only [tickTimes]
      by_cases hc : t.comp = c
      · subst hc
        simp only [true_and, if_true]
        have hrun := (runs_iff (hg t.comp).1 t s p).2 per hp
        unfold onTick
        cases ht : t.time with
        | none =>
          have hnd : ¬ Due s t.comp p t := by rintro ⟨now, h, _⟩; rw [ht] at h; cases h
          have hsame : ∀ (l : Table) (s : St), (evaluate t.comp l t s).2.schedule t.comp p = s.schedule t.comp p := by
            intro l
            induction l with
            | nil => intro s; rfl
            | cons a l ihl =>
              intro s
              obtain ⟨q, k⟩ := a
              simp only [evaluate]
              split
              · simp only; rw [ihl]
                cases k <;> simp [actionEffect, scheduleNext, ht]
              · exact ihl s
          rw [if_neg (by rw [hrun]; exact hnd), hsame]
          rfl
        | some now =>
          obtain ⟨s1, s2⟩ := sched_after (hg t.comp).1 t s hp ht
          by_cases hd : Due s t.comp p t
          · rw [if_pos (hrun.2 hd), s1 hd]
            simp only [Option.toList_some]
            obtain ⟨now', h1, h2⟩ := hd
            rw [ht] at h1; injection h1 with h1; subst h1
            cases hsch : s.schedule t.comp p with
            | none => rfl
            | some n =>
              have := h2 n hsch
              simp [expected, this]
          · rw [if_neg (by rw [hrun]; exact hd), s2 hd]
            cases hsch : s.schedule t.comp p with
            | none => exact absurd ⟨now, ht, by intro n hn; rw [hsch] at hn; cases hn⟩ hd
            | some n =>
              have : ¬ n ≤ now := fun h => hd ⟨now, ht, by intro m hm; rw [hsch] at hm; injection hm with hm; omega⟩
              simp [expected, this]
      · simp only [hc, false_and, if_false, List.nil_append]
        congr 1
        unfold onTick
        exact eval_sched_other _ _ _ _ _ _ (Or.inl (Ne.symm hc))

/-- C18: in every history of ticks and restarts of a replica, a periodic action runs exactly at the expected ticks: the first one with a time, and then
always at the first tick whose time has reached the last run plus the period.  Restarts change nothing. -/
theorem periodic_runs {reg : Registry} (hg : Good reg) {c p : Nat} {per : Int} (hp : (p, Kind.periodic per) ∈ reg c) (es : List Ev)
    (hes : ∀ e ∈ es, ∀ pg, e ≠ .transfer pg) : runTimes c p (run reg es fresh).1 = expected per none (tickTimes c es) :=
  run_expected hg hp es fresh hes ⟨rfl, rfl⟩

/-- C18: so two replicas that execute the same ticks run the same actions, whenever they restart. -/
theorem replicas_agree {reg : Registry} (hg : Good reg) {c p : Nat} {per : Int} (hp : (p, Kind.periodic per) ∈ reg c) (es es' : List Ev)
    (h1 : ∀ e ∈ es, ∀ pg, e ≠ .transfer pg) (h2 : ∀ e ∈ es', ∀ pg, e ≠ .transfer pg) (h : tickTimes c es = tickTimes c es') :
    runTimes c p (run reg es fresh).1 = runTimes c p (run reg es' fresh).1 := by
  rw [periodic_runs hg hp es h1, periodic_runs hg hp es' h2, h]

/-- the expected runs are at least a period apart, and no due tick is skipped -/
theorem expected_spaced (per : Int) (hper : 0 ≤ per) : ∀ (ts : List Int) (n : Option Int), ts.Pairwise (· ≤ ·) → (expected per n ts).Pairwise (fun a b => a + per ≤ b) ∧
    (∀ m, n = some m → ∀ t ∈ expected per n ts, m ≤ t) := by
  intro ts
  induction ts with
  | nil => intro n _; simp [expected]
  | cons t ts ih =>
    intro n hs
    rw [List.pairwise_cons] at hs
    cases n with
    | none =>
      obtain ⟨i1, i2⟩ := ih (some (t + per)) hs.2
      simp only [expected, List.pairwise_cons]
      exact ⟨⟨fun b hb => i2 _ rfl b hb, i1⟩, by simp⟩
    | some m =>
      by_cases hm : m ≤ t
      · obtain ⟨i1, i2⟩ := ih (some (t + per)) hs.2
        simp only [expected, hm, if_true, List.pairwise_cons]
        refine ⟨⟨fun b hb => i2 _ rfl b hb, i1⟩, ?_⟩
        intro m' h b hb
        injection h with h; subst h
        rcases List.mem_cons.1 hb with e | e
        · rw [e]; exact hm
        · have := i2 _ rfl b e; omega
      · obtain ⟨i1, i2⟩ := ih (some m) hs.2
        simp only [expected, hm, if_false]
        exact ⟨i1, i2⟩

/-- a good table -/
def exReg : Registry := fun c => if c = 7 then [(1, .periodic 100), (2, .user (fun t => t.seq % 2 == 0)), (9, .persist)] else []

theorem exReg_good : Good exReg := by
  intro c
  unfold exReg
  by_cases hc : c = 7
  · simp only [hc, if_true]
    refine ⟨by simp [Sorted], fun _ => ⟨[(1, .periodic 100), (2, .user (fun t => t.seq % 2 == 0))], 9, rfl⟩⟩
  · simp only [hc, if_false]
    exact ⟨by simp [Sorted], by rintro ⟨p, per, h⟩; simp at h⟩

example : runTimes 7 1 (run exReg [.tick ⟨7, 1, some 1000⟩, .restart, .tick ⟨7, 2, some 1050⟩, .tick ⟨7, 3, some 1120⟩, .restart, .tick ⟨7, 4, some 1200⟩, .tick ⟨7, 4, some 1220⟩] fresh).1 =
    [1000, 1120, 1220] := by decide

/-! ## Findings -/

/-- **Finding.** The engine makes its ticks without a time (RequestHandler.cpp:134), even if the batch has one: no periodic action ever runs. -/
theorem engine_never_runs_periodic {reg : Registry} (hg : Good reg) {c p : Nat} {per : Int} (hp : (p, Kind.periodic per) ∈ reg c)
    (reqs : List (Nat × Nat × Option Int)) :
    runTimes c p (run reg (reqs.map (fun r => Ev.tick (tickOfRequest r.1 r.2.1 r.2.2))) fresh).1 = [] := by
  rw [periodic_runs hg hp _ (by intro e he pg h; rw [List.mem_map] at he; obtain ⟨r, _, hr⟩ := he; subst hr; cases h)]
  have : tickTimes c (reqs.map (fun r => Ev.tick (tickOfRequest r.1 r.2.1 r.2.2))) = [] := by
    induction reqs with
    | nil => rfl
    | cons r rs ih => simp only [List.map_cons, tickTimes, tickOfRequest] at ih ⊢; split <;> exact ih
  rw [this]; rfl

/-- **Finding.** State transfer brings the page, but not the schedule in memory (the README says the schedule is synced): after it two replicas with
the same page run different actions on the same tick. -/
theorem transfer_diverges {per now : Int} (hper : 0 < per) :
    ∃ (s : St) (tick' : Tick), -- `s`: a replica that executed the tick at `now`; the other one gets its page by state transfer
      s = (onTick (fun _ => [(1, .periodic per), (9, .persist)]) ⟨7, 1, some now⟩ fresh).2 ∧
      (transfer s.page fresh).page = s.page ∧
      1 ∉ (onTick (fun _ => [(1, .periodic per), (9, .persist)]) tick' s).1 ∧
      1 ∈ (onTick (fun _ => [(1, .periodic per), (9, .persist)]) tick' (transfer s.page fresh)).1 := by
  refine ⟨_, ⟨7, 2, some (now + 0)⟩, rfl, rfl, ?_, ?_⟩
  · have h1 : ¬ (now + per ≤ now + 0) := by omega
    have h2 : ¬ (now + per ≤ now) := by omega
    simp [onTick, evaluate, rule, scheduleNext, actionEffect, fresh, emptySched, Sched.set, h1, h2]
  · simp [onTick, evaluate, rule, scheduleNext, actionEffect, fresh, emptySched, transfer]

/-- **Finding.** `addEntry` on a position in use silently keeps the old entry. -/
theorem addEntry_keeps (t : Table) (p : Nat) (k k' : Kind) (hs : Sorted t) (h : (p, k) ∈ t) : addEntry t p k' = t := by
  induction t with
  | nil => simp at h
  | cons a t ih =>
    obtain ⟨q, j⟩ := a
    unfold Sorted at hs
    rw [List.pairwise_cons] at hs
    simp only [addEntry]
    rcases List.mem_cons.1 h with e | e
    · injection e with e1 e2; subst e1; simp
    · have := hs.1 _ e
      simp only at this
      rw [if_neg (by omega), if_neg (by omega), ih hs.2 e]

/-- without the persisting entry a restart makes the action run again at once -/
theorem no_persist_reruns (per now : Int) (hper : 0 < per) :
    1 ∉ (onTick (fun _ => [(1, .periodic per)]) ⟨7, 2, some now⟩ (onTick (fun _ => [(1, .periodic per)]) ⟨7, 1, some now⟩ fresh).2).1 ∧
    1 ∈ (onTick (fun _ => [(1, .periodic per)]) ⟨7, 2, some now⟩ (restart (onTick (fun _ => [(1, .periodic per)]) ⟨7, 1, some now⟩ fresh).2)).1 := by
  constructor
  · have h2 : ¬ (now + per ≤ now) := by omega
    simp [onTick, evaluate, rule, scheduleNext, actionEffect, fresh, emptySched, Sched.set, h2]
  · simp [onTick, evaluate, rule, scheduleNext, actionEffect, fresh, emptySched, restart]

/-- removing an entry: only that position goes, and its next time is forgotten -/
theorem remove_ok (comp : Nat) (t : Table) (p : Nat) (s : St) :
    ((removeEntry comp t p s).1 = true ↔ ∃ k, (p, k) ∈ t) ∧ (∀ e, e ∈ (removeEntry comp t p s).2.1 ↔ e ∈ t ∧ e.1 ≠ p) ∧
    (∀ per, Sorted t → (p, Kind.periodic per) ∈ t → ∀ c q, (removeEntry comp t p s).2.2.schedule c q = if c = comp ∧ q = p then none else s.schedule c q) := by
  unfold removeEntry
  cases hf : t.find? (fun e => decide (e.1 = p)) with
  | none =>
    rw [List.find?_eq_none] at hf
    have hn : ∀ e ∈ t, e.1 ≠ p := fun e he h => by have := hf e he; simp [h] at this
    refine ⟨by simp; intro k hk; exact hn _ hk rfl, fun e => ⟨fun h => ⟨h, hn e h⟩, fun h => h.1⟩, ?_⟩
    intro per _ hp; exact absurd rfl (hn _ hp)
  | some e =>
    obtain ⟨q, k⟩ := e
    have hm := List.mem_of_find?_eq_some hf
    have hq : q = p := by have := List.find?_some hf; simpa using this
    subst hq
    simp only
    refine ⟨⟨fun _ => ⟨k, hm⟩, fun _ => trivial⟩, fun e => by simp [List.mem_filter], ?_⟩
    intro per hs hp c q'
    have hk : k = Kind.periodic per := by
      clear hf
      induction t with
      | nil => simp at hm
      | cons a t ih =>
        unfold Sorted at hs
        rw [List.pairwise_cons] at hs
        rcases List.mem_cons.1 hm with e | e <;> rcases List.mem_cons.1 hp with e' | e'
        · rw [← e] at e'; injection e' with _ e'; exact e'.symm
        · subst e; exact absurd (hs.1 _ e') (Nat.lt_irrefl _)
        · subst e'; exact absurd (hs.1 _ e) (Nat.lt_irrefl _)
        · exact ih e hs.2 e'
    subst hk
    simp [Sched.set]

end Verif.Cron
