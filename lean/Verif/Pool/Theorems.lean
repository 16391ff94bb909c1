/-
What the pool guarantees (C58).
-/
import Verif.Pool.Spec
import Mathlib.Data.List.Nodup
import Mathlib.Data.List.Perm.Basic

set_option linter.unusedSimpArgs false
set_option linter.unusedVariables false

namespace Verif.Pool
open Verif.Pool.Spec

/-- All elements are in exactly one of the two queues. -/
structure Inv (n : Nat) (p : Pool) : Prop where
  max : p.max = n
  perm : (p.free ++ p.used).Perm (List.range n)

theorem Inv.init (n : Nat) : Inv n (Pool.init n) := ⟨rfl, by simp [Pool.init]⟩

theorem Inv.alloc {n p} (h : Inv n p) : Inv n (alloc p).2 := by
  unfold Pool.alloc
  cases hf : p.free with
  | nil => exact h
  | cons e r =>
    refine ⟨h.max, ?_⟩
    have := h.perm
    rw [hf] at this
    refine List.Perm.trans ?_ this
    simp only [List.cons_append]
    rw [← List.append_assoc]
    exact List.perm_append_singleton e (r ++ p.used)

theorem Inv.gives {n p} (h : Inv n p) (e : Nat) (ok : Bool) : Inv n (giveBack e ok p).2 := by
  unfold giveBack
  split
  · exact h
  · split
    · rename_i hc
      split
      · refine ⟨h.max, ?_⟩
        refine List.Perm.trans ?_ h.perm
        simp only [List.append_assoc, List.singleton_append]
        exact List.Perm.append_left _ (List.perm_cons_erase (by simpa using hc)).symm
      · exact h
    · exact h

theorem Inv.lens {n p} (h : Inv n p) : p.free.length + p.used.length = n := by
  have := h.perm.length_eq
  simpa using this

theorem Inv.nodup {n p} (h : Inv n p) : (p.free ++ p.used).Nodup := h.perm.nodup_iff.mpr List.nodup_range

theorem free_ok_iff {n p} (h : Inv n p) (e : Nat) : (giveBack e true p).1 = .ok () ↔ e ∈ p.used := by
  unfold giveBack
  have hl := h.lens
  have hm := h.max
  constructor
  · intro hh
    split at hh
    · cases hh
    · split at hh
      · rename_i hc; simpa using hc
      · cases hh
  · intro he
    have : p.used.length ≠ 0 := by
      intro h0
      rw [List.length_eq_zero_iff.mp h0] at he
      cases he
    rw [if_neg (by omega), if_pos (by simpa using he)]
    simp

theorem step_held {n p} (h : Inv n p) (o : Op) : (step p o).2.used = holdStep p.used (step p o).1 ∧ Inv n (step p o).2 := by
  cases o with
  | alloc =>
    have hi := h.alloc
    unfold step
    cases hf : p.free with
    | nil =>
      have : Pool.alloc p = (.error .noFree, p) := by simp [Pool.alloc, hf]
      simp only [this]
      exact ⟨rfl, h⟩
    | cons e r =>
      have : Pool.alloc p = (.ok e, { p with
        free := r
        used := p.used ++ [e] }) := by simp [Pool.alloc, hf]
      rw [this] at hi
      simp only [this]
      exact ⟨rfl, hi⟩
  | free e ok =>
    have hi := h.gives e ok
    unfold step
    by_cases h1 : p.free.length = p.max
    · have : giveBack e ok p = (.error .allFree, p) := by simp [giveBack, h1]
      simp only [this]
      exact ⟨rfl, h⟩
    · by_cases h2 : e ∈ p.used
      · cases ok with
        | true =>
          have : giveBack e true p = (.ok (), { p with
            used := p.used.erase e
            free := p.free ++ [e] }) := by simp [giveBack, h1, h2]
          rw [this] at hi
          simp only [this]
          exact ⟨rfl, hi⟩
        | false =>
          have : giveBack e false p = (.error .callback, p) := by simp [giveBack, h1, h2]
          simp only [this]
          exact ⟨rfl, h⟩
      · have : giveBack e ok p = (.error .unknown, p) := by simp [giveBack, h1, h2]
        simp only [this]
        exact ⟨rfl, h⟩

theorem run_held {n} (ops : List Op) : ∀ {p}, Inv n p →
    (run p ops).2.used = (run p ops).1.foldl holdStep p.used ∧ Inv n (run p ops).2 := by
  induction ops with
  | nil => intro p h; exact ⟨rfl, h⟩
  | cons o r ih =>
    intro p h
    obtain ⟨a, b⟩ := step_held h o
    obtain ⟨c, d⟩ := ih b
    refine ⟨?_, d⟩
    simp only [run, List.foldl_cons]
    rw [c, a]

/-- The state after a history, by what the callers saw. -/
theorem reach {n ops tr p} (h : run (Pool.init n) ops = (tr, p)) : p.used = held tr ∧ Inv n p := by
  have := run_held ops (Inv.init n)
  rw [h] at this
  exact this

/-- **C58**: no element is in two hands, and all are elements of the pool. -/
theorem one_owner {n ops tr p} (h : run (Pool.init n) ops = (tr, p)) :
    (held tr).Nodup ∧ ∀ e ∈ held tr, e < n := by
  obtain ⟨hu, hi⟩ := reach h
  rw [← hu]
  refine ⟨(List.nodup_append.mp hi.nodup).2.1, ?_⟩
  intro e he
  have := hi.perm.mem_iff.mp (List.mem_append_right _ he)
  simpa using this

/-- **C58**: an element is given out exactly if fewer than `n` are held, and nobody holds it. -/
theorem alloc_gives {n ops tr p} (h : run (Pool.init n) ops = (tr, p)) :
    ((∃ e, (step p .alloc).1 = .got e) ↔ (held tr).length < n) ∧
    ((step p .alloc).1 = .threw .noFree ↔ (held tr).length = n) ∧
    ∀ e, (step p .alloc).1 = .got e → e ∉ held tr ∧ e < n := by
  obtain ⟨hu, hi⟩ := reach h
  rw [← hu]
  have hl := hi.lens
  cases hf : p.free with
  | nil =>
    have : Pool.alloc p = (.error .noFree, p) := by simp [Pool.alloc, hf]
    rw [hf] at hl
    simp at hl
    simp [step, this, hl]
  | cons e r =>
    have ha : Pool.alloc p = (.ok e, { p with
      free := r
      used := p.used ++ [e] }) := by simp [Pool.alloc, hf]
    rw [hf] at hl
    simp at hl
    have hs : (step p .alloc).1 = .got e := by simp [step, ha]
    rw [hs]
    have hlt : p.used.length < n := by omega
    refine ⟨⟨fun _ => hlt, fun _ => ⟨e, rfl⟩⟩, ⟨fun hh => by simp at hh, fun hh => by exfalso; omega⟩, ?_⟩
    intro x hx
    cases hx
    have hn := hi.nodup
    rw [hf] at hn
    refine ⟨fun hm => (List.nodup_cons.mp hn).1 (List.mem_append_right _ hm), ?_⟩
    have := hi.perm.mem_iff.mp (show e ∈ p.free ++ p.used by rw [hf]; simp)
    simpa using this

/-- **C58**: an element can be given back exactly by who holds it, once; a refused call changes nothing. -/
theorem free_takes {n ops tr p} (h : run (Pool.init n) ops = (tr, p)) (e : Nat) (ok : Bool) :
    ((step p (.free e ok)).1 = .gave e ↔ e ∈ held tr ∧ ok = true) ∧
    (∀ x, (step p (.free e ok)).1 = .threw x → (step p (.free e ok)).2 = p) := by
  obtain ⟨hu, hi⟩ := reach h
  rw [← hu]
  have hl := hi.lens
  have hm := hi.max
  by_cases h1 : p.free.length = p.max
  · have : giveBack e ok p = (.error .allFree, p) := by simp [giveBack, h1]
    have h0 : p.used = [] := List.length_eq_zero_iff.mp (by omega)
    simp [step, this, h0]
  · by_cases h2 : e ∈ p.used
    · cases ok <;> simp [step, giveBack, h1, h2]
    · have : giveBack e ok p = (.error .unknown, p) := by simp [giveBack, h1, h2]
      simp [step, this, h2]

/-- **C58**: the counters tell how many are held. -/
theorem counts {n ops tr p} (h : run (Pool.init n) ops = (tr, p)) :
    numUsed p = (held tr).length ∧ numFree p + (held tr).length = n ∧
    (empty p = true ↔ (held tr).length = n) ∧ (full p = true ↔ held tr = []) := by
  obtain ⟨hu, hi⟩ := reach h
  have hl := hi.lens
  rw [← hu]
  refine ⟨rfl, hl, ?_, ?_⟩
  · simp only [empty, List.isEmpty_iff, ← List.length_eq_zero_iff]; omega
  · simp [full]

theorem step_idle (p : Pool) (o : Op) : (step p o).2.free = idleStep p.free (step p o).1 := by
  cases o with
  | alloc =>
    unfold step
    cases hf : p.free with
    | nil =>
      have : Pool.alloc p = (.error .noFree, p) := by simp [Pool.alloc, hf]
      simp only [this]
      exact hf
    | cons e r =>
      have : Pool.alloc p = (.ok e, { p with
        free := r
        used := p.used ++ [e] }) := by simp [Pool.alloc, hf]
      simp only [this, idleStep, List.erase_cons_head]
  | free e ok =>
    unfold step
    by_cases h1 : p.free.length = p.max
    · have : giveBack e ok p = (.error .allFree, p) := by simp [giveBack, h1]
      simp only [this]; rfl
    · by_cases h2 : e ∈ p.used
      · cases ok with
        | true =>
          have : giveBack e true p = (.ok (), { p with
            used := p.used.erase e
            free := p.free ++ [e] }) := by simp [giveBack, h1, h2]
          simp only [this]; rfl
        | false =>
          have : giveBack e false p = (.error .callback, p) := by simp [giveBack, h1, h2]
          simp only [this]; rfl
      · have : giveBack e ok p = (.error .unknown, p) := by simp [giveBack, h1, h2]
        simp only [this]; rfl

theorem run_idle (ops : List Op) : ∀ p, (run p ops).2.free = (run p ops).1.foldl idleStep p.free := by
  induction ops with
  | nil => intro p; rfl
  | cons o r ih =>
    intro p
    simp only [run, List.foldl_cons]
    rw [ih, step_idle]

/-- **C58**: the element that is given out is the one that nobody has held for the longest time. -/
theorem longest_idle_first {n ops tr p e} (h : run (Pool.init n) ops = (tr, p)) (hg : (step p .alloc).1 = .got e) :
    (idle n tr).head? = some e := by
  have hr := run_idle ops (Pool.init n)
  rw [h] at hr
  have hi : p.free = idle n tr := hr
  rw [← hi]
  cases hf : p.free with
  | nil =>
    have : Pool.alloc p = (.error .noFree, p) := by simp [Pool.alloc, hf]
    simp [step, this] at hg
  | cons x r =>
    have : Pool.alloc p = (.ok x, { p with
      free := r
      used := p.used ++ [x] }) := by simp [Pool.alloc, hf]
    simp only [step, this, Ev.got.injEq] at hg
    simp [hg]

/-! ### The contexts of a source -/

/-- The contexts are the elements that the source holds. -/
structure SInv (n : Nat) (s : Src) : Prop where
  inv : Inv n s.pool
  same : s.pool.used = s.ctxs

theorem SInv.get {n} (k : Nat) : ∀ {s}, SInv n s → SInv n (getBlocks k s).2 ∧
    (getBlocks k s).1 = min k (n - s.ctxs.length) ∧
    (getBlocks k s).2.ctxs.length = s.ctxs.length + (getBlocks k s).1 ∧ s.ctxs <+: (getBlocks k s).2.ctxs := by
  induction k with
  | zero => intro s h; exact ⟨h, by simp [getBlocks], by simp [getBlocks], by simp [getBlocks]⟩
  | succ k ih =>
    intro s h
    have hl := h.inv.lens
    rw [h.same] at hl
    cases hf : s.pool.free with
    | nil =>
      rw [hf] at hl
      simp at hl
      have he : Pool.empty s.pool = true := by simp [Pool.empty, hf]
      simp only [getBlocks, he, if_true]
      exact ⟨h, by omega, rfl, List.prefix_refl _⟩
    | cons e r =>
      rw [hf] at hl
      simp at hl
      have he : Pool.empty s.pool = false := by simp [Pool.empty, hf]
      have ha : Pool.alloc s.pool = (.ok e, { s.pool with
        free := r
        used := s.pool.used ++ [e] }) := by simp [Pool.alloc, hf]
      have hi := h.inv.alloc
      rw [ha] at hi
      simp only [getBlocks, he, ha, Bool.false_eq_true, if_false]
      obtain ⟨a, b, c, d⟩ := ih (s := ⟨_, s.ctxs ++ [e]⟩) ⟨hi, by simp [h.same]⟩
      refine ⟨a, ?_, ?_, ?_⟩
      · rw [b]; simp only [List.length_append, List.length_singleton]; omega
      · rw [c]; simp only [List.length_append, List.length_singleton]; omega
      · exact List.IsPrefix.trans (List.prefix_append _ _) d

theorem free_head {n p e r} (h : Inv n p) (hu : p.used = e :: r) :
    giveBack e true p = (.ok (), { p with
      used := r
      free := p.free ++ [e] }) := by
  have hl := h.lens
  have hm := h.max
  rw [hu] at hl
  simp at hl
  unfold giveBack
  rw [if_neg (by omega), if_pos (by simp [hu])]
  simp [hu]

theorem SInv.finish {n s} (h : SInv n s) : SInv n (finish true s).2 ∧ (finish true s).1 = .ok () ∧
    (finish true s).2.ctxs = s.ctxs.tail := by
  unfold Pool.finish
  cases hc : s.ctxs with
  | nil => exact ⟨h, rfl, hc⟩
  | cons e r =>
    have hf := free_head h.inv (h.same.trans hc)
    have hi := h.inv.gives e true
    rw [hf] at hi
    simp only [hf]
    exact ⟨⟨hi, rfl⟩, trivial, rfl⟩

theorem freeAll_true {n} (l : List Nat) : ∀ {p}, Inv n p → p.used = l →
    (freeAll (fun _ => true) l p).1 = .ok () ∧ Inv n (freeAll (fun _ => true) l p).2 ∧
    (freeAll (fun _ => true) l p).2.used = [] := by
  induction l with
  | nil => intro p h hu; exact ⟨rfl, h, hu⟩
  | cons e r ih =>
    intro p h hu
    have hf := free_head h hu
    have hi := h.gives e true
    rw [hf] at hi
    simp only [freeAll, hf]
    exact ih hi rfl

theorem SInv.clear {n s} (h : SInv n s) : SInv n (clear (fun _ => true) s).2 ∧
    (clear (fun _ => true) s).1 = .ok () ∧ (clear (fun _ => true) s).2.ctxs = [] := by
  obtain ⟨a, b, c⟩ := freeAll_true s.ctxs h.inv h.same
  unfold Pool.clear
  generalize freeAll (fun _ => true) s.ctxs s.pool = x at a b c
  obtain ⟨x1, x2⟩ := x
  simp only at a b c
  subst a
  exact ⟨⟨b, c⟩, rfl, rfl⟩

theorem SInv.run {n} (ops : List SOp) : ∀ {s}, SInv n s → SInv n (srun s ops) := by
  induction ops with
  | nil => intro s h; exact h
  | cons o r ih =>
    intro s h
    cases o with
    | get k => exact ih (h.get k).1
    | finish => exact ih h.finish.1
    | clear => exact ih h.clear.1

theorem SInv.init (n : Nat) : SInv n (Src.init n) := ⟨Inv.init n, rfl⟩

/-- **C58**: as long as no job throws, the contexts of a source are different elements of the pool, no other is
taken, `getBlocks` starts as many jobs as are wanted and possible, giving back never throws, and after
`clear` the pool is full: the assertions of BCStateTran.cpp:1803 and 3321 hold. -/
theorem contexts {n ops s} (h : srun (Src.init n) ops = s) :
    s.ctxs.Nodup ∧ numFree s.pool + s.ctxs.length = n ∧
    (∀ k, (getBlocks k s).1 = min k (n - s.ctxs.length)) ∧
    (∀ k, (getBlocks k s).2.ctxs.length = s.ctxs.length + (getBlocks k s).1) ∧
    (finish true s).1 = .ok () ∧ (finish true s).2.ctxs = s.ctxs.tail ∧
    (clear (fun _ => true) s).1 = .ok () ∧ (clear (fun _ => true) s).2.ctxs = [] ∧
    full (clear (fun _ => true) s).2.pool = true := by
  have hi : SInv n s := h ▸ (SInv.init n).run ops
  have hl := hi.inv.lens
  have hc := hi.clear
  refine ⟨?_, ?_, fun k => (hi.get k).2.1, fun k => (hi.get k).2.2.1, hi.finish.2.1, hi.finish.2.2, hc.2.1, hc.2.2, ?_⟩
  · rw [← hi.same]; exact (List.nodup_append.mp hi.inv.nodup).2.1
  · rw [← hi.same]; exact hl
  · have := hc.1.same
    rw [hc.2.2] at this
    simp [full, this]

/-- **C58 (BUG129)**: if the job of a context other than the first threw, `clear` gives back the contexts before
it but keeps them in the list: from then on every `clear` throws at its first context, and nothing is given
back any more.  (The exception is not caught above: both threads that may run this end the process,
Handoff.hpp:159-162, IncomingMsgsStorageImp.cpp:198-201; see `Handoff` and `Inbox`.) -/
theorem clear_wedged {n ops s} (h : srun (Src.init n) ops = s) {a b r ok} (hc : s.ctxs = a :: b :: r)
    (ha : ok a = true) (hb : ok b = false) :
    (clear ok s).1 = .error .callback ∧ a ∉ (clear ok s).2.pool.used ∧
    ∀ ok', ∃ x, clear ok' (clear ok s).2 = (.error x, (clear ok s).2) := by
  have hi : SInv n s := h ▸ (SInv.init n).run ops
  have hu := hi.same.trans hc
  have hf := free_head hi.inv hu
  have hi1 := hi.inv.gives a true
  rw [hf] at hi1
  have hnd := (List.nodup_append.mp hi.inv.nodup).2.1
  rw [hu] at hnd
  have hna : a ∉ b :: r := (List.nodup_cons.mp hnd).1
  have hl := hi.inv.lens
  have hm := hi.inv.max
  rw [hu] at hl
  simp only [List.length_cons] at hl
  have hf2 : giveBack b false { s.pool with
      used := b :: r
      free := s.pool.free ++ [a] } = (.error .callback, { s.pool with
      used := b :: r
      free := s.pool.free ++ [a] }) := by
    unfold giveBack
    rw [if_neg (by simp only [List.length_append, List.length_singleton]; omega), if_pos (by simp)]
    simp
  have hcl : clear ok s = (.error .callback, ⟨{ s.pool with
      used := b :: r
      free := s.pool.free ++ [a] }, s.ctxs⟩) := by
    unfold Pool.clear
    rw [hc]
    simp only [freeAll, ha, hf, hb, hf2]
  rw [hcl]
  refine ⟨rfl, hna, ?_⟩
  intro ok'
  refine ⟨.unknown, ?_⟩
  unfold Pool.clear
  rw [hc]
  have : ∀ q, giveBack a q { s.pool with
      used := b :: r
      free := s.pool.free ++ [a] } = (.error .unknown, { s.pool with
      used := b :: r
      free := s.pool.free ++ [a] }) := by
    intro q
    unfold giveBack
    rw [if_neg (by simp only [List.length_append, List.length_singleton]; omega), if_neg (by simpa using hna)]
  simp only [freeAll, this]

end Verif.Pool
