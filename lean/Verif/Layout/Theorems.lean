/-
Every component has reserved pages of its own (C54).
-/
import Verif.Layout.Spec
import Verif.Clients.Model
import Verif.Replicas.Model
import Verif.Consensus.Quorum

set_option linter.unusedSimpArgs false
set_option linter.unusedVariables false

namespace Verif.Layout

theorem lt_strict : Rp.Strict lt where
  irrefl a := by simp [lt]
  trans a b c h1 h2 := by
    simp only [lt, decide_eq_true_eq] at *
    exact Nat.lt_trans h1 h2
  total a b h := by
    simp only [lt, decide_eq_true_eq]
    omega

/-- All pages of a registry. -/
def sum : List (Nat × Nat) → Nat
  | [] => 0
  | e :: r => e.2 + sum r

theorem u32_small {n : Nat} (h : n < 2 ^ 32) : u32 n = n := Nat.mod_eq_of_lt h

theorem totalPages_eq (reg : List (Nat × Nat)) (h : sum reg < 2 ^ 32) : totalPages reg = sum reg := by
  have key : ∀ (l : List (Nat × Nat)) (a : Nat), a + sum l < 2 ^ 32 →
      l.foldl (fun a e => u32 (a + e.2)) a = a + sum l := by
    intro l
    induction l with
    | nil => intro a _; rfl
    | cons e r ih =>
      intro a ha
      have ha : a + (e.2 + sum r) < 2 ^ 32 := ha
      rw [List.foldl_cons, u32_small (by omega), ih _ (by omega)]
      show a + e.2 + sum r = a + (e.2 + sum r)
      omega
  have := key reg 0 (by omega)
  rw [totalPages, this]
  omega

theorem place_range {t : Nat} : ∀ (reg : List (Nat × Nat)) (off n : Nat), off + sum reg < 2 ^ 32 →
    Rp.get t reg = some n → ∃ o, place t reg off = some o ∧ off ≤ o ∧ o + n ≤ off + sum reg
  | [], _, _, _, h => by cases h
  | e :: r, off, n, hs, h => by
    have hs : off + (e.2 + sum r) < 2 ^ 32 := hs
    show ∃ o, place t (e :: r) off = some o ∧ off ≤ o ∧ o + n ≤ off + (e.2 + sum r)
    rw [Rp.get] at h
    rw [place]
    by_cases he : e.1 = t
    · rw [if_pos he] at h ⊢
      cases h
      exact ⟨off, rfl, Nat.le_refl _, by omega⟩
    · rw [if_neg he] at h ⊢
      rw [u32_small (by omega)]
      obtain ⟨o, h1, h2, h3⟩ := place_range r (off + e.2) n (by omega) h
      exact ⟨o, h1, by omega, by omega⟩

theorem place_disjoint {t t' : Nat} (hne : t ≠ t') : ∀ (reg : List (Nat × Nat)) (off n n' o o' : Nat),
    off + sum reg < 2 ^ 32 → Rp.get t reg = some n → Rp.get t' reg = some n' →
    place t reg off = some o → place t' reg off = some o' → o + n ≤ o' ∨ o' + n' ≤ o
  | [], _, _, _, _, _, _, h, _, _, _ => by cases h
  | e :: r, off, n, n', o, o', hs, h, h', c, c' => by
    have hs : off + (e.2 + sum r) < 2 ^ 32 := hs
    rw [Rp.get] at h h'
    rw [place] at c c'
    by_cases he : e.1 = t
    · have he' : e.1 ≠ t' := by rw [he]; exact hne
      rw [if_pos he] at h c
      rw [if_neg he'] at h' c'
      cases h; cases c
      rw [u32_small (by omega)] at c'
      obtain ⟨o2, h1, h2, h3⟩ := place_range r (off + e.2) n' (by omega) h'
      rw [c'] at h1
      cases h1
      exact .inl h2
    · rw [if_neg he] at h c
      by_cases he' : e.1 = t'
      · rw [if_pos he'] at h' c'
        cases h'; cases c'
        rw [u32_small (by omega)] at c
        obtain ⟨o2, h1, h2, h3⟩ := place_range r (off + e.2) n (by omega) h
        rw [c] at h1
        cases h1
        exact .inr h2
      · rw [if_neg he'] at h' c'
        exact place_disjoint hne r _ n n' o o' (by rw [u32_small (by omega)]; omega) h h' c c'

/-! ### The start -/

theorem run_append {size : Nat} : ∀ (a b : List Op) {s : St},
    run size (a ++ b) s = match run size a s with
      | none => none
      | some (as, s1) => match run size b s1 with
        | none => none
        | some (bs, s2) => some (as ++ bs, s2)
  | [], b, s => by
    show run size b s = match run size b s with | none => none | some (bs, s2) => some ([] ++ bs, s2)
    cases run size b s <;> rfl
  | o :: r, b, s => by
    show (match step size s o with | none => none | some (a, s) => match run size (r ++ b) s with
      | none => none | some (as, s) => some (a :: as, s)) = _
    rw [run]
    cases step size s o with
    | none => rfl
    | some p =>
      obtain ⟨a, s1⟩ := p
      simp only
      rw [run_append r b]
      cases run size r s1 with
      | none => rfl
      | some q =>
        obtain ⟨as, s2⟩ := q
        simp only
        cases run size b s2 with
        | none => rfl
        | some q => rfl

/-- What the start does: the registry is sorted and says what was asked for; nothing else happened. -/
theorem start_spec {size : Nat} : ∀ (ops : List Op) {s : St} {as : List (Option Bytes)} {s' : St},
    (∀ o ∈ ops, Spec.IsStart o) → run size ops s = some (as, s') → Rp.Inc lt s.reg →
    Rp.Inc lt s'.reg ∧ s'.cache = s.cache ∧ s'.pages = s.pages ∧ s'.total = s.total ∧
      (∀ t, Rp.get t s'.reg = match Spec.number t ops with | some n => some n | none => Rp.get t s.reg) ∧
      as.length = ops.length
  | [], s, as, s', _, h, hi => by
    cases h
    exact ⟨hi, rfl, rfl, rfl, fun t => rfl, rfl⟩
  | o :: r, s, as, s', hs, h, hi => by
    have key : ∃ t n, (o = .register t n ∨ o = .setNum t n) ∧
        step size s o = some (none, { s with reg := Rp.put lt t n s.reg }) := by
      rw [run] at h
      have ho := hs o (List.mem_cons_self ..)
      cases o with
      | register t n =>
        refine ⟨t, n, .inl rfl, ?_⟩
        rw [step]
        cases hg : Rp.get t s.reg with
        | none => rfl
        | some v => rw [step, hg] at h; cases h
      | setNum t n =>
        refine ⟨t, n, .inr rfl, ?_⟩
        rw [step]
        cases hg : Rp.get t s.reg with
        | some v => rfl
        | none => rw [step, hg] at h; cases h
      | start => cases ho
      | load t p l => cases ho
      | save t p b => cases ho
      | zero t p => cases ho
      | transfer p => cases ho
    obtain ⟨t, n, ho, hst⟩ := key
    rw [run, hst] at h
    simp only at h
    cases hr : run size r { s with reg := Rp.put lt t n s.reg } with
    | none => rw [hr] at h; cases h
    | some p =>
      obtain ⟨as2, s2⟩ := p
      rw [hr] at h
      cases h
      obtain ⟨h1, h2, h3, h4, h5, h6⟩ := start_spec r (fun o ho => hs o (List.mem_cons_of_mem _ ho)) hr (hi.put lt_strict t n)
      refine ⟨h1, h2, h3, h4, fun t' => ?_, by simp [h6]⟩
      rw [h5 t']
      have hnum : Spec.number t' (o :: r) = match Spec.number t' r with
          | some n => some n
          | none => if t = t' then some n else none := by
        rcases ho with ho | ho <;> subst ho <;> rfl
      rw [hnum]
      cases Spec.number t' r with
      | some v => rfl
      | none =>
        show Rp.get t' (Rp.put lt t n s.reg) = _
        rw [Rp.get_put lt_strict hi]
        by_cases e : t = t'
        · rw [if_pos e, if_pos e.symm]
        · rw [if_neg e, if_neg (fun h => e h.symm)]

theorem startup {size : Nat} {ops : List Op} {as : List (Option Bytes)} {s : St} (h1 : ∀ o ∈ ops, Spec.IsStart o)
    (h2 : run size ops St.init = some (as, s)) :
    Rp.Inc lt s.reg ∧ s.cache = (fun _ => none) ∧ s.pages = (fun _ => none) ∧ s.total = 0 ∧
      (∀ t, Rp.get t s.reg = Spec.number t ops) ∧ as.length = ops.length := by
  obtain ⟨a, b, c, d, e, f⟩ := start_spec ops h1 h2 Rp.Inc.nil
  refine ⟨a, b, c, d, fun t => ?_, f⟩
  rw [e t]
  cases Spec.number t ops with
  | some n => rfl
  | none => rfl

/-! ### The pages in use -/

/-- The pages of the state transfer are the private pages, one after the other. -/
structure Inv (reg : List (Nat × Nat)) (s : St) (m : Spec.Private) : Prop where
  isReg : s.reg = reg
  total : s.total = sum reg
  cache : ∀ t o, s.cache t = some o → place t reg 0 = some o
  pages : ∀ t n o j, Rp.get t reg = some n → place t reg 0 = some o → j < n → s.pages (o + j) = m t j

theorem offset_spec {reg : List (Nat × Nat)} {s : St} {m : Spec.Private} (hi : Inv reg s m) (hs : sum reg < 2 ^ 32)
    {t n : Nat} (hg : Rp.get t reg = some n) :
    ∃ o s', offset t s = some (o, s') ∧ Inv reg s' m ∧ place t reg 0 = some o ∧ o + n ≤ sum reg ∧ s'.pages = s.pages := by
  obtain ⟨o, h1, h2, h3⟩ := place_range reg 0 n (by omega) hg
  unfold offset
  cases hc : s.cache t with
  | some o' =>
    have := hi.cache t o' hc
    rw [h1] at this
    cases this
    exact ⟨o, s, rfl, hi, h1, by omega, rfl⟩
  | none =>
    have hp : place t s.reg 0 = some o := by rw [hi.isReg]; exact h1
    simp only
    rw [hp]
    refine ⟨o, _, rfl, ⟨hi.isReg, hi.total, fun t' o' hc' => ?_, hi.pages⟩, h1, by omega, rfl⟩
    simp only at hc'
    split at hc'
    · rename_i e
      cases hc'
      rw [e]; exact h1
    · exact hi.cache t' o' hc'

/-- Writing a page of a component is writing its private page. -/
theorem write_inv {reg : List (Nat × Nat)} {s : St} {m : Spec.Private} (hi : Inv reg s m) (hs : sum reg < 2 ^ 32)
    {t n o j : Nat} (hg : Rp.get t reg = some n) (ho : place t reg 0 = some o) (hj : j < n) (v : Bytes) :
    Inv reg { s with pages := fun p => if p = o + j then some v else s.pages p }
      (fun t' p => if t' = t ∧ p = j then some v else m t' p) := by
  refine ⟨hi.isReg, hi.total, hi.cache, fun t' n' o' j' hg' ho' hj' => ?_⟩
  show (if o' + j' = o + j then some v else s.pages (o' + j')) = _
  by_cases ht : t' = t
  · subst ht
    rw [hg] at hg'
    rw [ho] at ho'
    cases hg'; cases ho'
    by_cases hjj : j' = j
    · rw [if_pos (by omega), if_pos ⟨rfl, hjj⟩]
    · rw [if_neg (by omega), if_neg (fun h => hjj h.2)]
      exact hi.pages t' n o j' hg ho hj'
  · have hd := place_disjoint ht reg 0 n' n o' o (by omega) hg' hg ho' ho
    rw [if_neg (by omega), if_neg (fun h => ht h.1)]
    exact hi.pages t' n' o' j' hg' ho' hj'

theorem step_own {size : Nat} {start : List Op} {reg : List (Nat × Nat)} {s : St} {m : Spec.Private}
    (hn : ∀ t, Rp.get t reg = Spec.number t start) (hi : Inv reg s m) (hs : sum reg < 2 ^ 32)
    {o : Op} (ho : Spec.Own size start o) :
    ∃ s', step size s o = some ((Spec.effect size m o).1, s') ∧ Inv reg s' (Spec.effect size m o).2 := by
  cases o with
  | register t n => cases ho
  | setNum t n => cases ho
  | start => cases ho
  | transfer p => cases ho
  | load t page len =>
    obtain ⟨⟨n, h1, h2⟩, h3⟩ := ho
    have hg : Rp.get t reg = some n := by rw [hn]; exact h1
    obtain ⟨o, s', e1, e2, e3, e4, e5⟩ := offset_spec hi hs hg
    have hu : u32 (o + page) = o + page := u32_small (by omega)
    refine ⟨s', ?_, e2⟩
    rw [step, e1]
    simp only
    rw [hu, if_pos (by rw [e2.total]; omega), if_pos h3, e2.pages t n o page hg e3 h2]
    rfl
  | save t page b =>
    obtain ⟨⟨n, h1, h2⟩, h3⟩ := ho
    have hg : Rp.get t reg = some n := by rw [hn]; exact h1
    obtain ⟨o, s', e1, e2, e3, e4, e5⟩ := offset_spec hi hs hg
    have hu : u32 (o + page) = o + page := u32_small (by omega)
    refine ⟨_, ?_, write_inv e2 hs hg e3 h2 _⟩
    rw [step, e1]
    simp only
    rw [hu, if_pos (by rw [e2.total]; omega), if_pos h3]
    rfl
  | zero t page =>
    obtain ⟨n, h1, h2⟩ := ho
    have hg : Rp.get t reg = some n := by rw [hn]; exact h1
    obtain ⟨o, s', e1, e2, e3, e4, e5⟩ := offset_spec hi hs hg
    have hu : u32 (o + page) = o + page := u32_small (by omega)
    refine ⟨_, ?_, write_inv e2 hs hg e3 h2 _⟩
    rw [step, e1]
    simp only
    rw [hu, if_pos (by rw [e2.total]; omega)]
    rfl

theorem run_own {size : Nat} {start : List Op} {reg : List (Nat × Nat)}
    (hn : ∀ t, Rp.get t reg = Spec.number t start) (hs : sum reg < 2 ^ 32) :
    ∀ (ops : List Op) {s : St} {m : Spec.Private}, Inv reg s m → (∀ o ∈ ops, Spec.Own size start o) →
    ∃ s', run size ops s = some (Spec.answers size m ops, s') ∧ Inv reg s' (Spec.after size m ops)
  | [], s, m, hi, _ => ⟨s, rfl, hi⟩
  | o :: r, s, m, hi, ho => by
    obtain ⟨s1, h1, h2⟩ := step_own hn hi hs (ho o (List.mem_cons_self ..))
    obtain ⟨s2, h3, h4⟩ := run_own hn hs r h2 (fun o' ho' => ho o' (List.mem_cons_of_mem _ ho'))
    refine ⟨s2, ?_, h4⟩
    rw [run, h1]
    simp only
    rw [h3]
    rfl

theorem started_inv {size : Nat} {start : List Op} {as : List (Option Bytes)} {s : St}
    (h1 : ∀ o ∈ start, Spec.IsStart o) (h2 : run size start St.init = some (as, s)) (hs : sum s.reg < 2 ^ 32)
    (pg : Nat → Option Bytes) :
    Inv s.reg { s with total := totalPages s.reg, pages := pg }
      (fun t j => match place t s.reg 0 with | some o => pg (o + j) | none => none) := by
  obtain ⟨a, b, c, d, e, f⟩ := startup h1 h2
  refine ⟨rfl, totalPages_eq _ hs, fun t o h => ?_, fun t n o j hg ho hj => ?_⟩
  · have h : s.cache t = some o := h
    rw [b] at h
    cases h
  · show pg (o + j) = _
    rw [ho]

/-- **C54**: whatever components register in whatever order, and whatever numbers of pages they are given before
the start: as long as each uses only pages it asked for (and there are less than 2^32 in all), no operation
fails and every component reads what it wrote itself - as if each had pages of its own. -/
theorem private_pages {size : Nat} {start ops : List Op} {as : List (Option Bytes)} {s : St}
    (h1 : ∀ o ∈ start, Spec.IsStart o) (h2 : run size start St.init = some (as, s)) (hs : sum s.reg < 2 ^ 32)
    (ho : ∀ o ∈ ops, Spec.Own size start o) :
    ∃ s', run size (start ++ .start :: ops) St.init =
      some (as ++ none :: Spec.answers size (fun _ _ => none) ops, s') := by
  obtain ⟨a, b, c, d, e, f⟩ := startup h1 h2
  have hi := started_inv h1 h2 hs s.pages
  obtain ⟨s', h3, _⟩ := run_own e hs ops hi ho
  refine ⟨s', ?_⟩
  rw [run_append, h2]
  simp only
  rw [run]
  simp only [step]
  have hm : (fun t j => match place t s.reg 0 with | some o => s.pages (o + j) | none => none) =
      (fun (_ _ : Nat) => (none : Option Bytes)) := by
    funext t j
    rw [c]
    cases place t s.reg 0 <;> rfl
  rw [hm] at h3
  rw [show ({ s with total := totalPages s.reg } : St) = { s with total := totalPages s.reg, pages := s.pages } from rfl, h3]

/-- **C54**: two processes that give every component the same number of pages put the pages at the same places,
whatever the order in which components register and numbers are given. -/
theorem same_layout {size size' : Nat} {start start' : List Op} {as as' : List (Option Bytes)} {s s' : St}
    (h1 : ∀ o ∈ start, Spec.IsStart o) (h2 : run size start St.init = some (as, s))
    (h1' : ∀ o ∈ start', Spec.IsStart o) (h2' : run size' start' St.init = some (as', s'))
    (hn : ∀ t, Spec.number t start = Spec.number t start') : s.reg = s'.reg := by
  obtain ⟨a, _, _, _, e, _⟩ := startup h1 h2
  obtain ⟨a', _, _, _, e', _⟩ := startup h1' h2'
  refine Rp.Inc.ext lt_strict a a' fun x => ?_
  obtain ⟨t, n⟩ := x
  rw [← a.get_mem lt_strict, ← a'.get_mem lt_strict, e, e', hn]

/-- The state of a process after the start and operations on own pages. -/
theorem private_state {size : Nat} {start ops : List Op} {as : List (Option Bytes)} {s : St}
    (h1 : ∀ o ∈ start, Spec.IsStart o) (h2 : run size start St.init = some (as, s)) (hs : sum s.reg < 2 ^ 32)
    (ho : ∀ o ∈ ops, Spec.Own size start o) :
    ∃ as' s', run size (start ++ .start :: ops) St.init = some (as', s') ∧
      Inv s.reg s' (Spec.after size (fun _ _ => none) ops) := by
  obtain ⟨a, b, c, d, e, f⟩ := startup h1 h2
  have hi := started_inv h1 h2 hs s.pages
  have hm : (fun t j => match place t s.reg 0 with | some o => s.pages (o + j) | none => none) =
      (fun (_ _ : Nat) => (none : Option Bytes)) := by
    funext t j
    rw [c]
    cases place t s.reg 0 <;> rfl
  rw [hm] at hi
  obtain ⟨s', h3, h4⟩ := run_own e hs ops hi ho
  refine ⟨as ++ none :: Spec.answers size (fun _ _ => none) ops, s', ?_, h4⟩
  rw [run_append, h2]
  simp only
  rw [run]
  simp only [step]
  rw [show ({ s with total := totalPages s.reg } : St) = { s with total := totalPages s.reg, pages := s.pages } from rfl, h3]

/-- **C54**: a replica that receives the pages of another one by state transfer, where both give the components the
same numbers of pages, goes on with what each component of the other replica wrote. -/
theorem transferred_pages {size : Nat} {start start' opsA opsB ops : List Op} {as as' asA : List (Option Bytes)}
    {s s' sA : St}
    (h1 : ∀ o ∈ start, Spec.IsStart o) (h2 : run size start St.init = some (as, s))
    (h1' : ∀ o ∈ start', Spec.IsStart o) (h2' : run size start' St.init = some (as', s'))
    (hn : ∀ t, Spec.number t start = Spec.number t start') (hs : sum s.reg < 2 ^ 32)
    (hoA : ∀ o ∈ opsA, Spec.Own size start o) (hoB : ∀ o ∈ opsB, Spec.Own size start' o)
    (ho : ∀ o ∈ ops, Spec.Own size start' o)
    (hA : run size (start ++ .start :: opsA) St.init = some (asA, sA)) :
    ∃ asB sB, run size (start' ++ .start :: opsB ++ .transfer sA.pages :: ops) St.init =
      some (asB ++ none :: Spec.answers size (Spec.after size (fun _ _ => none) opsA) ops, sB) := by
  have hreg := same_layout h1 h2 h1' h2' hn
  obtain ⟨_, sA', hA', hiA⟩ := private_state h1 h2 hs hoA
  rw [hA] at hA'
  cases hA'
  have hs' : sum s'.reg < 2 ^ 32 := by rw [← hreg]; exact hs
  obtain ⟨asB, sB, hB, hiB⟩ := private_state h1' h2' hs' hoB
  obtain ⟨_, _, _, _, e', _⟩ := startup h1' h2'
  have hi : Inv s'.reg { sB with pages := sA.pages } (Spec.after size (fun _ _ => none) opsA) :=
    ⟨hiB.isReg, hiB.total, hiB.cache, fun t n o j hg hp hj =>
      hiA.pages t n o j (by rw [hreg]; exact hg) (by rw [hreg]; exact hp) hj⟩
  obtain ⟨sC, h3, _⟩ := run_own e' hs' ops hi ho
  refine ⟨asB, sC, ?_⟩
  rw [run_append, hB]
  simp only
  rw [run]
  simp only [step]
  rw [h3]

/-- **C54**: before the start of the state transfer there are no pages: using one ends the process (which is why
no component can have kept a place from before the numbers were set). -/
theorem early_use_ends {size : Nat} {start : List Op} {as : List (Option Bytes)} {s : St}
    (h1 : ∀ o ∈ start, Spec.IsStart o) (h2 : run size start St.init = some (as, s)) (t page : Nat) (b : Bytes) (len : Nat)
    (r : List Op) :
    run size (start ++ .load t page len :: r) St.init = none ∧
    run size (start ++ .save t page b :: r) St.init = none ∧
    run size (start ++ .zero t page :: r) St.init = none := by
  obtain ⟨_, _, _, ht, _, _⟩ := startup h1 h2
  have key : ∀ o s', offset t s = some (o, s') → s'.total = 0 := by
    intro o s' h
    unfold offset at h
    cases hc : s.cache t with
    | some o' =>
      rw [hc] at h
      cases h
      exact ht
    | none =>
      rw [hc] at h
      simp only at h
      cases hp : place t s.reg 0 with
      | none => rw [hp] at h; cases h
      | some o' =>
        rw [hp] at h
        cases h
        exact ht
  refine ⟨?_, ?_, ?_⟩
  all_goals
    rw [run_append, h2]
    simp only
    rw [run, step]
    cases hof : offset t s with
    | none => rfl
    | some p =>
      obtain ⟨o, s'⟩ := p
      have := key o s' hof
      simp only
      rw [if_neg (by omega)]

/-- The page ids of a component are not checked (ReservedPagesClient.hpp:104-116): one page beyond its own is the
first page of the next component. -/
theorem stray_page {size : Nat} {reg : List (Nat × Nat)} {s : St} {m : Spec.Private} (hi : Inv reg s m)
    (hs : sum reg < 2 ^ 32) {t t' n n' o : Nat} (hg : Rp.get t reg = some n) (hg' : Rp.get t' reg = some n')
    (hp : place t reg 0 = some o) (hp' : place t' reg 0 = some (o + n)) (hn' : 0 < n') {b : Bytes} (hb : b.length ≤ size)
    {len : Nat} (hl : len ≤ size) :
    ∃ s1 s2, step size s (.save t n b) = some (none, s1) ∧
      step size s1 (.load t' 0 len) = some (some ((pad size b).take len), s2) := by
  obtain ⟨o1, sa, e1, e2, e3, e4, e5⟩ := offset_spec hi hs hg
  rw [hp] at e3
  cases e3
  obtain ⟨o2, f1, f2, f3⟩ := place_range reg 0 n' (by omega) hg'
  rw [hp'] at f1
  cases f1
  have hu : u32 (o + n) = o + n := u32_small (by omega)
  have hi1 : Inv reg { sa with pages := fun p => if p = o + n then some (pad size b) else sa.pages p }
      (fun t2 p => if t2 = t' ∧ p = 0 then some (pad size b) else m t2 p) :=
    write_inv e2 hs hg' hp' hn' (pad size b)
  obtain ⟨o3, sb, g1, g2, g3, g4, g5⟩ := offset_spec hi1 hs hg'
  rw [hp'] at g3
  cases g3
  refine ⟨{ sa with pages := fun p => if p = o + n then some (pad size b) else sa.pages p }, sb, ?_, ?_⟩
  · rw [step, e1]
    simp only
    rw [hu, if_pos (by rw [e2.total]; omega), if_pos hb]
  · rw [step, g1]
    simp only
    rw [show u32 (o + n + 0) = o + n from hu, if_pos (by rw [g2.total]; omega), if_pos hl, g5]
    simp

/-! ### The pages of the clients manager -/

/-- Its configuration in a replica: the client ids (ClientsManager.cpp:220-228 with ReplicasInfo.cpp:77-152), the
number of requests per client (ClientsManager.cpp:208-212). -/
structure Configured (r : Replicas.Config) (c : Clients.Cfg) : Prop where
  ids : c.ids.Nodup
  valid : ∀ i ∈ c.ids, i < r.numReplicas + r.numRo ∨ Replicas.isProxy r i = true ∨ Replicas.isExternal r i = true ∨
    Replicas.isService r i = true ∨ Replicas.isInternal r i = true

/-- What ReplicaForStateTransfer.cpp:51-57 asks for. -/
def asked (r : Replicas.Config) (c : Clients.Cfg) : Nat :=
  (r.numReplicas + r.numRo + r.numProxies + r.numExternal + r.numReplicas + r.numServices) * Clients.perClient c

theorem valid_lt {r : Replicas.Config} (hr : 1 ≤ r.numReplicas) {i : Nat}
    (h : i < r.numReplicas + r.numRo ∨ Replicas.isProxy r i = true ∨ Replicas.isExternal r i = true ∨
      Replicas.isService r i = true ∨ Replicas.isInternal r i = true) :
    i < r.numReplicas + r.numRo + r.numProxies + r.numExternal + r.numReplicas + r.numServices := by
  simp only [Replicas.isProxy, Replicas.isExternal, Replicas.isService, Replicas.isInternal, Replicas.extEnd,
    Bool.and_eq_true, Bool.or_eq_true, decide_eq_true_eq, beq_iff_eq] at h
  rcases h with h | h | h | h | h
  · omega
  · omega
  · rcases h with h | h
    · have := of_decide_eq_true h.2
      omega
    · omega
  · have := of_decide_eq_true h.2
    omega
  · have := of_decide_eq_true h.2
    omega

/-- **C54**: what is asked for is enough: the page of the key of a client, and every page of a reply of any index
in a batch, is a page of the clients manager. -/
theorem clients_fit {r : Replicas.Config} {c : Clients.Cfg} (hr : 1 ≤ r.numReplicas) (hc : Configured r c) {i : Nat}
    (hi : i ∈ c.ids) :
    Clients.keyPage c i < asked r c ∧
      ∀ idx j, idx < c.maxReqs → j < Clients.perReq c →
        Clients.replyPage c i + Clients.reqOffset c idx + j < asked r c := by
  have hlen : c.ids.length ≤ r.numReplicas + r.numRo + r.numProxies + r.numExternal + r.numReplicas + r.numServices :=
    Concord.Quorum.nodup_length_le _ _ hc.ids (fun x hx => valid_lt hr (hc.valid x hx))
  have hix : c.ids.idxOf i < c.ids.length := List.idxOf_lt_length_iff.mpr hi
  have hmul : (c.ids.idxOf i + 1) * Clients.perClient c ≤ asked r c :=
    Nat.mul_le_mul_right _ (Nat.le_trans hix hlen)
  rw [Nat.add_mul, Nat.one_mul] at hmul
  have hpc : Clients.perClient c = Clients.perReq c * c.maxReqs + 1 := rfl
  refine ⟨?_, fun idx j h1 h2 => ?_⟩
  · show c.ids.idxOf i * Clients.perClient c < _
    omega
  · have hoff : Clients.reqOffset c idx ≤ idx * Clients.perReq c := Nat.mod_le _ _
    have hm : (idx + 1) * Clients.perReq c ≤ c.maxReqs * Clients.perReq c := Nat.mul_le_mul_right _ h1
    rw [Nat.add_mul, Nat.one_mul, Nat.mul_comm c.maxReqs] at hm
    show c.ids.idxOf i * Clients.perClient c + 1 + Clients.reqOffset c idx + j < _
    omega

/-- **C54**: so the hypothesis of `private_pages` is met by the clients manager. -/
theorem clients_own {size : Nat} {start : List Op} {r : Replicas.Config} {c : Clients.Cfg} (hr : 1 ≤ r.numReplicas)
    (hc : Configured r c) {cm : Nat} (hn : Spec.number cm start = some (asked r c)) {i : Nat} (hi : i ∈ c.ids)
    {b : Bytes} (hb : b.length ≤ size) :
    Spec.Own size start (.save cm (Clients.keyPage c i) b) ∧
      ∀ idx j, idx < c.maxReqs → j < Clients.perReq c →
        Spec.Own size start (.save cm (Clients.replyPage c i + Clients.reqOffset c idx + j) b) :=
  ⟨⟨⟨_, hn, (clients_fit hr hc hi).1⟩, hb⟩,
   fun idx j h1 h2 => ⟨⟨_, hn, (clients_fit hr hc hi).2 idx j h1 h2⟩, hb⟩⟩

end Verif.Layout
