import Verif.Window.Spec
/-!
C07, C08: the ring buffer refines the map specification.
-/
namespace Concord.Window
open Spec

variable {α : Type} {g : Cfg} {init : α}

theorem mod_inj {t x y : Nat} (h : x % t = y % t) (hle : x ≤ y) (hlt : y < x + t) : x = y := by
  have h1 : t ∣ y - x := Nat.dvd_of_mod_eq_zero (Nat.sub_mod_eq_zero_of_mod_eq h.symm)
  obtain ⟨k, hk⟩ := h1
  cases k with
  | zero => omega
  | succ k => rw [Nat.mul_succ] at hk; omega

theorem mod_mod_add (a b t : Nat) : (a % t + b) % t = (a + b) % t := by simp [Nat.add_mod]

theorem resetLoop_at {total : Nat} : ∀ (k i : Nat) (a : Nat → α) (j : Nat), i < total → j < total →
    resetLoop init total k i a j = if ∃ x, x < k ∧ j = (i + x) % total then init else a j
  | 0, i, a, j, _, _ => by simp [resetLoop]
  | k + 1, i, a, j, hi, hj => by
    unfold resetLoop
    rw [resetLoop_at k _ _ j (Nat.mod_lt _ (by omega)) hj]
    by_cases h : ∃ x, x < k ∧ j = ((i + 1) % total + x) % total
    · rw [if_pos h, if_pos]
      obtain ⟨x, hx, hjx⟩ := h
      exact ⟨x + 1, by omega, by rw [hjx, mod_mod_add]; congr 1; omega⟩
    · rw [if_neg h]
      by_cases hji : j = i
      · rw [if_pos hji, if_pos]
        exact ⟨0, by omega, by rw [Nat.add_zero, Nat.mod_eq_of_lt hi]; exact hji⟩
      · rw [if_neg hji, if_neg]
        rintro ⟨x, hx, hjx⟩
        cases x with
        | zero => rw [Nat.add_zero, Nat.mod_eq_of_lt hi] at hjx; exact hji hjx
        | succ x => exact h ⟨x, by omega, by rw [hjx, mod_mod_add]; congr 1; omega⟩

/-- position of the item at offset `o` from the oldest retained one -/
def pos (g : Cfg) (w : Win α) (o : Nat) : Nat := (w.first + g.total - w.nHist + o) % g.total

structure Rel (g : Cfg) (w : Win α) (a : St α) : Prop where
  begin : w.begin = a.begin
  dvd : g.R ∣ w.begin
  lo : a.lo + w.nHist * g.R = w.begin
  hist : w.nHist ≤ g.maxHist
  first : w.first < g.total
  items : ∀ o, o < w.nHist + g.n → w.arr (pos g w o) = a.m (a.lo + o * g.R)

theorem total_pos (hg : g.Ok) : 0 < g.total := by have := hg.items; unfold Cfg.total; omega

/-- numbers of the retained range and offsets -/
theorem offset (hg : g.Ok) {w : Win α} {a : St α} (h : Rel g w a) {s : Nat} (hs : g.R ∣ s)
    (hlo : a.lo ≤ s) (hhi : s < a.begin + g.W) :
    ∃ o, s = a.lo + o * g.R ∧ o < w.nHist + g.n ∧ (a.begin ≤ s ↔ w.nHist ≤ o) := by
  have hR := hg.res
  have hdlo : g.R ∣ a.lo := (Nat.dvd_add_left (Nat.dvd_mul_left ..)).1 (h.lo ▸ h.dvd)
  obtain ⟨o, ho⟩ := (Nat.dvd_sub hs hdlo)
  have hb := h.begin
  have hl := h.lo
  refine ⟨o, by rw [Nat.mul_comm]; omega, ?_, ?_⟩
  · unfold Cfg.W at hhi
    have h1 : g.R * o < (w.nHist + g.n) * g.R := by rw [Nat.add_mul]; omega
    rw [Nat.mul_comm] at h1
    exact Nat.lt_of_mul_lt_mul_right h1
  · constructor
    · intro hbs
      have h1 : w.nHist * g.R ≤ o * g.R := by rw [Nat.mul_comm o]; omega
      exact Nat.le_of_mul_le_mul_right h1 hR
    · intro hno
      have h1 := Nat.mul_le_mul_right g.R hno
      rw [Nat.mul_comm o] at h1
      omega

theorem idx_eq (hg : g.Ok) {w : Win α} {a : St α} (h : Rel g w a) (s : Nat) :
    w.idx g s = if g.R ∣ s ∧ a.begin ≤ s ∧ s < a.begin + g.W then some (pos g w ((s - a.lo) / g.R)) else none := by
  unfold Win.idx Win.insideActiveWindow
  simp only [Bool.and_eq_true, decide_eq_true_eq, h.begin, Nat.dvd_iff_mod_eq_zero]
  split
  · next hc =>
    obtain ⟨h1, h2, h3⟩ := hc
    rw [← Nat.dvd_iff_mod_eq_zero] at h1
    have hl := h.lo
    have hb := h.begin
    obtain ⟨o, rfl, ho, hio⟩ := offset hg h h1 (by omega) h3
    have hno := hio.1 h2
    congr 1
    unfold pos
    have e1 : (a.lo + o * g.R - a.lo) / g.R = o := by
      rw [Nat.add_sub_cancel_left, Nat.mul_div_cancel _ hg.res]
    have e2 : (a.lo + o * g.R - a.begin) / g.R = o - w.nHist := by
      rw [← hb, ← hl, show a.lo + o * g.R - (a.lo + w.nHist * g.R) = (o - w.nHist) * g.R by
        rw [Nat.sub_mul]; omega, Nat.mul_div_cancel _ hg.res]
    rw [e1, e2]
    have hh := h.hist
    have : w.first + g.total - w.nHist + o = w.first + (o - w.nHist) + g.total := by
      unfold Cfg.total; omega
    rw [this, Nat.add_mod_right]
  · rfl

theorem idxHist_eq {w : Win α} {a : St α} (h : Rel g w a) (s : Nat) :
    w.idxHist g s = if g.R ∣ s ∧ a.lo ≤ s ∧ s < a.begin then some (pos g w ((s - a.lo) / g.R)) else none := by
  unfold Win.idxHist Win.inHistory Win.beginHist
  have hl := h.lo
  have hb := h.begin
  have hlo : w.begin - w.nHist * g.R = a.lo := by omega
  rw [hlo]
  by_cases h0 : 0 < w.nHist
  · simp only [h0, if_true, Bool.and_eq_true, decide_eq_true_eq, h.begin, Nat.dvd_iff_mod_eq_zero, h.hist, pos]
    split
    · next hc => rw [if_pos ⟨hc.2.1, hc.1⟩]
    · next hc => rw [if_neg]; rintro ⟨h1, h2⟩; exact hc ⟨h2, h1, trivial, trivial⟩
  · have : w.nHist = 0 := by omega
    rw [this] at hl
    simp only [h0, if_false]
    rw [if_neg (by simp), if_neg (by rintro ⟨_, h2, h3⟩; omega)]

theorem inHistory_eq {w : Win α} {a : St α} (h : Rel g w a) (s : Nat) :
    w.inHistory g s = decide (a.lo ≤ s ∧ s < a.begin) := by
  unfold Win.inHistory Win.beginHist
  have hl := h.lo
  have hb := h.begin
  have hlo : w.begin - w.nHist * g.R = a.lo := by omega
  rw [hlo]
  split
  · rw [hb, Bool.decide_and]
  · next h0 =>
    have : w.nHist = 0 := by omega
    rw [this] at hl
    symm; rw [decide_eq_false_iff_not]; omega

theorem inside_eq {w : Win α} {a : St α} (h : Rel g w a) (s : Nat) :
    w.insideActiveWindow g s = decide (a.begin ≤ s ∧ s < a.begin + g.W) := by
  unfold Win.insideActiveWindow; rw [h.begin, Bool.decide_and]

theorem idxAny_eq (hg : g.Ok) {w : Win α} {a : St α} (h : Rel g w a) (s : Nat) :
    w.idxAny g s = if g.R ∣ s ∧ a.lo ≤ s ∧ s < a.begin + g.W then some (pos g w ((s - a.lo) / g.R)) else none := by
  unfold Win.idxAny
  rw [inside_eq h, inHistory_eq h, idx_eq hg h, idxHist_eq h]
  have hl := h.lo
  have hb := h.begin
  simp only [decide_eq_true_eq]
  by_cases h1 : a.begin ≤ s ∧ s < a.begin + g.W
  · rw [if_pos h1]
    by_cases hd : g.R ∣ s
    · rw [if_pos ⟨hd, h1⟩, if_pos ⟨hd, by omega, h1.2⟩]
    · rw [if_neg (by simp [hd]), if_neg (by simp [hd])]
  · rw [if_neg h1]
    by_cases h2 : a.lo ≤ s ∧ s < a.begin
    · rw [if_pos h2]
      by_cases hd : g.R ∣ s
      · rw [if_pos ⟨hd, h2⟩, if_pos ⟨hd, h2.1, by omega⟩]
      · rw [if_neg (by simp [hd]), if_neg (by simp [hd])]
    · rw [if_neg h2, if_neg]
      rintro ⟨_, h3, h4⟩
      exact h2 ⟨h3, by omega⟩

theorem pos_inj {w : Win α} {a : St α} (h : Rel g w a) {o o' : Nat} (ho : o < w.nHist + g.n)
    (ho' : o' < w.nHist + g.n) (heq : pos g w o = pos g w o') : o = o' := by
  have hh := h.hist
  unfold pos at heq
  have ht : g.total = g.maxHist + g.n := rfl
  rcases Nat.le_total o o' with hle | hle
  · have := mod_inj heq (by omega) (by omega); omega
  · have := mod_inj heq.symm (by omega) (by omega); omega

theorem lookup (hg : g.Ok) {w : Win α} {a : St α} (h : Rel g w a) {s : Nat} (hs : g.R ∣ s)
    (hlo : a.lo ≤ s) (hhi : s < a.begin + g.W) : w.arr (pos g w ((s - a.lo) / g.R)) = a.m s := by
  obtain ⟨o, rfl, ho, _⟩ := offset hg h hs hlo hhi
  have e1 : (a.lo + o * g.R - a.lo) / g.R = o := by
    rw [Nat.add_sub_cancel_left, Nat.mul_div_cancel _ hg.res]
  rw [e1]; exact h.items o ho

theorem put_rel (hg : g.Ok) {w : Win α} {a : St α} (h : Rel g w a) {s : Nat} (x : α) (hs : g.R ∣ s)
    (hlo : a.lo ≤ s) (hhi : s < a.begin + g.W) :
    Rel g (w.put (pos g w ((s - a.lo) / g.R)) x) (Spec.set a s x) := by
  obtain ⟨o, rfl, ho, _⟩ := offset hg h hs hlo hhi
  have e1 : (a.lo + o * g.R - a.lo) / g.R = o := by
    rw [Nat.add_sub_cancel_left, Nat.mul_div_cancel _ hg.res]
  rw [e1]
  refine ⟨h.begin, h.dvd, h.lo, h.hist, h.first, ?_⟩
  intro o' ho'
  have hp : pos g (w.put (pos g w o) x) o' = pos g w o' := rfl
  rw [hp]
  simp only [Win.put, Spec.set]
  by_cases heq : o' = o
  · subst heq; simp
  · rw [if_neg (fun hc => heq (pos_inj h ho' ho hc)), if_neg]
    · exact h.items o' ho'
    · intro hc
      have : o' * g.R = o * g.R := by omega
      exact heq (Nat.eq_of_mul_eq_mul_right hg.res this)

theorem create_rel (hg : g.Ok) {f : Nat} {w : Win α} (hw : Concord.Window.create g init f = some w) :
    ∃ a, Spec.create g init f = some a ∧ Rel g w a := by
  unfold Concord.Window.create at hw
  split at hw
  · next h0 =>
    cases hw
    refine ⟨⟨f, f, fun _ => init⟩, ?_, ⟨rfl, Nat.dvd_iff_mod_eq_zero.2 h0, by simp, by simp, total_pos hg, fun _ _ => rfl⟩⟩
    unfold Spec.create; rw [if_pos (Nat.dvd_iff_mod_eq_zero.2 h0)]
  · cases hw

/-- results of the two agree, and the relation is kept -/
inductive RelRes (g : Cfg) : Option (Win α × Out α) → Option (St α × Out α) → Prop
  | fail : RelRes g none none
  | ok {w a r} : Rel g w a → RelRes g (some (w, r)) (some (a, r))

theorem reset_rel {w : Win α} {f : Nat} (hfirst : w.first < g.total) (hf : g.R ∣ f) :
    Rel g { w with arr := fun _ => init, begin := f, nHist := 0 } (⟨f, f, fun _ => init⟩ : St α) :=
  ⟨rfl, hf, by simp, by simp, hfirst, fun _ _ => rfl⟩

theorem advance_rel (hg : g.Ok) {w : Win α} {a : St α} (h : Rel g w a) (f : Nat) :
    RelRes g ((w.advance g init f).map (fun w' => (w', Out.unit))) (Spec.step g init a (.advance f)) := by
  unfold Win.advance Spec.step
  have hb := h.begin
  have hl := h.lo
  simp only [hb, ← Nat.dvd_iff_mod_eq_zero]
  by_cases hc : g.R ∣ f ∧ a.begin ≤ f
  · rw [if_pos hc, if_pos hc]
    have hHW : g.H * g.W = g.maxHist * g.R := by unfold Cfg.W Cfg.maxHist; rw [Nat.mul_assoc]
    have hhist := Nat.mul_le_mul_right g.R h.hist
    by_cases h0 : f = a.begin
    · rw [if_pos h0, if_neg (by omega), h0]
      refine .ok ⟨hb, h.dvd, ?_, h.hist, h.first, ?_⟩
      · simp only [hHW]; omega
      · intro o ho
        have hlo : max a.lo (a.begin - g.H * g.W) = a.lo := by rw [hHW]; omega
        simp only [hlo]
        rw [if_neg, h.items o ho]
        have : (o + 1) * g.R ≤ (w.nHist + g.n) * g.R := Nat.mul_le_mul_right _ ho
        have hR := hg.res
        rw [Nat.add_mul, Nat.add_mul] at this
        unfold Cfg.W; omega
    · rw [if_neg h0]
      by_cases h1 : f - a.begin > g.W
      · rw [if_pos h1, if_pos h1]
        unfold Win.resetAll
        rw [if_pos (Nat.dvd_iff_mod_eq_zero.1 hc.1)]
        exact .ok (reset_rel h.first hc.1)
      · rw [if_neg h1, if_neg h1]
        have hR := hg.res
        obtain ⟨k, hk⟩ := Nat.dvd_sub hc.1 (hb ▸ h.dvd : g.R ∣ a.begin)
        have hkR : f = a.begin + k * g.R := by rw [Nat.mul_comm]; omega
        have hkd : (f - a.begin) / g.R = k := by rw [hk, Nat.mul_div_cancel_left _ hR]
        have hkn : k ≤ g.n := by
          have h2 : k * g.R ≤ g.n * g.R := by unfold Cfg.W at h1; rw [Nat.mul_comm k]; omega
          exact Nat.le_of_mul_le_mul_right h2 hR
        have hk0 : 0 < k := by
          rcases Nat.eq_zero_or_pos k with rfl | hp
          · simp at hkR; exact absurd hkR h0
          · exact hp
        simp only [hkd, hk0, hkn, and_self, if_true, Option.map_some]
        have ht : g.total = g.maxHist + g.n := rfl
        have htp := total_pos hg
        have hh := h.hist
        -- the new number of history items
        generalize hnh : (if w.nHist + k > g.maxHist then g.maxHist else w.nHist + k) = nh
        have hnh1 : nh ≤ g.maxHist ∧ nh ≤ w.nHist + k ∧ (nh = g.maxHist ∨ nh = w.nHist + k) := by
          rw [← hnh]; split <;> omega
        have hlo' : max a.lo (f - g.H * g.W) + nh * g.R = f := by
          rw [hHW]
          rcases hnh1.2.2 with he | he
          · have h3 : g.maxHist * g.R ≤ (w.nHist + k) * g.R := Nat.mul_le_mul_right _ (by omega)
            rw [Nat.add_mul] at h3
            rw [he]; omega
          · have h3 : nh * g.R ≤ g.maxHist * g.R := Nat.mul_le_mul_right _ hnh1.1
            rw [he, Nat.add_mul] at h3 ⊢; omega
        refine .ok ⟨rfl, hc.1, hlo', hnh1.1, Nat.mod_lt _ htp, ?_⟩
        intro o ho
        simp only
        simp only at ho
        -- offset in the old numbering
        have hδ : w.nHist + k - nh + nh = w.nHist + k := by omega
        generalize hδe : w.nHist + k - nh = δ at hδ
        have hlo2 : max a.lo (f - g.H * g.W) + o * g.R = a.lo + (δ + o) * g.R := by
          have h4 : (δ + nh) * g.R = (w.nHist + k) * g.R := by rw [hδ]
          rw [Nat.add_mul, Nat.add_mul] at h4
          rw [Nat.add_mul]
          omega
        have hpos : pos g (⟨f, (w.first + k) % g.total, nh,
            resetLoop init g.total k ((w.first + g.n) % g.total) w.arr⟩ : Win α) o
            = (w.first + g.total - w.nHist + (δ + o)) % g.total := by
          unfold pos
          simp only
          rw [show (w.first + k) % g.total + g.total - nh + o = (w.first + k) % g.total + (g.total - nh + o) by omega,
            mod_mod_add]
          congr 1
          omega
        rw [hpos, resetLoop_at _ _ _ _ (Nat.mod_lt _ htp) (Nat.mod_lt _ htp), hlo2]
        by_cases hnew : δ + o < w.nHist + g.n
        · rw [if_neg, if_neg]
          · exact h.items (δ + o) hnew
          · have : (δ + o + 1) * g.R ≤ (w.nHist + g.n) * g.R := Nat.mul_le_mul_right _ hnew
            rw [Nat.add_mul (δ + o), Nat.add_mul w.nHist] at this
            unfold Cfg.W; omega
          · rintro ⟨x, hx, hxe⟩
            rw [mod_mod_add] at hxe
            have h5 : (w.first + g.total - w.nHist + (δ + o)) % g.total =
                (w.first + g.total - w.nHist + (w.nHist + g.n + x)) % g.total := by
              rw [hxe, show w.first + g.total - w.nHist + (w.nHist + g.n + x) = w.first + g.n + x + g.total by omega,
                Nat.add_mod_right]
            have := mod_inj h5 (by omega) (by omega)
            omega
        · rw [if_pos, if_pos]
          · have : (w.nHist + g.n) * g.R ≤ (δ + o) * g.R := Nat.mul_le_mul_right _ (by omega)
            rw [Nat.add_mul w.nHist] at this
            unfold Cfg.W; omega
          · refine ⟨δ + o - (w.nHist + g.n), by omega, ?_⟩
            rw [mod_mod_add, ← Nat.add_mod_right (w.first + g.n + _)]
            congr 1
            omega
  · rw [if_neg hc, if_neg hc]; exact .fail

theorem step_rel (hg : g.Ok) {w : Win α} {a : St α} (h : Rel g w a) (o : Op α) :
    RelRes g (w.step g init o) (Spec.step g init a o) := by
  have hl := h.lo
  have hb := h.begin
  cases o with
  | read s =>
    simp only [Win.step, Spec.step, idx_eq hg h]
    split
    · next hc => simp only [Option.map_some]; rw [lookup hg h hc.1 (by omega) hc.2.2]; exact .ok h
    · exact .fail
  | readHist s =>
    simp only [Win.step, Spec.step, idxHist_eq h]
    split
    · next hc => simp only [Option.map_some]; rw [lookup hg h hc.1 (by omega) (by omega)]; exact .ok h
    · exact .fail
  | readAny s =>
    simp only [Win.step, Spec.step, idxAny_eq hg h]
    split
    · next hc => simp only [Option.map_some]; rw [lookup hg h hc.1 (by omega) (by omega)]; exact .ok h
    · exact .fail
  | write s x =>
    simp only [Win.step, Spec.step, idx_eq hg h]
    split
    · next hc => simp only [Option.map_some]; exact .ok (put_rel hg h x hc.1 (by omega) (by omega))
    · exact .fail
  | writeHist s x =>
    simp only [Win.step, Spec.step, idxHist_eq h]
    split
    · next hc => simp only [Option.map_some]; exact .ok (put_rel hg h x hc.1 (by omega) (by omega))
    · exact .fail
  | writeAny s x =>
    simp only [Win.step, Spec.step, idxAny_eq hg h]
    split
    · next hc => simp only [Option.map_some]; exact .ok (put_rel hg h x hc.1 (by omega) (by omega))
    · exact .fail
  | inside s => simp only [Win.step, Spec.step, inside_eq h]; exact .ok h
  | inHist s => simp only [Win.step, Spec.step, inHistory_eq h]; exact .ok h
  | advance f => exact advance_rel hg h f
  | resetAll f =>
    simp only [Win.step, Spec.step, Win.resetAll, ← Nat.dvd_iff_mod_eq_zero]
    split
    · next hc => exact .ok (reset_rel h.first hc)
    · exact .fail

theorem run_rel (hg : g.Ok) : ∀ (os : List (Op α)) {w : Win α} {a : St α}, Rel g w a →
    (w.run g init os).map (·.2) = (Spec.run g init a os).map (·.2)
  | [], _, _, _ => rfl
  | o :: os, w, a, h => by
    unfold Win.run Spec.run
    generalize hw : w.step g init o = rw' 
    generalize ha : Spec.step g init a o = ra
    have := step_rel (init := init) hg h o
    rw [hw, ha] at this
    cases this with
    | fail => rfl
    | @ok w' a' r h' =>
      simp only
      have ih := run_rel hg os h'
      cases h1 : w'.run g init os <;> cases h2 : Spec.run g init a' os <;>
        simp_all

end Concord.Window
