/-
Sequence numbers of a client never repeat and always grow (C53).
-/
import Verif.SeqGen.Model

set_option linter.unusedSimpArgs false
set_option linter.unusedVariables false

namespace Verif.SeqGen

/-- The numbers of one millisecond. -/
@[irreducible] def unit : Nat := 2 ^ 22

theorem unit_eq : unit = 2 ^ 22 := by unfold unit; rfl

theorem unit_lit : unit = 4194304 := by unfold unit; rfl

/-- The position of a state on the line of numbers. -/
def State.value (s : State) : Nat := s.milli * unit + s.count

/-- The year 2109. -/
@[irreducible] def endOfTime : Nat := 2 ^ 42

theorem end_eq : endOfTime = 2 ^ 42 := by unfold endOfTime; rfl

theorem end_lt : endOfTime < 18446744073709551616 := by rw [end_eq]; decide

theorem toU64_small {c : Int} (h0 : 0 ≤ c) (h : c < (endOfTime : Int)) : toU64 c = c.toNat := by
  unfold toU64
  rw [Int.emod_eq_of_lt h0 (Int.lt_trans h (by have := end_lt; omega))]

theorem limit_eq : limit = 4194303 := rfl

theorem advance_count (c : Int) {s : State} (h : s.count ≤ limit) : (advance c s).count ≤ limit := by
  unfold advance
  split
  · exact Nat.zero_le _
  · split
    · exact Nat.zero_le _
    · rename_i h2
      have h2 : s.count ≠ limit := by simpa using h2
      rw [limit_eq] at *
      show (s.count + 1) % 4294967296 ≤ 4194303
      omega

theorem number_value {s : State} (h : s.count ≤ limit) (hm : s.milli < endOfTime) :
    number s = some s.value := by
  unfold number State.value
  rw [if_pos h, unit_eq]
  have h2 : s.count < 2 ^ 22 := Nat.lt_of_le_of_lt h (by decide)
  have e : s.milli <<< (64 - 42) = 2 ^ 22 * s.milli := by rw [Nat.shiftLeft_eq, Nat.mul_comm]
  have hb : 2 ^ 22 * s.milli < 18446744073709551616 := by
    have : 2 ^ 22 * s.milli < 2 ^ 22 * endOfTime := Nat.mul_lt_mul_of_pos_left hm (by decide)
    rw [end_eq] at this
    exact Nat.lt_of_lt_of_le this (by decide)
  rw [e, Nat.mod_eq_of_lt hb, Nat.mul_comm s.milli, Nat.two_pow_add_eq_or_of_lt h2 s.milli]

theorem carry (m K c : Nat) (h : c + 1 = K) : (m + 1) * K + 0 = m * K + c + 1 := by
  rw [Nat.add_mul, Nat.one_mul, Nat.add_zero, Nat.add_assoc, h]

theorem advance_value {c : Int} {s : State} (hc : s.count ≤ limit) (h0 : 0 ≤ c) (hb : c < (endOfTime : Int))
    (hm : s.milli + 1 < endOfTime) :
    (advance c s).value = if c.toNat > s.milli then c.toNat * unit else s.value + 1 := by
  unfold advance State.value
  rw [toU64_small h0 hb]
  by_cases h1 : c.toNat > s.milli
  · rw [if_pos h1, if_pos h1]
    rfl
  · rw [if_neg h1, if_neg h1]
    by_cases h2 : s.count = limit
    · rw [if_pos (by simpa using h2)]
      show (s.milli + 1) % 18446744073709551616 * unit + 0 = _
      rw [Nat.mod_eq_of_lt (Nat.lt_trans hm end_lt)]
      exact carry _ _ _ (by rw [h2, unit_lit]; rfl)
    · rw [if_neg (by simpa using h2)]
      show s.milli * unit + (s.count + 1) % 4294967296 = _
      rw [limit_eq] at hc
      rw [Nat.mod_eq_of_lt (by omega), Nat.add_assoc]

theorem advance_milli {c : Int} {s : State} (hc : s.count ≤ limit) (h0 : 0 ≤ c) (hb : c < (endOfTime : Int))
    (hm : s.milli + 1 < endOfTime) : (advance c s).milli ≤ max c.toNat (s.milli + 1) := by
  unfold advance
  rw [toU64_small h0 hb]
  by_cases h1 : c.toNat > s.milli
  · rw [if_pos h1]
    exact Nat.le_max_left _ _
  · rw [if_neg h1]
    by_cases h2 : s.count = limit
    · rw [if_pos (by simpa using h2)]
      show (s.milli + 1) % 18446744073709551616 ≤ _
      rw [Nat.mod_eq_of_lt (Nat.lt_trans hm end_lt)]
      exact Nat.le_max_right _ _
    · rw [if_neg (by simpa using h2)]
      exact Nat.le_trans (Nat.le_succ _) (Nat.le_max_right _ _)

theorem arith_lt {m x v A K : Nat} (hv : v < m * K + K) (hm : m * K ≤ v)
    (h : A = if x > m then x * K else v + 1) : v < A ∧ x * K ≤ A ∧
      ∀ b, x ≤ b → A ≤ max (b * K) v + 1 := by
  by_cases hx : x > m
  · rw [if_pos hx] at h
    have h1 : (m + 1) * K ≤ x * K := Nat.mul_le_mul_right _ hx
    rw [Nat.add_mul, Nat.one_mul] at h1
    refine ⟨by omega, by omega, fun b hb => ?_⟩
    have h2 : x * K ≤ b * K := Nat.mul_le_mul_right _ hb
    omega
  · rw [if_neg hx] at h
    have h1 : x * K ≤ m * K := Nat.mul_le_mul_right _ (by omega)
    refine ⟨by omega, by omega, fun b hb => ?_⟩
    omega

theorem arith_max {b K v A L n : Nat} (h : A ≤ max (b * K) v + 1) (hn : n ≤ max (b * K) A + L) :
    n ≤ max (b * K) v + (L + 1) := by
  generalize b * K = B at *
  omega

theorem arith_max' {b K v A L : Nat} (h : A ≤ max (b * K) v + 1) : A ≤ max (b * K) v + (L + 1) := by
  generalize b * K = B at *
  omega

theorem value_low (s : State) : s.milli * unit ≤ s.value := by
  unfold State.value
  exact Nat.le_add_right _ _

theorem value_high {s : State} (hc : s.count ≤ limit) : s.value < s.milli * unit + unit := by
  unfold State.value
  refine Nat.add_lt_add_left ?_ _
  rw [unit_eq]
  exact Nat.lt_of_le_of_lt hc (by decide)

theorem early {c : Int} {L m x E : Nat} (h0 : 0 ≤ c) (hb : c + ((L + 1 : Nat) : Int) < (E : Int)) (hm : m + (L + 1) < E)
    (hx : x ≤ max c.toNat (m + 1)) : x + L < E := by omega

/-- What a process does: all its numbers, and the state after it. -/
theorem numbers_spec (cs : List Int) : ∀ (s : State), s.count ≤ limit → s.milli + cs.length < endOfTime →
    (∀ c ∈ cs, 0 ≤ c ∧ c + cs.length < (endOfTime : Int)) →
    ∃ ns : List Nat, numbers cs s = ns.map some ∧ ns.length = cs.length ∧ ns.Pairwise (· < ·) ∧
      (∀ n ∈ ns, s.value < n) ∧
      (∀ (i : Nat) (c : Int) (n : Nat), cs[i]? = some c → ns[i]? = some n → c.toNat * unit ≤ n) ∧
      (∀ b : Nat, (∀ c ∈ cs, c.toNat ≤ b) → ∀ n ∈ ns, n ≤ max (b * unit) s.value + ns.length) := by
  induction cs with
  | nil =>
    intro s _ _ _
    refine ⟨[], ?_, ?_, List.Pairwise.nil, ?_, ?_, ?_⟩
    · unfold numbers; rfl
    · simp
    · intro n hn; cases hn
    · intro i c n hi; simp at hi
    · intro b _ n hn; cases hn
  | cons c r ih =>
    intro s hc hm hcs
    obtain ⟨h0, hb⟩ := hcs c (List.mem_cons_self ..)
    simp only [List.length_cons] at hm hb hcs
    have hb' : c < (endOfTime : Int) := by omega
    have hm' : s.milli + 1 < endOfTime := by omega
    have hcount := advance_count c hc
    have hval := advance_value hc h0 hb' hm'
    have hmil := advance_milli hc h0 hb' hm'
    have hmil2 : (advance c s).milli + r.length < endOfTime := early h0 hb hm hmil
    obtain ⟨ns, e1, e2, e3, e4, e5, e6⟩ := ih (advance c s) hcount hmil2 (fun c' hc' => by
      have := hcs c' (List.mem_cons_of_mem _ hc')
      omega)
    have hnum : number (advance c s) = some (advance c s).value := number_value hcount (Nat.lt_of_le_of_lt (Nat.le_add_right _ _) hmil2)
    obtain ⟨hlt, hge, hup⟩ := arith_lt (value_high hc) (value_low s) hval
    refine ⟨(advance c s).value :: ns, ?_, by simp [e2], ?_, ?_, ?_, ?_⟩
    · show number (advance c s) :: numbers r (advance c s) = _
      rw [hnum, e1]
      rfl
    · exact List.pairwise_cons.mpr ⟨e4, e3⟩
    · intro n hn
      rcases List.mem_cons.mp hn with e | e
      · rw [e]; exact hlt
      · exact Nat.lt_trans hlt (e4 n e)
    · intro i c' n hi hn
      cases i with
      | zero =>
        simp at hi hn
        subst hi; subst hn
        exact hge
      | succ i => exact e5 i c' n (by simpa using hi) (by simpa using hn)
    · intro b hbb n hn
      have hcb := hbb c (List.mem_cons_self ..)
      simp only [List.length_cons]
      rcases List.mem_cons.mp hn with e | e
      · rw [e]
        exact arith_max' (hup b hcb)
      · exact arith_max (hup b hcb) (e6 b (fun c' hc' => hbb c' (List.mem_cons_of_mem _ hc')) n e)

/-- **C53**: whatever the clock does - standing still, going back - the numbers of a process are defined (no
assertion fails) and each is greater than all earlier ones, as long as the clock plus the number of requests
stays below 2^42 milliseconds (the year 2109). -/
theorem strictly_increasing {cs : List Int} (h : ∀ c ∈ cs, 0 ≤ c ∧ c + cs.length < 2 ^ 42)
    (hl : cs.length < 2 ^ 42) :
    ∃ ns : List Nat, numbers cs State.init = ns.map some ∧ ns.length = cs.length ∧ ns.Pairwise (· < ·) := by
  obtain ⟨ns, h1, h2, h3, _⟩ := numbers_spec cs State.init (Nat.zero_le _)
    (by show 0 + cs.length < endOfTime; rw [end_eq]; omega) (fun c hc => by have := h c hc; rw [end_eq]; exact this)
  exact ⟨ns, h1, h2, h3⟩

/-- **C53**: a number is never behind the clock: it is at least the reading at its request, shifted. -/
theorem not_behind {cs : List Int} (h : ∀ c ∈ cs, 0 ≤ c ∧ c + cs.length < 2 ^ 42) (hl : cs.length < 2 ^ 42)
    {i : Nat} {c : Int} {n : Nat} (hc : cs[i]? = some c) (hn : (numbers cs State.init)[i]? = some (some n)) :
    c.toNat * 2 ^ 22 ≤ n := by
  rw [← unit_eq]
  obtain ⟨ns, h1, h2, _, _, h5, _⟩ := numbers_spec cs State.init (Nat.zero_le _)
    (by show 0 + cs.length < endOfTime; rw [end_eq]; omega) (fun c hc => by have := h c hc; rw [end_eq]; exact this)
  rw [h1, List.getElem?_map] at hn
  cases hx : ns[i]? with
  | none => rw [hx] at hn; cases hn
  | some m =>
    rw [hx] at hn
    have hn : m = n := by simpa using hn
    rw [← hn]
    exact h5 i c m hc hx

theorem exists_latest {cs : List Int} (hne : cs ≠ []) : ∃ c0 ∈ cs, ∀ c ∈ cs, c.toNat ≤ c0.toNat := by
  induction cs with
  | nil => exact absurd rfl hne
  | cons c r ih =>
    by_cases hr : r = []
    · subst hr
      refine ⟨c, List.mem_cons_self .., fun x hx => ?_⟩
      rcases List.mem_cons.mp hx with e | e
      · rw [e]; exact Nat.le_refl _
      · cases e
    · obtain ⟨c0, h1, h2⟩ := ih hr
      by_cases hcc : c.toNat ≤ c0.toNat
      · refine ⟨c0, List.mem_cons_of_mem _ h1, fun x hx => ?_⟩
        rcases List.mem_cons.mp hx with e | e
        · rw [e]; exact hcc
        · exact h2 x e
      · refine ⟨c, List.mem_cons_self .., fun x hx => ?_⟩
        rcases List.mem_cons.mp hx with e | e
        · rw [e]; exact Nat.le_refl _
        · exact Nat.le_trans (h2 x e) (Nat.le_of_lt (Nat.lt_of_not_le hcc))

/-- **C53**: after a restart that keeps nothing, every number is greater than all of the process before, if
the clock does not go back over the restart: each reading is later than all earlier ones by more than
(requests made before) / 2^22 milliseconds - one millisecond for up to 4194303 requests. -/
theorem restart_increasing {cs cs2 : List Int}
    (h : ∀ c ∈ cs, 0 ≤ c ∧ c + cs.length < 2 ^ 42) (hl : cs.length < 2 ^ 42)
    (h2 : ∀ c ∈ cs2, 0 ≤ c ∧ c + cs2.length < 2 ^ 42) (hl2 : cs2.length < 2 ^ 42)
    (hclock : ∀ c ∈ cs, ∀ c' ∈ cs2, c.toNat * 2 ^ 22 + cs.length < c'.toNat * 2 ^ 22)
    {n n' : Nat} (hn : some n ∈ numbers cs State.init) (hn' : some n' ∈ numbers cs2 State.init) : n < n' := by
  obtain ⟨ns, a1, a2, _, _, _, a6⟩ := numbers_spec cs State.init (Nat.zero_le _)
    (by show 0 + cs.length < endOfTime; rw [end_eq]; omega) (fun c hc => by have := h c hc; rw [end_eq]; exact this)
  obtain ⟨ns', b1, b2, b3, b4, b5, _⟩ := numbers_spec cs2 State.init (Nat.zero_le _)
    (by show 0 + cs2.length < endOfTime; rw [end_eq]; omega) (fun c hc => by have := h2 c hc; rw [end_eq]; exact this)
  rw [a1] at hn
  rw [b1] at hn'
  have hn : n ∈ ns := by simpa using hn
  have hn' : n' ∈ ns' := by simpa using hn'
  obtain ⟨i, hi, hin⟩ := List.mem_iff_getElem.mp hn'
  have hi2 : i < cs2.length := by omega
  have hlow := b5 i cs2[i] n' (List.getElem?_eq_getElem hi2) (by rw [List.getElem?_eq_getElem hi, hin])
  -- the greatest reading of the first process
  have hmax : ∃ c0 ∈ cs, ∀ c ∈ cs, c.toNat ≤ c0.toNat := by
    refine exists_latest (fun e => ?_)
    rw [e] at a2
    have : ns = [] := List.length_eq_zero_iff.mp a2
    rw [this] at hn
    cases hn
  obtain ⟨c0, hc0, hge⟩ := hmax
  have hup := a6 c0.toNat hge n hn
  have hck := hclock c0 hc0 cs2[i] (List.getElem_mem hi2)
  have hv0 : State.init.value = 0 := by unfold State.value State.init; simp
  rw [hv0] at hup
  rw [← unit_eq] at hck
  generalize cs2[i].toNat * unit = X at *
  generalize c0.toNat * unit = Y at *
  omega

/-- **C53**: no clock, not even one before 1970 or after 2109, makes the assertion fail. -/
theorem never_aborts (cs : List Int) : none ∉ numbers cs State.init := by
  have key : ∀ (s : State), s.count ≤ limit → none ∉ numbers cs s := by
    induction cs with
    | nil => intro s _ h; cases h
    | cons c r ih =>
      intro s hs h
      have h : none ∈ number (advance c s) :: numbers r (advance c s) := h
      rcases List.mem_cons.mp h with e | e
      · unfold number at e
        rw [if_pos (advance_count c hs)] at e
        cases e
      · exact ih _ (advance_count c hs) e
  exact key _ (Nat.zero_le _)

/-- A process that starts again with the same reading gives the same number again: the condition of
`restart_increasing` is needed. -/
theorem restart_repeats (c : Int) (h0 : 0 < c) (hb : c < 2 ^ 42 - 1) :
    numbers [c] State.init = [some (c.toNat * 2 ^ 22)] := by
  have hb' : c < (endOfTime : Int) := by rw [end_eq]; exact Int.lt_trans hb (by decide)
  have hm := advance_milli (s := State.init) (Nat.zero_le _) (Int.le_of_lt h0) hb' (by rw [end_eq]; decide)
  have hi : State.init.milli = 0 := rfl
  rw [hi] at hm
  have hv := advance_value (s := State.init) (Nat.zero_le _) (Int.le_of_lt h0) hb' (by rw [end_eq]; decide)
  rw [hi, if_pos (by omega)] at hv
  show [number (advance c State.init)] = _
  rw [number_value (advance_count c (Nat.zero_le _)) (by rw [end_eq]; omega), hv, unit_eq]

end Verif.SeqGen
