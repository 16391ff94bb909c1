/-
Votes for different digests (C36): which pairs of digests have a vote in common.
-/
import Verif.Digest.Combine

set_option linter.unusedSimpArgs false

namespace Verif.Digest

theorem xor_solve (a b : UInt64) : a ^^^ (a ^^^ b) = b := by
  rw [← UInt64.xor_assoc, UInt64.xor_self, UInt64.zero_xor]

/-- A vote never changes the upper half of a digest. -/
theorem vote_upper (d : Dig) (v s : UInt64) :
    (calcCombination d v s).w2 = d.w2 ∧ (calcCombination d v s).w3 = d.w3 := by
  unfold calcCombination
  rcases loc_cases d.w0 with ha | ha <;> rcases loc_cases (d.w0 >>> 8) with hb | hb <;>
    simp only [locA, locB, ha, hb, xorAt] <;> simp

/-- The word of the lower half that no vote for a digest with equal locations changes. -/
def still (d : Dig) : UInt64 := if locA d = 0 then d.w1 else d.w0

/-- Two digests hash-bound in their upper half: a vote for one is never a vote for the other. -/
theorem votes_differ {d d' : Dig} (h : ¬ (d.w2 = d'.w2 ∧ d.w3 = d'.w3)) (v s v' s' : UInt64) :
    calcCombination d v s ≠ calcCombination d' v' s' := by
  intro he
  apply h
  have h1 := vote_upper d v s
  have h2 := vote_upper d' v' s'
  rw [← h1.1, ← h1.2, he]
  exact ⟨h2.1, h2.2⟩

/-- **C36**: exactly which digests have a vote in common, for some views and numbers: those that agree in
their upper 128 bits, unless both choose one word only, the same, and differ in the other. -/
theorem digests_share_iff (d d' : Dig) :
    (∃ v s v' s', calcCombination d v s = calcCombination d' v' s') ↔
      (d.w2 = d'.w2 ∧ d.w3 = d'.w3) ∧
      ¬ (locA d = locB d ∧ locA d' = locB d' ∧ locA d = locA d' ∧ still d ≠ still d') := by
  constructor
  · rintro ⟨v, s, v', s', he⟩
    refine ⟨?_, ?_⟩
    · apply Classical.byContradiction
      intro h
      exact votes_differ h v s v' s' he
    · rintro ⟨h1, h2, h3, h4⟩
      apply h4
      unfold calcCombination at he
      unfold still
      rw [← h1, ← h2, ← h3] at he
      rcases loc_cases d.w0 with ha | ha
      · have ha' : locA d = 0 := ha
        rw [← h3, ha']
        simp only [ha', xorAt, if_true, Dig.mk.injEq] at he ⊢
        exact he.2.1
      · have ha' : locA d = 1 := ha
        rw [← h3, ha']
        have h10 : ¬ (1 : UInt64) = 0 := by decide
        simp only [ha', xorAt, h10, if_false, Dig.mk.injEq] at he ⊢
        exact he.1
  · rintro ⟨⟨h2, h3⟩, hn⟩
    obtain ⟨w0, w1, w2, w3⟩ := d
    obtain ⟨x0, x1, x2, x3⟩ := d'
    simp only at h2 h3
    subst h2 h3
    have h10 : ¬ (1 : UInt64) = 0 := by decide
    have h01 : ¬ (0 : UInt64) = 1 := by decide
    rcases loc_cases w0 with ha | ha <;> rcases loc_cases (w0 >>> 8) with hb | hb <;>
    rcases loc_cases x0 with ha' | ha' <;> rcases loc_cases (x0 >>> 8) with hb' | hb' <;>
    simp only [calcCombination, locA, locB, ha, hb, ha', hb', xorAt, h10, h01, if_true, if_false, still, Dig.mk.injEq,
      and_true, true_and, and_false, false_and, not_false_eq_true, ne_eq, Classical.not_not] at hn ⊢
    -- 0,0 / 0,0
    · exact ⟨w0 ^^^ x0, 0, 0, 0, by simp [xor_solve], hn⟩
    · exact ⟨w0 ^^^ x0, 0, 0, x1 ^^^ w1, by simp [xor_solve], by simp [xor_solve]⟩
    · exact ⟨w0 ^^^ x0, 0, x1 ^^^ w1, 0, by simp [xor_solve], by simp [xor_solve]⟩
    · exact ⟨w0 ^^^ x0, 0, 0, x1 ^^^ w1, by simp [xor_solve], by simp [xor_solve]⟩
    -- 0,1
    · exact ⟨w0 ^^^ x0, w1 ^^^ x1, 0, 0, by simp [xor_solve], by simp [xor_solve]⟩
    · exact ⟨w0 ^^^ x0, w1 ^^^ x1, 0, 0, by simp [xor_solve], by simp [xor_solve]⟩
    · exact ⟨w0 ^^^ x0, w1 ^^^ x1, 0, 0, by simp [xor_solve], by simp [xor_solve]⟩
    · exact ⟨w0 ^^^ x0, w1 ^^^ x1, 0, 0, by simp [xor_solve], by simp [xor_solve]⟩
    -- 1,0
    · exact ⟨w1 ^^^ x1, w0 ^^^ x0, 0, 0, by simp [xor_solve], by simp [xor_solve]⟩
    · exact ⟨w1 ^^^ x1, w0 ^^^ x0, 0, 0, by simp [xor_solve], by simp [xor_solve]⟩
    · exact ⟨w1 ^^^ x1, w0 ^^^ x0, 0, 0, by simp [xor_solve], by simp [xor_solve]⟩
    · exact ⟨w1 ^^^ x1, w0 ^^^ x0, 0, 0, by simp [xor_solve], by simp [xor_solve]⟩
    -- 1,1
    · exact ⟨w1 ^^^ x1, 0, x0 ^^^ w0, 0, by simp [xor_solve], by simp [xor_solve]⟩
    · exact ⟨w1 ^^^ x1, 0, x0 ^^^ w0, 0, by simp [xor_solve], by simp [xor_solve]⟩
    · exact ⟨w1 ^^^ x1, 0, 0, x0 ^^^ w0, by simp [xor_solve], by simp [xor_solve]⟩
    · exact ⟨w1 ^^^ x1, 0, 0, 0, hn, by simp [xor_solve]⟩

/-- **C36**: what a vote fixes for certain, whatever the digest: its upper 128 bits. -/
theorem vote_fixes_upper {d d' : Dig} {v s v' s' : UInt64} (h : calcCombination d v s = calcCombination d' v' s') :
    d.w2 = d'.w2 ∧ d.w3 = d'.w3 := ((digests_share_iff d d').mp ⟨v, s, v', s', h⟩).1

/-- two different digests with a common vote -/
example : calcCombination ⟨2, 0, 7, 9⟩ 2 0 = calcCombination ⟨4, 0, 7, 9⟩ 4 0 := by decide

/-- and two without, although they agree in their upper half -/
example : ¬ ∃ v s v' s', calcCombination ⟨2, 1, 7, 9⟩ v s = calcCombination ⟨2, 0, 7, 9⟩ v' s' := by
  rw [digests_share_iff]; decide

end Verif.Digest
