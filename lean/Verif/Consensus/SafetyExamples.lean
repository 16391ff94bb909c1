import Verif.Consensus.SafetyProps2
/-!
Non-vacuity of the theorems of `SafetyProps*`, and the executions showing why some are partial.
-/
namespace Concord.VC.Examples
open Concord.VC Spec

/-! ### a run with F = 1, C = 0: a slow commit is preserved -/

def g1 : Cfg := { F := 1, C := 0, nullDigest := 0, valid := fun _ _ _ sig => sig == 1 }
/-- replica 0 is faulty (and reports an *invalid* certificate with the same view and digest),
replica 1 prepared digest 5 at sequence number 1 in view 0, replica 2 saw nothing. -/
def arr1 : List (Option VCMsg) :=
  [some ⟨0, 1, 0, [⟨1, 5, 0, some ⟨0, 0⟩⟩]⟩, some ⟨1, 1, 0, [⟨1, 5, 0, some ⟨0, 1⟩⟩]⟩, some ⟨2, 1, 0, []⟩, none]
def honest1 : Nat → Bool := fun i => i != 0

theorem valid_nil (a b c : Nat) : ValidVC ⟨a, b, c, []⟩ :=
  ⟨List.Pairwise.nil, by simp, by simp, by simp⟩
theorem valid_one (a b c : Nat) (e : Elem) (h1 : c < e.seq) (h2 : e.seq ≤ c + 300) (h3 : e.originView < b)
    (h4 : ∀ x, e.cert = some x → x.view ≤ e.originView) : ValidVC ⟨a, b, c, [e]⟩ :=
  ⟨by simp, by simpa using ⟨h1, h2⟩, by simpa using h3, by simpa using h4⟩

theorem quorum1 : VCQuorum g1 (msgs arr1) := by
  refine ⟨?_, by decide, by decide, by decide⟩
  intro m hm
  have hm' : m = ⟨0, 1, 0, [⟨1, 5, 0, some ⟨0, 0⟩⟩]⟩ ∨ m = ⟨1, 1, 0, [⟨1, 5, 0, some ⟨0, 1⟩⟩]⟩ ∨ m = ⟨2, 1, 0, []⟩ := by
    simpa [msgs, arr1] using hm
  rcases hm' with rfl | rfl | rfl
  · exact valid_one _ _ _ _ (by decide) (by decide) (by decide) (by simp)
  · exact valid_one _ _ _ _ (by decide) (by decide) (by decide) (by simp)
  · exact valid_nil _ _ _

/-- the hypotheses of `slow_commit_survives_f1` are met by `arr1` although a certificate is shadowed. -/
example : ∃ r, computeRestrictions g1 arr1 0 = some r ∧ r.arr[1 - (0 + 1)]? = some (nonNull g1 (some 5)) := by
  apply slow_commit_survives_f1 g1 arr1 0 1 0 5 honest1 [0, 1, 3] (by decide) quorum1 (by unfold FewFaulty; decide)
    (by decide) (by decide) (by decide) (by decide)
  · intro m hm hh hs
    have hm' : m = ⟨0, 1, 0, [⟨1, 5, 0, some ⟨0, 0⟩⟩]⟩ ∨ m = ⟨1, 1, 0, [⟨1, 5, 0, some ⟨0, 1⟩⟩]⟩ ∨ m = ⟨2, 1, 0, []⟩ := by
      simpa [msgs, arr1] using hm
    rcases hm' with rfl | rfl | rfl
    · simp [honest1] at hh
    · exact ⟨_, by simp; rfl, rfl, rfl, _, rfl, by simp, rfl⟩
    · simp at hs
  · intro m hm hh e he c hc
    have hm' : m = ⟨0, 1, 0, [⟨1, 5, 0, some ⟨0, 0⟩⟩]⟩ ∨ m = ⟨1, 1, 0, [⟨1, 5, 0, some ⟨0, 1⟩⟩]⟩ ∨ m = ⟨2, 1, 0, []⟩ := by
      simpa [msgs, arr1] using hm
    rcases hm' with rfl | rfl | rfl
    · simp [honest1] at hh
    · simp at he; subst he; simp at hc; subst hc; rfl
    · simp at he
  · constructor
    · rintro v' d' - ⟨e, he, hd, -⟩
      have : e.digest = 5 := by
        have he' : e = ⟨1, 5, 0, some ⟨0, 0⟩⟩ ∨ e = ⟨1, 5, 0, some ⟨0, 1⟩⟩ := by
          simpa [reported, msgs, arr1] using he
        rcases he' with rfl | rfl <;> rfl
      omega
    · intro m hm hh e he hs hv
      have hm' : m = ⟨0, 1, 0, [⟨1, 5, 0, some ⟨0, 0⟩⟩]⟩ ∨ m = ⟨1, 1, 0, [⟨1, 5, 0, some ⟨0, 1⟩⟩]⟩ ∨ m = ⟨2, 1, 0, []⟩ := by
        simpa [msgs, arr1] using hm
      rcases hm' with rfl | rfl | rfl
      · simp [honest1] at hh
      · simp at he; subst he; rfl
      · simp at he
  · decide
  · decide

/-- `calcLBStableForView` is defined on `arr1`. -/
example : calcLBStableForView g1 arr1 = some 0 := by decide

/-- a bound that is not the maximum: reports 300, 150, 0 give 150. -/
example : calcLBStableForView g1 [none, some ⟨1, 1, 0, []⟩, some ⟨2, 1, 300, []⟩, some ⟨3, 1, 150, []⟩] = some 150 := by
  decide

/-! ### the slow path without `NoShadow` -/

def g2 : Cfg := { F := 2, C := 0, nullDigest := 0, valid := fun _ _ _ sig => sig == 1 }
/-- n = 7, replicas 0 and 1 faulty; digest 5 was slow-committed at 1 in view 0 by {0,1,2,5,6}; the view change
uses {0,1,2,3,4}: honest 2 has the certificate, honest 3 and 4 were slow, faulty 0 repeats the certificate
with a broken signature, faulty 1 reports nothing. -/
def arr2 : List (Option VCMsg) :=
  [some ⟨0, 1, 0, [⟨1, 5, 0, some ⟨0, 0⟩⟩]⟩, some ⟨1, 1, 0, []⟩, some ⟨2, 1, 0, [⟨1, 5, 0, some ⟨0, 1⟩⟩]⟩,
   some ⟨3, 1, 0, []⟩, some ⟨4, 1, 0, []⟩, none, none]
def honest2 : Nat → Bool := fun i => i != 0 && i != 1

theorem quorum2 : VCQuorum g2 (msgs arr2) := by
  refine ⟨?_, by decide, by decide, by decide⟩
  intro m hm
  have hm' : m = ⟨0, 1, 0, [⟨1, 5, 0, some ⟨0, 0⟩⟩]⟩ ∨ m = ⟨1, 1, 0, []⟩ ∨ m = ⟨2, 1, 0, [⟨1, 5, 0, some ⟨0, 1⟩⟩]⟩ ∨
      m = ⟨3, 1, 0, []⟩ ∨ m = ⟨4, 1, 0, []⟩ := by
    simpa [msgs, arr2] using hm
  rcases hm' with rfl | rfl | rfl | rfl | rfl
  · exact valid_one _ _ _ _ (by decide) (by decide) (by decide) (by simp)
  · exact valid_nil _ _ _
  · exact valid_one _ _ _ _ (by decide) (by decide) (by decide) (by simp)
  · exact valid_nil _ _ _
  · exact valid_nil _ _ _

/-- **Finding (C02).**  All hypotheses of `slow_commit_survives_partial` hold except `NoShadow`, and the code
drops the committed digest: the restriction at sequence number 1 is the null operation.  The cause is the
comparator of the certificate set (ViewChangeSafetyLogic.cpp:86-106), which ignores the signature, so an
invalid certificate of a faulty replica with a lower id hides the honest one. -/
theorem slow_commit_lost_with_shadow :
    ∃ (g : Cfg) (arr : List (Option VCMsg)) (honest : Nat → Bool) (signers : List Nat) (s v d : Nat),
      VCQuorum g (msgs arr) ∧ FewFaulty g honest ∧ 1 ≤ g.F + g.C ∧ signers.Nodup ∧ (∀ x ∈ signers, x < g.N) ∧
      2 * g.F + g.C + 1 ≤ signers.length ∧
      (∀ m ∈ msgs arr, honest m.sender = true → m.sender ∈ signers →
        ∃ e ∈ m.elems, e.seq = s ∧ e.digest = d ∧
          ∃ c, e.cert = some c ∧ v ≤ c.view ∧ g.valid c.view s d c.sig = true) ∧
      Locked g honest (msgs arr) s v d ∧ d ≠ g.nullDigest ∧
      ∃ r, computeRestrictions g arr 0 = some r ∧ r.arr[s - (0 + 1)]? = some none := by
  refine ⟨g2, arr2, honest2, [0, 1, 2, 5, 6], 1, 0, 5, quorum2, by unfold FewFaulty; decide, by decide, by decide,
    by decide, by decide, ?_, ?_, by decide, ?_⟩
  · intro m hm hh hs
    have hm' : m = ⟨0, 1, 0, [⟨1, 5, 0, some ⟨0, 0⟩⟩]⟩ ∨ m = ⟨1, 1, 0, []⟩ ∨ m = ⟨2, 1, 0, [⟨1, 5, 0, some ⟨0, 1⟩⟩]⟩ ∨
        m = ⟨3, 1, 0, []⟩ ∨ m = ⟨4, 1, 0, []⟩ := by
      simpa [msgs, arr2] using hm
    rcases hm' with rfl | rfl | rfl | rfl | rfl
    · simp [honest2] at hh
    · simp [honest2] at hh
    · exact ⟨_, by simp; rfl, rfl, rfl, _, rfl, by simp, rfl⟩
    · simp at hs
    · simp at hs
  · constructor
    · rintro v' d' - ⟨e, he, hd, -⟩
      have : e.digest = 5 := by
        have he' : e = ⟨1, 5, 0, some ⟨0, 0⟩⟩ ∨ e = ⟨1, 5, 0, some ⟨0, 1⟩⟩ := by
          simpa [reported, msgs, arr2] using he
        rcases he' with rfl | rfl <;> rfl
      omega
    · intro m hm hh e he hs hv
      have hm' : m = ⟨0, 1, 0, [⟨1, 5, 0, some ⟨0, 0⟩⟩]⟩ ∨ m = ⟨1, 1, 0, []⟩ ∨ m = ⟨2, 1, 0, [⟨1, 5, 0, some ⟨0, 1⟩⟩]⟩ ∨
          m = ⟨3, 1, 0, []⟩ ∨ m = ⟨4, 1, 0, []⟩ := by
        simpa [msgs, arr2] using hm
      rcases hm' with rfl | rfl | rfl | rfl | rfl
      · simp [honest2] at hh
      · simp at he
      · simp at he; subst he; rfl
      · simp at he
      · simp at he
  · exact ⟨⟨1, 300, List.replicate 300 none⟩, by decide +kernel, by decide +kernel⟩

/-- **Finding (C03).**  With a shadowing certificate the order of the messages matters. -/
theorem order_matters_with_shadow :
    ∃ (g : Cfg) (a b : List (Option VCMsg)), (msgs a).Perm (msgs b) ∧ VCQuorum g (msgs a) ∧ 1 ≤ g.F + g.C ∧
      computeRestrictions g a 0 ≠ computeRestrictions g b 0 := by
  refine ⟨g2, arr2, arr2.reverse, ?_, quorum2, by decide, by decide +kernel⟩
  unfold msgs
  exact (List.reverse_perm arr2).symm.filterMap id

/-- hypotheses of the order-independence theorem are satisfiable with several competing certificates -/
example : ∀ s, NoShadow g1 s (reported s (msgs
    [some ⟨0, 2, 0, [⟨1, 5, 1, some ⟨1, 1⟩⟩]⟩, some ⟨1, 2, 0, [⟨1, 6, 0, some ⟨0, 1⟩⟩]⟩, some ⟨2, 2, 0, [⟨1, 6, 0, none⟩]⟩, none])) := by
  rintro s v d - ⟨e, he, hd, sig, hc, hv⟩
  have he1 := (List.mem_filter.1 he).1
  simp [msgs] at he1
  rcases he1 with rfl | rfl | rfl
  · simp at hc; obtain ⟨rfl, rfl⟩ := hc; simp [g1] at hv
  · simp at hc; obtain ⟨rfl, rfl⟩ := hc; simp [g1] at hv
  · simp at hc

end Concord.VC.Examples
