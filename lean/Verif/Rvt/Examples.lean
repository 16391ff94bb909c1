import Verif.Rvt.Theorems
set_option linter.unusedVariables false
/-!
# Range validation tree: examples and findings (C29)
-/
namespace Verif.Rvt
open Verif.Bytes

/-- two children per node, one RVB per 10 blocks, a small digest function -/
def exP : Par where
  K := 2
  M := 1009
  fetch := 10
  hash := fun x d => 7 * x.lvl + 31 * x.idx + d.foldl (fun a b => 13 * a + b.toNat) 5

theorem exP_ok : exP.Ok := ⟨by decide, by decide⟩

/-- blocks 30 .. 110, of which 30 .. 70 leave again -/
def exOps : List Op :=
  ((List.range 5).map (fun k => .add ((3 + k) * 10) [UInt8.ofNat k])) ++ ((List.range 5).map (fun k => .remove ((3 + k) * 10) [UInt8.ofNat k])).take 2 ++
  ((List.range 4).map (fun k => .add ((8 + k) * 10) [UInt8.ofNat (k + 5)])) ++ ((List.range 5).map (fun k => .remove ((3 + k) * 10) [UInt8.ofNat k])).drop 2

def exWin : Win := ⟨8, [[5], [6], [7], [8]]⟩

theorem ex_run : Win.nil.run exP.fetch exOps = some exWin := by decide +kernel

/-- the hypotheses of the theorems are met by this history -/
theorem ex_meets : ∃ t, Tree.empty.run exP exOps = some t ∧ Tree.empty.run exP (exWin.build 10) = some t ∧ t.minId exP = 80 ∧ t.maxId exP = 110 ∧
    t.rvbIds exP (above 2 1 9) = [90, 100] ∧ t.groupIds exP 80 110 true = some [⟨1, 7⟩, ⟨1, 9⟩, ⟨1, 11⟩] := by
  obtain ⟨t, ht⟩ := never_aborts exP_ok (by decide) ex_run
  refine ⟨t, ht, same_as_rebuilt exP_ok (by decide) ex_run ht (by decide), ?_, ?_, ?_, ?_⟩
  · exact ((min_max_ids exP_ok (by decide) ex_run ht).2 (by decide)).1
  · exact ((min_max_ids exP_ok (by decide) ex_run ht).2 (by decide)).2
  · have := group_members exP_ok (by decide) ex_run ht (i := 9) (by decide) (by decide) (by decide)
    exact this.trans (by decide +kernel)
  · have := group_ids exP_ok (by decide) ex_run ht (i := 8) (j := 11) (by decide) (by decide) (by decide) (by decide) true
    exact this.trans (by decide +kernel)

/-- the model computes the same root value for both -/
theorem ex_same_root : ((Tree.empty.run exP exOps).bind (·.rootValue)) = ((Tree.empty.run exP (exWin.build 10)).bind (·.rootValue)) ∧
    ((Tree.empty.run exP exOps).bind (·.rootValue)).isSome := by decide +kernel

/-- BUG44: a block can leave with other data than it came with.  Nothing is checked; the values of all its ancestors are wrong from
then on. -/
theorem wrong_removal_undetected :
    ((Tree.empty.run exP [.add 10 [1], .add 20 [2], .add 30 [3], .remove 10 [9]]).bind (·.rootValue)).isSome ∧
    ((Tree.empty.run exP [.add 10 [1], .add 20 [2], .add 30 [3], .remove 10 [9]]).bind (·.rootValue)) ≠
      ((Tree.empty.run exP [.add 20 [2], .add 30 [3]]).bind (·.rootValue)) := by decide +kernel

/-- two changed blocks that hide each other (with this digest function) -/
theorem two_changes_undetected :
    ((Tree.empty.run exP [.add 10 [1], .add 20 [2], .add 30 [3]]).bind (·.rootValue)).isSome ∧
    ((Tree.empty.run exP [.add 10 [1], .add 20 [2], .add 30 [3]]).bind (·.rootValue)) = ((Tree.empty.run exP [.add 10 [2], .add 20 [1], .add 30 [3]]).bind (·.rootValue)) := by decide +kernel

/-- one changed block is seen -/
theorem one_change_seen : ((Tree.empty.run exP [.add 10 [1], .add 20 [2], .add 30 [3]]).bind (·.rootValue)) ≠ ((Tree.empty.run exP [.add 10 [1], .add 20 [4], .add 30 [3]]).bind (·.rootValue)) := by
  decide +kernel

end Verif.Rvt
