import Verif.Kvbc.MerkleUndo
set_option linter.unusedSimpArgs false
set_option linter.unusedVariables false
/-!
# Block-Merkle category: concrete runs and findings
-/
namespace Verif.Kvbc
open Verif.Bytes

/-- an injective stand-in for the hash (the theorems only ask for no collision among the keys used) -/
def exH : MHash := { h := id, tree := fun m => (m 1).getD [] ++ (m 2).getD [] }

def mput (k : Key) (d : Bytes) : Option MInput := some { kv := [(k, d)], deletes := [] }

/-- puts, a delete, a block that puts and deletes the same key, prunings, a deletion of the last block -/
def mevs : List MEv :=
  [.add (some { kv := [([1], [10]), ([2], [20])], deletes := [] }), .add (mput [1] [11]), .add none, .prune,
   .add (some { kv := [([3], [30])], deletes := [[2], [3]] }), .prune, .add (mput [3] [31]), .deleteLast]

theorem mevs_run : ∃ m, MChain.empty.run exH mevs = some m ∧ m.st.getLatest exH [1] = some (2, [11]) ∧
    m.st.getLatest exH [2] = none ∧ m.st.getLatest exH [3] = none ∧ m.genesis = 3 ∧ m.last = 4 := by
  refine ⟨_, rfl, ?_⟩
  decide +kernel

/-- the hypotheses of the theorems are met by this history -/
example : InjOn exH (fun _ => True) ∧ MAllAdds MInput.wf mevs ∧ MAllAdds (MInput.within (fun _ => True)) mevs ∧
    MUndoSafe MAbs.empty mevs ∧ ∃ m, MChain.empty.run exH mevs = some m ∧ m.last ≠ 0 := by
  refine ⟨fun _ _ _ _ h => h, ?_, fun _ _ => ⟨fun _ _ => trivial, fun _ _ => trivial⟩, ⟨by decide, trivial⟩, ?_⟩
  · intro inp h
    simp [mevs, mput] at h
    rcases h with rfl | rfl | rfl | rfl <;> simp [MInput.wf] <;> decide
  · exact ⟨_, rfl, by decide +kernel⟩

/-- **Finding (C25)** Pruning updates the Merkle tree (new version), deleting the last block sets the latest tree
version back to the one before that block.  Deleting a block that was there when the chain was pruned therefore also
undoes the pruning in the tree: the leaf of the pruned block (whose only key was overwritten, hence removed by the
pruning) is part of the tree again, so the root hash of the next block depends on a deletion that other replicas,
which pruned after the deletion, do not have. -/
theorem delete_last_revives_pruned_leaf :
    ∃ m, MChain.empty.run exH [.add (mput [1] [10]), .add (mput [1] [11]), .add (mput [2] [20]), .prune, .deleteLast] = some m ∧
      m.genesis = 2 ∧ m.st.pruned 1 = none ∧ m.st.get exH [1] 1 = none ∧
      (m.st.tree.root.map (fun t => (t 1).isSome)) = some true ∧
      ∃ m2, MChain.empty.run exH [.add (mput [1] [10]), .add (mput [1] [11]), .prune] = some m2 ∧
        (m2.st.tree.root.map (fun t => (t 1).isSome)) = some false := by
  refine ⟨_, rfl, ?_, ?_, ?_, ?_, _, rfl, ?_⟩ <;> decide +kernel

end Verif.Kvbc
