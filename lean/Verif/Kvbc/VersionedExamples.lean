import Verif.Kvbc.VersionedMore
import Verif.Kvbc.KeyOrder
set_option linter.unusedSimpArgs false
set_option linter.unusedVariables false
/-!
# Versioned category: concrete runs and findings
-/
namespace Verif.Kvbc
open Verif.Bytes

def kA : Key := [97]
def kB : Key := [98]
def put1 (k : Key) (d : Bytes) (st : Bool := false) : VInput := { kv := [(k, ⟨d, st⟩)], deletes := [] }
def none1 : VInput := { kv := [], deletes := [] }
def del1 (k : Key) : VInput := { kv := [], deletes := [k] }

/-- a history with puts, a delete, a stale-on-update put, prunings and a deletion of the last block -/
def evs1 : List Ev :=
  [.add { kv := [(kA, ⟨[1], false⟩), (kB, ⟨[2], true⟩)], deletes := [] }, .add none1, .add (put1 [99] [3]), .prune,
   .add (del1 [99]), .prune, .add (put1 kA [4]), .deleteLast]

theorem evs1_run : ∃ c, VChain.empty.run evs1 = some c ∧ getLatest c.st kA = some (1, [1]) ∧
    getLatest c.st kB = none ∧ getLatest c.st [99] = none ∧ get c.st [99] 3 = some (3, [3]) ∧ c.genesis = 3 ∧ c.last = 4 := by
  refine ⟨_, rfl, ?_⟩
  decide +kernel

/-- the hypotheses of the theorems are met by this history -/
example : AllAdds VInput.wf evs1 ∧ AllAdds VInput.disjoint evs1 ∧ UndoSafe Abs.empty evs1 ∧
    ∃ c, VChain.empty.run evs1 = some c := by
  refine ⟨?_, ?_, ?_, ?_⟩
  · intro inp h
    simp [evs1, none1, put1, del1] at h
    rcases h with rfl | rfl | rfl | rfl | rfl <;> simp [VInput.wf] <;> decide
  · intro inp h
    simp [evs1, none1, put1, del1] at h
    rcases h with rfl | rfl | rfl | rfl | rfl <;> simp [VInput.disjoint]
  · refine ⟨by decide, trivial⟩
  · obtain ⟨c, h, _⟩ := evs1_run
    exact ⟨c, h⟩

/-- **Finding (C25)** A pruning that happens while a newer block overwrites a key, followed by the deletion of that
newer block, loses the key: no block of the remaining chain deletes it, yet it reads as absent.  (Without the newer
block the pruning would have kept the value.)  This is why `latest_exact` asks that `deleteLast` only removes blocks
added since the last pruning. -/
theorem prune_then_delete_last_loses_key :
    ∃ c, VChain.empty.run [.add (put1 kA [1]), .add none1, .add (put1 kA [2]), .prune, .deleteLast] = some c ∧
      getLatest c.st kA = none ∧
      newest (Abs.empty.run [.add (put1 kA [1]), .add none1, .add (put1 kA [2]), .prune, .deleteLast]).hist kA 2
        = some (1, .put [1] false) := by
  refine ⟨_, rfl, ?_, ?_⟩ <;> decide +kernel

/-- **Finding (C24)** A block that both deletes and puts a key leaves it readable, but its stored flags say deleted
(`emplace` keeps the first entry): pruning the block removes the live value. -/
theorem delete_and_put_lost_by_pruning :
    (∃ c, VChain.empty.run [.add { kv := [(kA, ⟨[1], false⟩)], deletes := [kA] }, .add none1] = some c ∧
      getLatest c.st kA = some (1, [1])) ∧
    (∃ c, VChain.empty.run [.add { kv := [(kA, ⟨[1], false⟩)], deletes := [kA] }, .add none1, .prune] = some c ∧
      getLatest c.st kA = none) := by
  refine ⟨⟨_, rfl, ?_⟩, ⟨_, rfl, ?_⟩⟩ <;> decide +kernel

end Verif.Kvbc
