import Verif.Rvt.Model
set_option linter.unusedVariables false
/-!
# Range validation tree: specification (C29)

Written without the tree: the blocks in the tree are a window of consecutive multiples of the fetch range, each with its data; the
tree must be a function of that window.
-/
namespace Verif.Rvt
open Verif.Bytes

/-- the blocks in the tree: number `first * fetch`, `(first + 1) * fetch`, … with these data -/
structure Win where
  first : Nat
  data : List Bytes
deriving DecidableEq

def Win.nil : Win := ⟨0, []⟩

inductive Op
  | add (id : Nat) (data : Bytes)
  | remove (id : Nat) (data : Bytes)

/-- what a caller may do: add any block first, then the next one; remove the oldest one, with the data it was added with -/
def Win.step (fetch : Nat) (w : Win) : Op → Option Win
  | .add id d =>
    if w.data = [] then (if 0 < id ∧ fetch ∣ id then some ⟨id / fetch, [d]⟩ else none)
    else if id = (w.first + w.data.length) * fetch then some ⟨w.first, w.data ++ [d]⟩ else none
  | .remove id d =>
    match w.data with
    | [] => none
    | d0 :: ds => if id = w.first * fetch ∧ d = d0 then some (if ds = [] then .nil else ⟨w.first + 1, ds⟩) else none

def Win.run (fetch : Nat) (w : Win) : List Op → Option Win
  | [] => some w
  | o :: os => (w.step fetch o).bind (fun w => w.run fetch os)

/-- the real calls -/
def Tree.step (P : Par) (t : Tree) : Op → Option Tree
  | .add id d => t.addRightNode P id d
  | .remove id d => t.removeLeftNode P id d

def Tree.run (P : Par) (t : Tree) : List Op → Option Tree
  | [] => some t
  | o :: os => (t.step P o).bind (fun t => t.run P os)

/-- the index of the last block of a window that is not empty -/
def Win.last (w : Win) : Nat := w.first + w.data.length - 1

/-- the values of the blocks, summed -/
def Win.leaves (P : Par) (w : Win) : Int := (w.data.mapIdx (fun k d => P.leaf (w.first + k) d)).sum

/-- the height of the tree over the blocks `i .. j`: the first level, from 1 on, at which all have the same ancestor -/
def Height (K i j T : Nat) : Prop := 1 ≤ T ∧ (i - 1) / K ^ T = (j - 1) / K ^ T ∧ ∀ l, 1 ≤ l → l < T → (i - 1) / K ^ l ≠ (j - 1) / K ^ l

/-- the node of level `l` above block `i` -/
def above (K l i : Nat) : Id := ⟨l, (i - 1) / K ^ l * K ^ l + 1⟩

/-- the nodes of level `l` above the blocks `i .. j`, one after the other -/
def levelNodes (K i j l : Nat) : List Id := (List.range' ((i - 1) / K ^ l) ((j - 1) / K ^ l + 1 - (i - 1) / K ^ l)).map (fun p => ⟨l, p * K ^ l + 1⟩)

/-- all the nodes of the tree over the blocks `i .. j`, up to level `T` -/
def allNodes (K i j T : Nat) : List Id := (List.range' 1 T).flatMap (levelNodes K i j)

/-- `levelNodes` has the ancestors of the blocks and nothing else -/
theorem mem_levelNodes {K i j l : Nat} (hK : 2 ≤ K) (hi : 1 ≤ i) (h : i ≤ j) (x : Id) : x ∈ levelNodes K i j l ↔ ∃ m, i ≤ m ∧ m ≤ j ∧ x = above K l m := by
  have hp : 0 < K ^ l := Nat.pow_pos (by omega)
  have hmono : (i - 1) / K ^ l ≤ (j - 1) / K ^ l := Nat.div_le_div_right (by omega)
  simp only [levelNodes, List.mem_map, List.mem_range'_1]
  constructor
  · rintro ⟨p, ⟨h1, h2⟩, rfl⟩
    by_cases e : p = (i - 1) / K ^ l
    · exact ⟨i, Nat.le_refl _, h, by rw [above, e]⟩
    · refine ⟨p * K ^ l + 1, ?_, ?_, ?_⟩
      · have := Nat.div_add_mod (i - 1) (K ^ l)
        have h3 := Nat.mod_lt (i - 1) hp
        have h4 : ((i - 1) / K ^ l + 1) * K ^ l ≤ p * K ^ l := Nat.mul_le_mul_right _ (by omega)
        rw [Nat.add_mul, Nat.mul_comm] at h4
        omega
      · have := Nat.div_mul_le_self (j - 1) (K ^ l)
        have h4 : p * K ^ l ≤ ((j - 1) / K ^ l) * K ^ l := Nat.mul_le_mul_right _ (by omega)
        omega
      · rw [above, Nat.add_sub_cancel, Nat.mul_div_cancel _ hp]
  · rintro ⟨m, h1, h2, rfl⟩
    exact ⟨(m - 1) / K ^ l, ⟨Nat.div_le_div_right (by omega), by have : (m - 1) / K ^ l ≤ (j - 1) / K ^ l := Nat.div_le_div_right (by omega); omega⟩, rfl⟩

end Verif.Rvt
