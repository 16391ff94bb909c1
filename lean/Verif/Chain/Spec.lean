import Verif.Chain.Inv
set_option linter.unusedVariables false
/-!
# C26: what is claimed, in terms of the API

`addBlock`, `getRawBlock`, `deleteGenesisBlock`, `deleteLastReachableBlock`, restarts.
-/
namespace Verif.Chain
open Verif.Bytes Verif.Kvbc

/-- every hash function returns 32 bytes -/
structure Hashes.Len32 (H : Hashes) : Prop where
  h : ∀ x, (H.m.h x).length = 32
  tree : ∀ x, (H.m.tree x).length = 32
  d : ∀ x, (H.d x).length = 32

/-- the categories are empty -/
def EmptyDb (db : Db) : Prop := ∀ id s, db id = some s →
  s = .merkle MState.empty ∨ s = .versioned VState.empty ∨ s = .immutable (fun _ => none)

/-- every block added in the run has good updates and puts no immutable key that is already present -/
def GoodRun (H : Hashes) : Chain → List Ev → Prop
  | _, [] => True
  | c, e :: es => (∀ u, e = .add u → UGood H.m u ∧ UFresh c.db u) ∧ ∀ c', c.step H e = some c' → GoodRun H c' es

/-- effect of one event that led to state `c'` on the list of raw blocks -/
def histStep (c' : Chain) (raws : List Raw) : Ev → List Raw
  | .add _ => (match c'.cache with | some (_, r) => raws ++ [r] | none => raws)
  | .deleteLast => raws.dropLast
  | _ => raws

/-- the raw blocks of the chain as the replica held them when it added them (`last_raw_block_`): each addition appends one,
`deleteLastReachableBlock` removes the last -/
def hist (H : Hashes) : Chain → List Raw → List Ev → List Raw
  | _, raws, [] => raws
  | c, raws, e :: es => match c.step H e with
    | none => raws
    | some c' => hist H c' (histStep c' raws e) es

end Verif.Chain
