import Verif.Kvbc.Merkle
/-!
# Specification of the block-Merkle category (C23–C25)

The history a user sees is the list of the updates of the blocks (`none` = the block has no update of this category).
A block that both puts and deletes a key leaves it deleted; otherwise reads are specified as for the versioned
category (`VersionedSpec.lean`), without stale-on-update keys.
-/
namespace Verif.Kvbc
open Verif.Bytes

/-- `h` has no collision on `U` -/
def InjOn (H : MHash) (U : Key → Prop) : Prop := ∀ k k', U k → U k' → H.h k = H.h k' → k = k'

/-- the effect of a block: a key it both puts and deletes is deleted -/
def MInput.eff (inp : MInput) : VInput :=
  { kv := (inp.kv.filter (fun kv => !inp.deletes.contains kv.1)).map (fun kv => (kv.1, ⟨kv.2, false⟩))
    deletes := inp.deletes }

def effO : Option MInput → VInput
  | none => { kv := [], deletes := [] }
  | some inp => inp.eff

def MEv.eff : MEv → Ev
  | .add inp => .add (effO inp)
  | .prune => .prune
  | .deleteLast => .deleteLast

/-- a `std::map` has one entry per key -/
def MInput.wf (inp : MInput) : Prop := (inp.kv.map (·.1)).Nodup

/-- all keys of the updates belong to `U` -/
def MInput.within (U : Key → Prop) (inp : MInput) : Prop := (∀ x ∈ inp.kv, U x.1) ∧ ∀ d ∈ inp.deletes, U d

/-- all updates of the history satisfy `P` -/
def MAllAdds (P : MInput → Prop) (evs : List MEv) : Prop := ∀ inp, MEv.add (some inp) ∈ evs → P inp

/-- the history: updates of blocks `1 … hist.length`, oldest block not pruned, number of blocks at the last pruning -/
structure MAbs where
  hist : List (Option MInput)
  genesis : Nat
  seen : Nat

def MAbs.empty : MAbs := { hist := [], genesis := 0, seen := 0 }

def MAbs.step (a : MAbs) : MEv → MAbs
  | .add inp => { a with hist := a.hist ++ [inp], genesis := if a.genesis = 0 then 1 else a.genesis }
  | .prune => { a with genesis := a.genesis + 1, seen := a.hist.length }
  | .deleteLast => { a with hist := a.hist.dropLast }

def MAbs.run (a : MAbs) : List MEv → MAbs
  | [] => a
  | e :: es => (a.step e).run es

/-- every `deleteLast` of the history removes a block that was added after the last pruning -/
def MUndoSafe (a : MAbs) : List MEv → Prop
  | [] => True
  | .deleteLast :: es => a.seen < a.hist.length ∧ MUndoSafe (a.step .deleteLast) es
  | e :: es => MUndoSafe (a.step e) es

/-- the effects of the blocks on the keys -/
def MAbs.effects (a : MAbs) : List VInput := a.hist.map effO

end Verif.Kvbc
