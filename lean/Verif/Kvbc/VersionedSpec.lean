import Verif.Kvbc.Versioned
/-!
# Specification of the versioned category (C23, C24, C25)

What the user asked for: the list of updates of the blocks 1, 2, …, the last one, and how far the chain was pruned.
Nothing here refers to the category's column families.
-/
namespace Verif.Kvbc
open Verif.Bytes

/-- what one block does to one key -/
inductive Op where
  | put (data : Bytes) (stale : Bool)
  | del
deriving DecidableEq, Repr

/-- the effect of a block's updates on `k`: a put, a delete, or none.  A block that both deletes and puts a key
leaves it put. -/
def opOf (inp : VInput) (k : Key) : Option Op :=
  match inp.kv.lookup k with
  | some v => some (.put v.data v.staleOnUpdate)
  | none => if k ∈ inp.deletes then some .del else none

/-- the history a user sees: the updates of blocks `1 … hist.length`, and the id of the oldest block not pruned -/
structure Abs where
  hist : List VInput
  genesis : Nat
  /-- number of blocks at the last pruning -/
  seen : Nat

def Abs.empty : Abs := { hist := [], genesis := 0, seen := 0 }

def Abs.step (a : Abs) : Ev → Abs
  | .add inp => { a with hist := a.hist ++ [inp], genesis := if a.genesis = 0 then 1 else a.genesis }
  | .prune => { a with genesis := a.genesis + 1, seen := a.hist.length }
  | .deleteLast => { a with hist := a.hist.dropLast }

def Abs.run (a : Abs) : List Ev → Abs
  | [] => a
  | e :: es => (a.step e).run es

/-- every `deleteLast` of the history removes a block that was added after the last pruning -/
def UndoSafe (a : Abs) : List Ev → Prop
  | [] => True
  | .deleteLast :: es => a.seen < a.hist.length ∧ UndoSafe (a.step .deleteLast) es
  | e :: es => UndoSafe (a.step e) es

/-- the effect of block `b` on `k` -/
def opAt (h : List VInput) (k : Key) (b : Nat) : Option Op :=
  if b = 0 then none else (h[b - 1]?).bind (fun inp => opOf inp k)

/-- the newest block among `1 … n` that touches `k`, and what it did -/
def newest (h : List VInput) (k : Key) : Nat → Option (Nat × Op)
  | 0 => none
  | n + 1 => match opAt h k (n + 1) with
    | some op => some (n + 1, op)
    | none => newest h k n

/-- value of `k` put by block `b` -/
def specAt (h : List VInput) (k : Key) (b : Nat) : Option (Nat × Bytes) :=
  match opAt h k b with
  | some (.put d _) => some (b, d)
  | _ => none

/-- latest value of `k`: that of the newest block touching it, unless that block deleted it, or put it
stale-on-update and has been pruned -/
def specLatest (h : List VInput) (g : Nat) (k : Key) : Option (Nat × Bytes) :=
  match newest h k h.length with
  | some (b, .put d stale) => if stale ∧ b < g then none else some (b, d)
  | _ => none

/-- a `std::map` has one entry per key -/
def VInput.wf (inp : VInput) : Prop := (inp.kv.map (·.1)).Nodup
/-- no key both deleted and put by the block -/
def VInput.disjoint (inp : VInput) : Prop := ∀ k, k ∈ inp.deletes → k ∉ inp.kv.map (·.1)

/-- all blocks of the history satisfy `P` -/
def AllAdds (P : VInput → Prop) (evs : List Ev) : Prop := ∀ inp, Ev.add inp ∈ evs → P inp

end Verif.Kvbc
