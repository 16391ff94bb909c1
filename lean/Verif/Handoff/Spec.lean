/-
What a handoff is for, in terms of the calls.
-/
import Verif.Handoff.Model

namespace Verif.Handoff.Spec
open Verif.Handoff

/-- The functions that were pushed, in order, of one kind. -/
def pushed (b : Bool) (ops : List Op) : List Elem :=
  ops.filterMap (fun o => match o with | .push e => if e.sync = b then some e else none | _ => none)

/-- The functions of one kind, of a list. -/
def kind (b : Bool) (l : List Elem) : List Elem := l.filter (fun e => e.sync = b)

/-- Turns of the consumer. -/
def turns (ops : List Op) : Nat := (ops.filter (fun o => o = .turn)).length

end Verif.Handoff.Spec
