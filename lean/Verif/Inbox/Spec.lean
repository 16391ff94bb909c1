/-
What the queues are for, in terms of what is seen from outside.
-/
import Verif.Inbox.Model

namespace Verif.Inbox.Spec
open Verif.Inbox
variable {E I : Type}

/-- External messages that were taken, in order. -/
def accepted : List (Ev E I) → List E := List.filterMap (fun e => match e with | .accepted m => some m | _ => none)

/-- Internal messages that were pushed, in order. -/
def pushed : List (Ev E I) → List I := List.filterMap (fun e => match e with | .pushed m => some m | _ => none)

/-- External messages that were given to their handlers, in order. -/
def gotE : List (Ev E I) → List E :=
  List.filterMap (fun e => match e with | .got (.external m) => some m | _ => none)

/-- Internal messages that were given to their handler, in order. -/
def gotI : List (Ev E I) → List I :=
  List.filterMap (fun e => match e with | .got (.internal m) => some m | _ => none)

/-- Steps of the dispatching thread in a piece of an execution. -/
def turns (ops : List (Op E I)) : Nat := (ops.filter (fun o => match o with | .disp => true | _ => false)).length

end Verif.Inbox.Spec
