/-
What the generator of ticks is for.
-/
import Verif.Ticks.Model

namespace Verif.Ticks.Spec
open Verif.Ticks

/-! ### The throttle, told from what was seen (oldest first) -/

/-- The sequence number of the last request of `c`: what an event makes of it. -/
def askedStep (c : Nat) (a : Option Nat) : Ev → Option Nat
  | .asked k q _ => if k = c then some q else a
  | .gave _ _ => a

/-- The sequence number of the last request of `c`. -/
def lastAsked (c : Nat) (evs : List Ev) : Option Nat := evs.foldl (askedStep c) none

/-- Is the last request of `c` one that has not yet been given to the replica?  What an event makes of it. -/
def waitStep (c : Nat) (a : Bool) : Ev → Bool
  | .asked k _ _ => if k = c then true else a
  | .gave k _ => if k = c then false else a

/-- Is the last request of `c` one that has not yet been given to the replica? -/
def waiting (c : Nat) (evs : List Ev) : Bool := evs.foldl (waitStep c) false

/-- The requests that the queue took. -/
def takenOf : List Ev → List (Nat × Nat) :=
  List.filterMap (fun e => match e with | .asked c q true => some (c, q) | _ => none)

/-- The requests that the replica got. -/
def gaveOf : List Ev → List (Nat × Nat) :=
  List.filterMap (fun e => match e with | .gave c q => some (c, q) | _ => none)

/-- How often the thread that processes messages went on. -/
def turns (ops : List Op) : Nat := (ops.filter (fun o => match o with | .turn _ _ => true | _ => false)).length

/-! ### The timers, without handles -/

/-- Which components tick: when the next tick is due, and the period. -/
abbrev Plan := Nat → Option (Int × Int)

def Plan.init : Plan := fun _ => none

/-- The plan after a call. -/
def Plan.next (p : Plan) : Call → Plan
  | .start c period now => fun k => if k = c then (if period > 0 then some (now + period, period) else none) else p k
  | .stop c => fun k => if k = c then none else p k
  | .evaluate now => fun k => (p k).map (fun x => if x.1 ≤ now then (now + x.2, x.2) else x)

/-- The components that must tick at a call. -/
def Plan.ticks (p : Plan) : Call → Nat → Prop
  | .evaluate now, c => ∃ due period, p c = some (due, period) ∧ due ≤ now
  | _, _ => False

/-- The plan after a history. -/
def Plan.after : Plan → List Call → Plan
  | p, [] => p
  | p, o :: r => Plan.after (p.next o) r

/-- The ticks of a history: at every call exactly the components that are due, each once. -/
def Right : Plan → List Call → List (List Nat) → Prop
  | _, [], [] => True
  | p, o :: r, out :: outs => out.Nodup ∧ (∀ c, c ∈ out ↔ p.ticks o c) ∧ Right (p.next o) r outs
  | _, _, _ => False

end Verif.Ticks.Spec
