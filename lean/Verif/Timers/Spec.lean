/-
What timers are for, without vectors and iterators: a log of what was called and what was run, and what it
means for such a log to be right.  The newest event comes first.
-/
import Verif.Timers.Model

namespace Verif.Timers.Spec
open Verif.Timers

/-- A timer that waits: when it is due, its duration, and whether it runs only once. -/
structure Armed where
  due : Int
  dur : Int
  oneShot : Bool
deriving DecidableEq, Repr

/-- Is the timer of handle `h` waiting after these events, and until when? -/
def armed : List Ev → Nat → Option Armed
  | [], _ => none
  | .added h d o t :: r, k => if k = h then some ⟨t + d, d, o⟩ else armed r k
  | .reset h d t :: r, k => if k = h then (armed r k).map (fun a => ⟨t + d, d, a.oneShot⟩) else armed r k
  | .cancelled h :: r, k => if k = h then none else armed r k
  | .began _ _ :: r, k => armed r k
  | .finished h t :: r, k =>
    if k = h then (armed r k).bind (fun a => if a.oneShot then none else some ⟨t + a.dur, a.dur, false⟩)
    else armed r k

/-- The callback that is being run after these events. -/
def running : List Ev → Option (Nat × Int)
  | [] => none
  | .began h t :: _ => some (h, t)
  | .finished _ _ :: _ => none
  | _ :: r => running r

/-- A log is right: handles are new and not 0; a callback runs only for a timer that waits and is due, one
callback at a time, and returns before anything else runs. -/
def Right : List Ev → Prop
  | [] => True
  | .added h _ _ _ :: r => Right r ∧ h ≠ 0 ∧ ∀ d o t, Ev.added h d o t ∉ r
  | .reset _ _ _ :: r => Right r
  | .cancelled _ :: r => Right r
  | .began h t :: r => Right r ∧ running r = none ∧ ∃ a, armed r h = some a ∧ a.due ≤ t
  | .finished h t :: r => Right r ∧ running r = some (h, t)

/-- How often the callback of `h` was entered. -/
def runsOf (h : Nat) (l : List Ev) : Nat :=
  (l.filter (fun e => match e with | .began h' _ => h' == h | _ => false)).length

end Verif.Timers.Spec
