import Verif.Window.Model
/-!
Specification of the active window: a map, a first retained number `lo` and the window `[begin, begin+W)`.
-/
namespace Concord.Window.Spec
open Concord.Window

structure St (α : Type) where
  lo : Nat
  begin : Nat
  m : Nat → α

variable {α : Type} (g : Cfg) (init : α)

def set (a : St α) (s : Nat) (x : α) : St α := { a with m := fun t => if t = s then x else a.m t }

def step (a : St α) : Op α → Option (St α × Out α)
  | .read s => if g.R ∣ s ∧ a.begin ≤ s ∧ s < a.begin + g.W then some (a, .item (a.m s)) else none
  | .readHist s => if g.R ∣ s ∧ a.lo ≤ s ∧ s < a.begin then some (a, .item (a.m s)) else none
  | .readAny s => if g.R ∣ s ∧ a.lo ≤ s ∧ s < a.begin + g.W then some (a, .item (a.m s)) else none
  | .write s x => if g.R ∣ s ∧ a.begin ≤ s ∧ s < a.begin + g.W then some (set a s x, .unit) else none
  | .writeHist s x => if g.R ∣ s ∧ a.lo ≤ s ∧ s < a.begin then some (set a s x, .unit) else none
  | .writeAny s x => if g.R ∣ s ∧ a.lo ≤ s ∧ s < a.begin + g.W then some (set a s x, .unit) else none
  | .inside s => some (a, .bool (decide (a.begin ≤ s ∧ s < a.begin + g.W)))
  | .inHist s => some (a, .bool (decide (a.lo ≤ s ∧ s < a.begin)))
  -- numbers entering the window are fresh, everything else is kept; the history keeps `H` windows; an advance
  -- by more than a window drops everything
  | .advance f =>
    if g.R ∣ f ∧ a.begin ≤ f then
      if f - a.begin > g.W then some (⟨f, f, fun _ => init⟩, .unit)
      else some (⟨max a.lo (f - g.H * g.W), f, fun s => if a.begin + g.W ≤ s then init else a.m s⟩, .unit)
    else none
  | .resetAll f => if g.R ∣ f then some (⟨f, f, fun _ => init⟩, .unit) else none

def run (a : St α) : List (Op α) → Option (St α × List (Out α))
  | [] => some (a, [])
  | o :: os => match step g init a o with
    | none => none
    | some (a', r) => match run a' os with
      | none => none
      | some (a'', rs) => some (a'', r :: rs)

def create (f : Nat) : Option (St α) := if g.R ∣ f then some ⟨f, f, fun _ => init⟩ else none

end Concord.Window.Spec
