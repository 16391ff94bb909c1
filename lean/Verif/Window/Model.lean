/-!
Model of `SequenceWithActiveWindow`, bftengine/src/bftengine/SequenceWithActiveWindow.hpp.

The template parameters are `Resolution = R`, `WindowSize = n * R` (the code asserts that the resolution divides
the window size, line 38) and `WindowHistory = H`.  Simplifications: numbers are unbounded (the code stores
array indices in `uint16_t`, which is exact for `totalItems < 2^16`; the instantiations have 300, 600 and 4
items), and `ItemFuncs::reset` yields a fixed value `init`.  A failed `ConcordAssert` is `none`.
-/
namespace Concord.Window

/-- Template parameters, SequenceWithActiveWindow.hpp:26-38. -/
structure Cfg where
  R : Nat
  n : Nat
  H : Nat

/-- the `static_assert`s, lines 34-38 -/
structure Cfg.Ok (g : Cfg) : Prop where
  res : 0 < g.R
  items : 0 < g.n

/-- `WindowSize` -/
def Cfg.W (g : Cfg) : Nat := g.n * g.R
/-- `maxNumItemsInsideInactiveWindow`, line 42 -/
def Cfg.maxHist (g : Cfg) : Nat := g.H * g.n
/-- `totalItems`, line 43 -/
def Cfg.total (g : Cfg) : Nat := g.maxHist + g.n

/-- The members, lines 45-48. -/
structure Win (α : Type) where
  /-- `beginningOfActiveWindow_` -/
  begin : Nat
  /-- `firstItemOfActiveWindow_` -/
  first : Nat
  /-- `numItemsInsideInactiveWindow_` -/
  nHist : Nat
  /-- `workingWindow_` -/
  arr : Nat → α

variable {α : Type} (g : Cfg) (init : α)

/-- Constructor, lines 51-63. -/
def create (windowFirst : Nat) : Option (Win α) :=
  if windowFirst % g.R = 0 then some ⟨windowFirst, 0, 0, fun _ => init⟩ else none

/-- lines 69-71 -/
def Win.insideActiveWindow (w : Win α) (s : Nat) : Bool := decide (w.begin ≤ s) && decide (s < w.begin + g.W)

/-- lines 81-84 -/
def Win.beginHist (w : Win α) : Nat := w.begin - w.nHist * g.R

/-- lines 73-79 -/
def Win.inHistory (w : Win α) (s : Nat) : Bool :=
  if 0 < w.nHist then decide (w.beginHist g ≤ s) && decide (s < w.begin) else false

/-- the array index used by `get`, lines 86-93 -/
def Win.idx (w : Win α) (s : Nat) : Option Nat :=
  if s % g.R = 0 ∧ w.insideActiveWindow g s = true then some ((w.first + (s - w.begin) / g.R) % g.total) else none

/-- the array index used by `getFromHistory`, lines 95-111 (`first - nHist + total` is computed modulo `2^64` in the
code, where the wrap-around of the subtraction cancels; here the addition comes first) -/
def Win.idxHist (w : Win α) (s : Nat) : Option Nat :=
  if w.inHistory g s = true ∧ s % g.R = 0 ∧ 0 < w.nHist ∧ w.nHist ≤ g.maxHist then
    some ((w.first + g.total - w.nHist + (s - w.beginHist g) / g.R) % g.total)
  else none

/-- the array index used by `getFromActiveWindowOrHistory`, lines 113-120 -/
def Win.idxAny (w : Win α) (s : Nat) : Option Nat :=
  if w.insideActiveWindow g s then w.idx g s
  else if w.inHistory g s then w.idxHist g s
  else none

/-- `resetAll`, lines 129-136 -/
def Win.resetAll (w : Win α) (f : Nat) : Option (Win α) :=
  if f % g.R = 0 then some { w with arr := fun _ => init, begin := f, nHist := 0 } else none

/-- the loop of lines 162-165: `k` items from `i` on are reset, cyclically -/
def resetLoop (total : Nat) : (k i : Nat) → (Nat → α) → (Nat → α)
  | 0, _, a => a
  | k + 1, i, a => resetLoop total k ((i + 1) % total) (fun j => if j = i then init else a j)

/-- `advanceActiveWindow`, lines 138-175 -/
def Win.advance (w : Win α) (f : Nat) : Option (Win α) :=
  if f % g.R = 0 ∧ w.begin ≤ f then
    if f = w.begin then some w
    else if f - w.begin > g.W then w.resetAll g init f
    else
      let k := (f - w.begin) / g.R
      let oldEnd := (w.first + g.n) % g.total
      let newBegin := (w.first + k) % g.total
      if 0 < k ∧ k ≤ g.n then
        let h := w.nHist + k
        some { begin := f, first := newBegin, nHist := if h > g.maxHist then g.maxHist else h,
               arr := resetLoop init g.total k oldEnd w.arr }
      else none
  else none

/-- The calls a user can make; reads and writes go through the references returned by the three getters. -/
inductive Op (α : Type) where
  | read (s : Nat) | readHist (s : Nat) | readAny (s : Nat)
  | write (s : Nat) (x : α) | writeHist (s : Nat) (x : α) | writeAny (s : Nat) (x : α)
  | inside (s : Nat) | inHist (s : Nat)
  | advance (f : Nat) | resetAll (f : Nat)

/-- What a call returns. -/
inductive Out (α : Type) where
  | unit | item (x : α) | bool (b : Bool)
deriving DecidableEq

/-- write through a reference -/
def Win.put (w : Win α) (i : Nat) (x : α) : Win α := { w with arr := fun j => if j = i then x else w.arr j }

/-- one call; `none` is an assertion failure -/
def Win.step (w : Win α) : Op α → Option (Win α × Out α)
  | .read s => (w.idx g s).map (fun i => (w, .item (w.arr i)))
  | .readHist s => (w.idxHist g s).map (fun i => (w, .item (w.arr i)))
  | .readAny s => (w.idxAny g s).map (fun i => (w, .item (w.arr i)))
  | .write s x => (w.idx g s).map (fun i => (w.put i x, .unit))
  | .writeHist s x => (w.idxHist g s).map (fun i => (w.put i x, .unit))
  | .writeAny s x => (w.idxAny g s).map (fun i => (w.put i x, .unit))
  | .inside s => some (w, .bool (w.insideActiveWindow g s))
  | .inHist s => some (w, .bool (w.inHistory g s))
  | .advance f => (w.advance g init f).map (fun w' => (w', .unit))
  | .resetAll f => (w.resetAll g init f).map (fun w' => (w', .unit))

/-- a sequence of calls with its results -/
def Win.run (w : Win α) : List (Op α) → Option (Win α × List (Out α))
  | [] => some (w, [])
  | o :: os => match w.step g init o with
    | none => none
    | some (w', r) => match Win.run w' os with
      | none => none
      | some (w'', rs) => some (w'', r :: rs)

end Concord.Window
