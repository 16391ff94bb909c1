/-
What the users of reserved pages rely on (C54): every component has pages of its own.
-/
import Verif.Layout.Model

namespace Verif.Layout.Spec

open Verif.Layout (Op Bytes pad)

/-- The number of pages a component asked for: the last one given for it. -/
def number (t : Nat) : List Op → Option Nat
  | [] => none
  | o :: r =>
    match number t r with
    | some n => some n
    | none =>
      match o with
      | .register t' n => if t' = t then some n else none
      | .setNum t' n => if t' = t then some n else none
      | _ => none

/-- An operation that gives numbers of pages. -/
def IsStart : Op → Prop
  | .register _ _ => True
  | .setNum _ _ => True
  | _ => False

/-- An operation on a page that the component asked for. -/
def Own (size : Nat) (start : List Op) : Op → Prop
  | .load t page len => (∃ n, number t start = some n ∧ page < n) ∧ len ≤ size
  | .save t page b => (∃ n, number t start = some n ∧ page < n) ∧ b.length ≤ size
  | .zero t page => ∃ n, number t start = some n ∧ page < n
  | _ => False

/-- Private pages: component, page, content. -/
abbrev Private := Nat → Nat → Option Bytes

/-- With private pages, the answer to an operation, and the pages after it. -/
def effect (size : Nat) (m : Private) : Op → Option Bytes × Private
  | .load t page len => ((m t page).map (List.take len), m)
  | .save t page b => (none, fun t' p => if t' = t ∧ p = page then some (pad size b) else m t' p)
  | .zero t page => (none, fun t' p => if t' = t ∧ p = page then some (List.replicate size 0) else m t' p)
  | _ => (none, m)

/-- The answers of a history. -/
def answers (size : Nat) : Private → List Op → List (Option Bytes)
  | _, [] => []
  | m, o :: r => (effect size m o).1 :: answers size (effect size m o).2 r

/-- The private pages after a history. -/
def after (size : Nat) : Private → List Op → Private
  | m, [] => m
  | m, o :: r => after size (effect size m o).2 r

end Verif.Layout.Spec
