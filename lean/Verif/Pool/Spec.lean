/-
What a pool is for, in terms of what its callers saw.
-/
import Verif.Pool.Model

namespace Verif.Pool.Spec
open Verif.Pool

/-- The elements that callers hold after a trace: got, and not given back since. -/
def holdStep (h : List Nat) : Ev → List Nat
  | .got e => h ++ [e]
  | .gave e => h.erase e
  | .threw _ => h

def held (tr : List Ev) : List Nat := tr.foldl holdStep []

/-- The elements that nobody holds, longest idle first. -/
def idleStep (h : List Nat) : Ev → List Nat
  | .got e => h.erase e
  | .gave e => h ++ [e]
  | .threw _ => h

def idle (n : Nat) (tr : List Ev) : List Nat := tr.foldl idleStep (List.range n)

end Verif.Pool.Spec
