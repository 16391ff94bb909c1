import Mathlib.Data.Finset.Card
import Mathlib.Data.List.Basic
/-!
Specification vocabulary for C09: what was sent, independent of how the certificate stores it.
-/
namespace Concord.Cert

variable {M : Type}

/-- the first message of sender `id` in the sequence of `addMsg` calls -/
def firstOf (ops : List (Nat × M)) (id : Nat) : Option M := (ops.find? (fun e => e.1 == id)).map (·.2)

/-- the senders -/
def senders (ops : List (Nat × M)) : Finset Nat := (ops.map (·.1)).toFinset

/-- the distinct senders whose first message is equivalent to `m` -/
def support (eqv : M → M → Bool) (ops : List (Nat × M)) (m : M) : Finset Nat :=
  (senders ops).filter (fun id => ∃ m', firstOf ops id = some m' ∧ eqv m m' = true)

/-- `equivalent` is an equivalence relation (both instances compare fields for equality:
CheckpointMsg.hpp 66-67, SimpleClientImp.cpp `equivalent`) -/
structure IsEqv (eqv : M → M → Bool) : Prop where
  refl : ∀ a, eqv a a = true
  symm : ∀ a b, eqv a b = true → eqv b a = true
  trans : ∀ a b c, eqv a b = true → eqv b c = true → eqv a c = true

end Concord.Cert
