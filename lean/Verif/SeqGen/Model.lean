/-
Model of the sequence numbers of client requests: `SeqNumberGenerator::unique`,
client/bftclient/include/bftclient/seq_num_generator.h:37-92, and its twin
`SeqNumberGeneratorForClientRequestsImp`, bftengine/src/bftengine/SimpleClientImp.cpp:658-704 (the same
lines, without the mutex).

Nothing is simplified but the clock: it is any sequence of readings, in milliseconds since the epoch.
-/

set_option linter.unusedSimpArgs false
set_option linter.unusedVariables false

namespace Verif.SeqGen

/-- seq_num_generator.h:76-79 / SimpleClientImp.cpp:666-669: `lastMilliOfUniqueFetchID_` (64 bits) and
`lastCountOfUniqueFetchID_` (32 bits). -/
structure State where
  milli : Nat
  count : Nat
deriving DecidableEq, Repr

def State.init : State := ⟨0, 0⟩

/-- seq_num_generator.h:74 / SimpleClientImp.cpp:665. -/
def limit : Nat := 0x3FFFFF

/-- `uint64_t milli = duration_cast<milliseconds>(...).count()`: seq_num_generator.h:48 /
SimpleClientImp.cpp:679; a negative count becomes a large number. -/
def toU64 (c : Int) : Nat := (c % 18446744073709551616).toNat

/-- seq_num_generator.h:50-62 / SimpleClientImp.cpp:681-692. -/
def advance (c : Int) (s : State) : State :=
  if toU64 c > s.milli then ⟨toU64 c, 0⟩
  else if s.count == limit then ⟨(s.milli + 1) % 18446744073709551616, 0⟩
  else ⟨s.milli, (s.count + 1) % 4294967296⟩

/-- seq_num_generator.h:63-70 / SimpleClientImp.cpp:695-699: the number; `none` is a failed assertion. -/
def number (s : State) : Option Nat :=
  if s.count ≤ limit then some ((s.milli <<< (64 - 42)) % 18446744073709551616 ||| s.count) else none

/-- One call of `unique(now)`. -/
def unique (c : Int) (s : State) : Option Nat × State := (number (advance c s), advance c s)

/-- The numbers of a process, for the clock readings at its requests. -/
def numbers : List Int → State → List (Option Nat)
  | [], _ => []
  | c :: r, s => (unique c s).1 :: numbers r (unique c s).2

end Verif.SeqGen
