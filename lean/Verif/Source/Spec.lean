/-
What is claimed about the choice of the source of state transfer, without reference to how it is made.
-/
import Verif.Source.Model

set_option linter.unusedSimpArgs false
set_option linter.unusedVariables false

namespace Verif.Source

/-- A configuration as the constructor gets it: a set of real replica ids, at least two of them (there are
`n - 1 ≥ 3` other replicas, or `n` for a read-only replica). -/
structure Cfg.Ok (c : Cfg) : Prop where
  nodup : c.others.Nodup
  real : noReplica ∉ c.others
  two : 2 ≤ c.others.length

/-- The calls as they are made: only peers are made preferred sources (BCStateTran.cpp:1825). -/
def Op.Fair (c : Cfg) : Op → Prop
  | .add r => r ∈ c.others
  | _ => True

/-- The calls while a fetch is going on: no reset, and no replica added from outside. -/
def Op.Fetching : Op → Prop
  | .reset => False
  | .add _ => False
  | .refillAll => False
  | _ => True

/-- How many of the calls change the primary that is known. -/
def changes (c : Cfg) : List Op → Sel → Nat
  | [], _ => 0
  | o :: os, s => match step c o s with
    | none => 0
    | some s' => (if s'.prim = s.prim then 0 else 1) + changes c os s'

/-- How many of a list of replicas are bad. -/
def badIn (bad : Nat → Bool) (l : List Nat) : Nat := (l.filter bad).length

/-- The ticks of the timer one after the other: time, time spent until the sending, random value. -/
def ticks (c : Cfg) : List (Nat × Nat × Nat) → Sel → Option Sel
  | [], s => some s
  | (now, d, rnd) :: rest, s => match tick c now d rnd s with
    | none => none
    | some s' => ticks c rest s'

/-- Each tick comes at most `δ` after the end of the one before, and takes at most `σ`; the clock does not
overflow. -/
def Sched (δ σ : Nat) : Nat → List (Nat × Nat × Nat) → Prop
  | _, [] => True
  | prev, (now, d, _) :: rest => prev ≤ now ∧ now ≤ prev + δ ∧ d ≤ σ ∧ now < 2 ^ 64 ∧ Sched δ σ (now + d) rest

/-- A request has just been sent, at time `t`, to a source that had none before. -/
def Waiting (t : Nat) (s : Sel) : Prop :=
  s.pref ≠ [] ∧ s.cur ≠ noReplica ∧ s.selTime > 0 ∧ s.fts = t ∧ t > 0 ∧ s.ongoing = true ∧ s.cnt = 0

/-- What a destination sees of a source that goes on sending: pieces of data (whether new or not,
BCStateTran.cpp:2639), and ticks of its own timer. -/
inductive Ev where
  | data (t : Nat)
  | tick (now d rnd : Nat)
deriving Repr

/-- The events one after the other. -/
def evs (c : Cfg) : List Ev → Sel → Option Sel
  | [], s => some s
  | .data t :: rest, s => evs c rest (setFetching t false s)
  | .tick now d rnd :: rest, s => match tick c now d rnd s with
    | none => none
    | some s' => evs c rest s'

/-- At each tick the last piece of data is not older than the timeout. -/
def Chatty (c : Cfg) : Nat → List Ev → Prop
  | _, [] => True
  | t0, .data t :: rest => t0 ≤ t ∧ t < 2 ^ 64 ∧ Chatty c t rest
  | t0, .tick now _ _ :: rest => t0 ≤ now ∧ now < 2 ^ 64 ∧ now ≤ t0 + c.retransTimeout ∧ Chatty c t0 rest

/-- PrePrepares from these senders, in this order. -/
def hear (c : Cfg) (ps : List Nat) (s : Sel) : Sel := ps.foldl (fun t p => updatePrimary c p t) s

/-- Nobody is nominated. -/
def NoNominee (s : Sel) : Prop := s.nom = noReplica ∧ s.nomCnt = 0

end Verif.Source
