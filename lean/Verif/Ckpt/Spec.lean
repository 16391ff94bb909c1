import Verif.Ckpt.Model
/-!
C42, specification: what a replica was told and what it may conclude.
-/
namespace Verif.Ckpt

/-- The configurations of the system: at least one faulty replica tolerated, the replica is one of the `n` -/
structure Cfg.Ok (g : Cfg) : Prop where
  f : 1 ≤ g.F
  self : g.self < g.n

/-- What the environment guarantees. A checkpoint message reaches the handler only if `validate` accepted it
(CheckpointMsg.cpp 47-73: ids of replicas, sequence number of a checkpoint, signature of the generating replica; in
particular a message with this replica's signature was signed by it). A sequence number is executed only inside the work
window (ReplicaImp executes what is in `mainLog`).  The metadata store returns the descriptor it was given. -/
def Legal (g : Cfg) (e : Ev) (a : St) : Prop :=
  match e with
  | .recv m => m.gen < g.n ∧ m.sender < g.n ∧ m.sender ≠ g.self ∧ m.seq % cpw = 0 ∧
      (m.gen = g.self → (m.seq, m.content) ∈ a.signed)
  | .exec => a.lastExec < a.lastStable + wws
  | .status r ls => r < g.n ∧ r ≠ g.self ∧ ls % cpw = 0
  | .restart d => d.Perm a.ps.desc
  | _ => True

/-- The life of a replica: events with the answers of the other modules, everything it let the outside see, and its
state. Restarts are events. -/
inductive Run (g : Cfg) : List (Env × Ev) → List Out → St → Prop
  | init : Run g [] [] {}
  | step {evs o a} (h : Run g evs o a) (v : Env) (e : Ev) {a' o'} (hl : Legal g e a)
      (hs : step g v e a = some (a', o')) : Run g (evs ++ [(v, e)]) (o ++ o') a'

/-- Replica `r` vouches for content `c` of checkpoint `s`: it is this replica and it signed that, or a validly signed
message of `r` saying so was received. -/
def Vouches (g : Cfg) (evs : List (Env × Ev)) (signed : List (Nat × Content)) (s : Nat) (c : Content) (r : Nat) : Prop :=
  if r = g.self then (s, c) ∈ signed
  else ∃ v m, (v, Ev.recv m) ∈ evs ∧ m.gen = r ∧ m.seq = s ∧ m.content = c

/-- At least `k` distinct replicas, this one among them, vouch for one content of checkpoint `s` -/
def Backed (g : Cfg) (evs : List (Env × Ev)) (signed : List (Nat × Content)) (s k : Nat) : Prop :=
  ∃ c, ∃ l : List Nat, l.Nodup ∧ k ≤ l.length ∧ g.self ∈ l ∧ ∀ r ∈ l, r < g.n ∧ Vouches g evs signed s c r

/-- `r` told this replica, in a validly signed message flagged stable, about a checkpoint that is ahead of it: a later one
in its own epoch `ep`, or one of a later epoch -/
def ToldAhead (evs : List (Env × Ev)) (ep lastExec r : Nat) : Prop :=
  ∃ v m, (v, Ev.recv m) ∈ evs ∧ m.gen = r ∧ m.stable = true ∧ ((m.epoch = ep ∧ lastExec < m.seq) ∨ ep < m.epoch)

/-- `r` told this replica about a checkpoint beyond its work window, or of a later epoch -/
def ToldBeyond (evs : List (Env × Ev)) (ep lastStable r : Nat) : Prop :=
  ∃ v m, (v, Ev.recv m) ∈ evs ∧ m.gen = r ∧ m.stable = true ∧ (lastStable + wws < m.seq ∨ ep < m.epoch)

/-- the message an output sends -/
def Out.msg? : Out → Option Msg
  | .sendAll m => some m
  | .sendTo _ m => some m
  | _ => none

end Verif.Ckpt
