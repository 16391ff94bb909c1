import Verif.Leave.Model
/-! C46: the words used in its statements. -/
namespace Concord.Leave

/-- at most `f` replicas do not follow the program -/
def FewFaulty (cfg : Cfg) : Prop :=
  ∀ L : List Nat, L.Nodup → (∀ j ∈ L, j < cfg.n ∧ cfg.honest j = false) → L.length ≤ cfg.f

/-- replica `i` was once in view `w` or above -/
def Reached (log : List Ev) (i w : Nat) : Prop := w = 0 ∨ ∃ a b, Ev.moved i a b ∈ log ∧ w ≤ b

/-- a correct replica in view `u` asked to leave `u` -/
def Suspected (cfg : Cfg) (log : List Ev) (u : Nat) : Prop :=
  ∃ i why, i < cfg.n ∧ cfg.honest i = true ∧ Ev.asked i u why ∈ log

/-- the rotation timer of a correct replica ran out in view `u` or before, and it went from `u` to the next view -/
def Rotated (cfg : Cfg) (log : List Ev) (u : Nat) : Prop :=
  ∃ i u', i < cfg.n ∧ cfg.honest i = true ∧ u' ≤ u ∧ Ev.rotated i u' ∈ log ∧ Ev.moved i u (u + 1) ∈ log

/-- the primary of view `u` does not follow the program, and a correct replica in `u` saw it leave -/
def PrimaryFaulty (cfg : Cfg) (log : List Ev) (u : Nat) : Prop :=
  cfg.honest (cfg.primary u) = false ∧ ∃ i, i < cfg.n ∧ cfg.honest i = true ∧ Ev.moved i u (u + 1) ∈ log

/-- there was a reason to leave view `u` -/
def Caused (cfg : Cfg) (log : List Ev) (u : Nat) : Prop :=
  Suspected cfg log u ∨ Rotated cfg log u ∨ PrimaryFaulty cfg log u

/-- `q` different replicas signed a view-change message for view `u` or above -/
def Signed (cfg : Cfg) (N : Net) (q u : Nat) : Prop :=
  ∃ Q : List Nat, Q.Nodup ∧ Q.length = q ∧ ∀ j ∈ Q, j < cfg.n ∧ ∃ w, u ≤ w ∧ (⟨j, w⟩ : VC) ∈ N.vcs

/-- `q` different correct replicas were once in view `u` or above -/
def CorrectReached (cfg : Cfg) (log : List Ev) (q u : Nat) : Prop :=
  ∃ Q : List Nat, Q.Nodup ∧ q ≤ Q.length ∧ ∀ j ∈ Q, j < cfg.n ∧ cfg.honest j = true ∧ Reached log j u

end Concord.Leave
