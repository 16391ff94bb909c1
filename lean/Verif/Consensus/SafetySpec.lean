import Verif.Consensus.SafetyLogic
/-!
Specification of the view-change safety rule, independent of iterators, sets and counters.
-/
namespace Concord.VC.Spec
open Concord.VC

/-- the messages of an array indexed by replica -/
def msgs (arr : List (Option VCMsg)) : List VCMsg := arr.filterMap id

/-- everything the messages report about sequence number `s` -/
def reported (s : Nat) (ms : List VCMsg) : List Elem :=
  (ms.flatMap (·.elems)).filter (fun e => decide (e.seq = s))

/-- what message validation guarantees (see `ViewChangeBytes` for the byte level):
ViewChangeMsg::checkElements, messages/ViewChangeMsg.cpp:190-235. -/
structure ValidVC (m : VCMsg) : Prop where
  sorted : m.elems.Pairwise (fun a b => a.seq < b.seq)
  range : ∀ e ∈ m.elems, m.lastStable < e.seq ∧ e.seq ≤ m.lastStable + 300
  origin : ∀ e ∈ m.elems, e.originView < m.newView
  cert : ∀ e ∈ m.elems, ∀ c, e.cert = some c → c.view ≤ e.originView

/-- there is a valid prepared certificate of view `v` for digest `d` -/
def HasCert (g : Cfg) (s : Nat) (es : List Elem) (v d : Nat) : Prop :=
  ∃ e ∈ es, e.digest = d ∧ ∃ sig, e.cert = some ⟨v, sig⟩ ∧ g.valid v s d sig = true

/-- number of reports of digest `d` from view `m` or later -/
def fastVotes (m d : Nat) (es : List Elem) : Nat :=
  es.countP (fun e => decide (e.originView ≥ m ∧ e.digest = d))

/-- `(v,d)` is the best certificate: highest view, smallest digest in that view. -/
def BestCert (g : Cfg) (s : Nat) (es : List Elem) (v d : Nat) : Prop :=
  HasCert g s es v d ∧ ∀ v' d', HasCert g s es v' d' → v' < v ∨ (v' = v ∧ d ≤ d')

/-- The rule: a digest reported by `F+C+1` messages from views above the best certificate wins;
otherwise the best certificate; otherwise no restriction. -/
inductive Chosen (g : Cfg) (s : Nat) (es : List Elem) : Option Nat → Prop
  | fast_over_cert (v d d' : Nat) : BestCert g s es v d → g.F + g.C + 1 ≤ fastVotes (v + 1) d' es → Chosen g s es (some d')
  | fast_no_cert (d' : Nat) : (∀ v d, ¬ HasCert g s es v d) → g.F + g.C + 1 ≤ fastVotes 0 d' es → Chosen g s es (some d')
  | cert (v d : Nat) : BestCert g s es v d → (∀ d', fastVotes (v + 1) d' es < g.F + g.C + 1) → Chosen g s es (some d)
  | free : (∀ v d, ¬ HasCert g s es v d) → (∀ d', fastVotes 0 d' es < g.F + g.C + 1) → Chosen g s es none

/-- An *invalid* certificate carries view `v` and digest `d` (only a faulty sender reports one). -/
def Shadowed (g : Cfg) (s : Nat) (es : List Elem) (v d : Nat) : Prop :=
  ∃ e ∈ es, e.digest = d ∧ ∃ sig, e.cert = some ⟨v, sig⟩ ∧ g.valid v s d sig = false

/-- No invalid certificate carries the same view and digest as a valid one (for the same sequence number). -/
def NoShadow (g : Cfg) (s : Nat) (es : List Elem) : Prop :=
  ∀ v d, HasCert g s es v d → ¬ Shadowed g s es v d

end Concord.VC.Spec
