import Verif.Meta.Model
/-!
# Specification of the metadata storage (C34)

The metadata is one record.  A transaction is a list of updates; they are applied, in order and all together, when the
outermost transaction ends.  A crash keeps the record and drops the list.  A power failure goes back to an earlier
record, not beyond the last one that was committed with `sync`.
-/
namespace Verif.Meta.Spec
open Verif.Bytes Verif.Meta

/-- what is kept about a sequence number -/
structure Slot where
  prePrepare : Option Msg
  fullCommitProof : Option Msg
  prepareFull : Option Msg
  commitFull : Option Msg
  forceCompleted : Bool
  slowStarted : Bool

def Slot.empty : Slot := ⟨none, none, none, none, false, false⟩

/-- what is kept about a checkpoint -/
structure CkSlot where
  msg : Option Msg
  completed : Bool

def CkSlot.empty : CkSlot := ⟨none, false⟩

/-- the metadata -/
structure Rec where
  lastExec : Nat
  primary : Nat
  lower : Nat
  lastView : Nat
  lastStable : Nat
  exit : ExitDesc
  newView : NewDesc
  exec : ExecDesc
  stable : List (Option Msg)
  slot : Nat → Slot
  ck : Nat → CkSlot
  user : Option Bytes
  rsi : Nat → Option Bytes
  erase : Bool
  epoch : Bool
  dbCk : Option Bytes

/-- the metadata of a new replica -/
def Rec.init (g : Cfg) : Rec where
  lastExec := 0
  primary := 0
  lower := 0
  lastView := 0
  lastStable := 0
  exit := ExitDesc.empty
  newView := NewDesc.empty g
  exec := ExecDesc.empty
  stable := []
  slot := fun _ => Slot.empty
  ck := fun _ => CkSlot.empty
  user := none
  rsi := fun _ => none
  erase := false
  epoch := false
  dbCk := none

def setSlot (m : Rec) (n : Nat) (f : Slot → Slot) : Rec := { m with slot := fun s => if s = n then f (m.slot s) else m.slot s }
def setCk (m : Rec) (n : Nat) (f : CkSlot → CkSlot) : Rec := { m with ck := fun s => if s = n then f (m.ck s) else m.ck s }

/-- the effect of an update -/
def apply (m : Rec) : Upd → Rec
  | .lastExec n => { m with lastExec := n }
  | .primary n => { m with primary := n }
  | .lower n => { m with lower := n }
  | .lastView n => { m with lastView := n }
  | .exit d => { m with exit := d }
  | .newView d => { m with newView := d }
  | .exec d => { m with exec := d }
  | .stable l => { m with stable := l }
  -- everything at or below a stable sequence number is forgotten, except its own checkpoint
  | .lastStable n => { m with
      lastStable := n
      slot := fun s => if s ≤ n then Slot.empty else m.slot s
      ck := fun s => if s < n then CkSlot.empty else m.ck s }
  | .prePrepare n x => setSlot m n (fun s => { s with prePrepare := x })
  | .fullCommitProof n x => setSlot m n (fun s => { s with fullCommitProof := x })
  | .prepareFull n x => setSlot m n (fun s => { s with prepareFull := x })
  | .commitFull n x => setSlot m n (fun s => { s with commitFull := x })
  | .forceCompleted n b => setSlot m n (fun s => { s with forceCompleted := b })
  | .slowStarted n b => setSlot m n (fun s => { s with slowStarted := b })
  | .ckMsg n x => setCk m n (fun s => { s with msg := x })
  | .completed n b => setCk m n (fun s => { s with completed := b })
  | .clearWindow => { m with slot := fun _ => Slot.empty }
  | .user v => { m with user := some v }
  | .rsi i v => { m with rsi := fun j => if j = i then some v else m.rsi j }

/-- a sequence number the window covers -/
def inWindow (m : Rec) (n : Nat) : Bool := decide (m.lastStable < n) && decide (n ≤ m.lastStable + 300)
/-- a checkpoint the window covers -/
def inCkWindow (m : Rec) (n : Nat) : Bool := decide (n % 150 = 0) && decide (m.lastStable ≤ n) && decide (n < m.lastStable + 450)

/-- no execution is under way beyond the next sequence number -/
def notAhead (m : Rec) : Bool := decide (m.exec = ExecDesc.empty) || decide (m.exec.seq ≤ m.lastExec + 1)

/-- when an update is accepted; `m` is the metadata as the transaction has left it so far.  Every other call ends the
process. -/
def accepts (g : Cfg) (m : Rec) : Upd → Bool
  | .lastExec n => decide (m.lastExec ≤ n)
  | .primary _ => notAhead m
  | .lower _ => notAhead m
  | .lastView n => notAhead m && decide (m.lastView ≤ n)
  | .exit d => (!m.newView.isDefault || decide (d.view = 0)) && decide (d.elements.length ≤ 300) && d.elements.all (prevOk g d.view)
  | .newView d => !m.exit.isDefault && newOk g d
  | .exec d => (decide (m.exec = ExecDesc.empty) || decide (m.exec.seq < d.seq)) && decide (d.seq = m.lastExec + 1) &&
      decide (1 ≤ d.bits.n) && decide (d.bits.n ≤ 4096)
  | .stable _ => true
  | .lastStable n => decide (n % 150 = 0) && decide (m.lastStable ≤ n)
  | .prePrepare n _ | .fullCommitProof n _ | .prepareFull n _ | .commitFull n _ | .forceCompleted n _ | .slowStarted n _ => inWindow m n
  | .ckMsg n _ => inCkWindow m n
  | .completed n b => b && inCkWindow m n
  | .clearWindow => true
  | .user _ => true
  | .rsi _ _ => true

def atomic (m : Rec) : Atom → Rec
  | .user v => { m with user := some v }
  | .erase => { m with erase := true }
  | .epoch b => { m with epoch := b }
  | .dbCk v => { m with dbCk := some v }

/-- the value a getter returns; `none` when the number is outside the window -/
def value (m : Rec) : Get → Option Out
  | .lastExec => some (.nat m.lastExec)
  | .primary => some (.nat m.primary)
  | .lower => some (.nat m.lower)
  | .lastView => some (.nat m.lastView)
  | .lastStable => some (.nat m.lastStable)
  | .exit => some (.exit m.exit)
  | .newView => some (.newView m.newView)
  | .exec => some (.exec m.exec)
  | .stable => some (.stable m.stable)
  | .prePrepare n => if inWindow m n then some (.msg (m.slot n).prePrepare) else none
  | .fullCommitProof n => if inWindow m n then some (.msg (m.slot n).fullCommitProof) else none
  | .prepareFull n => if inWindow m n then some (.msg (m.slot n).prepareFull) else none
  | .commitFull n => if inWindow m n then some (.msg (m.slot n).commitFull) else none
  | .forceCompleted n => if inWindow m n then some (.bool (m.slot n).forceCompleted) else none
  | .slowStarted n => if inWindow m n then some (.bool (m.slot n).slowStarted) else none
  | .ckMsg n => if inCkWindow m n then some (.msg (m.ck n).msg) else none
  | .completed n => if inCkWindow m n then some (.bool (m.ck n).completed) else none
  | .user => some (.bytes m.user)
  | .rsi i => some (.bytes (m.rsi i))
  | .erase => some (.bool m.erase)
  | .epoch => some (.bool m.epoch)
  | .dbCk => some (.bytes m.dbCk)

structure St where
  /-- the committed metadata -/
  cur : Rec
  /-- committed before, still possible after a power failure -/
  old : List Rec
  /-- open transactions -/
  depth : Nat
  /-- the updates of the open transaction -/
  pend : List Upd

/-- the metadata as the open transaction has left it -/
def St.view (s : St) : Rec := s.pend.foldl apply s.cur

/-- start of the process: all metadata is dropped when that was asked for -/
def boot (g : Cfg) (m : Rec) (old : List Rec) : St := if m.erase then ⟨Rec.init g, m :: old, 0, []⟩ else ⟨m, old, 0, []⟩

/-- one step.  A call that is not accepted ends the process, and the next process starts with the committed metadata. -/
inductive Step (g : Cfg) : St → Op → St → Out → Prop
  | begin {s : St} : Step g s .begin { s with depth := s.depth + 1, pend := if s.depth = 0 then [] else s.pend } .ok
  | inner {s : St} {y : Bool} : 2 ≤ s.depth → Step g s (.fin y) { s with depth := s.depth - 1 } .ok
  | outer {s : St} {y : Bool} : s.depth = 1 →
      Step g s (.fin y) ⟨s.view, if y then [] else s.cur :: s.old, 0, []⟩ .ok
  | noTran {s : St} {y : Bool} : s.depth = 0 → Step g s (.fin y) (boot g s.cur s.old) .dies
  | set {s : St} {u : Upd} : s.depth ≠ 0 → accepts g s.view u = true → Step g s (.set u) { s with pend := s.pend ++ [u] } .ok
  | refused {s : St} {u : Upd} : s.depth = 0 ∨ accepts g s.view u = false → Step g s (.set u) (boot g s.cur s.old) .dies
  | atomic {s : St} {a : Atom} : Step g s (.atomic a) { s with cur := Spec.atomic s.cur a, old := s.cur :: s.old } .ok
  | get {s : St} {q : Get} {j : Nat → Bytes} {o : Out} : (q.asserts = true → s.depth = 0) → value s.cur q = some o →
      Step g s (.get q j) s o
  | noGet {s : St} {q : Get} {j : Nat → Bytes} : (q.asserts = true ∧ s.depth ≠ 0) ∨ value s.cur q = none →
      Step g s (.get q j) (boot g s.cur s.old) .dies
  | crash {s : St} {k : Nat} : Step g s (.crash k) (boot g s.cur s.old) .ok
  | power {s : St} {k i : Nat} {m : Rec} : m ∈ s.cur :: s.old → Step g s (.power k i) (boot g m []) .ok

inductive Run (g : Cfg) : St → List Op → St → List Out → Prop
  | nil {s : St} : Run g s [] s []
  | cons {s s' s'' : St} {o : Op} {r : Out} {os : List Op} {rs : List Out} : Step g s o s' r → Run g s' os s'' rs →
      Run g s (o :: os) s'' (r :: rs)

def start (g : Cfg) : St := ⟨Rec.init g, [], 0, []⟩

end Verif.Meta.Spec
