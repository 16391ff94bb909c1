import Verif.Exec.Model
/-!
# Specification of execution: no crashes, no micro-steps

Batches are executed one after another in the order of their numbers.  In each batch the requests that should be
executed are run in order, each on the state left by the previous one, and their replies are recorded.
-/
namespace Verif.Exec

/-- what the outside world can see of a replica that is between two batches -/
structure World (Blk Rep : Type) where
  chain : List Blk
  tbl : Tbl Rep
  time : Int

/-- should an ordinary request be executed: it is not empty, its sender is allowed and it has no recorded reply -/
def Wanted {Rep : Type} (c : Cfg) (t : Tbl Rep) (r : Req) : Prop :=
  r.len ≠ 0 ∧ (r.client ∈ c.clients ∨ (c.sep = false ∧ r.replicaOk = true ∧ r.client < c.n)) ∧
  ¬ (r.client ∈ c.clients ∧ ∃ i, i < c.maxReqs ∧ ∃ rep, t r.client i = some (r.seq, rep)) ∧
  (c.sep = true → r.special = false)

open Classical in
/-- the ordinary requests of the batch that are executed -/
noncomputable def wanted {Rep : Type} (c : Cfg) (t : Tbl Rep) (b : Batch) : List Req :=
  b.reqs.filter (fun r => decide (Wanted c t r))

/-- run requests one after another -/
def runAll {Blk Rep : Type} (app : App Blk Rep) (s : Nat) (t : Int) : List Req → Nat → List Blk → List Blk × List Rep
  | [], _, ch => (ch, [])
  | r :: rs, pos, ch =>
    let x := app.run ch s t pos r
    let y := runAll app s t rs (pos + 1) (ch ++ x.1)
    (y.1, x.2 :: y.2)

/-- record replies one after another -/
def storeAll {Rep : Type} (c : Cfg) (t : Tbl Rep) : List Req → List Rep → Tbl Rep
  | r :: rs, x :: xs => storeAll c (store c t r x) rs xs
  | _, _ => t

/-- the special requests that run before the others (default path only) -/
def first (c : Cfg) (b : Batch) : List Req := if c.sep then specialsOf b else []

/-- all requests executed for a batch, in order -/
noncomputable def chosen {Rep : Type} (c : Cfg) (t : Tbl Rep) (b : Batch) : List Req := first c b ++ wanted c t b

/-- one batch -/
noncomputable def batchStep {Blk Rep : Type} (c : Cfg) (app : App Blk Rep) (s : Nat) (b : Batch) (w : World Blk Rep) :
    World Blk Rep :=
  if b.reqs = [] then w
  else
    let t := if b.time > w.time then b.time else w.time + c.eps
    let x := runAll app s t (first c b) 0 w.chain
    let y := runAll app s t (wanted c w.tbl b) (first c b).length x.1
    ⟨y.1, storeAll c (storeAll c w.tbl (first c b) x.2) (wanted c w.tbl b) y.2, t⟩

/-- the state after batches 1 … n -/
noncomputable def world {Blk Rep : Type} (c : Cfg) (app : App Blk Rep) (log : Nat → Batch) (time0 : Int) : Nat → World Blk Rep
  | 0 => ⟨[], fun _ _ => none, time0⟩
  | n + 1 => batchStep c app (n + 1) (log (n + 1)) (world c app log time0 n)

/-- the application calls for one number, in the order they were made -/
def callsFor (s : Nat) (calls : List (Nat × Req)) : List Req := (calls.filter (fun p => p.1 == s)).map (·.2)

end Verif.Exec
