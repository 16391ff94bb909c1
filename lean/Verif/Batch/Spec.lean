import Verif.Batch.Model
/-!
# What is claimed of the primary's batches (property C47)

Words of the statements: the assumptions on the rest of the replica (`Allowed`), executions (`Path`), a well formed
batch (`BatchOk`), the conditions under which a batch may be built (`MayPropose`).
-/
namespace Concord.Batch
open Verif

/-- what the rest of the replica guarantees.  The requests are real messages (of positive size); the last executed
sequence number never passes the last proposed one while this replica is the primary of an active view, since it
executes only what it has proposed; the stable checkpoint does not decrease; a transferred checkpoint and the sequence
numbers of a new view lie in the window above the stable checkpoint (ReplicaImp.cpp:3330-3340, 3131-3150); views grow; a
view is entered once; the adaptive limit stays positive; the clients manager does not abort (property C14). -/
def Allowed (cfg : Cfg) (s : St) : Act → Prop
  | .request r => 0 < r.size
  | .clients o => (Clients.step cfg.clients s.cm o).isSome = true
  | .executed e a => primary cfg s = true → s.viewActive = true → e + a ≤ s.lastUsed
  | .stable q => s.lastStable ≤ q
  | .transferred q => s.lastStable ≤ q ∧ q ≤ s.lastStable + window
  | .leave v => s.view < v
  | .enter q => s.viewActive = false ∧ s.lastStable ≤ q ∧ q ≤ s.lastStable + window ∧ s.lastExec + s.active ≤ q
  | .adapt k => 0 < k
  | _ => True

/-- no batch is with the worker threads when a view is entered or a state transfer ends -/
def Quiet (s : St) : Act → Prop
  | .transferred _ => s.flight = []
  | .enter _ => s.flight = []
  | _ => True

/-- an execution in which every action satisfies `ok` -/
inductive Path (cfg : Cfg) (ok : St → Act → Prop) : St → List Act → St → Prop where
  | nil (s : St) : Path cfg ok s [] s
  | cons {s t u : St} {a : Act} {as : List Act} : ok s a → step cfg s a = some t → Path cfg ok t as u →
      Path cfg ok s (a :: as) u

/-- is the request in process: accepted for ordering and not yet executed, dropped or cleared -/
abbrev inProcess (cfg : Cfg) (s : St) (k : Nat × Nat) : Bool := Clients.inProcess cfg.clients s.cm k.1 k.2

/-- is there a saved reply -/
abbrev answered (cfg : Cfg) (s : St) (k : Nat × Nat) : Bool := Clients.hasReply cfg.clients s.cm k.1 k.2

/-- a well formed batch: it has a request, no request twice, only requests that clients sent, and the message does not
exceed the maximal size -/
structure BatchOk (cfg : Cfg) (accepted : List Req) (pp : PP) : Prop where
  nonempty : pp.reqs ≠ []
  once : (pp.reqs.map Req.key).Nodup
  genuine : ∀ r ∈ pp.reqs, r ∈ accepted
  fits : pp.overhead + total pp.reqs ≤ cfg.maxMsg

/-- the conditions for a new proposal: primary of an active view, no state transfer, not stopped, next sequence number
(counting the batches with the worker threads) within the window and within the concurrency level -/
structure MayPropose (cfg : Cfg) (s : St) : Prop where
  primary : s.view % cfg.n = cfg.me
  active : s.viewActive = true
  collecting : s.collecting = false
  pruning : s.pruning = false
  wedged : s.wedged = false
  stop : ∀ p, s.stopAt = some p → s.lastUsed + s.transient + 1 ≤ p
  inWindow : s.lastUsed + s.transient + 1 ≤ s.lastStable + 300
  inConc : s.lastUsed + s.transient + 1 ≤ s.lastExec + cfg.conc + s.active

/-- does the action remove a pending request -/
def Removes (k : Nat × Nat) : Act → Prop
  | .clients (.remove id q) => k = (id, q)
  | .clients (.outOfBounds _ _) => True
  | .clients .clear => True
  | .clients (.load _) => True
  | .collect => True
  | .enter _ => True
  | _ => False

/-- is it a view entry -/
def IsEnter : Act → Prop
  | .enter _ => True
  | _ => False

/-- is the batch due under the policy, for a queue `q` -/
def Due (cfg : Cfg) (s : St) (q : List Req) : Prop :=
  match cfg.policy with
  | .selfAdjusted => (s.lastUsed ≤ s.lastExec ∨ cfg.maxInit ≤ q.length)
  | .byNum => s.maxNum ≤ q.length
  | .adaptive => s.maxNum ≤ q.length
  | .bySize => cfg.maxBytes ≤ total q

end Concord.Batch
