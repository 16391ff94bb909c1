import Verif.Batch.Policy
/-!
# Property C47: concrete executions

The hypotheses of the theorems are met by real executions, and the failures announced in the theorems happen.
-/
set_option linter.unusedVariables false
set_option maxRecDepth 100000
namespace Concord.Batch.Examples
open Concord.Batch Verif

instance decAllowed (cfg : Cfg) (s : St) : (a : Act) → Decidable (Allowed cfg s a)
  | .request r => inferInstanceAs (Decidable (0 < r.size))
  | .clients o => inferInstanceAs (Decidable ((Clients.step cfg.clients s.cm o).isSome = true))
  | .executed e a => inferInstanceAs (Decidable (primary cfg s = true → s.viewActive = true → e + a ≤ s.lastUsed))
  | .stable q => inferInstanceAs (Decidable (s.lastStable ≤ q))
  | .transferred q => inferInstanceAs (Decidable (s.lastStable ≤ q ∧ q ≤ s.lastStable + window))
  | .leave v => inferInstanceAs (Decidable (s.view < v))
  | .enter q => inferInstanceAs (Decidable (s.viewActive = false ∧ s.lastStable ≤ q ∧ q ≤ s.lastStable + window ∧ s.lastExec + s.active ≤ q))
  | .adapt k => inferInstanceAs (Decidable (0 < k))
  | .flush => isTrue trivial
  | .retry => isTrue trivial
  | .force => isTrue trivial
  | .finished _ => isTrue trivial
  | .collect => isTrue trivial
  | .control _ _ _ => isTrue trivial

instance decQuiet (s : St) : (a : Act) → Decidable (Quiet s a)
  | .transferred _ => inferInstanceAs (Decidable (s.flight = []))
  | .enter _ => inferInstanceAs (Decidable (s.flight = []))
  | .request _ => isTrue trivial
  | .clients _ => isTrue trivial
  | .executed _ _ => isTrue trivial
  | .stable _ => isTrue trivial
  | .leave _ => isTrue trivial
  | .adapt _ => isTrue trivial
  | .flush => isTrue trivial
  | .retry => isTrue trivial
  | .force => isTrue trivial
  | .finished _ => isTrue trivial
  | .collect => isTrue trivial
  | .control _ _ _ => isTrue trivial

/-- run with the assumptions checked at every step -/
def runOk (cfg : Cfg) (quiet : Bool) : St → List Act → Option St
  | s, [] => some s
  | s, a :: as =>
    if Allowed cfg s a ∧ (quiet = true → Quiet s a) then
      match step cfg s a with
      | none => none
      | some t => runOk cfg quiet t as
    else none

theorem path_of_run (cfg : Cfg) : ∀ (as : List Act) (s t : St), runOk cfg false s as = some t → Path cfg (Allowed cfg) s as t := by
  intro as
  induction as with
  | nil => intro s t h; cases h; exact .nil s
  | cons a as ih =>
    intro s t h
    unfold runOk at h
    split at h
    · rename_i hc
      split at h
      · cases h
      · rename_i u hu; exact .cons hc.1 hu (ih u t h)
    · cases h

theorem qpath_of_run (cfg : Cfg) : ∀ (as : List Act) (s t : St), runOk cfg true s as = some t →
    Path cfg (fun s a => Allowed cfg s a ∧ Quiet s a) s as t := by
  intro as
  induction as with
  | nil => intro s t h; cases h; exact .nil s
  | cons a as ih =>
    intro s t h
    unfold runOk at h
    split at h
    · rename_i hc
      split at h
      · cases h
      · rename_i u hu; exact .cons ⟨hc.1, hc.2 rfl⟩ hu (ih u t h)
    · cases h

/-- the clients 10, 11 and 12, with up to three requests each in process -/
def cl : Clients.Cfg := { pageSize := 64, maxReply := 64, maxReqs := 3, ids := [10, 11, 12], internal := [] }

/-- four replicas, this one is replica 0; messages up to 200 bytes -/
def base : Cfg :=
  { clients := cl, me := 0, n := 4, policy := .byNum, async := false, conc := 2, maxMsg := 200, coeff := 4, maxInit := 5,
    maxNum := 2, maxBytes := 60 }

def r1 : Req := ⟨10, 1, 50, 0⟩
def r2 : Req := ⟨11, 1, 50, 0⟩
def r3 : Req := ⟨12, 1, 50, 0⟩
def r4 : Req := ⟨10, 2, 20, 0⟩

/-- does an execution reach a state with this property -/
def check (cfg : Cfg) (quiet : Bool) (as : List Act) (p : St → Bool) : Bool :=
  match runOk cfg quiet (init cfg) as with
  | none => false
  | some s => p s

theorem of_check {cfg : Cfg} {as : List Act} {p : St → Bool} (h : check cfg false as p = true) :
    ∃ s, Path cfg (Allowed cfg) (init cfg) as s ∧ p s = true := by
  unfold check at h
  split at h
  · cases h
  · rename_i s hs; exact ⟨s, path_of_run cfg as _ s hs, h⟩

theorem of_qcheck {cfg : Cfg} {as : List Act} {p : St → Bool} (h : check cfg true as p = true) :
    ∃ s, Path cfg (fun s a => Allowed cfg s a ∧ Quiet s a) (init cfg) as s ∧ p s = true := by
  unfold check at h
  split at h
  · cases h
  · rename_i s hs; exact ⟨s, qpath_of_run cfg as _ s hs, h⟩

/-- batches of two: two requests make a batch, which is executed; then a single request is flushed by the timer -/
def goodRun : List Act :=
  [.request r1, .request r2, .request r3, .clients (.remove 10 1), .clients (.remove 11 1), .executed 1 0, .flush]

/-- a state with two PrePrepare messages sent, with the right requests and sequence numbers: the hypotheses of the
theorems are met by an execution that does something -/
theorem good_run : ∃ s, Path base (Allowed base) (init base) goodRun s ∧
    decide (s.sent.map (fun pp => (pp.view, pp.seq, pp.reqs)) = [(0, 1, [r1, r2]), (0, 2, [r3])]) = true :=
  of_check (by decide +kernel)

/-- a client that sends its request twice before it is proposed: both copies are queued, one is proposed -/
theorem good_duplicate : ∃ s, Path base (Allowed base) (init base) [.request r1, .request r1, .request r2] s ∧
    decide (s.sent.map (fun pp => (pp.view, pp.seq, pp.reqs)) = [(0, 1, [r1])] ∧ s.queue = [r2] ∧
      s.accepted = [r1, r1, r2]) = true :=
  of_check (by decide +kernel)

/-- **BUG105.**  Three requests of 50 bytes and messages of at most 200 bytes, batches of three: two requests fit, the third
leaves the queue without being proposed, refused or kept. -/
theorem lost_request : ∃ s, Path { base with
      maxNum := 3 } (Allowed { base with
      maxNum := 3 }) (init { base with
      maxNum := 3 }) [.request r1, .request r2, .request r3] s ∧
    (decide (s.queue = [] ∧ s.made.map (·.reqs) = [[r1, r2]]) && admissible { base with
      maxNum := 3 } s.cm r3 && !inProcess base s r3.key) = true :=
  of_check (by decide +kernel)

/-- configuration with worker threads, batches of one -/
def threads : Cfg := { base with
  async := true, maxNum := 1 }

/-- **BUG106.**  A batch finished by a worker thread while the replica prunes is thrown away; its request stays in
process, so that the client's retries are ignored, although it is in no queue and was never sent. -/
theorem pruned_batch : ∃ s, Path threads (Allowed threads) (init threads)
      [.request r1, .control true false none, .finished 0, .control false false none, .request r1, .retry, .flush] s ∧
    (decide (s.queue = [] ∧ s.flight = [] ∧ s.sent = [] ∧ s.accepted = [r1]) && inProcess threads s r1.key) = true :=
  of_check (by decide +kernel)

/-- **BUG107.**  A batch built in view 0 and finished in view 4, of which this replica is the primary again, is sent with view
0 and a sequence number already used in view 0: two different PrePrepare messages of a correct primary with the same
view and sequence number. -/
theorem equivocates : ∃ s, Path threads (Allowed threads) (init threads)
      [.request r1, .request r2, .finished 0, .leave 1, .enter 0, .leave 4, .enter 0, .finished 0] s ∧
    decide (s.sent.map (fun pp => (pp.view, pp.seq, pp.reqs)) = [(0, 1, [r1]), (0, 1, [r2])] ∧ s.view = 4) = true :=
  of_check (by decide +kernel)

/-- **BUG108.**  A batch that is with a worker thread during a state transfer makes the replica abort when it is
finished: the transferred checkpoint is 300 above the stable one, the next sequence number outside the window. -/
theorem stale_batch_aborts : ∃ s, Path threads (Allowed threads) (init threads) [.request r1, .collect, .transferred 300] s ∧
    (step threads s (.finished 0)).isNone = true :=
  of_check (p := fun s => (step threads s (.finished 0)).isNone) (by decide +kernel)

/-- the same without a state transfer: the new view ends at the upper end of the window -/
theorem stale_batch_aborts_view : ∃ s, Path threads (Allowed threads) (init threads)
      [.request r1, .leave 1, .enter 0, .leave 4, .enter 300] s ∧
    (step threads s (.finished 0)).isNone = true :=
  of_check (p := fun s => (step threads s (.finished 0)).isNone) (by decide +kernel)

/-- with worker threads, quietly: two batches finished in the reverse order, then a view change and a third -/
theorem good_threads : ∃ s, Path threads (fun s a => Allowed threads s a ∧ Quiet s a) (init threads)
      [.request r1, .request r2, .finished 1, .finished 0, .leave 4, .enter 0, .request r1, .finished 0] s ∧
    decide (s.sent.map (fun pp => (pp.view, pp.seq, pp.reqs)) = [(0, 1, [r2]), (0, 2, [r1]), (4, 1, [r1])]) = true :=
  of_qcheck (by decide +kernel)

/-- the hypotheses of `proposes`: a queue of two requests is due, nothing is left to execute, the first of the queue
has been answered meanwhile -/
theorem good_progress : ∃ s, Path { base with
      maxNum := 1, conc := 1 } (Allowed { base with
      maxNum := 1, conc := 1 }) (init { base with
      maxNum := 1, conc := 1 }) [.request r1, .request r2, .request r3, .clients (.add 11 1 0 []), .executed 1 0] s ∧
    decide (s.lastUsed = 1 ∧ s.lastExec = 1 ∧ s.viewActive = true ∧ s.queue = [r2, r3] ∧
      trimmedQueue base s.cm s.queue = [r3] ∧ r3.size + overheadOf (s.lastUsed + 1) r3.span ≤ 200) = true :=
  of_check (by decide +kernel)

/-- the hypothesis of `nothing_lost_partial` is met: a queue of two requests smaller than a message -/
theorem good_fit : ∃ s, Path base (Allowed base) (init base) [.request r1] s ∧
    decide (s.queue = [r1] ∧ total [r1, r4] + overheadOf (s.lastUsed + 1) 0 < 200) = true :=
  of_check (by decide +kernel)

end Concord.Batch.Examples
