import Verif.Reconf.PruneTheorems
set_option linter.unusedVariables false
/-!
# Pruning: concrete runs
-/
namespace Verif.Prune.Ex

/-- Signatures of the examples: the signature of replica `y` with number `s` is valid for exactly the text
`dec y ++ dec s`. -/
def valid (y : Nat) (t : List Nat) (s : Nat) : Bool := decide (t = dec y ++ dec s)

def cfg (v4 : Bool) : Cfg := { ids := [1, 2, 3, 4], valid := valid, keep := 1, enabled := true, v4 := v4 }
/-- replica 4 is faulty -/
def hon (x : Nat) : Prop := x = 1 ∨ x = 2 ∨ x = 3

instance : DecidablePred hon := fun x => by unfold hon; infer_instance

/-- things to do in an example -/
inductive Act where
  | order (b : List Req)
  | answer (x : Nat)
  | unwedge (x e : Nat)
  | begin (x : Nat)
  | one (x : Nat)
  | tick (x : Nat)
  | restart (x : Nat)

/-- the signatures of correct replicas in the request have been made -/
def okReq (w : World) : Req → Bool
  | .user _ => true
  | .prune _ p => p.blocks.all (fun l => !decide (hon l.replica) || w.signed.contains (l.replica, lpbText l.replica l.sig))

/-- one step, if it is possible -/
def act (cfg : Cfg) (w : World) : Act → Option World
  | .order b => if b.all (okReq w) then some { w with log := w.log ++ [b] } else none
  | .answer x =>
    if hon x ∧ cfg.enabled = true ∧ (w.rep x).job = .idle ∧ (w.rep x).dead = false then
      some { w with
        answers := (x, latestPrunable cfg (w.rep x)) :: w.answers
        signed := (x, lpbText x (latestPrunable cfg (w.rep x))) :: w.signed }
    else none
  | .unwedge x e =>
    if hon x then some { w with epochs := (x, e) :: w.epochs, signed := (x, unwedgeText x e) :: w.signed } else none
  | .begin x =>
    (match w.log[(w.rep x).pos]? with
     | none => none
     | some b =>
       if hon x ∧ (w.rep x).rest = [] ∧ (w.rep x).job = .idle ∧ (w.rep x).dead = false then
         some (w.set x { w.rep x with pos := (w.rep x).pos + 1, rest := b })
       else none)
  | .one x =>
    (match (w.rep x).rest with
     | [] => none
     | q :: t =>
       if hon x ∧ (w.rep x).wait = none ∧ (w.rep x).dead = false then some (w.set x (execReq cfg { w.rep x with rest := t } q)) else none)
  | .tick x => if hon x ∧ (w.rep x).dead = false then some (w.set x (tick cfg (w.rep x))) else none
  | .restart x =>
    if hon x ∧ (w.rep x).rest = [] ∧ (w.rep x).dead = false then some (w.set x (restart cfg (w.rep x))) else none

theorem act_step (v : Bool) (w w' : World) (a : Act) (h : act (cfg v) w a = some w') : Step (cfg v) hon w w' := by
  cases a with
  | order b =>
    simp only [act] at h
    split at h
    · rename_i hb
      cases h
      refine .order w b ?_
      intro op p hp l hl hy t hv
      have := List.all_eq_true.1 hb _ hp
      simp only [okReq] at this
      have := List.all_eq_true.1 this l hl
      simp only [hy, decide_true, Bool.not_true, Bool.false_or] at this
      have ht : t = lpbText l.replica l.sig := by
        have hv : valid l.replica t l.sig = true := hv
        unfold valid at hv
        exact of_decide_eq_true hv
      rw [ht]
      exact List.contains_iff_mem.1 this
    · cases h
  | answer x =>
    simp only [act] at h
    split at h
    · rename_i hc; cases h; exact .answer w x hc.1 hc.2.1 hc.2.2.1 hc.2.2.2
    · cases h
  | unwedge x e =>
    simp only [act] at h
    split at h
    · rename_i hc; cases h; exact .unwedge w x e hc
    · cases h
  | begin x =>
    simp only [act] at h
    split at h
    · cases h
    · rename_i b hb
      split at h
      · rename_i hc; cases h; exact .begin w x hc.1 b hb hc.2.1 hc.2.2.1 hc.2.2.2
      · cases h
  | one x =>
    simp only [act] at h
    split at h
    · cases h
    · rename_i q t hq
      split at h
      · rename_i hc; cases h; exact .one w x hc.1 q t hq hc.2.1 hc.2.2
      · cases h
  | tick x =>
    simp only [act] at h
    split at h
    · rename_i hc; cases h; exact .tick w x hc.1 hc.2
    · cases h
  | restart x =>
    simp only [act] at h
    split at h
    · rename_i hc; cases h; exact .restart w x hc.1 hc.2.1 hc.2.2
    · cases h

def run (cfg : Cfg) (w : World) : List Act → Option World
  | [] => some w
  | a :: as => (match act cfg w a with | none => none | some w' => run cfg w' as)

theorem run_reach (v : Bool) (as : List Act) (w w' : World) (h : run (cfg v) w as = some w') (hr : Reach (cfg v) hon w) : Reach (cfg v) hon w' := by
  induction as generalizing w with
  | nil => cases h; exact hr
  | cons a as ih =>
    simp only [run] at h
    split at h
    · cases h
    · rename_i w1 h1
      exact ih w1 h (.step hr (act_step v w w1 a h1))

/-- what the run shows -/
def shows (v : Bool) (as : List Act) (f : World → Bool) : Bool := (match run (cfg v) {} as with | none => false | some w => f w)

theorem shows_reach {v : Bool} {as : List Act} {f : World → Bool} (h : shows v as f = true) : ∃ w, Reach (cfg v) hon w ∧ f w = true := by
  unfold shows at h
  split at h
  · cases h
  · rename_i w hw; exact ⟨w, run_reach v as {} w hw .init, h⟩

def lpb (y b : Nat) : Lpb := { replica := y, block := b, bftSeq := 0, sig := b }
/-- the answers of the four replicas for one block -/
def req (b : Nat) : PReq := { sender := 9, blocks := [lpb 3 b, lpb 1 b, lpb 2 b, lpb 4 (b + 7)] }
/-- replica 4 is missing -/
def bad : PReq := { sender := 9, blocks := [lpb 3 4, lpb 1 4, lpb 2 4] }

/-- Five blocks at every correct replica and their answers: prunable through block 4. -/
def prep : List Act :=
  [.order [.user 5], .begin 1, .one 1, .begin 2, .one 2, .begin 3, .one 3, .answer 1, .answer 2, .answer 3]
/-- replica `x` executes a batch of one request -/
def ex1 (x : Nat) : List Act := [.begin x, .one x]
/-- enough steps of the background job -/
def fin (x : Nat) : List Act := List.replicate 8 (.tick x)

/-- **The usual case**: the hypotheses of all theorems hold, blocks 1 to 4 are deleted at replica 1, which
crashes in between, and at replica 2; at replica 3 the request is not yet executed. -/
theorem usual : (∀ v, shows v (prep ++ [.order [.prune true (req 4)]] ++ ex1 1 ++ [.tick 1, .tick 1, .restart 1] ++ fin 1 ++ ex1 2 ++ fin 2)
    (fun w => w.epochs.isEmpty && decide (w.log.all (fun b => decide ((b.filter Req.isOp).length ≤ 1))) && decide ((w.rep 1).gen = 5) && decide ((w.rep 1).last = 6) &&
      decide ((w.rep 2).gen = 5) && decide ((w.rep 1).job = .idle) && decide ((w.rep 1).pos = (w.rep 2).pos) && decide ((w.rep 3).gen = 1)) = true) := by
  decide +kernel

/-- the request of the usual case is accepted -/
theorem usual_accepted : Accepted (cfg false) (req 4) 4 := by
  refine (accepted_iff _ _ _).1 ⟨?_, ?_⟩ <;> decide +kernel

/-- A deletion half done: the chain begins at block 3 and the job goes on. -/
theorem half_done : shows false (prep ++ [.order [.prune true (req 4)]] ++ ex1 1 ++ [.tick 1, .tick 1, .tick 1])
    (fun w => decide ((w.rep 1).gen = 3) && decide ((w.rep 1).job = .running 3 4)) = true := by decide +kernel

/-- **Finding: two prune requests in one batch terminate every replica.**  The same operator-signed
request twice in one batch (the second one sent by any client): the second job finds its blocks gone,
`deleteBlocksUntil` throws, the exception leaves the background thread (`std::terminate`).  `OneEach`
cannot be dropped from `never_terminates`. -/
theorem double_prune_terminates : ∀ v,
  shows v (prep ++ [.order [.prune true (req 4), .prune true (req 4)]] ++ [.begin 1, .one 1, .one 1] ++ (if v then List.replicate 2 (.tick 1) else List.replicate 7 (.tick 1)))
    (fun w => w.epochs.isEmpty && (w.rep 1).dead) = true := by
  decide +kernel

/-- **Finding: an unwedge status is a vote to prune.**  The correct replicas have only five blocks and
have never been asked which block is prunable; in epoch 5 they say that they can be unwedged.  The faulty
operator tool turns these signatures into answers: blocks 1 to 5 are deleted and only the block with
the request remains, although `keep + 1 = 2` should.  `epochs = []` cannot be dropped from
`keeps_latest`. -/
theorem epoch_vote_prunes : shows true ([.order [.user 5]] ++ ex1 1 ++ [.unwedge 1 5, .unwedge 2 5, .unwedge 3 5, .order [.prune true (req 5)]] ++ ex1 1 ++ fin 1)
    (fun w => w.answers.isEmpty && decide ((w.rep 1).gen = 6) && decide ((w.rep 1).last = 6)) = true := by decide +kernel

/-- **Finding: a request that is not accepted hides an accepted one from the restart.**  Both are in one
batch; replica 1 crashes before its job has begun, and handles only the latest request again; replica 2
does not crash.  Both are quiet at the same position and do not have the same genesis block. -/
theorem hidden_by_bad : ∀ v, shows v (prep ++ [.order [.prune true (req 4), .prune true bad]] ++
      [.begin 1, .one 1, .one 1, .restart 1] ++ fin 1 ++ [.begin 2, .one 2, .one 2] ++ fin 2)
    (fun w => w.epochs.isEmpty && decide ((w.rep 1).pos = (w.rep 2).pos) && decide ((w.rep 1).rest = []) && decide ((w.rep 2).rest = []) &&
      decide ((w.rep 1).job = .idle) && decide ((w.rep 2).job = .idle) && decide ((w.rep 1).gen = 1) && decide ((w.rep 2).gen = 5)) = true := by
  decide +kernel

instance (w : World) (x : Nat) : Decidable (w.quiet x) := by unfold World.quiet; infer_instance

/-- What the theorems say about the usual case. -/
theorem usual_theorems : ∃ w, Reach (cfg false) hon w ∧ w.epochs = [] ∧ OneEach w.log ∧ w.quiet 1 ∧ w.quiet 2 ∧ (w.rep 1).pos = (w.rep 2).pos ∧
    (w.rep 1).gen = 5 := by
  have h := usual false
  obtain ⟨w, hr, hw⟩ := shows_reach (f := fun w => w.epochs.isEmpty && decide (w.log.all (fun b => decide ((b.filter Req.isOp).length ≤ 1))) &&
    decide ((w.rep 1).gen = 5) && decide (w.quiet 1) && decide (w.quiet 2) && decide ((w.rep 1).pos = (w.rep 2).pos))
    (v := false) (as := prep ++ [.order [.prune true (req 4)]] ++ ex1 1 ++ [.tick 1, .tick 1, .restart 1] ++ fin 1 ++ ex1 2 ++ fin 2) (by
      decide +kernel)
  simp only [Bool.and_eq_true, decide_eq_true_eq, List.isEmpty_iff, List.all_eq_true] at hw
  obtain ⟨⟨⟨⟨⟨h1, h2⟩, h3⟩, h4⟩, h5⟩, h6⟩ := hw
  exact ⟨w, hr, h1, h2, h4, h5, h6, h3⟩

end Verif.Prune.Ex
