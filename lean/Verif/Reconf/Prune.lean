set_option linter.unusedVariables false
/-!
# Pruning by operator command

Model of kvbc/src/pruning_handler.cpp (signing and verification of `LatestPrunableBlock`, the handlers
of `LatestPrunableBlockRequest` and `PruneRequest`, the background job), of the two implementations of
`deleteBlocksUntil`, of the recording of a prune request in the chain, and of its replay at start-up.

Simplifications. A block is its number; what deleting a block does to keys is C23–C27 and C37.  Block
numbers are unbounded.  Signatures: `valid y t s` says that `s` verifies under the key of replica `y` as
a signature of text `t`; the world below remembers what the correct replicas have signed and lets
nobody else make a valid signature of theirs.  Requests are ordered in one log of batches (C01) and a
replica executes the batches in order (C11), one request at a time (`blockAccumulation` off).  Crashes
are placed between batches (C12 covers the rest).
-/
namespace Verif.Prune

/-- The decimal digits of `n`, at most `f + 1` of them (one digit less per round). -/
def decF : Nat → Nat → List Nat
  | 0, n => [n]
  | f + 1, n => if n < 10 then [n] else decF f (n / 10) ++ [n % 10]

/-- The decimal digits that `std::ostream::operator<<(uint64_t)` and `std::to_string` print
(used by pruning_handler.cpp:27 and 62, reconfiguration_kvbc_handler.cpp:1018 and 1054).  `n` rounds are
always enough. -/
def dec (n : Nat) : List Nat := decF n n

/-- The text a replica signs in a `LatestPrunableBlock`: `oss << block.replica << block.block_id`
(pruning_handler.cpp:24-33 `PruningSigner::sign`).  No separator, no domain tag; the field
`bft_sequence_number` is not covered. -/
def lpbText (replica block : Nat) : List Nat := dec replica ++ dec block

/-- The text a replica signs to say that it can be unwedged in its epoch:
`std::to_string(replicaId) + std::to_string(curr_epoch)`
(reconfiguration_kvbc_handler.cpp:1053-1057).  The key is the same `ReplicaConfig::replicaPrivateKey`
(pruning_handler.cpp:119, ReplicaImp.cpp:4432). -/
def unwedgeText (replica epoch : Nat) : List Nat := dec replica ++ dec epoch

/-- `LatestPrunableBlock` (libs/reconfiguration/cmf/concord.cmf:32-37) -/
structure Lpb where
  replica : Nat
  block : Nat
  bftSeq : Nat
  sig : Nat
deriving DecidableEq, Repr

/-- `PruneRequest` (concord.cmf:43-49) -/
structure PReq where
  sender : Nat
  blocks : List Lpb
deriving DecidableEq, Repr

/-- What is fixed for the cluster: the replicas of the configuration
(`ReplicaConfig::publicKeysOfReplicas`), the verification of signatures, `numBlocksToKeep_`,
`pruningEnabled_` and the version of the block chain.
(`keep` and `enabled` are system wide options, pruning_handler.hpp:99-119.) -/
structure Cfg where
  ids : List Nat
  valid : Nat → List Nat → Nat → Bool
  keep : Nat
  enabled : Bool
  v4 : Bool

/-- `PruningVerifier::verify(LatestPrunableBlock)` (pruning_handler.cpp:55-66) -/
def verifyLpb (cfg : Cfg) (b : Lpb) : Bool :=
  if cfg.ids.contains b.replica then cfg.valid b.replica (lpbText b.replica b.block) b.sig else false

/-- the loop of `PruningVerifier::verify(PruneRequest)` (pruning_handler.cpp:83-95); `todo` is
`replica_ids_to_verify` -/
def verifyLoop (cfg : Cfg) : List Lpb → List Nat → Bool
  | [], todo => todo.isEmpty
  | b :: bs, todo =>
    if !verifyLpb cfg b then false
    else if !todo.contains b.replica then false
    else verifyLoop cfg bs (todo.erase b.replica)

/-- `PruningVerifier::verify(PruneRequest)` (pruning_handler.cpp:68-95) -/
def verifyReq (cfg : Cfg) (p : PReq) : Bool :=
  if p.blocks.length != cfg.ids.length then false
  else if cfg.ids.contains p.sender then false
  else verifyLoop cfg p.blocks cfg.ids

/-- the smaller of the number so far and the number of `x` (`std::min_element`,
pruning_handler.cpp:201-207) -/
def minStep (m : Nat) (x : Lpb) : Nat := if x.block < m then x.block else m

/-- `agreedPrunableBlockId` (pruning_handler.cpp:201-207): the smallest block number; `none` is the
failed assertion on an empty list. -/
def agreed : List Lpb → Option Nat
  | [] => none
  | b :: bs => some (bs.foldl minStep b.block)

/-- The background job of `pruneThroughBlockId` (pruning_handler.cpp:209-236): not there, just started
(`until` is its argument), or between two calls of `deleteBlock`
(categorization/blocks_deleter_adapter.cpp:43-48; next block and last block to delete). -/
inductive Job where
  | idle
  | starting (til : Nat)
  | running (next lastDel : Nat)
deriving DecidableEq, Repr

/-- a request of a batch: an application request that adds `k` blocks, or a reconfiguration request
with a `PruneRequest`; `op` says whether its signature is the operator's -/
inductive Req where
  | user (k : Nat)
  | prune (op : Bool) (p : PReq)
deriving DecidableEq, Repr

/-- A replica.  Blocks `gen .. last` are there (`last = 0`: empty chain).  `stored` is the latest
`PruneRequest` in the chain, `rest` what remains of the batch in execution, `wait` the argument of a
second job for which the main thread waits on `pruning_lock_`
(ControlStateManager.hpp:37-40 `setPruningProcess`), `dead` says that the process has terminated. -/
structure Rep where
  pos : Nat := 0
  gen : Nat := 1
  last : Nat := 0
  stored : Option PReq := none
  rest : List Req := []
  job : Job := .idle
  wait : Option Nat := none
  dead : Bool := false
deriving Repr

/-- `getGenesisBlockId` -/
def Rep.genesisId (r : Rep) : Nat := if r.last = 0 then 0 else r.gen

/-- adding blocks -/
def Rep.add (r : Rep) (k : Nat) : Rep := { r with last := r.last + k }

/-- `latestBasedOnNumBlocksConfig` (pruning_handler.cpp:193-199) -/
def latestPrunable (cfg : Cfg) (r : Rep) : Nat := if r.last < cfg.keep then 0 else r.last - cfg.keep

/-- `pruneThroughBlockId` (pruning_handler.cpp:209-236) with `run_async_` (kvbc/src/Replica.cpp:193-199).
The genesis block is read before the lock is taken. -/
def pruneThrough (r : Rep) (m : Nat) : Rep :=
  if r.genesisId ≤ m then
    (match r.job with
     | .idle => { r with job := .starting (m + 1) }
     | _ => { r with wait := some (m + 1) })
  else r

/-- `PruningHandler::handle(PruneRequest)` (pruning_handler.cpp:159-191) -/
def handlePrune (cfg : Cfg) (r : Rep) (p : PReq) : Rep :=
  if !cfg.enabled then r
  else if !verifyReq cfg p then r
  else match agreed p.blocks with
    | none => { r with dead := true }
    | some m => pruneThrough r m

/-- One request.  A `PruneRequest` reaches handlers only with the signature of the operator
(dispatcher.cpp:45-70): first the PRE handler records it in a new block
(reconfiguration_kvbc_handler.cpp:805-816), before anything about it has been verified, then
`PruningHandler` runs. -/
def execReq (cfg : Cfg) (r : Rep) : Req → Rep
  | .user k => r.add k
  | .prune false _ => r
  | .prune true p => handlePrune cfg { r.add 1 with stored := some p } p

/-- end of the job: `setPruningProcess(false)`; a waiting main thread goes on and starts its job -/
def finish (r : Rep) : Rep :=
  match r.wait with
  | none => { r with job := .idle }
  | some u => { r with job := .starting u, wait := none }

/-- One step of the job.  Categorized chain: `deleteBlocksUntil`
(categorization/blocks_deleter_adapter.cpp:35-54) and one `deleteBlock` (kv_blockchain.cpp:419-478)
per step.  v4: `Blockchain::deleteBlocksUntil` (v4blockchain/detail/blockchain.cpp:82-121) in one step.
A thrown exception or a failed assertion terminates the process (pruning_handler.cpp:216-222). -/
def tick (cfg : Cfg) (r : Rep) : Rep :=
  match r.job with
  | .idle => r
  | .starting u =>
    if cfg.v4 then
      if r.genesisId = 0 ∨ u ≤ r.genesisId then { r with dead := true }
      else if r.last = r.gen then finish r
      else finish { r with gen := min (r.last - 1) (u - 1) + 1 }
    else if r.genesisId = 0 then { r with dead := true }
    else if u ≤ r.genesisId then { r with dead := true }
    else { r with job := .running r.genesisId (min r.last (u - 1)) }
  | .running i l =>
    if i ≤ l then
      if i = 0 ∨ i < r.genesisId ∨ r.last < i ∨ (i = r.last ∧ i = r.genesisId) ∨ (i ≠ r.last ∧ i ≠ r.genesisId) then
        { r with dead := true }
      else if i = r.last then { r with last := r.last - 1, job := .running (i + 1) l }
      else { r with gen := r.gen + 1, job := .running (i + 1) l }
    else finish r

/-- Start of the process: the job is gone; the latest `PruneRequest` of the chain is handled again
(`pruneOnStartup`, st_reconfiguration_sm.cpp:76-95 and 235-250; Replica.cpp:200-207). -/
def restart (cfg : Cfg) (r : Rep) : Rep :=
  let r0 : Rep := { r with job := .idle, wait := none }
  match r0.stored with
  | none => r0
  | some p => if cfg.enabled then handlePrune cfg r0 p else r0

/-! ### the cluster -/

/-- The log of ordered batches, the replicas, the answers that correct replicas have given to
`LatestPrunableBlockRequest` (replica, block number), the epochs for which they have signed that they
can be unwedged, and every text they have signed. -/
structure World where
  log : List (List Req) := []
  rep : Nat → Rep := fun _ => {}
  answers : List (Nat × Nat) := []
  epochs : List (Nat × Nat) := []
  signed : List (Nat × List Nat) := []

/-- replica `x` changes -/
def World.set (w : World) (x : Nat) (r : Rep) : World := { w with rep := fun y => if y = x then r else w.rep y }

/-- No signature of a correct replica in the batch was made by anybody else. -/
def Unforged (cfg : Cfg) (hon : Nat → Prop) (w : World) (b : List Req) : Prop :=
  ∀ op p, Req.prune op p ∈ b → ∀ l ∈ p.blocks, hon l.replica → ∀ t, cfg.valid l.replica t l.sig = true → (l.replica, t) ∈ w.signed

/-- what can happen -/
inductive Step (cfg : Cfg) (hon : Nat → Prop) : World → World → Prop
  /-- a batch is ordered -/
  | order (w : World) (b : List Req) (h : Unforged cfg hon w b) : Step cfg hon w { w with log := w.log ++ [b] }
  /-- a correct replica answers a `LatestPrunableBlockRequest` (pruning_handler.cpp:132-157) -/
  | answer (w : World) (x : Nat) (hx : hon x) (he : cfg.enabled = true) (hj : (w.rep x).job = .idle) (hd : (w.rep x).dead = false) :
      Step cfg hon w { w with
        answers := (x, latestPrunable cfg (w.rep x)) :: w.answers
        signed := (x, lpbText x (latestPrunable cfg (w.rep x))) :: w.signed }
  /-- a correct replica answers an `UnwedgeStatusRequest` in epoch `e` -/
  | unwedge (w : World) (x e : Nat) (hx : hon x) :
      Step cfg hon w { w with epochs := (x, e) :: w.epochs, signed := (x, unwedgeText x e) :: w.signed }
  /-- the next batch: not while blocks are being pruned (ReplicaImp.cpp:5405-5407) -/
  | begin (w : World) (x : Nat) (hx : hon x) (b : List Req) (hb : w.log[(w.rep x).pos]? = some b) (hr : (w.rep x).rest = [])
      (hj : (w.rep x).job = .idle) (hd : (w.rep x).dead = false) :
      Step cfg hon w (w.set x { w.rep x with pos := (w.rep x).pos + 1, rest := b })
  /-- the next request of the batch -/
  | one (w : World) (x : Nat) (hx : hon x) (q : Req) (t : List Req) (hr : (w.rep x).rest = q :: t) (hw : (w.rep x).wait = none)
      (hd : (w.rep x).dead = false) :
      Step cfg hon w (w.set x (execReq cfg { w.rep x with rest := t } q))
  /-- the background job goes on -/
  | tick (w : World) (x : Nat) (hx : hon x) (hd : (w.rep x).dead = false) : Step cfg hon w (w.set x (tick cfg (w.rep x)))
  /-- crash and restart between batches -/
  | restart (w : World) (x : Nat) (hx : hon x) (hr : (w.rep x).rest = []) (hd : (w.rep x).dead = false) :
      Step cfg hon w (w.set x (restart cfg (w.rep x)))

/-- reachable from the start -/
inductive Reach (cfg : Cfg) (hon : Nat → Prop) : World → Prop
  | init : Reach cfg hon {}
  | step {w w' : World} (h : Reach cfg hon w) (s : Step cfg hon w w') : Reach cfg hon w'

end Verif.Prune
