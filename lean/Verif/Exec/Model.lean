/-!
# Execution of committed batches, with crashes at every point and recovery

bftengine/src/bftengine/ReplicaImp.cpp (execution, both the default path with post-execution separation and the
old path), ReplicaLoader.cpp (what a restarted replica loads), TimeServiceManager.hpp (time given to the
application), kvbc/src/replica_state_sync_imp.cpp and kvbc/src/Replica.cpp (blocks removed on restart).

The machine below runs one micro-step at a time; a crash can come between any two of them.  Durable data are the
metadata (last executed number, descriptor of the last execution, last block id), the blocks and the reserved pages
(replies and time); everything else is lost.

Simplifications: `log s` is the batch that consensus chose for number `s` (one batch per number: the agreement property
is C01); the application is a deterministic function that appends blocks; a reply is written to its reserved pages
in one step (several pages in the code, DBDataStore.cpp:346); the reply table is the map (client, index in batch) ->
(request number, reply) - `Verif.Exec.Bridge` proves that the clients manager of `Verif.Clients` is this map;
state transfer, checkpoints, wedging and pruning of old blocks are not modelled.
-/
namespace Verif.Exec

/-- the fields of a client request that execution reads, ClientMsgs.hpp:25-45 -/
structure Req where
  client : Nat
  seq : Nat
  /-- `reqIndexInClientBatch` -/
  idx : Nat
  /-- `requestLength` -/
  len : Nat
  /-- one of KEY_EXCHANGE_FLAG, RECONFIG_FLAG, CLIENTS_PUB_KEYS_FLAG -/
  special : Bool
  /-- RECONFIG_FLAG or INTERNAL_FLAG -/
  replicaOk : Bool
  /-- the contents -/
  body : Nat
deriving DecidableEq, Repr

/-- a PrePrepare: primary of its view, time set by the primary, requests -/
structure Batch where
  primary : Nat
  time : Int
  reqs : List Req

/-- configuration -/
structure Cfg where
  /-- `enablePostExecutionSeparation` (default true), ReplicaConfig.hpp:249 -/
  sep : Bool
  /-- number of replicas; replica ids are smaller -/
  n : Nat
  /-- `clientIds_` of the clients manager -/
  clients : List Nat
  /-- `isIdOfInternalClient` -/
  internal : List Nat
  /-- `maxNumOfReqsPerClient_` -/
  maxReqs : Nat
  /-- `timeServiceEpsilonMillis` -/
  eps : Int
  /-- `maxNumOfBlocksToDelete`, Replica.cpp:335 -/
  maxDel : Nat

/-- The application: given its state (the blocks), the consensus sequence number, the time with the position of the
request and the request, it appends blocks and returns a reply.  `IRequestsHandler::execute` -/
structure App (Blk Rep : Type) where
  run : List Blk → Nat → Int → Nat → Req → List Blk × Rep

/-- reply table: client, index in batch -/
abbrev Tbl (Rep : Type) := Nat → Nat → Option (Nat × Rep)

/-- `hasReply`, ClientsManager.cpp:300-311 -/
def hasReply {Rep : Type} (c : Cfg) (t : Tbl Rep) (client seq : Nat) : Bool :=
  decide (client ∈ c.clients) &&
    (List.range c.maxReqs).any (fun i => match t client i with | some (q, _) => q == seq | none => false)

/-- the request gets a bit: old path, ReplicaImp.cpp:5434-5465 -/
def bitOld {Rep : Type} (c : Cfg) (t : Tbl Rep) (b : Batch) (r : Req) : Bool :=
  if r.client = b.primary ∧ r.len = 0 then false
  else if ¬ (r.client ∈ c.clients ∨ (r.replicaOk = true ∧ r.client < c.n)) then false
  else if hasReply c t r.client r.seq = true then false
  else true

/-- the request gets a bit: default path, `markSpecialRequests`, ReplicaImp.cpp:4888-4925 -/
def bitNew {Rep : Type} (c : Cfg) (t : Tbl Rep) (r : Req) : Bool :=
  if r.special = true then false
  else if r.len = 0 then false
  else if ¬ r.client ∈ c.clients then false
  else if hasReply c t r.client r.seq = true then false
  else true

/-- the bitmap of phase 1 -/
def bitsOf {Rep : Type} (c : Cfg) (t : Tbl Rep) (b : Batch) : List Bool :=
  b.reqs.map (fun r => if c.sep then bitNew c t r else bitOld c t b r)

/-- requests executed for a bitmap: the bit is set and the request is not empty, ReplicaImp.cpp:5625-5630, 5055 -/
def pick (reqs : List Req) (bits : List Bool) : List Req :=
  ((reqs.zip bits).filter (fun p => p.2 && p.1.len != 0)).map (·.1)

/-- `executeSpecialRequests`, ReplicaImp.cpp:4981-5012 -/
def specialsOf (b : Batch) : List Req := b.reqs.filter (·.special)

/-- `DescriptorOfLastExecution` -/
structure Desc where
  seq : Nat
  bits : List Bool
  ticks : Int
deriving DecidableEq, Repr

/-- micro instructions of phase 2: call the application for one request; store (and send) one reply -/
inductive Instr where
  | exec (r : Req)
  | reply (r : Req)
deriving DecidableEq, Repr

/-- execute a queue of requests one by one and then answer them: `executeRequestsAndSendResponses`
ReplicaImp.cpp:5605-5690 (`blockAccumulation` off), `executeSpecialRequests` 4981-5036, `executeRequests` 5039-5135
followed by `sendResponses` in `finishExecutePrePrepareMsg` 5146 -/
def groupProg (g : List Req) : List Instr := g.map .exec ++ g.map .reply

/-- phase 2 of a normal execution -/
def progOf (c : Cfg) (b : Batch) (bits : List Bool) : List Instr :=
  if c.sep then groupProg (specialsOf b) ++ groupProg (pick b.reqs bits) else groupProg (pick b.reqs bits)

/-- phase 2 of a recovery: `recoverRequests` always takes the old path, ReplicaImp.cpp:4652 -/
def recoverProg (b : Batch) (bits : List Bool) : List Instr := groupProg (pick b.reqs bits)

/-- where the replica process is -/
inductive Phase (Rep : Type) where
  /-- no execution in progress -/
  | idle
  /-- the descriptor is durable (phase 1 done or recovered), phase 2 not started -/
  | selected (prog : List Instr)
  /-- phase 2: remaining instructions, replies produced and not yet stored, position, time given to the application -/
  | running (prog : List Instr) (outs : List Rep) (pos : Nat) (t : Int)
  /-- the process is not running -/
  | down
  /-- restarted, removing blocks; number removed by this process -/
  | syncing (deleted : Nat)

/-- one replica -/
structure St (Blk Rep : Type) where
  /-- metadata: `lastExecutedSeqNum` -/
  lastExec : Nat
  /-- metadata: user data, `persistLastBlockIdInMetadata` -/
  lastBlock : Nat
  /-- metadata: `DescriptorOfLastExecution` -/
  desc : Option Desc
  /-- the block chain -/
  chain : List Blk
  /-- reserved pages: replies -/
  tbl : Tbl Rep
  /-- reserved page of the time service -/
  time : Int
  /-- numbers for which the replica holds the PrePrepare and a commit proof -/
  committed : Nat → Bool
  /-- last stable checkpoint -/
  lastStable : Nat
  phase : Phase Rep
  /-- history variable: all calls of the application, with the sequence number passed to it -/
  calls : List (Nat × Req)
  /-- history variable: how often the process died -/
  crashes : Nat

/-- `kWorkWindowSize`, SysConsts.hpp -/
def window : Nat := 300

/-- `compareAndUpdate`, TimeServiceManager.hpp:62-80 -/
def compareAndUpdate (eps old new : Int) : Int := if new > old then new else old + eps

/-- a reply reaches the table, `sendResponses` ReplicaImp.cpp:5692-5755 and ClientsManager.cpp:325-391 -/
def store {Rep : Type} (c : Cfg) (t : Tbl Rep) (r : Req) (rep : Rep) : Tbl Rep :=
  if r.client ∈ c.internal then t
  else if ¬ r.client ∈ c.clients then t
  else fun cl i => if cl = r.client ∧ i = r.idx then some (r.seq, rep) else t cl i

/-- does storing the reply abort the process (`ConcordAssert(reqIndexInBatch < max)`, ClientsManager.cpp:333) -/
def storeAborts (c : Cfg) (r : Req) : Bool := decide (¬ r.client ∈ c.internal ∧ ¬ r.idx < c.maxReqs)

/-- the process dies -/
def die {Blk Rep : Type} (s : St Blk Rep) : St Blk Rep := { s with phase := .down, crashes := s.crashes + 1 }

/-- events -/
inductive Ev where
  /-- a batch becomes committed (PrePrepare and commit proof present) -/
  | commit (s : Nat)
  /-- a checkpoint becomes stable -/
  | stable (s : Nat)
  /-- execution of the next batch starts: phase 1 and the durable descriptor -/
  | start
  /-- phase 2 starts: time -/
  | tick
  /-- one micro instruction of phase 2 -/
  | instr
  /-- phase 3: one write transaction -/
  | finish
  /-- power failure -/
  | crash
  /-- the process starts again -/
  | boot
  /-- one step of the block removal at start -/
  | del
  /-- the replica has loaded its metadata and goes on -/
  | up
deriving DecidableEq, Repr

/-- one micro-step; `none`: the event cannot happen in this state -/
def step {Blk Rep : Type} (c : Cfg) (app : App Blk Rep) (log : Nat → Batch) (s : St Blk Rep) : Ev → Option (St Blk Rep)
  | .commit k => some { s with committed := fun j => if j = k then true else s.committed j }
  | .stable k => if s.lastStable ≤ k ∧ k ≤ s.lastExec then some { s with lastStable := k } else none
  | .start =>
    -- tryToStartOrFinishExecution ReplicaImp.cpp:4748-4793, executeNextCommittedRequests 5780-5800
    match s.phase with
    | .idle =>
      if s.lastExec < s.lastStable + window ∧ s.committed (s.lastExec + 1) = true then
        let b := log (s.lastExec + 1)
        if b.reqs = [] then some { s with phase := .running [] [] 0 s.time }
        else
          let bits := bitsOf c s.tbl b
          some { s with desc := some ⟨s.lastExec + 1, bits, s.time⟩, phase := .selected (progOf c b bits) }
      else none
    | _ => none
  | .tick =>
    -- ReplicaImp.cpp:4951-4961, 5613-5620
    match s.phase with
    | .selected p =>
      let t := compareAndUpdate c.eps s.time (log (s.lastExec + 1)).time
      some { s with time := t, phase := .running p [] 0 t }
    | _ => none
  | .instr =>
    match s.phase with
    | .running (.exec r :: p) outs pos t =>
      let res := app.run s.chain (s.lastExec + 1) t pos r
      some { s with
        chain := s.chain ++ res.1, phase := .running p (outs ++ [res.2]) (pos + 1) t,
        calls := s.calls ++ [(s.lastExec + 1, r)] }
    | .running (.reply r :: p) (rep :: outs) pos t =>
      if storeAborts c r then some (die s)
      else some { s with tbl := store c s.tbl r rep, phase := .running p outs pos t }
    | _ => none
  | .finish =>
    -- finalizeExecution ReplicaImp.cpp:5212-5245 with finishExecutePrePrepareMsg 5167-5171: one write transaction that
    -- holds lastExecutedSeqNum and, when the batch has requests, the last block id (Replica.cpp:134-139)
    match s.phase with
    | .running [] _ _ _ =>
      some { s with
        lastExec := s.lastExec + 1
        lastBlock := if (log (s.lastExec + 1)).reqs = [] then s.lastBlock else s.chain.length
        phase := .idle }
    | _ => none
  | .crash =>
    match s.phase with
    | .down => none
    | _ => some (die s)
  | .boot =>
    match s.phase with
    | .down => some { s with phase := .syncing 0 }
    | _ => none
  | .del =>
    -- executeBasedOnBlockId, replica_state_sync_imp.cpp:100-147; the only block cannot be deleted (it throws)
    match s.phase with
    | .syncing k =>
      if c.maxDel = 0 then none
      else if s.chain.length > s.lastBlock then
        if s.chain.length = 1 then some (die s)
        else if k + 1 = c.maxDel then some (die { s with chain := s.chain.dropLast })
        else some { s with chain := s.chain.dropLast, phase := .syncing (k + 1) }
      else none
    | _ => none
  | .up =>
    match s.phase with
    | .syncing _ =>
      if c.maxDel ≠ 0 ∧ s.chain.length > s.lastBlock then none
      else
        -- ReplicaLoader.cpp:277-305, recoverRequests ReplicaImp.cpp:4640-4659
        match s.desc with
        | none => some { s with phase := .idle }
        | some d =>
          if d.seq > s.lastExec then
            if d.seq ≠ s.lastExec + 1 then some (die s)
            else if d.ticks > s.time then some (die s)
            else some { s with time := d.ticks, phase := .selected (recoverProg (log (s.lastExec + 1)) d.bits) }
          else some { s with phase := .idle }
    | _ => none

/-- a run -/
inductive Run {Blk Rep : Type} (c : Cfg) (app : App Blk Rep) (log : Nat → Batch) (s0 : St Blk Rep) :
    List Ev → St Blk Rep → Prop where
  | nil : Run c app log s0 [] s0
  | snoc {es : List Ev} {s s' : St Blk Rep} {e : Ev} (h : Run c app log s0 es s) (hs : step c app log s e = some s') :
      Run c app log s0 (es ++ [e]) s'

/-- a new replica: nothing executed; `time0` is `ConsensusTime::min()` -/
def init {Blk Rep : Type} (time0 : Int) : St Blk Rep where
  lastExec := 0
  lastBlock := 0
  desc := none
  chain := []
  tbl := fun _ _ => none
  time := time0
  committed := fun _ => false
  lastStable := 0
  phase := .idle
  calls := []
  crashes := 0

end Verif.Exec
