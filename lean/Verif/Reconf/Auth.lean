set_option linter.unusedVariables false
/-!
# Reconfiguration commands: who can cause what

Model of libs/reconfiguration/src/dispatcher.cpp and of the handlers that a replica registers
(kvbc/src/Replica.cpp:168-200, bftengine/src/bftengine/RequestHandler.h:28-37):
PRE: kvbc `ReconfigurationHandler`, `StateSnapshotReconfigurationHandler`, `InternalKvReconfigurationHandler`,
`KvbcClientReconfigurationHandler`; REGULAR: bftEngine `ReconfigurationHandler`, `ClientReconfigurationHandler`,
`PruningHandler`; POST: `InternalPostKvReconfigurationHandler`.

Simplifications.  Handlers of the application are left out.  The text that is signed is the serialised
request without its signature; it is represented by the pair of sender and command (C28: serialisation
is injective), so a signature covers neither the flags of the client request nor its number.  A block is
represented by the keys of the reconfiguration category it writes; adding one does not fail.  The
commands that only read and answer are one constructor.  What a started action does is elsewhere
(pruning: C43; key rotation: C40; wedge: below).
-/
namespace Verif.Auth

/-- The commands (`ReconfigurationRequest`, libs/reconfiguration/cmf/concord.cmf: the `oneof`), with the
fields the handlers look at.  `query` stands for the commands whose handlers only answer. -/
inductive Cmd where
  | wedge (noop : Bool)
  | download (v : Nat)
  | install (v : Nat) (bft : Bool)
  | keyExchange (targets : List Nat) (tls : Bool)
  | addRemove (d : Nat)
  | addRemoveWedge (d : Nat) (bft restart : Bool)
  | restart (bft restart : Bool)
  | prune (p : Nat)
  | pruneCompact
  | unwedge (u : Nat)
  | clientKeyExchange (targets : List Nat)
  | clientsAddRemove (d : Nat)
  | clientsRestart (d : Nat)
  | createDbCheckpoint
  | clientKey (key : Nat) (affected : List Nat)
  | clientScaled (d : Nat)
  | clientRestarted
  | tlsKey (sender cert : Nat)
  | mainKey (key : Nat)
  | snapshot
  | query (q : Nat)
deriving DecidableEq, Repr

/-- `ReconfigurationRequest` -/
structure Req where
  sender : Nat
  cmd : Cmd
  sig : Nat
deriving DecidableEq, Repr

/-- what is signed (dispatcher.cpp:34-39): the request without its signature -/
def Req.text (r : Req) : Nat × Cmd := (r.sender, r.cmd)

/-- Keys of the reconfiguration category (kvbc/include/kvbc_key_types.hpp) that commands are recorded
under. -/
inductive Key where
  | wedge | wedgeNoop | download | install | keyExchange | addRemove | addRemoveWedge | restart
  | prune | pruneCompact
  | cliKeyExchange (c : Nat) | cliScale (c : Nat) | cliRestart (c : Nat)
  | cliKey (c : Nat) | cliScaled (c : Nat) | cliRestarted (c : Nat)
  | repMain (i : Nat) | repTls (i : Nat)
  | clientsKeys
deriving DecidableEq, Repr

/-- Actions that handlers start. -/
inductive Act where
  | snapshotOnWedge
  | afterWedge (bft restart : Bool)
  | configFile (d : Nat)
  | restartReady (v : Nat) (bft : Bool)
  | rotateKeys | rotateTls
  | prune (p : Nat)
  | unwedge (u : Nat)
  | dbCheckpoint (seq : Nat)
  | snapshot (seq : Nat)
deriving DecidableEq, Repr

/-- The configuration: number of replicas, the classes of ids (`ReplicasInfo`), verification of
signatures (operator key; a key of a principal), which keys can be parsed, the group of a client
(`publicKeysOfClients`), all clients (`clientGroups`), the group number used for the key file,
`clientTransactionSigningEnabled`, `saveClinetKeyFile`, own id, `dbCheckpointFeatureEnabled`. -/
structure Env where
  n : Nat
  ro : Nat → Bool
  ext : Nat → Bool
  svc : Nat → Bool
  opValid : Nat × Cmd → Nat → Bool
  valid : Nat → Nat × Cmd → Nat → Bool
  keyOk : Nat → Bool
  group : Nat → List Nat
  gid : Nat → Nat
  clients : List Nat
  signing : Bool
  saveFile : Bool
  self : Nat
  dbCkpt : Bool

/-- What the commands change: the latest value under every key of the chain and how many blocks there
are, the stop point, the verification keys (`SigManager::verifiers_`), the client keys in the reserved
pages (`ClientsManager::setClientPublicKey`), the key files of the client groups, the started actions. -/
structure St where
  chain : Key → Option (Nat × Cmd) := fun _ => none
  published : Option (Nat → Option Nat) := none
  blocks : Nat := 0
  stop : Option Nat := none
  keys : Nat → Option Nat := fun _ => none
  stored : Nat → Option Nat := fun _ => none
  files : Nat → Option Nat := fun _ => none
  acts : List Act := []

/-- the handlers, in the order in which they run -/
inductive H where
  | kvOp | snap | intKv | kvCli | bftOp | bftCli | pruneOp | post
deriving DecidableEq, Repr

/-- dispatcher.cpp:45-85 with the registrations named above -/
def order : List H := [.kvOp, .snap, .intKv, .kvCli, .bftOp, .bftCli, .pruneOp, .post]

/-- `verifySignature(uint32_t sender_id, …)`: the 64-bit sender is cut to 32 bits -/
def Req.id (r : Req) : Nat := r.sender % 4294967296
/-- `PrincipalId` has 16 bits -/
def pid (x : Nat) : Nat := x % 65536

/-- `SigManager::verifySig` (SigManager.cpp:236-275); `none`: the assertion on the class of the id
fails -/
def verifySig (e : Env) (s : St) (x : Nat) (r : Req) : Option Bool :=
  match s.keys (pid x) with
  | none => some false
  | some k =>
    if pid x < e.n ∨ e.ext (pid x) = true ∨ e.ro (pid x) = true then some (e.valid k r.text r.sig) else none

/-- `ClientReconfigurationHandler::verifySignature` (Reconfiguration.cpp:361-366) -/
def cliCheck (e : Env) (s : St) (r : Req) : Option Bool :=
  if (s.keys (pid r.id)).isSome then verifySig e s r.id r else some false

/-- `verifySignature` of the handlers: operator (reconfiguration.cpp:38-44), snapshots
(reconfiguration_kvbc_handler.hpp:85-97), internal (reconfiguration_kvbc_handler.cpp:1076-1081), clients,
POST (reconfiguration_kvbc_handler.hpp:305-307) -/
def check (e : Env) (s : St) (r : Req) : H → Option Bool
  | .kvOp | .bftOp | .pruneOp => some (e.opValid r.text r.sig)
  | .snap =>
    if e.signing then (if e.opValid r.text r.sig then some true else cliCheck e s r) else some true
  | .intKv => if e.n ≤ r.id then some false else verifySig e s r.id r
  | .kvCli | .bftCli => cliCheck e s r
  | .post => some true

/-- outcome of a handler: return value, or an exception, or the end of the process -/
inductive Res where
  | done (s : St) (ok : Bool)
  | thrown (s : St)
  | abort

/-- `persistReconfigurationBlock` (reconfiguration_kvbc_handler.cpp:57-116): one block with the request
under the given keys -/
def St.block (s : St) (ks : List Key) (v : Nat × Cmd) : St :=
  { s with chain := fun k => if ks.contains k then some v else s.chain k, blocks := s.blocks + 1 }

/-- start an action -/
def St.act (s : St) (a : Act) : St := { s with acts := s.acts ++ [a] }

/-- `ControlStateManager::setStopAtNextCheckpoint` (ControlStateManager.cpp:33-41) -/
def St.setStop (s : St) (seq : Nat) : St :=
  if seq = 0 then { s with stop := none } else { s with stop := some ((seq + 300) - (seq + 300) % 150) }

/-- kvbc `ReconfigurationHandler` (reconfiguration_kvbc_handler.cpp:612-1075).  `AddRemoveWithWedge` and
`Restart` also write the wedge key (`include_wedge`); the former writes a scaling command for every replica
(in the code only for those with a token).  `ClientKeyExchange` for no client means all. -/
def kvOp (e : Env) (s : St) (r : Req) : St × Bool :=
  match r.cmd with
  | .wedge _ => (s.block [.wedge] r.text, true)
  | .download _ => (s.block [.download] r.text, true)
  | .install _ _ => (s.block [.install] r.text, true)
  | .keyExchange _ _ => (s.block [.keyExchange] r.text, true)
  | .addRemove _ => (s.block [.addRemove] r.text, true)
  | .addRemoveWedge _ _ _ => (s.block ([.addRemoveWedge, .wedge] ++ (List.range e.n).map .cliScale) r.text, true)
  | .restart _ _ => (s.block [.restart, .wedge] r.text, true)
  | .prune _ => (s.block [.prune] r.text, true)
  | .pruneCompact => (s.block [.pruneCompact] r.text, true)
  | .clientKeyExchange t => (s.block ((if t.isEmpty then e.clients else t).map .cliKeyExchange) r.text, true)
  | .clientsAddRemove _ => (s.block (e.clients.map .cliScale) r.text, true)
  | .clientsRestart _ => (s.block (e.clients.map .cliRestart) r.text, true)
  | .unwedge u => (s.act (.unwedge u), true)
  | _ => (s, true)

/-- `StateSnapshotReconfigurationHandler` (reconfiguration_kvbc_handler.cpp:185-281): a snapshot is
created if there is none -/
def snap (e : Env) (s : St) (seq : Nat) (r : Req) : St × Bool :=
  match r.cmd with
  | .snapshot => if e.dbCkpt then (s.act (.snapshot seq), true) else (s, false)
  | _ => (s, true)

/-- `InternalKvReconfigurationHandler` (reconfiguration_kvbc_handler.cpp:1083-1146) -/
def intKv (e : Env) (s : St) (seq : Nat) (r : Req) : St × Bool :=
  match r.cmd with
  | .wedge noop =>
    if noop then
      (match s.stop with
       | none => (s, false)
       | some sp => if sp < seq then (s, false) else (s.block [.wedgeNoop] r.text, true))
    else (s, false)
  | .tlsKey snd _ => if snd = r.id then (s.block [.repTls r.id] r.text, true) else (s, false)
  | .mainKey _ => (s.block [.repMain r.id] r.text, true)
  | _ => (s, true)

/-- `KvbcClientReconfigurationHandler` (reconfiguration_kvbc_handler.cpp:505-540 and 961-978) -/
def kvCli (e : Env) (s : St) (r : Req) : St × Bool :=
  match r.cmd with
  | .clientKey _ _ => (s.block [.cliKey r.id] r.text, true)
  | .clientScaled _ => (s.block [.cliScaled r.id] r.text, true)
  | .clientRestarted => (s.block [.cliRestarted r.id] r.text, true)
  | _ => (s, true)

/-- bftEngine `ReconfigurationHandler` (Reconfiguration.cpp:30-330) -/
def bftOp (e : Env) (s : St) (seq : Nat) (r : Req) : St × Bool :=
  match r.cmd with
  | .wedge noop => if noop then (s.setStop seq, true) else ((s.setStop seq).act .snapshotOnWedge, true)
  | .keyExchange t tls => if t.contains e.self then (s.act (if tls then .rotateTls else .rotateKeys), true) else (s, true)
  | .addRemoveWedge d b rs => ((((s.setStop seq).act (.afterWedge b rs)).act .snapshotOnWedge).act (.configFile d), true)
  | .restart b rs => ((s.setStop seq).act (.afterWedge b rs), true)
  | .install v b => if v = 0 then (s, false) else ((s.setStop seq).act (.restartReady v b), true)
  | .createDbCheckpoint => if e.dbCkpt then (s.act (.dbCheckpoint seq), true) else (s, false)
  | _ => (s, true)

/-- `KeyExchangeManager::onClientPublicKeyExchange` with `ClientsManager::setClientPublicKey` and
`SigManager::setClientPublicKey` (KeyExchangeManager.cpp:312-327, ClientsManager.cpp:466-478,
SigManager.cpp:287-303): stored first, then loaded; a key that cannot be parsed throws. -/
def setKey (e : Env) (s : St) (key c : Nat) : St × Bool :=
  let s1 := { s with stored := fun x => if x = c then some key else s.stored x }
  if e.ext c = true ∨ e.svc c = true then
    (if e.keyOk key then ({ s1 with keys := fun x => if x = c then some key else s1.keys x }, true) else (s1, false))
  else (s1, true)

/-- the loop over the affected clients; `false`: an exception -/
def setKeys (e : Env) (key : Nat) : St → List Nat → St × Bool
  | s, [] => (s, true)
  | s, c :: cs => (match setKey e s key (pid c) with
    | (s1, true) => setKeys e key s1 cs
    | (s1, false) => (s1, false))

/-- `ClientReconfigurationHandler` (Reconfiguration.cpp:331-360): nothing relates the sender to the
affected clients -/
def bftCli (e : Env) (s : St) (r : Req) : Res :=
  match r.cmd with
  | .clientKey key aff =>
    (match setKeys e key s (if aff.isEmpty then e.group r.id else aff) with
     | (s1, true) => .done s1 true
     | (s1, false) => .thrown s1)
  | _ => .done s true

/-- `PruningHandler` (C43); only a `PruneRequest` does something -/
def pruneOp (e : Env) (s : St) (r : Req) : St × Bool :=
  match r.cmd with
  | .prune p => (s.act (.prune p), true)
  | _ => (s, true)

/-- `InternalPostKvReconfigurationHandler` (reconfiguration_kvbc_handler.cpp:1148-1187) -/
def post (e : Env) (s : St) (r : Req) : St × Bool :=
  match r.cmd with
  | .clientKey key _ =>
    let s1 : St := { s.block [.clientsKeys] r.text with published := some s.keys }
    if e.saveFile then ({ s1 with files := fun g => if g = e.gid r.id then some key else s1.files g }, true) else (s1, true)
  | _ => (s, true)

/-- a handler -/
def handle (e : Env) (s : St) (seq : Nat) (r : Req) : H → Res
  | .kvOp => .done (kvOp e s r).1 (kvOp e s r).2
  | .snap => .done (snap e s seq r).1 (snap e s seq r).2
  | .intKv => .done (intKv e s seq r).1 (intKv e s seq r).2
  | .kvCli => .done (kvCli e s r).1 (kvCli e s r).2
  | .bftOp => .done (bftOp e s seq r).1 (bftOp e s seq r).2
  | .bftCli => bftCli e s r
  | .pruneOp => .done (pruneOp e s r).1 (pruneOp e s r).2
  | .post => .done (post e s r).1 (post e s r).2

/-- The loops of `Dispatcher::dispatch` (dispatcher.cpp:44-101).  `valid`: some handler has verified the
request; `ok`: `rresp.success`. -/
def loop (e : Env) (seq : Nat) (r : Req) : List H → St → Bool → Bool → Res
  | [], s, valid, ok => .done s (ok && valid)
  | h :: hs, s, valid, ok =>
    match check e s r h with
    | none => .abort
    | some false => loop e seq r hs s valid ok
    | some true =>
      (match handle e s seq r h with
       | .done s1 b => loop e seq r hs s1 true (ok && b)
       | .thrown s1 => .done s1 false
       | .abort => .abort)

/-- `Dispatcher::dispatch` -/
def dispatch (e : Env) (s : St) (seq : Nat) (r : Req) : Res := loop e seq r order s false true

/-! ### ordered and read-only execution -/

/-- Flags of a client request (bftengine/include/bftengine/Replica.hpp:46-60 `MsgFlag`), those that the execution looks at.
-/
structure Flags where
  readOnly : Bool := false
  reconfig : Bool := false
  keyExchange : Bool := false
  tick : Bool := false
  noop : Bool := false
  clientsKeys : Bool := false
deriving DecidableEq, Repr

/-- What `RequestHandler::execute` (RequestHandler.cpp:52-172) does with one request, decided by its
flags alone: a key exchange, a reconfiguration command, a tick, nothing, the publication of client keys,
or the application. -/
inductive Kind where
  | keyExchange | reconfig | tick | ignoredTick | noop | clientsKeys | user (readOnly : Bool)
deriving DecidableEq, Repr

/-- RequestHandler.cpp:57, 71, 117, 138, 144, 153.  A read-only request loses its other flags only after
the first four tests. -/
def kind (f : Flags) : Kind :=
  if f.keyExchange then .keyExchange
  else if f.reconfig then .reconfig
  else if f.tick then (if f.readOnly then .ignoredTick else .tick)
  else if f.noop then .noop
  else if f.readOnly then .user true
  else if f.clientsKeys then .clientsKeys
  else .user false

/-- a client request as the execution sees it: flags, the reconfiguration command if it is one, and the
body of an application request or of one of the other kinds -/
structure CReq where
  flags : Flags
  req : Req
  body : Nat
deriving DecidableEq, Repr

/-- A replica: what reconfiguration changes, the state of the application (the list of executed bodies),
the executed key exchanges, ticks and publications, `lastExecutedSeqNum`, and whether the process has
ended. -/
structure Rep where
  st : St := {}
  app : List Nat := []
  kx : List (Nat × Nat) := []
  ticks : List (Nat × Nat) := []
  pubs : List Nat := []
  last : Nat := 0
  dead : Bool := false

/-- `RequestHandler::execute` for one request (RequestHandler.cpp:52-172).  The application handler
is assumed not to change anything for a read-only request. -/
def execute (e : Env) (a : Rep) (seq : Nat) (q : CReq) : Rep :=
  match kind q.flags with
  | .keyExchange => { a with kx := a.kx ++ [(seq, q.body)] }
  | .reconfig =>
    (match dispatch e a.st seq q.req with
     | .done s _ => { a with st := s }
     | .thrown s => { a with st := s }
     | .abort => { a with dead := true })
  | .tick => { a with ticks := a.ticks ++ [(seq, q.body)] }
  | .ignoredTick => a
  | .noop => a
  | .clientsKeys => { a with pubs := a.pubs ++ [q.body] }
  | .user true => a
  | .user false => { a with app := a.app ++ [q.body] }

/-- execution of the next ordered request (one request per sequence number) -/
def ordered (e : Env) (a : Rep) (q : CReq) : Rep := { execute e a (a.last + 1) q with last := a.last + 1 }

/-- `executeReadOnlyRequest` (ReplicaImp.cpp:445-457 and 4661-4692): nothing is checked but the read-only
flag; the number is that of the last executed request -/
def readOnly (e : Env) (a : Rep) (q : CReq) : Rep := execute e a a.last q

end Verif.Auth
