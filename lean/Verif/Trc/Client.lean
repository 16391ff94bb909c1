import Verif.Trc.Hash
set_option linter.unusedVariables false
/-!
# Thin replica client: receiving updates (C33)

Model of `ThinReplicaClient::receiveUpdates` and what it calls (client/thin-replica-client/src/thin_replica_client.cpp:78-738) on top of
`GrpcConnection` (client/thin-replica-client/src/grpc_connection.cpp:111-178, 300-371).  What the servers answer is the parameter
`Env` of an iteration of the main loop: within one iteration every server is asked at most once for a hash and at most once, when the
data stream is rotated, for data, so the answers are functions of the server.

Simplifications: ids do not wrap at 2^64; the stop flag is not modelled (a run may end after any iteration); tracing, logging and
metrics are left out.
-/
namespace Verif.Trc
open Verif.Bytes

/-- where a stream is: what the server sends next -/
inductive Pos where
  | ev (n : Nat)
  | eg (n : Nat)
deriving DecidableEq

def Upd.next : Upd → Pos
  | .ev n _ _ => .ev (n + 1)
  | .eg n _ _ => .eg (n + 1)

/-- the streams between the client and one server; `none` = not open.  The position is the server's (of an honest server). -/
structure Srv where
  data : Option Pos
  hash : Option Pos
deriving DecidableEq

/-- result of a read on a stream (`GrpcConnection::Result`) -/
inductive Rd (α : Type) where
  | timeout
  | failure
  | outOfRange
  | notFound
  | msg (m : α)

/-- result of opening a stream (grpc_connection.cpp:111-145, 300-332: nothing else is returned) -/
inductive Op where
  | ok
  | timeout
  | failure
deriving DecidableEq

/-- a `Hash` message with its event or event group part -/
structure HashMsg where
  isEg : Bool
  id : Nat
  hash : Bytes
deriving DecidableEq

/-- `HashRecord` (thin_replica_client.hpp:210-215) -/
structure Rec where
  isEg : Bool
  id : Nat
  hash : Bytes
deriving DecidableEq

def Rec.next (r : Rec) : Pos := if r.isEg then .eg (r.id + 1) else .ev (r.id + 1)
def HashMsg.next (m : HashMsg) : Pos := if m.isEg then .eg (m.id + 1) else .ev (m.id + 1)

/-- the servers' answers during one iteration; `none` in a message: neither of its two parts is set -/
structure Env where
  rdData : Rd (Option Upd)
  opHash : Nat → Op
  rdHash : Nat → Rd (Option HashMsg)
  /-- the order in which the `unordered_set` of agreeing servers is traversed -/
  rotOrder : List Nat
  opRot : Nat → Op
  rdRot : Nat → Rd (Option Upd)
  /-- opening the data stream to the next server -/
  opNext : Op

structure Cfg where
  n : Nat
  f : Nat

/-- the client (thin_replica_client.hpp:178-192); `out`: what was pushed to the update queue -/
structure Cl where
  dataConn : Nat
  isEg : Bool
  latB : Nat
  latG : Nat
  subOk : Bool
  srv : Nat → Srv
  out : List Upd

def Cl.lat (c : Cl) (isEg : Bool) : Nat := if isEg then c.latG else c.latB

/-- the request made when a stream is opened (thin_replica_client.cpp:271-276, 375-380) -/
def Cl.expect (c : Cl) : Pos := if c.isEg then .eg (c.latG + 1) else .ev (c.latB + 1)

def Cl.setData (c : Cl) (i : Nat) (p : Option Pos) : Cl :=
  { c with srv := fun j => if j = i then { c.srv j with data := p } else c.srv j }
def Cl.setHash (c : Cl) (i : Nat) (p : Option Pos) : Cl :=
  { c with srv := fun j => if j = i then { c.srv j with hash := p } else c.srv j }

inductive R (α : Type) where
  | ok (a : α)
  /-- an exception -/
  | throw
  /-- failed assertion: the process ends -/
  | abort

/-- what is collected in one iteration (thin_replica_client.cpp:519-535) -/
structure Col where
  cl : Cl
  recs : List (Rec × List Nat)
  most : Nat
  best : Rec
  oor : Nat
  pruned : Nat

def Col.new (c : Cl) : Col where
  cl := c
  recs := []
  most := 0
  best := ⟨false, 0, []⟩
  oor := 0
  pruned := 0

/-- insertion into the map of sets -/
def addRec (i : Nat) (r : Rec) : List (Rec × List Nat) → List (Rec × List Nat)
  | [] => [(r, [i])]
  | (r', s) :: l => if r' = r then (r', if i ∈ s then s else i :: s) :: l else (r', s) :: addRec i r l

def members (recs : List (Rec × List Nat)) (r : Rec) : List Nat := (recs.lookup r).getD []

/-- `recordCollectedHash` (thin_replica_client.cpp:78-104) -/
def Col.record (col : Col) (i : Nat) (r : Rec) : Col :=
  let recs := addRec i r col.recs
  let a := (members recs r).length
  if a > col.most then
    { col with
      recs := recs
      most := a
      best := r }
  else { col with recs := recs }

/-- `readBlock` (thin_replica_client.cpp:190-263) and the counting in 541-551; also returns the update if the read succeeded -/
def readBlock (h : Bytes → Bytes) (c : Cl) (env : Env) : R (Col × Option Upd) :=
  let d := c.dataConn
  if (c.srv d).data = none then .ok (.new c, none)
  else match env.rdData with
    | .timeout => .ok (.new (c.setData d none), none)
    | .failure => .ok (.new c, none)
    | .outOfRange => .ok ({ Col.new c with oor := if c.subOk then 0 else 1 }, none)
    | .notFound => .ok ({ Col.new c with pruned := 1 }, none)
    | .msg none => .abort
    | .msg (some u) =>
      let c' := c.setData d (some u.next)
      if u.id < c.lat u.isEg then .ok (.new c', some u)
      else match hashUpd h u with
        | .throw => .throw
        | .abort => .abort
        | .ok x => .ok ((Col.new c').record d ⟨u.isEg, u.id, x⟩, some u)

/-- `hash_string.resize(kThinReplicaHashLength, '\\0')` -/
def pad (b : Bytes) : Bytes := b ++ List.replicate (32 - b.length) 0

/-- `readUpdateHashFromStream` (thin_replica_client.cpp:106-188) -/
def readHash (col : Col) (env : Env) (i : Nat) : R Col :=
  match env.rdHash i with
  | .timeout => .ok { col with cl := col.cl.setHash i none }
  | .failure => .ok col
  | .outOfRange => .ok { col with oor := if col.cl.subOk then col.oor else col.oor + 1 }
  | .notFound => .ok { col with pruned := col.pruned + 1 }
  | .msg none => .abort
  | .msg (some m) =>
    let col := { col with cl := col.cl.setHash i (some m.next) }
    if m.id < col.cl.lat m.isEg then .ok col
    else if m.hash.length > 32 then .ok col
    else .ok (col.record i ⟨m.isEg, m.id, pad m.hash⟩)

/-- the loop of `findBlockHashAgreement` (thin_replica_client.cpp:306-366) -/
def collect (cfg : Cfg) (env : Env) : List Nat → Col → R Col
  | [], col => .ok col
  | i :: is, col =>
    if i = col.cl.dataConn then collect cfg env is col -- already tried
    else
      let opened := (col.cl.srv i).hash.isSome
      if opened = false ∧ env.opHash i ≠ .ok then collect cfg env is col
      else
        let col := if opened then col else { col with cl := col.cl.setHash i (some col.cl.expect) }
        match readHash col env i with
        | .ok col => if col.most ≥ cfg.f + 1 then .ok col else collect cfg env is col
        | .throw => .throw
        | .abort => .abort

/-- servers with an open hash stream come first (thin_replica_client.cpp:296-303) -/
def order (cfg : Cfg) (c : Cl) : List Nat :=
  (List.range cfg.n).filter (fun i => (c.srv i).hash.isSome) ++ (List.range cfg.n).filter (fun i => !(c.srv i).hash.isSome)

/-- `resetDataStreamTo` (thin_replica_client.cpp:368-387) -/
def Cl.resetData (c : Cl) (i : Nat) (op : Op) : Cl :=
  { c with
    dataConn := i
    srv := fun j => if j = i then ⟨if op = .ok then some c.expect else none, none⟩
      else if j = c.dataConn then ⟨none, none⟩ else c.srv j }

/-- `closeAllHashStreams` (thin_replica_client.cpp:389-395) -/
def Cl.closeHash (c : Cl) : Cl :=
  { c with srv := fun j => if j = c.dataConn then c.srv j else { c.srv j with hash := none } }

/-- `rotateDataStreamAndVerify` (thin_replica_client.cpp:397-472) -/
def rotate (h : Bytes → Bytes) (best : Rec) (env : Env) : List Nat → Cl → R (Cl × Option Upd)
  | [], c => .ok (c, none)
  | i :: is, c =>
    let c := c.resetData i (env.opRot i)
    if env.opRot i ≠ .ok then rotate h best env is c
    else match env.rdRot i with
      | .timeout => rotate h best env is (c.setData i none)
      | .failure => rotate h best env is c
      | .outOfRange => rotate h best env is c
      | .notFound => rotate h best env is c
      | .msg none => .abort
      | .msg (some u) =>
        let c := c.setData i (some u.next)
        if u.id ≠ best.id then rotate h best env is c
        else match hashUpd h u with
          | .throw => .throw
          | .abort => .abort
          | .ok x => if x ≠ best.hash then rotate h best env is c else .ok (c, some u)

/-- an update is passed on (thin_replica_client.cpp:669-733) -/
def Cl.deliver (c : Cl) (u : Upd) (ms : List Nat) : Cl :=
  { c with
    isEg := c.isEg || u.isEg
    latB := if u.isEg then c.latB else u.id
    latG := if u.isEg then u.id else c.latG
    subOk := true
    out := c.out ++ [u]
    srv := fun j => if j ∈ ms then c.srv j else { c.srv j with hash := none } }

inductive Exc where
  | internal
  | outOfRange
  | notFound
  | invalid
deriving DecidableEq

/-- outcome of an iteration: it goes on, the subscription ends with an exception, or the process ends -/
inductive It where
  | next (c : Cl)
  | exc (e : Exc)
  | abort

/-- give up this round: the next server becomes the data server (thin_replica_client.cpp:613, 634-635, 652-654) -/
def Cl.giveUp (cfg : Cfg) (c : Cl) (env : Env) : It := .next (c.closeHash.resetData ((c.dataConn + 1) % cfg.n) env.opNext)

/-- the rest of an iteration, after the hashes were collected (thin_replica_client.cpp:573-733) -/
def decideIt (cfg : Cfg) (h : Bytes → Bytes) (env : Env) (col : Col) (upd : Option Upd) : It :=
  if col.most < cfg.f + 1 then
    if (col.recs.map (·.2.length)).sum ≥ 2 * cfg.f + 1 ∧ ¬ (col.recs.any (fun x => x.2.length > cfg.f + 1)) then .exc .internal
    else if col.cl.subOk = false ∧ col.oor ≥ cfg.f + 1 then .exc .outOfRange
    else if col.pruned ≥ cfg.f + 1 then .exc .notFound
    else col.cl.giveUp cfg env
  else
    let ms := members col.recs col.best
    match (if col.cl.dataConn ∈ ms then upd else none) with
    | some u => .next (col.cl.deliver u ms)
    | none => match rotate h col.best env (env.rotOrder.filter (fun i => i ∈ ms)) col.cl with
      | .abort => .abort
      | .throw => .exc .invalid
      | .ok (c, some u) => .next (c.deliver u ms)
      | .ok (c, none) => c.giveUp cfg env

/-- one iteration of the main loop (thin_replica_client.cpp:508-733) -/
def iter (cfg : Cfg) (h : Bytes → Bytes) (c : Cl) (env : Env) : It :=
  match readBlock h c env with
  | .abort => .abort
  | .throw => .exc .invalid
  | .ok (col, upd) => match collect cfg env (order cfg col.cl) col with
    | .abort => .abort
    | .throw => .exc .invalid
    | .ok col => decideIt cfg h env col upd

/-- a run: iterations with the given answers; stops at an exception or abort -/
def runC (cfg : Cfg) (h : Bytes → Bytes) (c : Cl) : List Env → It
  | [] => .next c
  | e :: es => match iter cfg h c e with
    | .next c => runC cfg h c es
    | .exc x => .exc x
    | .abort => .abort

/-- the constructor (thin_replica_client.hpp:268-291) -/
def Cl.fresh : Cl where
  dataConn := 0
  isEg := false
  latB := 0
  latG := 0
  subOk := false
  srv := fun _ => ⟨none, none⟩
  out := []

/-- `Subscribe(block_id)` (thin_replica_client.cpp:957-984) and the beginning of `receiveUpdates` -/
def Cl.subscribeB (c : Cl) (b : Nat) (op : Op) : Cl :=
  ({ c with
     isEg := false
     latB := b - 1
     latG := 0
     out := [] } : Cl).resetData 0 op

/-- `Subscribe(SubscribeRequest)` (thin_replica_client.cpp:986-1012) and the beginning of `receiveUpdates` -/
def Cl.subscribeG (c : Cl) (g : Nat) (op : Op) : Cl :=
  ({ c with
     isEg := true
     latG := g - 1
     out := [] } : Cl).resetData 0 op

/-! ## Specification: honest servers -/

/-- what was written: blocks and event groups, as this client may see them; and the event groups with which an honest server may go
on after blocks (its oldest one) -/
structure World where
  block : Nat → List (Bytes × Bytes)
  group : Nat → List Bytes
  begins : Nat → Prop

/-- the genuine update at a position -/
def World.upd (W : World) : Pos → Upd
  | .ev n => .ev n (W.block n) []
  | .eg n => .eg n (W.group n) []

/-- an honest server whose stream is at `p` may send `u`: the genuine update, or, on a block stream, an event group it begins with -/
def Gives (W : World) (p : Pos) (u : Upd) : Prop :=
  Eqv u (W.upd p) ∨ ∃ n o, p = .ev n ∧ W.begins o ∧ Eqv u (W.upd (.eg o))

/-- the answers of honest servers (`hon`) are honest -/
structure EnvOk (W : World) (h : Bytes → Bytes) (hon : Nat → Bool) (c : Cl) (env : Env) : Prop where
  data : hon c.dataConn = true → ∀ p m, (c.srv c.dataConn).data = some p → env.rdData = .msg m → ∃ u, m = some u ∧ Gives W p u
  hash : ∀ i, hon i = true → ∀ m, env.rdHash i = .msg m →
    ∃ u d, Gives W ((c.srv i).hash.getD c.expect) u ∧ hashUpd h u = .ok d ∧ m = some ⟨u.isEg, u.id, d⟩
  rot : ∀ i, hon i = true → ∀ m, env.rdRot i = .msg m → ∃ u, m = some u ∧ Gives W c.expect u

/-- at most `f` of the `n` servers are not honest -/
def FewFaulty (cfg : Cfg) (hon : Nat → Bool) : Prop :=
  ((List.range cfg.n).filter (fun i => !hon i)).length ≤ cfg.f

/-- nobody can present other content with the kind, the id and the hash of a genuine update (`hash_binds`: no collisions are found) -/
def Binding (W : World) (h : Bytes → Bytes) (u : Upd) : Prop :=
  ∀ p d, hashUpd h u = .ok d → hashUpd h (W.upd p) = .ok d → u.id = (W.upd p).id → u.isEg = (W.upd p).isEg → Eqv u (W.upd p)

/-- nobody can present a block with the id and the hash of a genuine event group, or the other way round.  This is no consequence of
collision resistance; the code relies on it where the data stream is rotated (`type_confusion`). -/
def NoConfusion (W : World) (h : Bytes → Bytes) (u : Upd) : Prop :=
  ∀ p d, hashUpd h u = .ok d → hashUpd h (W.upd p) = .ok d → u.id = (W.upd p).id → u.isEg = (W.upd p).isEg

/-- what is assumed of the data received in an iteration -/
structure EnvBinding (W : World) (h : Bytes → Bytes) (env : Env) : Prop where
  data : ∀ u, env.rdData = .msg (some u) → Binding W h u
  rot : ∀ i u, env.rdRot i = .msg (some u) → Binding W h u ∧ NoConfusion W h u

end Verif.Trc
