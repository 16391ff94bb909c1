import Verif.Cert.Props
/-!
C42: when a checkpoint becomes stable, when it becomes "super stable", and when a replica starts state transfer.

Modelled: `/repo/bftengine/src/bftengine/ReplicaImp.cpp` (RI): `onMessage<CheckpointMsg>` 2262-2413,
`onMessage<AskForCheckpointMsg>` 2418-2432, the checkpoint part of `onMessage<ReplicaStatusMsg>` 2634-2675,
`sendCheckpointIfNeeded` 3237-3269, `tryToMarkCheckpointStableForFastPath` 3271-3297, `onTransferringCompleteImp`
3299-3383, `onSeqNumIsSuperStable` 3385-3398, `onSeqNumIsStable` 3400-3530, the part of the restart constructor that
deals with checkpoints 4046-4072 and 4181-4216, `finalizeExecution` 5212-5251, `tryToMarkSeqNumAsStable` 5574-5603;
`CheckpointInfo.hpp`, `CheckpointMsg::validate/equivalent` (messages/CheckpointMsg.cpp); the certificate is the model of
C09 (`Concord.Cert`).

Simplifications. `activeExecutions_` is 0 (with a running execution a checkpoint message is deferred and handled later,
RI 2265-2268, and the other functions are deferred or assert it).  The three digests and the state number of a message
are one value `Content`.  Sequence and epoch numbers are unbounded.  The array of `SequenceWithActiveWindow` is the map
it implements (C07): slots outside the window are empty.  The metadata store is a record written by each handler; C34
covers its transactions: each handler's writes are one transaction and the messages go out after it ends (RI 5169-5171,
3372-3377).  What other modules answer (state transfer, view, clock, epoch) comes with each event (`Env`).
-/
namespace Verif.Ckpt
open Concord

/-- `checkpointWindowSize` (SysConsts.hpp) -/
def cpw : Nat := 150
/-- `kWorkWindowSize` (SysConsts.hpp 46) -/
def wws : Nat := 300
/-- `MaxConcurrentFastPaths` (SysConsts.hpp) -/
def mcf : Nat := 75
/-- size of `checkpointsLog` (RI 4477): `kWorkWindowSize + 2 * checkpointWindowSize` -/
def clw : Nat := 600

/-- What a checkpoint message says about the state: `state`, `stateDigest`, `reservedPagesDigest`, `rvbDataDigest`
(CheckpointMsg.hpp header) -/
structure Content where
  state : Nat
  sd : Nat
  rd : Nat
  vd : Nat
deriving DecidableEq, Repr

/-- `CheckpointMsg` (CheckpointMsg.hpp): generating replica, sender, sequence number, epoch, content, stable flag -/
structure Msg where
  gen : Nat
  sender : Nat
  seq : Nat
  epoch : Nat
  content : Content
  stable : Bool
deriving DecidableEq, Repr

/-- `CheckpointMsg::equivalent` (CheckpointMsg.cpp 77-80): epoch and stable flag are not compared -/
def eqv (a b : Msg) : Bool := a.seq == b.seq && a.content == b.content

/-- `fVal`, `cVal`, `replicaId` -/
structure Cfg where
  F : Nat
  C : Nat
  self : Nat

/-- `numReplicas` -/
def Cfg.n (g : Cfg) : Nat := 3 * g.F + 2 * g.C + 1

/-- the certificate of a checkpoint (CheckpointInfo.hpp 100-107) -/
def Cfg.p (g : Cfg) : Cert.Params Msg := Cert.checkpointParams g.F g.C g.self eqv

/-- `CheckpointInfo` (CheckpointInfo.hpp 29-46). `executed` is "`executed != MinTime`". `ownStable` is the stable flag of
the replica's own stored message, which `setStateAsStable` (RI 3478-3481) changes in place; the copy of that message in
`cert` keeps the flag it was created with. -/
structure Slot where
  cert : Cert.St Msg := {}
  sent : Bool := false
  executed : Bool := false
  ownStable : Bool := false

/-- What the metadata store holds (PersistentStorage): `lastStableSeqNum`, `lastExecutedSeqNum`, the descriptor of the
last stable checkpoint, and for each checkpoint of `[lastStable, lastStable + kWorkWindowSize]` the own message and the
completed mark. -/
structure Ps where
  lastStable : Nat := 0
  lastExec : Nat := 0
  desc : List (Nat × Msg) := []
  check : Nat → Option Msg := fun _ => none
  mark : Nat → Bool := fun _ => false

/-- The replica. `signed` is a ghost: what this replica signed so far, over all its restarts. -/
structure St where
  lastStable : Nat := 0
  lastExec : Nat := 0
  lastSuper : Nat := 0
  begin : Nat := 0
  slots : Nat → Slot := fun _ => {}
  table : List (Nat × Msg) := []
  ps : Ps := {}
  signed : List (Nat × Content) := []

/-- Answers of the other modules during one event: own epoch (EpochManager), digests of the checkpoints
(`getDigestOfCheckpoint`), `isCollectingState()`, `currentViewIsActive()`, "the last executed sequence number has a
fast-path proof and is in the main log" (RI 3278-3282), "three seconds since the execution" (RI 3257; only asked when
`executed` is set, otherwise the time is `MinTime`), "more than 5 s since the last execution" (RI 2383-2389). -/
structure Env where
  epoch : Nat
  dg : Nat → Content
  collecting : Bool
  viewActive : Bool
  fast : Bool
  waited : Bool
  late : Bool

/-- What the outside sees: a checkpoint becomes stable, super stable (then `wedge()` may follow), state transfer is
started, a checkpoint message is sent to every other replica or to one node. -/
inductive Out where
  | stable (s : Nat)
  | superStable (s : Nat)
  | collect
  | sendAll (m : Msg)
  | sendTo (r : Nat) (m : Msg)
deriving DecidableEq, Repr

/-- `insideActiveWindow` (SequenceWithActiveWindow.hpp 66-68) -/
def St.inside (a : St) (s : Nat) : Bool := decide (a.begin ≤ s) && decide (s < a.begin + clw)

/-- the assertions of `get` (SequenceWithActiveWindow.hpp 83-85) -/
def St.getOk (a : St) (s : Nat) : Bool := s % cpw == 0 && a.inside s

/-- overwrite one slot -/
def St.setSlot (a : St) (s : Nat) (c : Slot) : St := { a with slots := fun i => if i = s then c else a.slots i }

/-- `advanceActiveWindow` (SequenceWithActiveWindow.hpp 138-176): the slots before the new beginning are reset -/
def St.advance (a : St) (b : Nat) : St :=
  { a with begin := b, slots := fun i => if i < b then {} else a.slots i }

/-- `addCheckpointMsg` (CheckpointInfo.hpp 61-64) -/
def Slot.add (g : Cfg) (c : Slot) (id : Nat) (m : Msg) : Slot × Bool :=
  ({ c with cert := (c.cert.addMsg g.p id m).1 }, (c.cert.addMsg g.p id m).2)

/-- `tryToMarkCheckpointCertificateCompleted` (CheckpointInfo.hpp 80-83) -/
def Slot.mark (g : Cfg) (c : Slot) : Slot := { c with cert := c.cert.tryComplete g.p }

/-- `selfCheckpointMsg` (CheckpointInfo.hpp 76), with its current stable flag -/
def Slot.own (g : Cfg) (c : Slot) : Option Msg := (c.cert.msgOf g.self).map (fun m => { m with stable := c.ownStable })

/-- `getAllCheckpointMsgs` (CheckpointInfo.hpp 78), the own one with its current stable flag -/
def Slot.all (g : Cfg) (c : Slot) : List (Nat × Msg) :=
  c.cert.msgs.map (fun e => if e.1 = g.self then (e.1, { e.2 with stable := c.ownStable }) else e)

/-- the own message for `s`, as the `CheckpointMsg` constructor and `sign()` make it (CheckpointMsg.cpp 20-45) -/
def ownMsg (g : Cfg) (v : Env) (s : Nat) (st : Bool) : Msg :=
  { gen := g.self, sender := g.self, seq := s, epoch := v.epoch, content := v.dg (s / cpw), stable := st }

/-- `onSeqNumIsSuperStable` (RI 3385-3398) -/
def superAt (s : Nat) (a : St) : St × List Out :=
  if s ≤ a.lastSuper then (a, []) else ({ a with lastSuper := s }, [.superStable s])

/-- `if (isCheckpointSuperStable()) onSeqNumIsSuperStable(s)` (RI 2309-2312, 3367-3369, 3485-3487, 5598-5600) -/
def superIf (f : Bool) (s : Nat) (a : St) : St × List Out := if f then superAt s a else (a, [])

/-- where `checkpointsLog` begins once `s` is stable (RI 3439-3445) -/
def newBegin (a : St) (s : Nat) : Nat := if a.inside (s - cpw) then s - cpw else s

/-- `setLastStableSeqNum` (PersistentStorageImp.cpp 454-477): the elements that leave the check window are cleared -/
def Ps.setStable (p : Ps) (s : Nat) : Ps :=
  { p with
    lastStable := s
    check := fun i => if i < s then none else p.check i
    mark := fun i => if i < s then false else p.mark i }

/-- `setCheckpointMsgInCheckWindow` (PersistentStorageImp.cpp 533-541) -/
def Ps.setCheck (p : Ps) (s : Nat) (m : Msg) : Ps := { p with check := fun i => if i = s then some m else p.check i }

/-- `setCompletedMarkInCheckWindow` (PersistentStorageImp.cpp 522-531) -/
def Ps.setMark (p : Ps) (s : Nat) : Ps := { p with mark := fun i => if i = s then true else p.mark i }

/-- The first part of `onSeqNumIsStable` (RI 3413-3445): the numbers and both logs advance -/
def moveTo (s : Nat) (a : St) : St :=
  ({ a with lastStable := s, ps := a.ps.setStable s }).advance (newBegin a s)

/-- The part under `if (hasStateInformation)` (RI 3447-3493), once the window has moved; `none` is a failed assertion -/
def withState (g : Cfg) (v : Env) (s : Nat) (a : St) : Option (St × List Out) :=
  let a := if a.lastExec < s then { a with lastExec := s } else a
  let a := { a with ps := { a.ps with lastExec := a.lastExec } }
  if !a.getOk s then none
  else
    let c := a.slots s
    let (c, sg) :=
      match c.own g with
      | none => ({ (c.add g g.self (ownMsg g v s true)).1 with ownStable := true }, [(s, v.dg (s / cpw))])
      | some _ => ({ c with ownStable := true }, [])
    let c := if c.cert.complete then c else c.mark g
    if !c.cert.complete then none
    else
      let a := { (a.setSlot s c) with signed := a.signed ++ sg }
      let r := superIf c.cert.full s a
      match c.own g with
      | none => none
      | some m => some ({ r.1 with ps := (r.1.ps.setCheck s m).setMark s }, r.2)

/-- `onSeqNumIsStable(newStableSeqNum, hasStateInformation, oldSeqNum)` (RI 3400-3530) -/
def stableAt (g : Cfg) (v : Env) (s : Nat) (has old : Bool) (a : St) : Option (St × List Out) :=
  if !(has || old) then none
  else if s % cpw ≠ 0 then none
  else if s ≤ a.lastStable then some (a, [])
  else if newBegin a s < a.begin then none
  else
    match (if has then withState g v s (moveTo s a) else some (moveTo s a, [])) with
    | none => none
    | some (a, o) =>
      if !a.getOk s then none
      else some ({ a with ps := { a.ps with desc := (a.slots s).all g } }, o ++ [.stable s])

/-- The first part of `onMessage<CheckpointMsg>` (RI 2291-2316): `inl` is the early return of 2305 -/
def recvLog (g : Cfg) (v : Env) (m : Msg) (a : St) : Option (St × List Out × Bool) :=
  if a.lastStable < m.seq ∧ m.seq ≤ a.lastStable + wws ∧ v.epoch ≤ m.epoch then
    if !a.getOk m.seq then none
    else
      let a1 := a.setSlot m.seq ((a.slots m.seq).add g m.gen m).1
      if (a1.slots m.seq).cert.complete then
        if ((a1.slots m.seq).own g).isNone then none
        else
          match stableAt g v m.seq true false a1 with
          | none => none
          | some (a, o) => some (a, o, true)
      else some (a1, [], false)
  else if a.inside m.seq then
    if !a.getOk m.seq then none
    else
      let r := (a.slots m.seq).add g m.gen m
      let a1 := a.setSlot m.seq r.1
      let q := superIf (r.2 && r.1.cert.full) m.seq a1
      some (q.1, q.2, false)
  else some (a, [], false)

/-- `tableOfStableCheckpoints[gen] = m` -/
def tset (t : List (Nat × Msg)) (r : Nat) (m : Msg) : List (Nat × Msg) := t.filter (fun e => e.1 ≠ r) ++ [(r, m)]

/-- the entry is dropped (RI 2351-2353) -/
def stale (v : Env) (a : St) (m : Msg) : Bool := decide (m.seq ≤ a.lastExec) && decide (m.epoch = v.epoch)

/-- the entry counts as above the window (RI 2356-2358) -/
def above (v : Env) (a : St) (m : Msg) : Bool := decide (a.lastStable + wws < m.seq) || decide (v.epoch < m.epoch)

/-- a stable message ahead of this replica (RI 2319-2320) -/
def ahead (v : Env) (a : St) (m : Msg) : Bool :=
  m.stable && ((decide (m.epoch = v.epoch) && decide (a.lastExec < m.seq)) || decide (v.epoch < m.epoch))

/-- the entry of that replica is replaced (RI 2322-2323) -/
def replaces (t : List (Nat × Msg)) (m : Msg) : Bool :=
  match t.find? (fun e => e.1 == m.gen) with
  | none => true
  | some e => decide (e.2.seq ≤ m.seq) || decide (e.2.epoch ≤ m.epoch)

/-- The second part of `onMessage<CheckpointMsg>` (RI 2318-2397): the new table, and whether to ask for state transfer -/
def recvTable (g : Cfg) (v : Env) (m : Msg) (a : St) : List (Nat × Msg) × Bool :=
  if ahead v a m && replaces a.table m then
    let t := tset a.table m.gen m
    if g.F + 1 ≤ t.length then
      let t := t.filter (fun e => !stale v a e.2)
      let num := t.length
      let up := (t.filter (fun e => above v a e.2)).length
      if g.F + 1 ≤ up then (t, true)
      else if g.F + 1 ≤ num then (t, v.late)
      else (t, false)
    else (t, false)
  else (a.table, false)

/-- `onMessage<CheckpointMsg>` (RI 2262-2413); the reports about late and advanced replicas (2406-2412) only feed
other modules and are not modelled -/
def recv (g : Cfg) (v : Env) (m : Msg) (a : St) : Option (St × List Out) :=
  match recvLog g v m a with
  | none => none
  | some (a, o, true) => some (a, o)
  | some (a, o, false) =>
    let r := recvTable g v m a
    some ({ a with table := r.1 }, o ++ (if r.2 && !v.collecting then [.collect] else []))

/-- `tryToMarkSeqNumAsStable` (RI 5574-5603) -/
def tryMark (g : Cfg) (v : Env) (a : St) : Option (St × List Out) :=
  let s := a.lastExec
  if s % cpw ≠ 0 then some (a, [])
  else if !a.getOk s then none
  else
    let m := ownMsg g v s false
    let r := (a.slots s).add g g.self m
    let a := { (a.setSlot s r.1) with
      signed := a.signed ++ [(s, v.dg (s / cpw))]
      ps := a.ps.setCheck s m }
    match (if r.1.cert.complete then stableAt g v s true false a else some (a, [])) with
    | none => none
    | some (a, o) =>
      if (a.slots s).executed then none
      else
        let a := a.setSlot s { a.slots s with executed := true }
        let r := superIf (a.slots s).cert.full a.lastStable a
        some (r.1, o ++ r.2)

/-- `finalizeExecution` (RI 5212-5251); the execution itself is C11-C13 -/
def exec (g : Cfg) (v : Env) (a : St) : Option (St × List Out) :=
  tryMark g v { a with lastExec := a.lastExec + 1, ps := { a.ps with lastExec := a.lastExec + 1 } }

/-- `tryToMarkCheckpointStableForFastPath` (RI 3271-3297) -/
def fastPath (g : Cfg) (v : Env) (s : Nat) (m : Msg) (a : St) : Option (St × List Out) :=
  if a.lastExec < s + mcf then some (a, [])
  else if v.fast then
    let a1 := a.setSlot s ((a.slots s).mark g)
    if !(a1.slots s).cert.complete then none
    else
      match stableAt g v s true false a1 with
      | none => none
      | some (a, o) => some (a.setSlot s { a.slots s with sent := true }, o)
  else some (a.setSlot s { a.slots s with sent := true }, [.sendAll m])

/-- `sendCheckpointIfNeeded` (RI 3237-3269) -/
def poll (g : Cfg) (v : Env) (a : St) : Option (St × List Out) :=
  if v.collecting || !v.viewActive then some (a, [])
  else
    let s := (a.lastExec / cpw) * cpw
    if s = 0 then some (a, [])
    else if !a.getOk s then none
    else
      match (a.slots s).own g with
      | none => some (a, [])
      | some m =>
        if (a.slots s).sent then some (a, [])
        else if !(a.slots s).executed || v.waited then
          some (a.setSlot s { a.slots s with sent := true }, [.sendAll m])
        else fastPath g v s m a

/-- `onTransferringCompleteImp` (RI 3299-3383): state transfer reports that checkpoint number `k` was reached -/
def transferred (g : Cfg) (v : Env) (k : Nat) (a : St) : Option (St × List Out) :=
  let s := k * cpw
  if s ≤ a.lastExec then some (a, [])
  else
    let a := { a with lastExec := s, ps := { a.ps with lastExec := s } }
    let ref := s - wws
    let withRef := a.inside ref && ((a.slots ref).own g).isSome
    match (if a.lastStable + wws < s then stableAt g v ref withRef true a else some (a, [])) with
    | none => none
    | some (a, o) =>
      if !a.getOk s then none
      else
        let m := ownMsg g v s false
        let c := ((a.slots s).add g g.self m).1
        let a := { (a.setSlot s { c with sent := true }) with signed := a.signed ++ [(s, v.dg (s / cpw))] }
        let r := superIf c.cert.full s a
        let a := r.1
        some ({ a with ps := a.ps.setCheck s m }, o ++ r.2 ++ [.sendAll m])

/-- `onMessage<AskForCheckpointMsg>` (RI 2418-2432) from node `r` -/
def ask (g : Cfg) (r : Nat) (a : St) : Option (St × List Out) :=
  if !a.getOk a.lastStable then none
  else
    match (a.slots a.lastStable).own g with
    | none => some (a, [])
    | some m => some (a, [.sendTo r m])

/-- the own message of a slot, sent to `r`, if there is one (RI 2655-2658, 2671-2674) -/
def sendOwn (g : Cfg) (a : St) (r s : Nat) : List Out :=
  match (a.slots s).own g with
  | none => []
  | some m => [.sendTo r m]

/-- the loop over the checkpoints that may be useful for the sender (RI 2661-2675): `i` from `lo` in steps of 150 -/
def sendRange (g : Cfg) (a : St) (r : Nat) : Nat → Nat → Nat → Option (List Out)
  | 0, _, _ => some []
  | fuel + 1, lo, hi =>
    if hi < lo then some []
    else if !a.getOk lo then none
    else
      match sendRange g a r fuel (lo + cpw) hi with
      | none => none
      | some l => some (sendOwn g a r lo ++ l)

/-- The checkpoint part of `onMessage<ReplicaStatusMsg>` (RI 2634-2675): the sender `r` reports `ls` as its last stable
sequence number. The fuel 4 bounds the iterations: `hi - lo ≤ 300` is asserted (2668), so there are at most three. -/
def status (g : Cfg) (v : Env) (r ls : Nat) (a : St) : Option (St × List Out) :=
  if ls + wws < a.lastStable ∨ (v.viewActive = false ∧ ls < a.lastStable) then
    if !a.getOk a.lastStable then none
    else some (a, (((a.slots a.lastStable).all g).filter (fun e => e.1 ≠ r)).map (fun e => .sendTo r e.2))
  else if a.lastStable + wws < ls then some (a, [])
  else if a.lastStable ≠ 0 ∧ ls = a.lastStable ∧ a.getOk ls = false then none
  else
    let o := if a.lastStable ≠ 0 ∧ ls = a.lastStable then sendOwn g a r ls else []
    let lo := max a.begin (ls + cpw)
    let hi := min (a.begin + clw - 1) (ls + wws)
    if lo % cpw ≠ 0 then none
    else if lo ≤ hi then
      if wws < hi - lo then none
      else
        match sendRange g a r 4 lo hi with
        | none => none
        | some l => some (a, o ++ l)
    else some (a, o)

/-- add a list of stored messages (RI 4068-4072) -/
def addAll (g : Cfg) (c : Slot) (l : List (Nat × Msg)) : Slot :=
  l.foldl (fun c e => (c.add g e.2.gen e.2).1) c

/-- One iteration of the loop over the check window at restart (RI 4183-4216), preceded by the checks the loader makes
on the same element (ReplicaLoader.cpp 255-274: the own message of the last checkpoint that was executed must be there,
none for sequence number 0); the loader's checks on a stored message are those of RI 4205-4207. -/
def restoreAt (g : Cfg) (p : Ps) (s : Nat) (a : St) : Option St :=
  if 0 < s ∧ s = p.lastExec / cpw * cpw ∧ (p.check s).isNone then none
  else if s = 0 ∧ (p.check s).isSome then none
  else if !a.inside s then none
  else if ¬ (s = 0 ∨ p.lastStable < s ∨ (p.check s).isSome ∨ p.lastStable + wws = p.lastExec) then none
  else
    match p.check s with
    | none => some a
    | some m =>
      if !a.getOk s then none
      else if m.seq ≠ s then none
      else if m.sender ≠ g.self then none
      else if ¬ (s ≠ p.lastStable ∨ m.stable = true) then none
      else
        let c := if s ≠ p.lastStable then ((a.slots s).add g g.self m).1 else a.slots s
        if s ≠ p.lastStable ∧ (c.cert.msgOf g.self ≠ some m) then none
        else
          let c := if p.mark s then c.mark g else c
          some (a.setSlot s c)

/-- Restart from the metadata store (ReplicaLoader.cpp 205-206, RI 4046-4072, 4181-4216), with the descriptor's messages in the order `desc` in
which they were written (the order of an `unordered_map`).  Everything else in memory is new. The own message of the
descriptor was stored with its stable flag set (`restart_own_stable`). -/
def restart (g : Cfg) (desc : List (Nat × Msg)) (a : St) : Option (St × List Out) :=
  let p := a.ps
  if ¬ (p.lastStable ≤ p.lastExec ∧ p.lastExec ≤ p.lastStable + wws) then none
  else if p.lastStable % cpw ≠ 0 then none
  else
    let b : St :=
      { lastStable := p.lastStable, lastExec := p.lastExec, begin := p.lastStable, ps := p, signed := a.signed }
    let b := if 0 < p.lastStable then
        b.setSlot p.lastStable { addAll g {} desc with ownStable := desc.any (fun e => e.1 == g.self && e.2.stable) }
      else b
    match restoreAt g p p.lastStable b with
    | none => none
    | some b =>
      match restoreAt g p (p.lastStable + cpw) b with
      | none => none
      | some b =>
        match restoreAt g p (p.lastStable + wws) b with
        | none => none
        | some b => some (b, [])

/-- What can happen to the replica -/
inductive Ev where
  | recv (m : Msg)
  | exec
  | poll
  | transferred (k : Nat)
  | ask (r : Nat)
  | status (r ls : Nat)
  | restart (desc : List (Nat × Msg))
deriving DecidableEq

/-- one event -/
def step (g : Cfg) (v : Env) (e : Ev) (a : St) : Option (St × List Out) :=
  match e with
  | .recv m => recv g v m a
  | .exec => exec g v a
  | .poll => poll g v a
  | .transferred k => transferred g v k a
  | .ask r => ask g r a
  | .status r ls => status g v r ls a
  | .restart d => restart g d a

end Verif.Ckpt
