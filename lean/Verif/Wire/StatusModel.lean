import Verif.Wire.Status
/-!
# Status reports: what is sent for one, and how one is made

`ReplicaImp::onMessage<ReplicaStatusMsg>`, ReplicaImp.cpp:2616-2813; `tryToSendStatusReport`, ReplicaImp.cpp:2815-2868;
`ViewsManager.cpp`: `getMyLatestViewChangeMsg` 250-257, `getMyNewViewMsgForCurrentView` 396-407, `getViewChangeMsgsForView`
430-447, `getPrePrepare` 1006-1041, `addComplaintsToStatusMessage` 1053-1057, `fillPropertiesOfStatusMessage` 1059-1084;
`SequenceWithActiveWindow.hpp`.

The state of a replica that matters for reports is a record of what it holds (`Node`): the messages themselves are
named by sequence number or replica.  Simplifications: sequence and view numbers are integers, a sum that leaves the 64 bits
ends in `overflow` (undefined in C++); the interval between reports (`tryToSendStatusReport`, 2821-2834) is left out: `askHelp`
stands for a call of it; sending cannot fail; the log of checkpoints holds the numbers of its window that are multiples of 150.
-/
set_option linter.unusedVariables false
namespace Verif.Wire
open Verif.Bytes

/-- what a replica holds -/
structure Node where
  /-- `getCurrentView()` -/
  view : Nat
  /-- `viewsManager->viewIsActive(getCurrentView())` -/
  active : Bool
  /-- `viewsManager->viewIsPending(getCurrentView())` -/
  pending : Bool
  /-- `viewsManager->hasNewViewMessage(getCurrentView())` -/
  hasNV : Bool
  /-- `lastStableSeqNum`, `lastExecutedSeqNum` -/
  stable : Nat
  exec : Nat
  /-- PrePrepare messages in the active window of `mainLog`; those that the replica made itself -/
  hasPP : Int → Bool
  selfPP : Int → Bool
  /-- `numItemsInsideInactiveWindow_` of `mainLog` and its own PrePrepare messages in that part -/
  hist : Nat
  selfOld : Int → Bool
  /-- `viewsManager->getPrePrepare` -/
  vmPP : Int → Bool
  /-- `getMyLatestViewChangeMsg() != nullptr` -/
  ownVC : Bool
  /-- `newViewMsgOfOfPendingView != nullptr` -/
  newView : Bool
  /-- the replicas of `getViewChangeMsgsForView(getCurrentView())` -/
  vcs : List Nat
  /-- the replicas of `getAllMsgsFromComplainedReplicas()` -/
  complaints : List Nat
  /-- first number of the window of `checkpointsLog`; `selfCheckpointMsg()` of its numbers; the replicas of
  `getAllCheckpointMsgs()` of `lastStableSeqNum` -/
  ckptLow : Nat
  ownCkpt : Int → Bool
  ckpts : List Nat
  /-- peers for which `hasViewChangeMessageForFutureView` is false; `getNumbersOfMissingPP` -/
  lacksVC : List Nat
  lacksPP : List Int

/-- a message that is sent to the replica that reported, or a report of the own state to all -/
inductive Out where
  /-- the checkpoint message for `q` made by replica `g` -/
  | ckpt (q : Int) (g : Nat)
  | ownViewChange
  | viewChange (g : Nat)
  | newView
  | prePrepare (q : Int)
  | complaint (g : Nat)
  | askHelp
deriving DecidableEq, Repr

/-- how handling can end without a result -/
inductive Stop where
  | wire (x : Err)
  | overflow
deriving DecidableEq, Repr

abbrev H (α : Type) := Except Stop α

def lift {α : Type} : R α → H α
  | .ok a => .ok a
  | .error x => .error (.wire x)

/-- `ConcordAssert` -/
def sure (p : Prop) [Decidable p] : H Unit := if p then .ok () else .error (.wire .abort)

/-- a loop that may send for every element -/
def sendEach {α : Type} (f : α → H (List Out)) : List α → H (List Out)
  | [] => .ok []
  | x :: l => do
    let a ← f x
    let b ← sendEach f l
    .ok (a ++ b)

/-- `for (i = lo; i <= hi; i += k)` -/
def steps (lo hi k : Int) : List Int := (List.range ((hi - lo) / k + 1).toNat).map (fun (i : Nat) => lo + k * (i : Int))

/-- what is above the 64-bit numbers -/
def top : Int := 9223372036854775808

/-- `insideActiveWindow` of `mainLog`, SequenceWithActiveWindow.hpp:69-71: the window begins after the last stable number -/
def Node.inWindow (L : Node) (q : Int) : Bool := decide ((L.stable : Int) + 1 ≤ q) && decide (q < (L.stable : Int) + 1 + 300)
/-- `isPressentInHistory`, SequenceWithActiveWindow.hpp:73-84 -/
def Node.inHistory (L : Node) (q : Int) : Bool :=
  decide (0 < L.hist) && decide ((L.stable : Int) + 1 - L.hist ≤ q) && decide (q < (L.stable : Int) + 1)
/-- `insideActiveWindow` of `checkpointsLog` -/
def Node.inCkpts (L : Node) (q : Int) : Bool := decide ((L.ckptLow : Int) ≤ q) && decide (q < (L.ckptLow : Int) + 600)
/-- `checkpointsLog->get(q)`: the assertions, SequenceWithActiveWindow.hpp:86-93 -/
def Node.getCkpt (L : Node) (q : Int) : H Unit := do
  sure (Int.tmod q 150 = 0)
  sure (L.inCkpts q = true)

/-- the part on checkpoints, ReplicaImp.cpp:2630-2677; `q` is the last stable number of the report -/
def checkpointPart (e : Env) (L : Node) (s : Nat) (q : Int) : H (List Out) :=
  if (L.stable : Int) > q + 300 ∨ (L.active = false ∧ (L.stable : Int) > q) then do
    L.getCkpt L.stable
    .ok ((L.ckpts.filter (fun g => decide (s ≠ g))).map (Out.ckpt L.stable))
  else if q > (L.stable : Int) + 300 then .ok [.askHelp]
  else do
    let same ← (if L.stable ≠ 0 ∧ q = (L.stable : Int) then do
        L.getCkpt q
        .ok (if L.ownCkpt q then [.ckpt q e.me] else [])
      else .ok [])
    let lo := max (L.ckptLow : Int) (q + 150)
    let hi := min ((L.ckptLow : Int) + 600 - 1) (q + 300)
    sure (Int.tmod lo 150 = 0)
    if lo ≤ hi then do
      sure (hi - lo ≤ 300)
      let more ← sendEach (fun i => do
        L.getCkpt i
        .ok (if L.ownCkpt i then [.ckpt i e.me] else [])) (steps lo hi 150)
      .ok (same ++ more)
    else .ok same

/-- `sendViewChangeMsgs`, ReplicaImp.cpp:2694-2703 -/
def sendViewChanges (e : Env) (L : Node) (m : Msg) (a : Status) : H (List Out) :=
  if 0 < L.view ∧ a.hasVCs = true then
    sendEach (fun g => do
      let x ← lift (isMissingViewChange e m g)
      .ok (if x then [.viewChange g] else [])) L.vcs
  else .ok []

/-- the report is of the current view and the view is not active, ReplicaImp.cpp:2689-2751 -/
def enterPart (e : Env) (L : Node) (m : Msg) (a : Status) : H (List Out) :=
  if e.me = e.primary L.view ∨ e.primary L.view = m.sender then do
    let nv ← (if e.me = e.primary L.view ∧ 0 < L.view ∧ a.hasNewView = false ∧ L.active = true then do
        sure (L.newView = true)
        .ok [.newView]
      else .ok [])
    let vc ← sendViewChanges e L m a
    let pp ← (if a.hasMissing = true then
        (if L.active = true then
          sendEach (fun i =>
            if L.inWindow i = true then do
              let x ← lift (isMissingPrePrepare e m i)
              .ok (if x && L.hasPP i then [.prePrepare i] else [])
            else .ok []) (steps (toInt64 a.stable + 1) (toInt64 a.stable + 300) 1)
        else
          sendEach (fun i => do
            let x ← lift (isMissingPrePrepare e m i)
            .ok (if x && L.vmPP i then [.prePrepare i] else [])) (steps (toInt64 a.stable + 1) (toInt64 a.stable + 300) 1))
      else .ok [])
    .ok (nv ++ vc ++ pp)
  else sendViewChanges e L m a

/-- the report is of the current view, the view is active, the receiver is its primary, ReplicaImp.cpp:2753-2790 -/
def windowPart (e : Env) (L : Node) (m : Msg) (a : Status) : H (List Out) :=
  if toInt64 a.executed + 1 ≥ top then .error .overflow
  else do
  let now ← sendEach (fun i => do
    let x ← lift (isPrePrepareInWindow e m i)
    if x = true then .ok []
    else do
      sure (L.inWindow i = true)
      .ok (if L.selfPP i then [.prePrepare i] else []))
    (steps (max ((L.stable : Int) + 1) (toInt64 a.executed + 1)) (min ((L.stable : Int) + 300) (toInt64 a.stable + 300)) 1)
  if L.inHistory (toInt64 a.executed + 1) = true then do
    let old ← sendEach (fun i => do
      sure (L.inHistory i = true)
      if L.selfOld i = true then do
        let x ← lift (isPrePrepareInWindow e m i)
        .ok (if x then [] else [.prePrepare i])
      else .ok [])
      (steps (toInt64 a.executed + 1) (min (L.stable : Int) (toInt64 a.stable + 300)) 1)
    .ok (now ++ old)
  else .ok now

/-- the part on views, ReplicaImp.cpp:2679-2798 -/
def viewPart (e : Env) (L : Node) (m : Msg) (a : Status) : H (List Out) :=
  if toInt64 a.view < (L.view : Int) then do
    sure (L.ownVC = true)
    .ok [.ownViewChange]
  else if toInt64 a.view = (L.view : Int) ∧ a.active = false then enterPart e L m a
  else if toInt64 a.view = (L.view : Int) ∧ a.active = true then
    (if e.me = e.primary L.view then
      (if L.active = true then windowPart e L m a else .ok [.askHelp])
    else .ok [])
  else do
    sure (toInt64 a.view > (L.view : Int))
    .ok [.askHelp]

/-- complaints, ReplicaImp.cpp:2800-2810 -/
def complaintPart (e : Env) (L : Node) (m : Msg) (a : Status) : H (List Out) :=
  if toInt64 a.view = (L.view : Int) then
    sendEach (fun g => do
      let x ← lift (hasComplaint e m g)
      .ok (if x then [] else [.complaint g])) L.complaints
  else .ok []

/-- `onMessage<ReplicaStatusMsg>` of an accepted report -/
def answer (e : Env) (L : Node) (m : Msg) (a : Status) : H (List Out) :=
  if toInt64 a.stable + 300 ≥ top then .error .overflow
  else do
  let c ← checkpointPart e L m.sender (toInt64 a.stable)
  let v ← viewPart e L m a
  let k ← complaintPart e L m a
  .ok (c ++ v ++ k)

/-- a received report: one that `validate` refuses is dropped -/
def handle (e : Env) (L : Node) (m : Msg) : H (List Out) :=
  match Status.receive e m with
  | .ok a => answer e L m a
  | .error .reject => .ok []
  | .error x => .error (.wire x)

/-! ## Making a report -/

/-- the flags, ReplicaImp.cpp:2836-2840 and ReplicaStatusMsg.cpp:88-97 -/
def flagByte (active pending hasNV : Bool) : Nat :=
  (if active then 1 else 0) + (if hasNV then 2 else 0) + (if active then 4 else if !pending then 8 else 16)

/-- the scalars of the report, ReplicaImp.cpp:2836-2850 and the constructor -/
def Node.report (S : Node) (epoch : Nat) : Status :=
  ⟨S.view, S.stable, S.exec, epoch, flagByte S.active S.pending S.hasNV⟩

/-- the second list, ReplicaImp.cpp:2852-2864 and `fillPropertiesOfStatusMessage` -/
def Node.marks (S : Node) : List Nat :=
  if S.active then ((steps ((S.stable : Int) + 1) ((S.stable : Int) + 300) 1).filter S.hasPP).map (place S.stable)
  else if S.pending then S.lacksPP.map (place S.stable)
  else S.lacksVC

/-- the report as it is sent by replica `s` -/
def Node.reportMsg (e : Env) (S : Node) (s epoch : Nat) (span : Bytes) : Msg :=
  ⟨s, (S.report epoch).encode span (lists e ((S.report epoch).listSize e) S.complaints S.marks)⟩

end Verif.Wire
