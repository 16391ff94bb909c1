/-!
C46: when a replica leaves its view, and for which view.

bftengine/src/bftengine/ReplicasAskedToLeaveViewInfo.hpp, the complaint and view-number part of ViewsManager.cpp, and
the handlers of ReplicaImp.cpp that lead to `MoveToHigherView`.
-/
namespace Concord.Leave

/-- `F`, `C`, `N` (ReplicasInfo.hpp), which replicas follow the program, `autoPrimaryRotationEnabled`; `checkSender` is
`false` in the code, `true` is a repaired program that looks at the sender and view of a bad batch
(see `Act.badBatch`). -/
structure Cfg where
  n : Nat
  f : Nat
  c : Nat
  honest : Nat → Bool
  rotation : Bool
  checkSender : Bool

/-- `ReplicasInfo::primaryOfView`, ReplicasInfo.hpp -/
def Cfg.primary (cfg : Cfg) (v : Nat) : Nat := v % cfg.n

/-- `ReplicaAsksToLeaveViewMsg`: who wrote it and for which view.  Signed by the writer
(messages/ReplicaAsksToLeaveViewMsg.cpp:24-66). -/
structure Complaint where
  gen : Nat
  view : Nat
deriving DecidableEq

/-- `ViewChangeMsg`: who wrote it and for which new view.  Signed by the writer; the list of complaints that goes with
it is not covered by that signature (messages/ViewChangeMsg.cpp), so it is a parameter of the delivery. -/
structure VC where
  gen : Nat
  newView : Nat
deriving DecidableEq

/-- `ReplicaAsksToLeaveViewMsg::Reason` -/
inductive Reason where
  | requestTimeout
  | primaryNotInCharge
  | badBatch (sender : Nat)
deriving DecidableEq

/-- what happened, newest first -/
inductive Ev where
  | asked (i view : Nat) (why : Reason)
  | rotated (i view : Nat)
  | moved (i old new : Nat)
  | entered (i view : Nat)
  | restarted (i old new : Nat)
deriving DecidableEq

/-- The part of a replica that decides about its view: `getCurrentView()`, `viewIsActive`, `myLatestPendingView`,
`lastAgreedView`, `myLatestActiveView` (stored in the descriptors), `complainedReplicas`, `viewChangeMessages` of the
other replicas (their new view), `activeExecutions_ > 0`, `shouldGoToNextView_`, `shouldTryToGoToNextView_`. -/
structure Rep where
  view : Nat
  active : Bool
  pend : Nat
  agreed : Nat
  lastActive : Nat
  compl : List Complaint
  vcs : Nat → Option Nat
  executing : Bool
  shouldGo : Bool
  shouldTry : Bool

/-- a replica at its first start, ViewsManager.cpp:30-75 -/
def Rep.init : Rep := ⟨0, true, 0, 0, 0, [], fun _ => none, false, false, false⟩

/-- everything that was ever signed and sent, and the log of what happened -/
structure Net where
  complaints : List Complaint
  vcs : List VC
  log : List Ev

structure Sys where
  rep : Nat → Rep
  net : Net

def Sys.init : Sys := ⟨fun _ => Rep.init, ⟨[], [], []⟩⟩

/-! ## ReplicasAskedToLeaveViewInfo.hpp -/

/-- `getComplaintFromReplica(id) != nullptr`, ReplicasAskedToLeaveViewInfo.hpp:57-63 -/
def has (l : List Complaint) (id : Nat) : Bool := l.any (fun k => k.gen == id)

/-- `store`: `emplace` keeps the first one, ReplicasAskedToLeaveViewInfo.hpp:40-42 -/
def store (l : List Complaint) (k : Complaint) : List Complaint := if has l k.gen then l else k :: l

/-- `hasQuorumToLeaveView`, ReplicasAskedToLeaveViewInfo.hpp:38 -/
def quorum (cfg : Cfg) (l : List Complaint) : Bool := decide (cfg.f + 1 ≤ l.length)

/-! ## ViewsManager.cpp -/

/-- the two containers: complaints about the current view, complaints for a higher view -/
structure Boxes where
  compl : List Complaint
  higher : List Complaint

/-- one complaint of a view-change message, ViewsManager.cpp:1151-1167 -/
def processOne (cur target : Nat) (valid : Complaint → Bool) (b : Boxes) (k : Complaint) : Boxes :=
  if target = cur + 1 then
    if has b.compl k.gen then b
    else if k.view = cur ∧ valid k = true then { b with compl := store b.compl k }
    else b
  else if k.view + 1 = target ∧ valid k = true then { b with higher := store b.higher k }
  else b

/-- `processComplaintsFromViewChangeMessage`, ViewsManager.cpp:1127-1169; `m` is `numberOfProcessedComplaints` -/
def processAll (cfg : Cfg) (cur target : Nat) (valid : Complaint → Bool) : Nat → List Complaint → Boxes → Boxes
  | _, [], b => b
  | m, k :: ks, b =>
    if cur < target ∧ quorum cfg b.compl = false ∧ quorum cfg b.higher = false ∧ m ≤ cfg.f + 1 then
      processAll cfg cur target valid (m + 1) ks (processOne cur target valid b k)
    else b

/-- descending insertion sort, for `qsort(.., compareViews)`, ViewsManager.cpp:324-334, 362 -/
def insertDesc (x : Nat) : List Nat → List Nat
  | [] => [x]
  | y :: ys => if y ≤ x then x :: y :: ys else y :: insertDesc x ys

def sortDesc : List Nat → List Nat
  | [] => []
  | x :: xs => insertDesc x (sortDesc xs)

/-- the new view known of replica `j`: its stored message, or my own latest one.  (Simplification: inside a view my
own message is the one for that view, which is not above `myLatestPendingView`, so it is left out.) -/
def known (i : Nat) (r : Rep) (j : Nat) : Option Nat :=
  if j = i then (if r.active then none else some r.view) else r.vcs j

/-- the view numbers collected, ViewsManager.cpp:347-358 -/
def viewNumbers (cfg : Cfg) (i : Nat) (r : Rep) : List Nat :=
  ((List.range cfg.n).filterMap (known i r)).filter (fun v => decide (r.pend < v))

/-- `outMaxKnownCorrectView`, ViewsManager.cpp:338-366 -/
def correctView (cfg : Cfg) (i : Nat) (r : Rep) : Nat :=
  let l := sortDesc (viewNumbers cfg i r)
  if l.length < cfg.f + 1 then r.pend else l.getD cfg.f r.pend

/-- `outMaxKnownAgreedView`, ViewsManager.cpp:338-370 -/
def agreedView (cfg : Cfg) (i : Nat) (r : Rep) : Nat :=
  let l := sortDesc (viewNumbers cfg i r)
  if l.length < cfg.f + 1 then r.pend
  else if l.length < 2 * cfg.f + 2 * cfg.c + 1 then r.pend
  else l.getD (2 * cfg.f + 2 * cfg.c) r.pend

/-! ## ReplicaImp.cpp -/

/-- `MoveToHigherView`, ReplicaImp.cpp:2980-3053 with `prepareViewChangeMsgAndSetHigherView`, ViewsManager.cpp:1086-1125:
the complaints go into the message and are forgotten.  `none`: `ConcordAssertLT(getCurrentView(), nextView)` ends the
process. -/
def moveTo (i next : Nat) (s : Net × Rep) : Option (Net × Rep) :=
  if s.2.view < next then
    some ({ s.1 with vcs := ⟨i, next⟩ :: s.1.vcs, log := .moved i s.2.view next :: s.1.log },
          { s.2 with view := next, active := false, compl := [] })
  else none

/-- `goToNextView`, ReplicaImp.cpp:3055-3061 -/
def goToNext (i : Nat) (s : Net × Rep) : Option (Net × Rep) := moveTo i (s.2.view + 1) s

/-- `tryToGoToNextView`, ReplicaImp.cpp:5882-5888 -/
def tryToGo (cfg : Cfg) (i : Nat) (s : Net × Rep) : Option (Net × Rep) :=
  if quorum cfg s.2.compl then goToNext i s else some s

/-- `askToLeaveView`, ReplicaImp.cpp:3766-3777 -/
def ask (cfg : Cfg) (i : Nat) (why : Reason) (s : Net × Rep) : Option (Net × Rep) :=
  let k : Complaint := ⟨i, s.2.view⟩
  let N : Net := { s.1 with complaints := k :: s.1.complaints, log := .asked i s.2.view why :: s.1.log }
  let r : Rep := { s.2 with compl := store s.2.compl k }
  if r.executing then some (N, { r with shouldTry := true }) else tryToGo cfg i (N, r)

/-- `onMessage<ReplicaAsksToLeaveViewMsg>`, ReplicaImp.cpp:540-560 (while executing the message waits: see `enabled`) -/
def onComplaint (cfg : Cfg) (i : Nat) (k : Complaint) (s : Net × Rep) : Option (Net × Rep) :=
  if k.view = s.2.view then tryToGo cfg i (s.1, { s.2 with compl := store s.2.compl k }) else some s

/-- `onMessage<ViewChangeMsg>`, the complaints, ReplicaImp.cpp:2895-2906 and
`tryToJumpToHigherViewAndMoveComplaintsOnQuorum`, ViewsManager.cpp:1172-1183; `none`: one of the two assertions. -/
def vcComplaints (cfg : Cfg) (i nv : Nat) (ks : List Complaint) (s : Net × Rep) : Option (Net × Rep) :=
  let b := processAll cfg s.2.view nv (fun k => decide (k ∈ s.1.complaints)) 0 ks ⟨s.2.compl, []⟩
  if quorum cfg b.compl then goToNext i (s.1, { s.2 with compl := b.compl })
  else if quorum cfg b.higher then
    if s.2.view + 1 < nv then moveTo i nv (s.1, { s.2 with compl := b.higher }) else none
  else some (s.1, { s.2 with compl := b.compl })

/-- the current primary wants to leave, ReplicaImp.cpp:2912-2915 -/
def vcPrimary (cfg : Cfg) (i gen nv : Nat) (s : Net × Rep) : Option (Net × Rep) :=
  if gen = cfg.primary s.2.view ∧ s.2.view < nv then moveTo i (s.2.view + 1) s else some s

/-- enough replicas are ahead, ReplicaImp.cpp:2917-2932 -/
def vcCorrect (cfg : Cfg) (i : Nat) (s : Net × Rep) : Option (Net × Rep) :=
  if s.2.view < correctView cfg i s.2 then moveTo i (correctView cfg i s.2) s else some s

/-- a quorum agreed on my view, ReplicaImp.cpp:2934-2944 -/
def vcAgreed (cfg : Cfg) (i : Nat) (s : Net × Rep) : Net × Rep :=
  if s.2.active = false ∧ agreedView cfg i s.2 = s.2.view ∧ s.2.agreed < s.2.view then
    (s.1, { s.2 with agreed := s.2.view })
  else s

/-- `onMessage<ViewChangeMsg>`, ReplicaImp.cpp:2871-2949, with `ViewsManager::add`, ViewsManager.cpp:278-322.
(The messages that `add` ignores because of a stored NewViewMsg are messages not delivered here.) -/
def onVC (cfg : Cfg) (i gen nv : Nat) (ks : List Complaint) (s : Net × Rep) : Option (Net × Rep) :=
  if nv ≤ s.2.pend then some s else
  let s1 : Net × Rep := (s.1, { s.2 with vcs := fun j => if j = gen then some nv else s.2.vcs j })
  ((vcComplaints cfg i nv ks s1).bind (vcPrimary cfg i gen nv)).bind (fun s3 => (vcCorrect cfg i s3).map (vcAgreed cfg i))

/-- `onViewsChangeTimer`, automatic rotation, ReplicaImp.cpp:3792-3810 -/
def onRotate (i : Nat) (s : Net × Rep) : Option (Net × Rep) :=
  let N : Net := { s.1 with log := .rotated i s.2.view :: s.1.log }
  if s.2.executing then some (N, { s.2 with shouldGo := true }) else goToNext i (N, s.2)

/-- the end of an execution: `handleDeferredRequests`, ReplicaImp.cpp:5293-5316 (5139: nothing is executing then).
While state is collected the two flags stay as they are. -/
def onExecEnd (cfg : Cfg) (i : Nat) (collecting : Bool) (s : Net × Rep) : Option (Net × Rep) :=
  let s1 : Net × Rep := (s.1, { s.2 with executing := false })
  if collecting then some s1
  else if s1.2.shouldGo then
    (goToNext i s1).map (fun t => (t.1, { t.2 with shouldGo := false, shouldTry := false }))
  else if s1.2.shouldTry then (tryToGo cfg i s1).map (fun t => (t.1, { t.2 with shouldTry := false }))
  else some s1

/-- the view-change messages held for exactly my view, mine included -/
def votesFor (cfg : Cfg) (i : Nat) (r : Rep) : List Nat :=
  (List.range cfg.n).filter (fun j => decide (known i r j = some r.view))

/-- the start of the process from its stored state, ReplicaLoader.cpp:70-290, ReplicaImp.cpp:3994-4215: outside of a
view the replica comes back in the view after its last active one and sends its view-change message again
(cf. Verif/Consensus/Crash.lean); complaints and received messages are gone -/
def onRestart (i : Nat) (s : Net × Rep) : Net × Rep :=
  let v := if s.2.active then s.2.view else s.2.lastActive + 1
  ({ s.1 with vcs := (if s.2.active then s.1.vcs else ⟨i, v⟩ :: s.1.vcs), log := .restarted i s.2.view v :: s.1.log },
   { s.2 with view := v, pend := s.2.lastActive, agreed := s.2.lastActive, compl := [], vcs := fun _ => none,
              executing := false, shouldGo := false, shouldTry := false })

inductive Act where
  /-- a view-change message of `gen` arrives at `i` together with any list of complaints -/
  | vc (i gen nv : Nat) (ks : List Complaint)
  | complaint (i : Nat) (k : Complaint)
  /-- a request of a client is pending for too long at `i` -/
  | requestTimeout (i : Nat)
  /-- the view that was agreed on did not start in time -/
  | notInCharge (i : Nat)
  /-- `i` receives from replica `sender` a batch for view `view` that contains a bad pre-processed result -/
  | badBatch (i sender view : Nat)
  | rotate (i : Nat)
  | execStart (i : Nat)
  | execEnd (i : Nat) (collecting : Bool)
  | pend (i : Nat)
  | enter (i : Nat)
  | restart (i : Nat)
  /-- a replica that does not follow the program signs anything in its own name -/
  | forgeComplaint (k : Complaint)
  | forgeVC (m : VC)

/-- When an action can happen.
* `vc`, `complaint`: the message was signed by its writer; not during an execution (ReplicaImp.cpp:541, 2878).  A
  replica never receives its own view-change message (`ConcordAssertNE`, ReplicaImp.cpp:2886; ViewChangeMsg::validate).
* `requestTimeout`: ReplicaImp.cpp:3822-3849; `notInCharge`: 3851-3870 (the clock is not modelled).
* `badBatch`: ReplicaImp.cpp:1063-1069 and 336-342, 1553-1567.  The code does not look at the sender or the view of the
  batch at this point (`PrePrepareMsg::validate` does not either, messages/PrePrepareMsg.cpp:88-127).  A replica that
  follows the program does not send such a batch.
* `rotate`: ReplicaImp.cpp:3792-3801.
* `pend`, `enter`: ViewsManager.cpp:584-730, a quorum of 2F+2C+1 view-change messages for the view. -/
def enabled (cfg : Cfg) (σ : Sys) : Act → Bool
  | .vc i gen nv _ => i < cfg.n && cfg.honest i && !(σ.rep i).executing && decide (gen ≠ i) && decide (⟨gen, nv⟩ ∈ σ.net.vcs)
  | .complaint i k => i < cfg.n && cfg.honest i && !(σ.rep i).executing && decide (k ∈ σ.net.complaints)
  | .requestTimeout i => i < cfg.n && cfg.honest i && (σ.rep i).active && decide (cfg.primary (σ.rep i).view ≠ i) &&
      !has (σ.rep i).compl i
  | .notInCharge i => i < cfg.n && cfg.honest i && !(σ.rep i).active && decide ((σ.rep i).agreed = (σ.rep i).view) &&
      decide (cfg.primary (σ.rep i).agreed ≠ i)
  | .badBatch i sender view => i < cfg.n && cfg.honest i && decide (sender < cfg.n) && !cfg.honest sender &&
      (!cfg.checkSender || (decide (sender = cfg.primary (σ.rep i).view) && decide (view = (σ.rep i).view)))
  | .rotate i => i < cfg.n && cfg.honest i && cfg.rotation && (σ.rep i).active
  | .execStart i => i < cfg.n && cfg.honest i && !(σ.rep i).executing
  | .execEnd i _ => i < cfg.n && cfg.honest i && (σ.rep i).executing
  | .pend i | .enter i => i < cfg.n && cfg.honest i && !(σ.rep i).executing && !(σ.rep i).active &&
      (decide ((σ.rep i).pend = (σ.rep i).view) ||
       decide (2 * cfg.f + 2 * cfg.c + 1 ≤ (votesFor cfg i (σ.rep i)).length))
  | .restart i => i < cfg.n && cfg.honest i
  | .forgeComplaint k => decide (k.gen < cfg.n) && !cfg.honest k.gen
  | .forgeVC m => decide (m.gen < cfg.n) && !cfg.honest m.gen

/-- what an action does at its replica -/
def local? (cfg : Cfg) (s : Net × Rep) : Act → Option (Net × Rep)
  | .vc i gen nv ks => onVC cfg i gen nv ks s
  | .complaint i k => onComplaint cfg i k s
  | .requestTimeout i => ask cfg i .requestTimeout s
  | .notInCharge i => ask cfg i .primaryNotInCharge s
  | .badBatch i sender _ => ask cfg i (.badBatch sender) s
  | .rotate i => onRotate i s
  | .execStart _ => some (s.1, { s.2 with executing := true })
  | .execEnd i collecting => onExecEnd cfg i collecting s
  | .pend _ => some (s.1, { s.2 with pend := s.2.view })
  | .enter i => some ({ s.1 with log := .entered i s.2.view :: s.1.log },
      { s.2 with active := true, pend := s.2.view, lastActive := s.2.view })
  | .restart i => some (onRestart i s)
  | .forgeComplaint k => some ({ s.1 with complaints := k :: s.1.complaints }, s.2)
  | .forgeVC m => some ({ s.1 with vcs := m :: s.1.vcs }, s.2)

/-- the replica at which an action happens -/
def Act.at : Act → Nat
  | .vc i _ _ _ | .complaint i _ | .requestTimeout i | .notInCharge i | .badBatch i _ _ | .rotate i | .execStart i
  | .execEnd i _ | .pend i | .enter i | .restart i => i
  | .forgeComplaint k => k.gen
  | .forgeVC m => m.gen

/-- One step of the system; `none`: an assertion of the code fails and the process ends. -/
def effect (cfg : Cfg) (σ : Sys) (a : Act) : Option Sys :=
  (local? cfg (σ.net, σ.rep a.at) a).map (fun t => ⟨fun j => if j = a.at then t.2 else σ.rep j, t.1⟩)

inductive Reachable (cfg : Cfg) : Sys → Prop
  | init : Reachable cfg Sys.init
  | step {σ σ' : Sys} (a : Act) : Reachable cfg σ → enabled cfg σ a = true → effect cfg σ a = some σ' → Reachable cfg σ'

def run (cfg : Cfg) : Sys → List Act → Option Sys
  | σ, [] => some σ
  | σ, a :: as => if enabled cfg σ a then (effect cfg σ a).bind (fun σ' => run cfg σ' as) else none

end Concord.Leave
