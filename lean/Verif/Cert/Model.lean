/-!
Model of `MsgsCertificate` (`/repo/bftengine/src/bftengine/messages/MsgsCertificate.hpp`).

Simplifications: the array `msgClasses[0..numOfClasses)` is a list; `uint16_t` sizes are natural numbers (they
never exceed the number of distinct senders plus one); pointers and deletion are dropped; `unordered_map` is an
association list in insertion order (only looked up by key).  A `find(..)->second` on a missing representative
would be undefined behaviour; the model then reports "not equivalent", and `Cert.representatives_present` (Proofs)
shows that it never happens.
-/
namespace Concord.Cert

/-- The three Boolean template parameters, the constructor arguments (MsgsCertificate.hpp 31-36, 40-43), and
`ExternalFunc::equivalent`. -/
structure Params (M : Type) where
  n : Nat
  maxFails : Nat
  required : Nat
  self : Nat
  selfTrust : Bool
  selfRequired : Bool
  keepAll : Bool
  eqv : M → M → Bool

/-- `MsgClassInfo` (MsgsCertificate.hpp 90-94) -/
structure Cls where
  size : Nat
  rep : Nat
deriving DecidableEq, Repr

/-- Data members (MsgsCertificate.hpp 88-105). `best = none` is `bestClass == NULL_CLASS`. -/
structure St (M : Type) where
  msgs : List (Nat × M) := []
  classes : List Cls := []
  complete : Bool := false
  full : Bool := false
  best : Option Nat := none
  sizeBest : Nat := 0
  hasSelf : Bool := false
deriving Repr

variable {M : Type}

/-- `msgsFromReplicas.find(id)` -/
def St.msgOf (s : St M) (id : Nat) : Option M := (s.msgs.find? (fun e => e.1 == id)).map (·.2)

/-- `hasMsgFromReplica` (MsgsCertificate.hpp 361-366) -/
def St.hasMsg (s : St M) (id : Nat) : Bool := s.msgs.any (fun e => e.1 == id)

/-- `tryToMarkComplete` (MsgsCertificate.hpp 346-351) -/
def St.tryComplete (p : Params M) (s : St M) : St M :=
  if !p.selfRequired || s.hasMsg p.self then { s with complete := true } else s

/-- `tryToMarkFull` (MsgsCertificate.hpp 353-358) -/
def St.tryFull (p : Params M) (s : St M) : St M :=
  if !p.selfRequired || s.hasMsg p.self then { s with full := true } else s

/-- The message is equivalent to the one stored for the representative of the class (190-195) -/
def St.inClass (p : Params M) (s : St M) (m : M) (c : Cls) : Bool :=
  match s.msgOf c.rep with
  | some r => p.eqv r m
  | none => false

/-- The loop "looking for a class" (MsgsCertificate.hpp 189-202 and 253-266): index of the first equivalent class -/
def St.findClass (p : Params M) (s : St M) (m : M) : Option Nat := s.classes.findIdx? (s.inClass p m)

/-- `cls.size = cls.size + 1` -/
def bump (c : Cls) : Cls := { c with size := c.size + 1 }

/-- The `else` part of `addPeerMsg`, for an existing class `i` (MsgsCertificate.hpp 227-246) -/
def St.peerExisting (p : Params M) (s : St M) (i : Nat) : St M :=
  let sz := match s.classes[i]? with
    | some c => c.size
    | none => 0
  let s := if s.sizeBest < sz then { s with best := some i, sizeBest := sz } else s
  let s := if s.best = some i ∧ p.required ≤ s.sizeBest then s.tryComplete p else s
  if s.best = some i ∧ p.n ≤ s.sizeBest then s.tryFull p else s

/-- `addPeerMsg` (MsgsCertificate.hpp 175-247); the message is already stored (line 161) -/
def St.addPeer (p : Params M) (s : St M) (m : M) (id : Nat) : St M :=
  if s.hasSelf then
    match s.classes with
    | [] => s          -- not reachable: the self class exists
    | c :: cs =>
      if s.inClass p m c then ({ s with classes := bump c :: cs }).peerExisting p 0
      else s
  else
    match s.findClass p m with
    | some i => ({ s with classes := s.classes.modify i bump }).peerExisting p i
    | none =>
      if p.n ≤ s.classes.length then s
      else
        let s' := { s with classes := s.classes ++ [⟨1, id⟩] }
        if s.best = none then { s' with best := some s.classes.length, sizeBest := 1 } else s'

/-- The size given to the self class in `addSelfMsg` (MsgsCertificate.hpp 252-274): the matching class is incremented
in the loop (262) and once more when its size is copied (272). -/
def St.selfSize (p : Params M) (s : St M) (m : M) : Nat :=
  match s.findClass p m with
  | none => 1
  | some i =>
    match (s.classes.modify i bump)[i]? with
    | some c => c.size + 1
    | none => 1

/-- `addSelfMsg` (MsgsCertificate.hpp 249-298): all other classes are dropped -/
def St.addSelf (p : Params M) (s : St M) (m : M) : St M :=
  let sz := s.selfSize p m
  let s := { s with classes := [⟨sz, p.self⟩], best := some 0, sizeBest := sz, hasSelf := true }
  let s := if p.required ≤ sz then s.tryComplete p else s
  if p.n ≤ sz then s.tryFull p else s

/-- `addMsg` (MsgsCertificate.hpp 153-173); returns whether the message was kept -/
def St.addMsg (p : Params M) (s : St M) (id : Nat) (m : M) : St M × Bool :=
  if s.hasMsg id then (s, false)
  else
    let s := { s with msgs := s.msgs ++ [(id, m)] }
    if (p.keepAll && !s.full) || !s.complete then
      if p.selfTrust && id == p.self then (s.addSelf p m, true) else (s.addPeer p m id, true)
    else (s, true)

/-- `resetAndFree` (MsgsCertificate.hpp 132-151); when no message is stored everything else is already initial,
see `reset_is_initial`. -/
def St.reset (s : St M) : St M :=
  let s := { s with complete := false, full := false }
  if s.msgs.isEmpty then s
  else { s with msgs := [], classes := [], best := none, sizeBest := 0, hasSelf := false }

/-- `bestCorrectMsg` (MsgsCertificate.hpp 328-343) -/
def St.bestCorrectMsg (p : Params M) (s : St M) : Option M :=
  if s.hasSelf || p.maxFails + 1 ≤ s.sizeBest then
    match s.best with
    | some b =>
      match s.classes[b]? with
      | some c => s.msgOf c.rep
      | none => none
    | none => none
  else none

/-- `isInconsistent` (MsgsCertificate.hpp 310-313) -/
def St.isInconsistent (p : Params M) (s : St M) : Bool := p.maxFails + 1 < s.classes.length

/-- A certificate after `addMsg` calls, in order -/
def run (p : Params M) : St M → List (Nat × M) → St M
  | s, [] => s
  | s, (id, m) :: l => run p (s.addMsg p id m).1 l

end Concord.Cert
