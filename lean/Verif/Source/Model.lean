/-
Model of the choice of the replica that state transfer fetches from: `SourceSelector`,
bftengine/src/bcstatetransfer/SourceSelector.{hpp,cpp}, and of the way `BCStateTran` uses it while a source
is silent or talks without getting anywhere (BCStateTran.cpp).

Simplifications: a set of replicas is a list without repetition (the order in which the code iterates over a
`std::set` is not kept: it only decides which value of the random generator selects which replica); the values the random generator yields are arguments, so that a statement for every
argument holds for every generator; the selected sources are kept in `log` (the code writes each to the log,
SourceSelector.cpp:220, and counts them in `total_replacements`); other metrics are left out; times are
milliseconds, and a difference of two of them is taken modulo 2^64 as in the code; a failed `ConcordAssert`
is `none`.
-/

set_option linter.unusedSimpArgs false
set_option linter.unusedVariables false

namespace Verif.Source

/-- `NO_REPLICA`, SourceSelector.hpp:33. -/
def noReplica : Nat := 65535

/-- What the constructor gets, SourceSelector.hpp:48-61. -/
structure Cfg where
  /-- `allOtherReplicas_` -/
  others : List Nat
  /-- `retransmissionTimeoutMilli_` -/
  retransTimeout : Nat
  /-- `sourceReplacementTimeoutMilli_` -/
  replaceTimeout : Nat
  /-- `maxFetchRetransmissions_` -/
  maxRetrans : Nat
  /-- `minPrePrepareMsgsForPrimaryAwareness_` -/
  minPP : Nat
deriving Repr

/-- SourceSelector.hpp:141-164: the members of the class. -/
structure Sel where
  /-- `preferredReplicas_` -/
  pref : List Nat
  /-- `currentReplica_` -/
  cur : Nat
  /-- `currentPrimary_` -/
  prim : Nat
  /-- `sourceSelectionTimeMilli_` -/
  selTime : Nat
  /-- `fetchingTimeStamp_` -/
  fts : Nat
  /-- `fetchRetransmissionCounter_` -/
  cnt : Nat
  /-- `fetchRetransmissionOngoing_` -/
  ongoing : Bool
  /-- `receivedValidBlockFromSrc_` -/
  valid : Bool
  /-- `actualSources_` -/
  actual : List Nat
  /-- `nominatedPrimary_` -/
  nom : Nat
  /-- `nominatedPrimaryCounter_` -/
  nomCnt : Nat
  /-- the sources selected so far (log only, SourceSelector.cpp:220) -/
  log : List Nat
deriving DecidableEq, Repr

/-- SourceSelector.hpp:141-164: the initial values. -/
def Sel.init : Sel := ⟨[], noReplica, noReplica, 0, 0, 0, false, false, [], noReplica, 0, []⟩

/-- SourceSelector.cpp:62-76, `reset`. -/
def reset (s : Sel) : Sel := { Sel.init with log := s.log }

/-- SourceSelector.cpp:78-82, `isReset`. -/
def isReset (s : Sel) : Bool :=
  s.pref.isEmpty && s.cur == noReplica && s.selTime == 0 && s.fts == 0 && s.cnt == 0 && !s.ongoing
    && s.actual.isEmpty && !s.valid

/-- SourceSelector.cpp:20, `hasSource`. -/
def hasSource (s : Sel) : Bool := s.cur != noReplica && decide (s.selTime > 0)

/-- SourceSelector.hpp:116, `isValidSourceId`. -/
def isPeer (c : Cfg) (r : Nat) : Bool := c.others.contains r

/-- SourceSelector.hpp:103-106, `addPreferredReplica`. -/
def addPreferred (r : Nat) (s : Sel) : Sel := if s.pref.contains r then s else { s with pref := r :: s.pref }

/-- SourceSelector.cpp:111-119, `checkAndRefillPreferredReplicas`. -/
def refill (c : Cfg) (s : Sel) : Sel :=
  if s.pref = [] then { s with pref := if s.prim = noReplica then c.others else c.others.erase s.prim } else s

/-- SourceSelector.cpp:34-42, `removeCurrentReplica`. -/
def removeCurrent (c : Cfg) (s : Sel) : Sel :=
  { refill c { s with
      pref := s.pref.erase s.cur
      cur := noReplica } with
    valid := false
    selTime := 0 }

/-- SourceSelector.cpp:44-51, `removePreferredReplica`. -/
def removePreferred (c : Cfg) (r : Nat) (s : Sel) : Sel :=
  if s.pref.contains r then refill c { s with pref := s.pref.erase r } else s

/-- SourceSelector.cpp:53-60, `onReceivedValidBlockFromSource`. -/
def validBlock (s : Sel) : Option Sel :=
  if s.cur = noReplica then none
  else if s.valid then some s
  else some { s with
    valid := true
    actual := s.actual ++ [s.cur] }

/-- SourceSelector.cpp:27-32, `setFetchingTimeStamp`. -/
def setFetching (now : Nat) (retrans : Bool) (s : Sel) : Sel :=
  { s with
    fts := now
    ongoing := retrans
    cnt := if retrans then s.cnt else 0 }

/-- The difference of two times as the code computes it, on unsigned numbers of 64 bits. -/
def sub64 (a b : Nat) : Nat := (a + 2 ^ 64 - b) % 2 ^ 64

/-- SourceSelector.cpp:84-103, `retransmissionTimeoutExpired`. -/
def expired (c : Cfg) (now : Nat) (s : Sel) : Bool :=
  if s.cur = noReplica then false
  else if s.fts = 0 then false
  else decide (sub64 now s.fts > c.retransTimeout)

/-- SourceSelector.cpp:105-109, `timeSinceSourceSelectedMilli`. -/
def sinceSelected (now : Nat) (s : Sel) : Nat :=
  if s.cur = noReplica then 0 else if now < s.selTime then 0 else now - s.selTime

/-- SourceSelector.hpp:35, `SourceReplacementMode`. -/
inductive Mode where
  | graceful
  | immediate
  | doNot
deriving DecidableEq, Repr

/-- SourceSelector.cpp:154-165, the part of `shouldReplaceSource` that counts a transmission without an
answer (the counter and the flag are `mutable`). -/
def countExpiry (c : Cfg) (now : Nat) (s : Sel) : Sel :=
  if expired c now s then
    if s.ongoing then { s with
      cnt := s.cnt + 1
      ongoing := false }
    else s
  else s

/-- SourceSelector.cpp:167-194, the decision of `shouldReplaceSource` after the counting. -/
def decideMode (c : Cfg) (now : Nat) (last : Bool) (s : Sel) : Mode :=
  if s.cnt ≥ c.maxRetrans then .immediate
  else if last = true ∧ c.replaceTimeout > 0 ∧ sinceSelected now s > c.replaceTimeout then .graceful
  else if last = true ∧ s.cur = s.prim then .graceful
  else .doNot

/-- SourceSelector.cpp:143-195, `shouldReplaceSource`. -/
def shouldReplace (c : Cfg) (now : Nat) (bad last : Bool) (s : Sel) : Mode × Sel :=
  if s.cur = noReplica then (.immediate, s)
  else if bad then (.immediate, s)
  else (decideMode c now last (countExpiry c now s), countExpiry c now s)

/-- SourceSelector.cpp:197-221, `selectSource`; `rnd` is what the random generator yields. -/
def select (now rnd : Nat) (s : Sel) : Option Sel :=
  match s.pref[rnd % s.pref.length]? with
  | none => none
  | some r => some { s with
      cur := r
      selTime := now
      ongoing := false
      fts := 0
      cnt := 0
      valid := false
      log := s.log ++ [r] }

/-- SourceSelector.cpp:122-128, `updateSource`. -/
def updateSource (c : Cfg) (now rnd : Nat) (s : Sel) : Option Sel :=
  select now rnd (refill c (if s.cur ≠ noReplica then { s with pref := s.pref.erase s.cur } else s))

/-- SourceSelector.cpp:227-230, the lambda `resetNominatedPrimary`. -/
def resetNom (s : Sel) : Sel :=
  { s with
    nom := noReplica
    nomCnt := 0 }

/-- SourceSelector.cpp:252-264: the new primary is taken.  The old one may be a source again; the new one is
removed (and if it was the last, the set is filled again) before `currentPrimary_` is set. -/
def adopt (c : Cfg) (p : Nat) (s : Sel) : Sel :=
  { removePreferred c p (if s.prim ≠ noReplica then addPreferred s.prim (resetNom s) else resetNom s) with prim := p }

/-- SourceSelector.cpp:223-265, `updateCurrentPrimary`: called with the sender of each PrePrepare. -/
def updatePrimary (c : Cfg) (p : Nat) (s : Sel) : Sel :=
  if s.prim = p then s
  else if isPeer c p = false then resetNom s
  else if s.nom = noReplica then { s with
    nomCnt := s.nomCnt + 1
    nom := p }
  else if p ≠ s.nom ∧ s.nomCnt + 1 < c.minPP then resetNom s
  else if s.nomCnt + 1 < c.minPP then { s with nomCnt := s.nomCnt + 1 }
  else adopt c p s

/-! ## The operations, and how state transfer uses them -/

/-- The calls of BCStateTran.cpp:1618-1650, 1824, 2510, 2640, 3005, 3301, 3361-3369, 3473, 4051. -/
inductive Op where
  | reset
  | add (r : Nat)
  | refillAll
  | removeCurrent
  | stamp (now : Nat) (retrans : Bool)
  | ask (now : Nat) (bad last : Bool)
  | update (now rnd : Nat)
  | block
  | prePrepare (sender : Nat)
deriving Repr

/-- One call. -/
def step (c : Cfg) (o : Op) (s : Sel) : Option Sel :=
  match o with
  | .reset => some (reset s)
  | .add r => some (addPreferred r s)
  | .refillAll => some (refill c s)
  | .removeCurrent => some (removeCurrent c s)
  | .stamp now b => some (setFetching now b s)
  | .ask now b l => some (shouldReplace c now b l s).2
  | .update now rnd => updateSource c now rnd s
  | .block => validBlock s
  | .prePrepare p => some (updatePrimary c p s)

/-- Many calls. -/
def run (c : Cfg) : List Op → Sel → Option Sel
  | [], s => some s
  | o :: os, s => match step c o s with
    | none => none
    | some s' => run c os s'

/-- BCStateTran.cpp:3343-3677, `processData(false, ..)` as the timer calls it (1031-1032), when there is no
complete block to work on: the source is replaced if it should be (3360-3374), and the request is sent if
the source is new or the last request is overdue (3660-3673).  `now` is the time at the start, `now + d`
the time of sending (1618, 1648).  Left out: a request that is postponed as all I/O contexts are in use
(1586), and a `lastInBatch`, which is never set by the timer. -/
def tick (c : Cfg) (now d rnd : Nat) (s : Sel) : Option Sel :=
  if s.pref = [] then none
  else if (shouldReplace c now false false s).1 ≠ .doNot then
    match updateSource c now rnd (shouldReplace c now false false s).2 with
    | none => none
    | some s' => if hasSource s' then some (setFetching (now + d) true s') else none
  else if hasSource (shouldReplace c now false false s).2 = false then none
  else if expired c now (shouldReplace c now false false s).2 then
    some (setFetching (now + d) true (shouldReplace c now false false s).2)
  else some (shouldReplace c now false false s).2

end Verif.Source
