/-
Model of `ViewChangeSafetyLogic` (bftengine/src/bftengine/ViewChangeSafetyLogic.cpp) and of the
element iterator of `ViewChangeMsg` (bftengine/src/bftengine/messages/ViewChangeMsg.cpp).
-/
namespace Concord.VC

/-- `kWorkWindowSize`, bftengine/src/bftengine/SysConsts.hpp:46. -/
def kWorkWindowSize : Nat := 300

/-- `checkpointWindowSize`, bftengine/src/bftengine/SysConsts.hpp:48. -/
def checkpointWindowSize : Nat := 150

/-- A digest.  Simplification: the 32 bytes are one number (big endian), so `memcmp` order is `<`. -/
scoped macro "Digest" : term => `(Nat)

/-- `ViewChangeMsg::PreparedCertificate`, messages/ViewChangeMsg.hpp:39-44 (view + signature bytes;
the signature is an opaque number). -/
structure Cert where
  view : Nat
  sig : Nat
deriving DecidableEq, Repr

/-- `ViewChangeMsg::Element`, messages/ViewChangeMsg.hpp:29-36. -/
structure Elem where
  seq : Nat
  digest : Digest
  originView : Nat
  cert : Option Cert
deriving DecidableEq, Repr

/-- A view-change message, messages/ViewChangeMsg.hpp (the fields read by the safety logic).
Complaints, span context and the message signature are not part of this model (see `ViewChangeBytes`). -/
structure VCMsg where
  sender : Nat
  newView : Nat
  lastStable : Nat
  elems : List Elem
deriving DecidableEq, Repr

/-- Configuration: F, C (`N = 3F+2C+1`), the digest of the null operation and the threshold verifier
of the slow path commit: `valid view seq digest sig` stands for
`thresholdVerifierForSlowPathCommit(s)->verify(combination(digest, view, seq), sig)`,
ViewChangeSafetyLogic.cpp:281-285. -/
structure Cfg where
  F : Nat
  C : Nat
  nullDigest : Digest
  valid : (view seq : Nat) → (d : Digest) → (sig : Nat) → Bool

/-- Number of replicas, ViewChangeSafetyLogic.cpp:134. -/
def Cfg.N (g : Cfg) : Nat := 3 * g.F + 2 * g.C + 1

/-- Number of view-change messages used to start a view (`INC_IN_VC`), ViewChangeSafetyLogic.cpp:139. -/
def Cfg.vcQuorum (g : Cfg) : Nat := 2 * g.F + 2 * g.C + 1

/-- Insertion into a list sorted in descending order. -/
def insertDesc (x : Nat) : List Nat → List Nat
  | [] => [x]
  | y :: ys => if x ≥ y then x :: y :: ys else y :: insertDesc x ys

/-- `qsort` with `compareSeqNumbers` (descending), ViewChangeSafetyLogic.cpp:27-38,162.
Simplification: the sorting algorithm is insertion sort. -/
def sortDesc : List Nat → List Nat
  | [] => []
  | x :: xs => insertDesc x (sortDesc xs)

/-- `calcLBStableForView`, ViewChangeSafetyLogic.cpp:138-172.  The argument is the array of (optional)
messages indexed by replica; `none` is a failed `ConcordAssert` (different `newView`s or not exactly
`INC_IN_VC` messages). -/
def calcLBStableForView (g : Cfg) (arr : List (Option VCMsg)) : Option Nat :=
  let ms := arr.filterMap id
  match ms with
  | [] => none
  | m :: rest =>
    if rest.all (fun m' => m'.newView == m.newView) && (ms.length == g.vcQuorum) then
      (sortDesc (ms.map (·.lastStable)))[g.F + 1 - 1]?
    else none

/-- `ElementsIterator::goToAtLeast`, messages/ViewChangeMsg.cpp:365-375.  An iterator is modelled by the
list of the elements from the current one on. -/
def goToAtLeast (lb : Nat) (it : List Elem) : List Elem := it.dropWhile (fun e => e.seq < lb)

/-- `SlowElem`, ViewChangeSafetyLogic.cpp:57-84. -/
structure SlowElem where
  seq : Nat
  digest : Digest
  view : Nat
  sig : Nat
deriving DecidableEq, Repr

/-- `SlowElemCompare`, ViewChangeSafetyLogic.cpp:86-106: higher certificate view first, then `memcmp`. -/
def SlowElem.before (a b : SlowElem) : Bool :=
  if a.view != b.view then decide (a.view > b.view) else decide (a.digest < b.digest)

/-- `std::set<SlowElem, SlowElemCompare>::insert`, ViewChangeSafetyLogic.cpp:254,270: an element
equivalent to one already present (same view and digest, *whatever its signature*) is not inserted. -/
def slowInsert (x : SlowElem) : List SlowElem → List SlowElem
  | [] => [x]
  | y :: ys => if x.before y then x :: y :: ys
               else if y.before x then y :: slowInsert x ys
               else y :: ys

/-- the slow-path element of an element with a certificate. -/
def Elem.slow? (e : Elem) : Option SlowElem :=
  e.cert.map fun c => ⟨e.seq, e.digest, c.view, c.sig⟩

/-- Collect slow certificates, ViewChangeSafetyLogic.cpp:259-272, over the current elements of the iterators. -/
def collectSlow (s : Nat) (cur : List Elem) : List SlowElem :=
  cur.foldl (fun acc e =>
    if e.seq = s then (match e.slow? with | some x => slowInsert x acc | none => acc) else acc) []

/-- `checkSlowPathCertificates`, ViewChangeSafetyLogic.cpp:108-124. -/
def checkSlow : List SlowElem → Bool
  | [] => true
  | [_] => true
  | a :: b :: t => !(decide (b.view > a.view)) && !(a.view == b.view && a.seq != b.seq) && checkSlow (b :: t)

/-- Validity of a slow element, ViewChangeSafetyLogic.cpp:281-286. -/
def SlowElem.ok (g : Cfg) (s : Nat) (x : SlowElem) : Bool := g.valid x.view s x.digest x.sig

/-- Counting loop of the fast path, ViewChangeSafetyLogic.cpp:297-324.  `counters` is the
`unordered_map`; an element seen for the first time gets counter 1 *without comparison to the
threshold*. -/
def fastLoop (thr minView s : Nat) : List Elem → List (Digest × Nat) → Option Digest
  | [], _ => none
  | e :: es, counters =>
    if e.seq = s ∧ e.originView ≥ minView then
      match counters.lookup e.digest with
      | none => fastLoop thr minView s es ((e.digest, 1) :: counters)
      | some k =>
        if k + 1 = thr then some e.digest
        else fastLoop thr minView s es ((e.digest, k + 1) :: counters)
    else fastLoop thr minView s es counters

/-- The decision part of `computeRestrictionsForSeqNum` (ViewChangeSafetyLogic.cpp:254-324, 362-371) on the
current elements of all live iterators. -/
def decideSeq (g : Cfg) (s : Nat) (cur : List Elem) : Option Digest :=
  let slow := (collectSlow s cur).find? (fun x => x.ok g s)
  let minView := match slow with | some x => x.view + 1 | none => 0
  match fastLoop (g.F + g.C + 1) minView s cur [] with
  | some d => some d
  | none => slow.map (·.digest)

/-- The test `end || elem->seqNum > upperBound` after moving an iterator, ViewChangeSafetyLogic.cpp:345-347. -/
def finished (ub : Nat) : List Elem → Bool
  | [] => true
  | e' :: _ => decide (e'.seq > ub)

/-- Advance iterators and delete the finished ones, ViewChangeSafetyLogic.cpp:326-360.
`idx` is `currentIdx`; the live iterators are the whole list (`IdxOfMaxLiveIterator = size-1`, also through
the wrap-around of the unsigned decrement when the last one is removed).  An iterator is finished
when it has no more elements or its next element is above `ub`; it is overwritten by the last one.
The first argument is fuel for the `while` loop; `its.length` rounds always suffice (each round moves `idx`
or removes an iterator). -/
def advanceF (s ub : Nat) : (fuel : Nat) → (its : List (List Elem)) → (idx : Nat) → List (List Elem)
  | 0, its, _ => its
  | fuel + 1, its, idx =>
    if h : idx < its.length then
      match its[idx] with
      | [] => its       -- `ConcordAssert(!end)`; excluded by the check in `computeForSeq`
      | e :: rest =>
        if e.seq > s then advanceF s ub fuel its (idx + 1)
        else if finished ub rest then
          advanceF s ub fuel ((its.set idx (its[its.length - 1]'(by omega))).dropLast) idx
        else advanceF s ub fuel (its.set idx rest) (idx + 1)
    else its

/-- see `advanceF`. -/
def advance (s ub : Nat) (its : List (List Elem)) : List (List Elem) := advanceF s ub its.length its 0

/-- `computeRestrictionsForSeqNum`, ViewChangeSafetyLogic.cpp:247-374.  `none`: a `ConcordAssert` fails
(no iterators, an iterator without current element or behind `s`, `checkSlowPathCertificates`).
`ViewNum`/`SeqNum` overflow is not modelled. -/
def computeForSeq (g : Cfg) (s ub : Nat) (its : List (List Elem)) :
    Option (Option Digest × List (List Elem)) :=
  if its.isEmpty || decide (s > ub) then none
  else
    let cur := its.filterMap List.head?
    if cur.length ≠ its.length ∨ cur.any (fun e => decide (e.seq < s)) then none
    else if !(checkSlow (collectSlow s cur)) then none
    else some (decideSeq g s cur, advance s ub its)

/-- `hasRest && (r.digest != nullDigest)`, ViewChangeSafetyLogic.cpp:217-221: a restriction to the digest of
the null operation is recorded as `isNull`. -/
def nonNull (g : Cfg) (r : Option Nat) : Option Nat :=
  match r with | some d => if d ≠ g.nullDigest then some d else none | none => none

/-- Main loop of `computeRestrictions`, ViewChangeSafetyLogic.cpp:211-229: `k` sequence numbers from `s` on,
`last` is `lastRestcitionNum`.  The result lists, per sequence number, the restricting digest or `none` for
`isNull = true`. -/
def scan (g : Cfg) (ub : Nat) : (k s : Nat) → (its : List (List Elem)) → (last : Nat) →
    Option (List (Option Digest) × Nat)
  | 0, _, _, last => some ([], last)
  | k + 1, s, its, last =>
    if its.isEmpty then some (List.replicate (k + 1) none, last)
    else
      match computeForSeq g s ub its with
      | none => none
      | some (r, its') =>
        let r' := nonNull g r
        let last' := if r'.isSome then s else last
        match scan g ub k (s + 1) its' last' with
        | none => none
        | some (rs, l) => some (r' :: rs, l)

/-- Output of `computeRestrictions`. -/
structure Restrictions where
  min : Nat
  max : Nat
  arr : List (Option Digest)
deriving DecidableEq, Repr

/-- Creation of the iterators, ViewChangeSafetyLogic.cpp:189-206. -/
def mkIters (lb : Nat) (arr : List (Option VCMsg)) : List (List Elem) :=
  ((arr.filterMap id).map (fun m => goToAtLeast lb m.elems)).filter (fun it => !it.isEmpty)

/-- The restricted range, ViewChangeSafetyLogic.cpp:208-209, 230-245, including the "VC stable" patch. -/
def restrictedRange (noElements : Bool) (last lowerBound upperBound : Nat) : Nat × Nat :=
  if noElements then (0, 0)
  else if last > 0 ∧ last ≤ upperBound - checkpointWindowSize then (lowerBound, upperBound - checkpointWindowSize)
  else (lowerBound, upperBound)

/-- `computeRestrictions`, ViewChangeSafetyLogic.cpp:174-245. -/
def computeRestrictions (g : Cfg) (arr : List (Option VCMsg)) (lbStable : Nat) : Option Restrictions :=
  let lowerBound := lbStable + 1
  let upperBound := lbStable + kWorkWindowSize
  let its := mkIters lowerBound arr
  match scan g upperBound kWorkWindowSize lowerBound its 0 with
  | none => none
  | some (rs, last) =>
    let rg := restrictedRange its.isEmpty last lowerBound upperBound
    some ⟨rg.1, rg.2, rs⟩

/-- The restriction on sequence number `s` that `ViewsManager` derives from the output
(ViewsManager.cpp:645-676 `tryToEnterView`, 820-870): inside `[min,max]` the array entry (`some none` = null
operation), outside nothing. -/
def Restrictions.at? (r : Restrictions) (s : Nat) : Option (Option Digest) :=
  if r.min ≤ s ∧ s ≤ r.max ∧ r.min > 0 then some ((r.arr[s - r.min]?).join) else none

end Concord.VC
