import Verif.Util.Bytes
import Verif.Kvbc.Versioned
set_option linter.unusedVariables false
/-!
# Pre-execution: the primary collects result hashes (C19)

Model of `bftengine/src/preprocessor/RequestProcessingState.cpp`, of its callers in `PreProcessor.cpp` (one request, one entry
lock), and of the result hash (`messages/PreProcessResultHashCreator.hpp`).

Simplifications: `uint16_t` reply counters do not wrap; the hash function, and the primary's own signatures, are parameters.
Time-outs (`EXPIRED`) and metrics are not modelled.  A memory buffer is a list of bytes and a pointer into it an offset.
-/
namespace Verif.PreExec
open Verif.Bytes

/-- the hash function and the primary's signature -/
structure Env where
  hash : Bytes → Bytes
  sign : Bytes → Bytes

/-- `OperationResult` (bftengine/include/bftengine/SharedTypes.hpp:18-30) -/
def SUCCESS : Nat := 0
def UNKNOWN : Nat := 1

/-- `PreProcessResultHashCreator::create` (PreProcessResultHashCreator.hpp:21-34) -/
def resultHash (E : Env) (data : Bytes) (res client seq : Nat) : Bytes :=
  E.hash ((if res = SUCCESS then data else []) ++ leEncode 4 res ++ leEncode 2 client ++ leEncode 8 seq)

/-- `PreProcessResultSignature` (PreProcessResultMsg.hpp:63-86) -/
structure Sig where
  sig : Bytes
  sender : Nat
  res : Nat
deriving DecidableEq

/-- `std::set<PreProcessResultSignature>::emplace`: ordered by sender (PreProcessResultMsg.hpp:81); `none` = already there -/
def insertSig (x : Sig) : List Sig → Option (List Sig)
  | [] => some [x]
  | y :: ys => if x.sender < y.sender then some (x :: y :: ys)
    else if x.sender = y.sender then none
    else (insertSig x ys).map (y :: ·)

/-- `std::map<Digest, std::set<…>>`, ordered by digest -/
abbrev Votes := List (Bytes × List Sig)

/-- `preProcessingResultHashes_[h].emplace(x)`: the new map, and whether the signature was inserted -/
def addVote (h : Bytes) (x : Sig) : Votes → Votes × Bool
  | [] => ([(h, [x])], true)
  | y :: ys =>
    if h = y.1 then match insertSig x y.2 with
      | some l => ((h, l) :: ys, true)
      | none => (y :: ys, false)
    else if Kvbc.keyLt h y.1 then ((h, [x]) :: y :: ys, true)
    else (y :: (addVote h x ys).1, (addVote h x ys).2)

/-- pointer to the primary's result -/
inductive Ptr where
  | null
  | at (off : Nat)
  /-- a pointer whose bytes were overwritten by something else -/
  | wild
deriving DecidableEq

/-- `RequestProcessingState` (RequestProcessingState.hpp:110-145) -/
structure St where
  /-- `numOfReplicas_` -/
  n : Nat
  /-- `numOfRequiredEqualReplies_`: f + 1 (PreProcessor.cpp:1506) -/
  req : Nat
  me : Nat
  client : Nat
  seq : Nat
  received : Nat
  rejected : List Nat
  /-- the result buffer, allocated by `PreProcessor` -/
  buf : Bytes
  ptr : Ptr
  len : Nat
  pres : Nat
  agreed : Nat
  phash : Bytes
  votes : Votes
  busy : Bool
deriving DecidableEq

/-- the constructor (RequestProcessingState.cpp:35-58, .hpp:123-145) -/
def St.new (n req me client seq : Nat) : St :=
  { n := n
    req := req
    me := me
    client := client
    seq := seq
    received := 0
    rejected := []
    buf := []
    ptr := .null
    len := 0
    pres := UNKNOWN
    agreed := UNKNOWN
    phash := List.replicate 32 0
    votes := []
    busy := false }

/-- overwrite bytes of a buffer; `none` = outside of it -/
def poke (buf : Bytes) (off : Nat) (b : Bytes) : Option Bytes :=
  if off + b.length ≤ buf.length then some (buf.take off ++ b ++ buf.drop (off + b.length)) else none

/-- `sizeOfPreProcessResultData` (RequestProcessingState.cpp:71-73) -/
def sizeOfResultData : Nat := 14

/-- `setupPreProcessResultData` (RequestProcessingState.cpp:75-82): the pointer is advanced and stays so; `none` = write
through a null pointer or outside of the buffer -/
def St.setupData (s : St) : Option St :=
  match s.ptr with
  | .at off => ((poke s.buf off (leEncode 4 s.pres)).bind (fun b1 => (poke b1 (off + 4) (leEncode 2 s.client)).bind
      (fun b2 => poke b2 (off + 6) (leEncode 8 s.seq)))).map (fun b3 =>
      { s with
        buf := b3
        ptr := .at (off + 6)
        len := sizeOfResultData })
  | _ => none

/-- `handlePrimaryPreProcessed` (RequestProcessingState.cpp:89-121); `none` = memory error -/
def St.primaryDone (E : Env) (s : St) (buf : Bytes) (len res : Nat) : Option St :=
  let s1 : St := { s with
    busy := false
    pres := res
    buf := if res ≠ UNKNOWN then buf else s.buf
    ptr := if res ≠ UNKNOWN then .at 0 else s.ptr
    len := if res ≠ UNKNOWN then len else s.len }
  let data := match s1.ptr with
    | .at off => slice s1.buf off s1.len
    | _ => some []
  match data with
  | none => none
  | some d =>
    let h := resultHash E d res s.client s.seq
    let s2 := { s1 with phash := h }
    let s3 := if res ≠ SUCCESS then s2.setupData else some s2
    s3.map (fun s3 =>
      let r := addVote h ⟨E.sign h, s.me, res⟩ s3.votes
      { s3 with
        votes := r.1
        received := if r.2 then s3.received + 1 else s3.received })

inductive Status where
  | good
  | reject
  | failed
deriving DecidableEq

/-- `PreProcessReplyMsg`, as far as it is used (PreProcessReplyMsg.hpp:70-83); `sender` = `MessageBase::senderId()` -/
structure Reply where
  sender : Nat
  status : Status
  hash : Bytes
  res : Nat
  sig : Bytes
deriving DecidableEq

/-- `handlePreProcessReplyMsg` (RequestProcessingState.cpp:147-176) -/
def St.onReply (s : St) (r : Reply) : St :=
  match r.status with
  | .reject => { s with rejected := s.rejected ++ [r.sender] }
  | _ =>
    let v := addVote r.hash ⟨r.sig, r.sender, r.res⟩ s.votes
    { s with
      votes := v.1
      received := if v.2 then s.received + 1 else s.received }

/-- `calculateMaxNbrOfEqualHashes` (RequestProcessingState.cpp:186-197): the first hash with the most signatures -/
def best : Votes → Option (Bytes × List Sig) → Option (Bytes × List Sig)
  | [], b => b
  | y :: ys, none => best ys (if 0 < y.2.length then some y else none)
  | y :: ys, some b => best ys (if b.2.length < y.2.length then some y else some b)

inductive Outcome where
  | cont
  | complete
  | cancel
  /-- failed assertion or memory error -/
  | abort
deriving DecidableEq

/-- the result with its last eight bytes replaced by zeros (`detectFailureDueToBlockID(…, 0)`,
RequestProcessingState.cpp:218-235) -/
def zeroTail (d : Bytes) : Bytes := d.take (d.length - 8) ++ List.replicate 8 0

/-- `definePreProcessingConsensusResult` (RequestProcessingState.cpp:266-331) -/
def St.define (E : Env) (s : St) : St × Outcome :=
  if s.received < s.req then (s, .cont)
  else if s.busy then (s, .cont)
  else
    let stop (s : St) : St × Outcome := if s.received = s.n then (s, .cancel) else (s, .cont)
    match best s.votes none with
    | some (h, x :: xs) =>
      if s.req ≤ (x :: xs).length then
        let s := { s with agreed := x.res }
        if h = s.phash then (s, .complete)
        else if s.pres = SUCCESS ∧ s.agreed ≠ SUCCESS then
          -- updatePreProcessResultData (RequestProcessingState.cpp:84-87): memcpy over the pointer itself
          ({ s with
             ptr := .wild
             len := sizeOfResultData }, .complete)
        else if s.pres = SUCCESS then
          match s.ptr with
          | .at off => match slice s.buf off s.len with
            | none => (s, .abort)
            | some d =>
              if d.length ≤ 8 then (s, .abort)
              else if h = resultHash E (zeroTail d) SUCCESS s.client s.seq then
                -- modifyPrimaryResult (RequestProcessingState.cpp:237-250)
                match poke s.buf off (zeroTail d) with
                | none => (s, .abort)
                | some b =>
                  ({ s with
                     buf := b
                     phash := h
                     votes := (addVote h ⟨E.sign h, s.me, s.pres⟩ s.votes).1 }, .complete)
              else (s, .cancel)
          | _ => (s, .abort)
        else stop s
      else stop s
    | _ => stop s

/-- what the primary passes on (PreProcessor.cpp:1438-1503: `getPrimaryPreProcessedResultData/Len`); `none` = read through a
bad pointer or outside of the buffer -/
def St.delivered (s : St) : Option Bytes :=
  match s.ptr with
  | .at off => slice s.buf off s.len
  | _ => none

/-- the signatures that go with it (`getPreProcessResultSignatures`, RequestProcessingState.cpp:337-352); `none` =
`ConcordAssert(false)` -/
def St.sigs (s : St) : Option (List Sig) := s.votes.lookup s.phash

inductive Ev where
  /-- `handleSinglePreProcessReplyMsg` (PreProcessor.cpp:1121-1159) -/
  | reply (r : Reply)
  /-- the primary starts executing (PreProcessor.cpp:1840-1851) -/
  | launch
  /-- `handleReqPreProcessedByPrimary` (PreProcessor.cpp:2016-2045) -/
  | primary (buf : Bytes) (len res : Nat)
  /-- the timer (PreProcessor.cpp:566-593) -/
  | timer
deriving DecidableEq

/-- one event, under the entry lock -/
def St.step (E : Env) (s : St) : Ev → St × Outcome
  | .reply r => if r.status = .reject then (s.onReply r, .cont) else (s.onReply r).define E
  | .launch => ({ s with busy := true }, .cont)
  | .primary buf len res => match s.primaryDone E buf len res with
    | none => (s, .abort)
    | some s' => s'.define E
  | .timer => s.define E

/-- the request is still open after these events -/
def St.run (E : Env) (s : St) : List Ev → Option St
  | [] => some s
  | e :: es => match s.step E e with
    | (s', .cont) => s'.run E es
    | _ => none

/-! ## Specification -/

/-- replica `r` reported hash `h`: in a reply that is not a rejection, or as the primary itself -/
def Said (E : Env) (me client seq : Nat) (evs : List Ev) (r : Nat) (h : Bytes) : Prop :=
  (∃ m, Ev.reply m ∈ evs ∧ m.status ≠ .reject ∧ m.sender = r ∧ m.hash = h) ∨
  (r = me ∧ ∃ buf len res, Ev.primary buf len res ∈ evs ∧ h = resultHash E (buf.take len) res client seq)

/-- at least `k` distinct replicas reported `h` -/
def SaidBy (E : Env) (me client seq : Nat) (evs : List Ev) (k : Nat) (h : Bytes) : Prop :=
  ∃ l : List Nat, l.Nodup ∧ k ≤ l.length ∧ ∀ r ∈ l, Said E me client seq evs r h

/-- the application's result fits its buffer, leaves room for the error record, is not UNKNOWN, and (if it is a success) ends
with the eight-byte block id after at least one byte of data (PreProcessor.cpp:1966-1987) -/
def GoodPrimary (evs : List Ev) : Prop := ∀ buf len res, Ev.primary buf len res ∈ evs →
  len ≤ buf.length ∧ 20 ≤ buf.length ∧ res ≠ UNKNOWN ∧ 8 < len

end Verif.PreExec
