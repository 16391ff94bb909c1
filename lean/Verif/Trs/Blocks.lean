import Verif.Trs.Buffer
set_option linter.unusedVariables false
/-!
# Thin replica server: streaming blocks to a subscriber (C32)

Model of `SubscribeToUpdates` and `syncAndSend` for block ("legacy event") requests
(thin-replica-server/include/thin-replica-server/thin_replica_impl.hpp:254-468, 591-652, 893-1003), with
`KvbAppFilter::readBlockRange`/`readBlockHash`/`getBlockEvents` (kvbc/src/kvbc_app_filter/kvbc_app_filter.cpp:263-296, 519-540,
604-634), running concurrently with the thread that writes blocks and pushes them to the buffers, with pruning, with the start of
event groups and with cancellation.  One step = one access to storage or to the buffer.

Simplifications: several calls of the consumer on its own buffer (`waitUntilNonEmpty`, `oldestBlockId`, `Pop`) are one step: only
the consumer removes elements, so they see the same first element.  The reader thread and the sender of
`readFromKvbAndSendData` are one thread: between them is a FIFO, so the sent sequence is the same.  Metrics, logging and
authentication are not modelled, and a stream whose client closed it counts as cancelled.

The producer is application code and not in the repository.  Its contract, from the comments in the source: a block is pushed
after it is written (thin_replica_impl.hpp:370), by a single thread, in order, and after the first push to this subscriber none is
left out.
-/
namespace Verif.Trs

inductive Status where
  | outOfRange
  | notFound
  | cancelled
  | unknown
  | ok
  /-- goes on as an event group stream -/
  | eventGroups
  /-- failed assertion: the replica process ends -/
  | aborted
  /-- an exception leaves `SubscribeToUpdates`; the buffer stays in the subscriber list -/
  | uncaught
deriving DecidableEq

/-- where the subscriber's thread is -/
inductive Pc where
  | init
  | pruneCheck
  | subscribe
  | egCheck
  | readLast
  | waitNew (l : Nat)
  | sync0
  | sync1
  | read (i e : Nat) (gap : Bool)
  | wait1 (e : Nat)
  | overlap (e : Nat)
  | live
  | done (st : Status)
deriving DecidableEq

/-- `C`: content of a block (its immutable events); `flt`: `filterUpdate`, what this client may see -/
structure World (D F : Type) where
  C : Nat → D
  flt : D → F
  cap : Nat

structure Sys (D F : Type) where
  genesis : Nat
  last : Nat
  /-- last block handed to the subscriber list -/
  pushed : Nat
  /-- nothing was pushed to this subscriber yet -/
  fresh : Bool
  attached : Bool
  /-- block of the oldest event group -/
  eg : Option Nat
  buf : Buf (Nat × D)
  pc : Pc
  req : Nat
  sent : List (Nat × F)
deriving DecidableEq

/-- event groups start at or before block `i` (kvbc_app_filter.cpp:606-610) -/
def Sys.noLegacy {D F : Type} (s : Sys D F) (i : Nat) : Bool :=
  match s.eg with
  | some b => decide (b ≤ i)
  | none => false

/-- one step of the subscriber's thread; `none` = it waits (or is done) -/
def subStep {D F : Type} (W : World D F) (s : Sys D F) : Option (Sys D F) :=
  match s.pc with
  -- isRequestOutOfRange (thin_replica_impl.hpp:591-611)
  | .init => some { s with pc := if s.req > s.last + 1 then .done .outOfRange else .pruneCheck }
  -- isUpdatePruned (thin_replica_impl.hpp:614-627)
  | .pruneCheck => some { s with pc := if s.req < s.genesis then .done .notFound else .subscribe }
  -- subscribeToLiveUpdates (thin_replica_impl.hpp:1238-1251)
  | .subscribe => some
      { s with
        attached := true
        fresh := true
        buf := Buf.new _ W.cap
        pc := .egCheck }
  -- thin_replica_impl.hpp:317-325
  | .egCheck => some { s with pc := match s.eg with
      | some b => if s.req ≥ b then .done .eventGroups else .readLast
      | none => .readLast }
  -- thin_replica_impl.hpp:362-364
  | .readLast => some { s with pc := if s.req = s.last + 1 then .waitNew s.last else .sync0 }
  -- thin_replica_impl.hpp:371-388
  | .waitNew l => match s.buf.front with
      | none => none
      | some u =>
        if u.1 < l + 1 then match s.buf.pop with
          | (b, .got _) => some { s with buf := b }
          | (b, .tooSlow) => some { s with pc := .done .uncaught }
          | (b, .empty) => none
        else some { s with pc := .sync0 }
  -- thin_replica_impl.hpp:396, 941-949
  | .sync0 => some { s with pc := if s.req = 0 then .done .aborted
      else if s.req < s.genesis then .done .notFound else .sync1 }
  -- thin_replica_impl.hpp:950-952
  | .sync1 => some { s with pc := if s.req ≤ s.last then .read s.req s.last false else .done .aborted }
  -- readAndSend (thin_replica_impl.hpp:957, 989)
  | .read i e gap =>
    if s.last < i then some { s with pc := .done .unknown } -- InvalidBlockRange
    else if s.noLegacy i then some { s with pc := .done .eventGroups } -- NoLegacyEvents
    else if i < s.genesis then some { s with pc := .done .unknown } -- KvbReadError
    else some
      { s with
        sent := s.sent ++ [(i, W.flt (W.C i))]
        pc := if i < e then .read (i + 1) e gap else if gap then .overlap e else .wait1 e }
  -- thin_replica_impl.hpp:960-993, first event available
  | .wait1 e => match s.buf.front with
      | none => if s.eg.isSome then some { s with pc := .done .eventGroups } else none
      | some u =>
        if s.eg.isSome then some { s with pc := .done .eventGroups }
        else if u.1 = e + 1 then some { s with pc := .live }
        else if u.1 > e + 1 then match s.buf.newestId with
          | some n => some { s with pc := .read (e + 1) n true }
          | none => some { s with pc := .done .aborted }
        else some { s with pc := .overlap e } -- the assertion `oldest ≤ end` holds here
  -- thin_replica_impl.hpp:995-1002
  | .overlap e => match s.buf.pop with
      | (b, .empty) => none
      | (b, .tooSlow) => some { s with pc := .done .unknown }
      | (b, .got u) => some
        { s with
          buf := b
          pc := if u.1 < e then .overlap e else .live }
  -- the live loop (thin_replica_impl.hpp:421-468); an overrun ends the stream with status OK
  | .live => match s.buf.pop with
      | (b, .empty) => none
      | (b, .tooSlow) => some { s with pc := .done .ok }
      | (b, .got u) => some
        { s with
          buf := b
          sent := s.sent ++ [(u.1, W.flt u.2)] }
  | .done _ => none

inductive Lbl where
  /-- the subscriber's thread -/
  | sub
  /-- a block is written -/
  | write
  /-- a block is pushed to the subscribers (`updateSubBuffers`, subscription_buffer.hpp:325-330) -/
  | push (q : Nat)
  | prune (g : Nat)
  | egOn
  | cancel
deriving DecidableEq

/-- the producer's push, without its contract -/
def pushTo {D F : Type} (W : World D F) (s : Sys D F) (q : Nat) : Sys D F :=
  if s.attached then
    { s with
      pushed := q
      fresh := false
      buf := s.buf.push (·.1) (q, W.C q) }
  else { s with pushed := q }

def step {D F : Type} (W : World D F) (s : Sys D F) : Lbl → Option (Sys D F)
  | .sub => subStep W s
  | .write => some { s with last := s.last + 1 }
  | .push q => if s.pushed < q ∧ q ≤ s.last ∧ (s.attached = true ∧ s.fresh = false → q = s.pushed + 1) then some (pushTo W s q)
    else none
  | .prune g => if s.genesis ≤ g ∧ g ≤ s.last then some { s with genesis := g } else none
  | .egOn => some { s with eg := s.eg.orElse (fun _ => some s.last) }
  | .cancel => match s.pc with
    | .done _ => none
    | _ => some { s with pc := .done .cancelled }

/-- a run; labels that are not enabled are not allowed -/
def runL {D F : Type} (W : World D F) (s : Sys D F) : List Lbl → Option (Sys D F)
  | [] => some s
  | l :: ls => (step W s l).bind (fun s' => runL W s' ls)

/-- a server with blocks `genesis..last`, of which `pushed` was the last handed out, receives a subscription -/
def Sys.start {D F : Type} (genesis last pushed req : Nat) (eg : Option Nat) : Sys D F :=
  { genesis := genesis
    last := last
    pushed := pushed
    fresh := true
    attached := false
    eg := eg
    buf := Buf.new _ 0
    pc := .init
    req := req
    sent := [] }

/-! ## Specification -/

/-- blocks `a, a+1, …` (`n` of them), as this client may see them -/
def blocksFrom {D F : Type} (W : World D F) (a n : Nat) : List (Nat × F) := (List.range' a n).map (fun i => (i, W.flt (W.C i)))

/-! ## Invariant -/

/-- the buffer holds the blocks after `a`, all of them up to the last one pushed, `p`, unless it overran -/
def BufAt {D F : Type} (W : World D F) (b : Buf (Nat × D)) (p a : Nat) : Prop :=
  ∃ len, b.queue = (List.range' (a + 1) len).map (fun i => (i, W.C i)) ∧ (b.tooSlow = false → a + len = p) ∧
    a + len ≤ p ∧ (len ≠ 0 → a + len ≤ b.newest ∧ b.newest ≤ p)

/-- position of the thread -/
def PcInv {D F : Type} (W : World D F) (s : Sys D F) : Prop :=
  match s.pc with
  | .init | .pruneCheck | .subscribe => s.sent = [] ∧ s.attached = false
  | .egCheck | .readLast | .sync0 => s.sent = [] ∧ s.attached = true ∧ (s.pc = .sync0 → s.req ≤ s.last)
  | .waitNew l => s.sent = [] ∧ s.attached = true ∧ s.req = l + 1
  | .sync1 => s.sent = [] ∧ s.attached = true ∧ s.req ≤ s.last ∧ s.req ≠ 0
  | .read i e gap => s.attached = true ∧ s.req ≠ 0 ∧ s.sent = blocksFrom W s.req (i - s.req) ∧ s.req ≤ i ∧ i ≤ e ∧ e ≤ s.last ∧
      (gap = true → s.fresh = false ∧ ∃ a, BufAt W s.buf s.pushed a ∧ a < e)
  | .wait1 e => s.attached = true ∧ s.req ≠ 0 ∧ s.sent = blocksFrom W s.req (e + 1 - s.req) ∧ s.req ≤ e ∧ e ≤ s.last
  | .overlap e => s.attached = true ∧ s.req ≠ 0 ∧ s.sent = blocksFrom W s.req (e + 1 - s.req) ∧ s.req ≤ e ∧ e ≤ s.last ∧ s.fresh = false ∧
      ∃ a, BufAt W s.buf s.pushed a ∧ a < e
  | .live => s.attached = true ∧ s.fresh = false ∧ ∃ k, s.sent = blocksFrom W s.req k ∧ BufAt W s.buf s.pushed (s.req + k - 1) ∧ 0 < k ∧ s.req ≠ 0
  | .done _ => ∃ k, s.sent = blocksFrom W s.req k

structure BInv {D F : Type} (W : World D F) (s : Sys D F) : Prop where
  pushed_le : s.pushed ≤ s.last
  buf : s.attached = true → (s.fresh = true → s.buf.queue = [] ∧ s.buf.tooSlow = false) ∧ (s.fresh = false → ∃ a, BufAt W s.buf s.pushed a)
  pc : PcInv W s
  sent_le : ∀ x ∈ s.sent, x.1 ≤ s.last
  range : s.pc = .init ∨ (∃ st, s.pc = .done st) ∨ s.req ≤ s.last + 1

end Verif.Trs
