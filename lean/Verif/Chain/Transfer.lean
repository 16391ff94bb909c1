import Verif.Chain.Spec
set_option linter.unusedVariables false
/-!
# State-transfer chain: adding raw blocks, pruning and linking (C27)

Model of `kv_blockchain.cpp`: addRawBlock, linkSTChainFrom, linkUntilBlockId, pruneOnSTLink, writeSTLinkTransaction.
Not modelled: `deleteStateTransferBlock`; the parent digest and root hashes carried by a raw block, which linking ignores
(the code recomputes them).
-/
namespace Verif.Chain
open Verif.Bytes Verif.Kvbc

/-- `addRawBlock` without linking (kv_blockchain.cpp:782-795); `none` = exception -/
def Chain.addRaw (c : Chain) (b : Nat) (r : Raw) : Option Chain :=
  if b ≤ c.last then none else some { c with st := fun i => if i = b then some r else c.st i }

/-- the genesis block id a block carries (kv_blockchain.cpp:914-922): outer `none` = `std::get` throws, inner `none` = no such
key.  `fromBigEndianBuffer` reads eight bytes; a shorter value would be read past its end, here: what is there. -/
def genesisOf (u : Updates) : Option (Option Nat) :=
  match u.lookup internalCat with
  | none => some none
  | some (.versioned i _) => some ((i.kv.lookup genesisKey).map (fun v => leDecode (v.data.take 8).reverse))
  | some _ => none

/-- `n` times `deleteBlock` of the genesis block (kv_blockchain.cpp:923-925: `ConcordAssert(deleteBlock(i))`); the block is not
the last one, see `Chain.prune` -/
def pruneN (H : Hashes) : Nat → Chain → Option Chain
  | 0, c => some c
  | n + 1, c => (c.prune H).bind (pruneN H n)

/-- `pruneOnSTLink` (kv_blockchain.cpp:913-928) -/
def pruneOnLink (H : Hashes) (c : Chain) (r : Raw) : Option Chain :=
  match genesisOf r.updates with
  | none => none
  | some none => some c
  | some (some g) => if 1 ≤ c.genesis ∧ c.genesis < c.last then pruneN H (g - c.genesis) c else some c

/-- `writeSTLinkTransaction` (kv_blockchain.cpp:931-938): one write batch deletes the block from the state-transfer chain and
adds it to the blockchain -/
def linkTx (H : Hashes) (c : Chain) (b : Nat) (r : Raw) : Option Chain :=
  (c.append H r.updates).map (fun c' => { c' with st := fun i => if i = b then none else c'.st i })

/-- the loop of `linkSTChainFrom` and `linkUntilBlockId` (kv_blockchain.cpp:897-906, 859-870), `n` iterations from block
`last + 1`; it stops at the first missing block.  `none` = exception, i.e. `std::terminate` -/
def link (H : Hashes) : Nat → Chain → Option Chain
  | 0, c => some c
  | n + 1, c => match c.st (c.last + 1) with
    | none => some c
    | some r => (pruneOnLink H c r).bind (fun c1 => (linkTx H c1 (c.last + 1) r).bind (link H n))

/-! ## Crash points

Every write batch is atomic; the process can stop after any of them, at any moment, and continue later. -/

/-- one observable step of a replica that is catching up; `P b r`: raw block `r` may arrive as block `b` -/
inductive TStep (H : Hashes) (P : Nat → Raw → Prop) : Chain → Chain → Prop where
  /-- a raw block arrives (in any order, from any thread, also while linking) -/
  | receive {c c' : Chain} {b : Nat} {r : Raw} : P b r → c.addRaw b r = some c' → TStep H P c c'
  /-- linking prunes one block: the next raw block carries a higher genesis block id -/
  | prune {c c' : Chain} {r : Raw} {g : Nat} : c.st (c.last + 1) = some r → genesisOf r.updates = some (some g) →
      1 ≤ c.genesis → c.genesis < c.last → c.genesis < g → c.prune H = some c' → TStep H P c c'
  /-- linking moves the next raw block to the blockchain; all pruning for it is done -/
  | move {c c' : Chain} {r : Raw} : c.st (c.last + 1) = some r →
      (∀ g, genesisOf r.updates = some (some g) → 1 ≤ c.genesis → c.genesis < c.last → g ≤ c.genesis) →
      linkTx H c (c.last + 1) r = some c' → TStep H P c c'
  /-- the process stops and starts again; the raw blocks and the blockchain are on disk -/
  | crash {c : Chain} : TStep H P c { c with cache := none }

inductive TSteps (H : Hashes) (P : Nat → Raw → Prop) : Chain → Chain → Prop where
  | refl {c : Chain} : TSteps H P c c
  | step {c c' c'' : Chain} : TSteps H P c c' → TStep H P c' c'' → TSteps H P c c''

/-! ## Specification -/

/-- same contents: database, blocks, first and last block -/
def CoreEq (c c' : Chain) : Prop := c.db = c'.db ∧ c.blocks = c'.blocks ∧ c.genesis = c'.genesis ∧ c.last = c'.last

/-- a source that never deletes its last block -/
def NoDelete (evs : List Ev) : Prop := ∀ e ∈ evs, e ≠ .deleteLast

/-- `c` has the contents the source had at some moment of its run `evs` -/
def AtSomeMoment (H : Hashes) (db : Db) (evs : List Ev) (c : Chain) : Prop :=
  ∃ evs1 evs2 cs, evs = evs1 ++ evs2 ∧ (Chain.new db).run H evs1 = some cs ∧ CoreEq c cs

/-- `c` has the contents the source had right after it added block `n` -/
def RightAfter (H : Hashes) (db : Db) (evs : List Ev) (n : Nat) (c : Chain) : Prop :=
  ∃ evs1 u evs2 cs, evs = evs1 ++ .add u :: evs2 ∧ (Chain.new db).run H (evs1 ++ [.add u]) = some cs ∧ cs.last = n ∧ CoreEq c cs

/-- the cached raw block, if it is the last block's, is what the last block reads back as -/
def CacheOk (H : Hashes) (c : Chain) : Prop :=
  ∀ i r, c.cache = some (i, r) → 1 ≤ i ∧ c.last ≤ i ∧ (i = c.last → c.getRaw H c.last = some r)

/-- all raw blocks held beyond the last block are blocks of the source -/
def FromSource (src : List Raw) (c : Chain) : Prop :=
  ∀ b r, c.last < b → c.st b = some r → src[b - 1]? = some r

end Verif.Chain
