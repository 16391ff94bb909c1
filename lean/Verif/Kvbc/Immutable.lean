import Verif.Kvbc.VersionedSpec
set_option linter.unusedSimpArgs false
set_option linter.unusedVariables false
/-!
# Immutable category (C23–C25)

Model of `kvbc/src/categorization/immutable_kv_category.cpp`: one entry per key, holding the block that put it.  The
category is for keys that are put once; nothing in the code enforces it.
Not modelled: tags and the optional per-tag root hashes (they are written to the block only, never read back).
-/
namespace Verif.Kvbc
open Verif.Bytes

/-- the category's column family (immutable_kv_category.cpp:77-123: key ↦ header with block id, data) -/
abbrev IState := Key → Option (Nat × Bytes)

/-- `ImmutableInput` without tags: a `std::map` -/
abbrev IInput := List (Key × Bytes)

/-- `add` (immutable_kv_category.cpp:77-123); the output lists the keys -/
def iAdd (b : Nat) (inp : IInput) (s : IState) : IState × List Key :=
  (inp.foldl (fun s kv k => if k = kv.1 then some (b, kv.2) else s k) s, inp.map (·.1))

/-- `deleteBlock` (immutable_kv_category.cpp: deleteBlock, called by deleteGenesisBlock and deleteLastReachableBlock,
lines 133-144): deletes every key of the block, whatever block its entry names -/
def iDelete (keys : List Key) (s : IState) : IState :=
  keys.foldl (fun s k k' => if k' = k then none else s k') s

/-- `getLatest` (immutable_kv_category.cpp:157-163) -/
def iGetLatest (s : IState) (k : Key) : Option (Nat × Bytes) := s k

/-- `get` (immutable_kv_category.cpp:146-155) -/
def iGet (s : IState) (k : Key) (b : Nat) : Option (Nat × Bytes) :=
  match iGetLatest s k with
  | none => none
  | some v => if v.1 ≠ b then none else some v

/-- `getLatestVersion` (immutable_kv_category.cpp:212-219); never marked deleted -/
def iGetLatestVersion (s : IState) (k : Key) : Option Tagged := (s k).map (fun v => ⟨false, v.1⟩)

/-- `multiGet` (immutable_kv_category.cpp:165-192); `none` = failed assertion -/
def iMultiGet (s : IState) (keys : List Key) (versions : List Nat) : Option (List (Option (Nat × Bytes))) :=
  if keys.length = versions.length then
    some ((keys.zip versions).map (fun kv => match s kv.1 with
      | some v => if v.1 = kv.2 then some v else none
      | none => none))
  else none

/-- the category inside a blockchain (kv_blockchain.cpp:190-219, 487-562, 567-616) -/
structure IChain where
  st : IState
  blocks : Nat → Option (List Key)
  genesis : Nat
  last : Nat

def IChain.empty : IChain := { st := fun _ => none, blocks := fun _ => none, genesis := 0, last := 0 }

inductive IEv where
  | add (inp : IInput)
  | prune
  | deleteLast

def IChain.addBlock (c : IChain) (inp : IInput) : IChain :=
  { st := (iAdd (c.last + 1) inp c.st).1
    blocks := fun i => if i = c.last + 1 then some (iAdd (c.last + 1) inp c.st).2 else c.blocks i
    genesis := if c.genesis = 0 then 1 else c.genesis
    last := c.last + 1 }

def IChain.prune (c : IChain) : Option IChain :=
  if c.genesis < 1 then none
  else if c.genesis = c.last then none
  else match c.blocks c.genesis with
    | none => none
    | some keys => some
        { st := iDelete keys c.st, blocks := fun i => if i = c.genesis then none else c.blocks i
          genesis := c.genesis + 1, last := c.last }

def IChain.deleteLast (c : IChain) : Option IChain :=
  if c.last = 0 then none
  else if c.last = c.genesis then none
  else match c.blocks c.last with
    | none => none
    | some keys => some
        { st := iDelete keys c.st, blocks := fun i => if i = c.last then none else c.blocks i
          genesis := c.genesis, last := c.last - 1 }

def IChain.step (c : IChain) : IEv → Option IChain
  | .add inp => some (c.addBlock inp)
  | .prune => c.prune
  | .deleteLast => c.deleteLast

def IChain.run (c : IChain) : List IEv → Option IChain
  | [] => some c
  | e :: es => match c.step e with
    | none => none
    | some c' => c'.run es

/-! ## Specification: the updates of blocks `1 … hist.length` and the oldest block not pruned -/

structure IAbs where
  hist : List IInput
  genesis : Nat

def IAbs.empty : IAbs := { hist := [], genesis := 0 }

def IAbs.step (a : IAbs) : IEv → IAbs
  | .add inp => { hist := a.hist ++ [inp], genesis := if a.genesis = 0 then 1 else a.genesis }
  | .prune => { a with genesis := a.genesis + 1 }
  | .deleteLast => { a with hist := a.hist.dropLast }

def IAbs.run (a : IAbs) : List IEv → IAbs
  | [] => a
  | e :: es => (a.step e).run es

/-- block `b` exists, is not pruned, and put `d` under `k` -/
def IAbs.puts (a : IAbs) (k : Key) (b : Nat) (d : Bytes) : Prop :=
  1 ≤ b ∧ a.genesis ≤ b ∧ ∃ inp, a.hist[b - 1]? = some inp ∧ (k, d) ∈ inp

/-- the documented use: each block's keys are distinct (a map) and no block puts a key that a block not yet pruned
already put -/
def WriteOnce (a : IAbs) : List IEv → Prop
  | [] => True
  | .add inp :: es => (inp.map (·.1)).Nodup ∧ (∀ k ∈ inp.map (·.1), ∀ b d, ¬ a.puts k b d) ∧
      WriteOnce (a.step (.add inp)) es
  | e :: es => WriteOnce (a.step e) es

end Verif.Kvbc
