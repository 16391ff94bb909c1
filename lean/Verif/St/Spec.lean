import Verif.St.Model
set_option linter.unusedVariables false
/-!
# State transfer: specification (C35)

What may stand in the log of a replica, entry by entry, as a function of the messages received and of the entries before.
-/
namespace Verif.St
open Verif.Bytes

/-- what was done since a checkpoint was last chosen, that choice first -/
def cycle (l : List Out) : List Out := l.foldl (fun a x => match x with
  | .adopt .. => [x]
  | _ => a ++ [x]) []

/-- `f + 1` different other replicas reported exactly this checkpoint -/
def Vouched (c : Cfg) (evs : List Ev) (d : Desc) : Prop :=
  ∃ ids : List Nat, ids.Nodup ∧ c.f + 1 ≤ ids.length ∧ ∀ r ∈ ids, r < c.n ∧ r ≠ c.self ∧ ∃ m reach o cut, Ev.summary r m reach o cut ∈ evs ∧ m.desc = d

/-- these digests belong to the blocks of one group of the tree that came with the checkpoint, to all of them, and give the value of
the group -/
def GroupOk (c : Cfg) (d : Desc) (ds : List (Nat × Bytes)) : Prop :=
  d.rvb ≠ [] ∧ ∃ T g t, c.parse d.rvb = some T ∧ ds ≠ [] ∧ (∀ e ∈ ds, T.groupIds c.P e.1 e.1 true = some [g]) ∧ ds.map (·.1) = T.rvbIds c.P g ∧
    Rvt.Tree.empty.run c.P (ds.map (fun e => .add e.1 e.2)) = some t ∧ t.rootValue = T.groupValue c.P ((ds.head?.map (·.1)).getD 0)

/-- block `i` with content `b` is bound to the checkpoint `d` by digests: its digest is among accepted digests of a group, or is the
digest of the last block in the checkpoint, or stands in the block above, which is bound itself -/
inductive Chains (c : Cfg) (d : Desc) (l : List Out) : Nat → Bytes → Prop where
  | group {i : Nat} {b : Bytes} {ds : List (Nat × Bytes)} : Out.digests ds ∈ l → GroupOk c d ds → (i, c.H i b) ∈ ds → Chains c d l i b
  | top {i : Nat} {b : Bytes} : i = d.maxBlock → c.H i b = d.maxDigest → Chains c d l i b
  | link {i : Nat} {b b' : Bytes} : Out.put (i + 1) b' ∈ l → Chains c d l (i + 1) b' → c.prev b' = c.H i b → Chains c d l i b

/-- the block is written, or the storage said after a restart that it has it -/
def Settled (l : List Out) (j : Nat) : Prop := Out.done j ∈ l ∨ ∃ r, Out.restart r ∈ l ∧ j ≤ r

/-- when an entry may follow others -/
def Ok (c : Cfg) (evs : List Ev) (l : List Out) : Out → Prop
  | .adopt d reach => Vouched c evs d
  | .digests ds => ∃ d r, (cycle l).head? = some (.adopt d r) ∧ GroupOk c d ds
  | .put i b => ∃ d r, (cycle l).head? = some (.adopt d r) ∧ r < i ∧ i ≤ d.maxBlock ∧ Chains c d (cycle l) i b
  | .done i => ∃ b, Out.put i b ∈ cycle l
  | .complete d before lines after => (∃ r, (cycle l).head? = some (.adopt d r) ∧ ∀ j, r < j → j ≤ d.maxBlock → Settled (cycle l) j) ∧
      (c.resPages = true → c.descH lines = d.pagesDigest)
  | .restart reach => True

def Good (c : Cfg) (evs : List Ev) (log : List Out) : Prop := ∀ pre x post, log = pre ++ x :: post → Ok c evs pre x

/-! ## Against the blocks and pages of the correct replicas -/

/-- the digests of the blocks `blk` at the multiples of the fetch range -/
def digestAt (c : Cfg) (blk : Nat → Bytes) (i : Nat) : Bytes := c.H i (blk i)

/-- what a correct replica reports: the digest of the true last block, and a tree over the digests of true blocks -/
structure TrueDesc (c : Cfg) (blk : Nat → Bytes) (d : Desc) : Prop where
  top : d.maxDigest = c.H d.maxBlock (blk d.maxBlock)
  tree : d.rvb ≠ [] → ∃ w t, Rvt.Win.nil.run c.fetch (Rvt.Win.build c.fetch w) = some w ∧ Rvt.Tree.empty.run c.P (Rvt.Win.build c.fetch w) = some t ∧ c.parse d.rvb = some t ∧
    w.data ≠ [] ∧ w.data = (List.range' w.first w.data.length).map (fun k => digestAt c blk (k * c.fetch))

/-- a block that differs from the true one and has its digest -/
def BlockCollision (c : Cfg) (blk : Nat → Bytes) (log : List Out) : Prop :=
  ∃ i b, Out.put i b ∈ log ∧ b ≠ blk i ∧ c.H i b = c.H i (blk i)

/-- digests of a group, not all of them the true ones, with the sum of the true ones -/
def SumCollision (c : Cfg) (blk : Nat → Bytes) (log : List Out) : Prop :=
  ∃ ds, Out.digests ds ∈ log ∧ (∃ e ∈ ds, e.2 ≠ digestAt c blk e.1) ∧
    (ds.map (fun e => c.P.leaf (e.1 / c.fetch) e.2)).sum % c.P.M = (ds.map (fun e => c.P.leaf (e.1 / c.fetch) (digestAt c blk e.1))).sum % c.P.M

end Verif.St
