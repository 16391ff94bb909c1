import Verif.Rp.Model
set_option linter.unusedVariables false
/-!
# What reserved pages and checkpoints mean (C41)

No maps, keys, versions in a database or loops: the current content of the pages, and for every checkpoint an immutable picture of all
pages.
-/
namespace Verif.Rp
open Verif.Bytes Verif.St

/-- the pages of a checkpoint: the checkpoint in which the page was last changed, and its bytes; `none` = never written -/
abbrev Snap := Nat → Option (Nat × Bytes)

/-- what else is kept of a checkpoint: last block, its digest, data of the tree -/
structure Info where
  block : Nat
  digest : Bytes
  rvb : Bytes

structure A where
  /-- what a reader of a page sees -/
  cur : Nat → Option Bytes
  /-- written since the last checkpoint -/
  dirty : Nat → Bool
  snap : Nat → Option (Snap × Info)
  last : Nat
  fetching : Bool

def A.init : A := ⟨fun _ => none, fun _ => false, fun _ => none, 0, false⟩

/-- the pages of the last checkpoint -/
def A.base (a : A) : Snap :=
  match a.snap a.last with
  | some sn => sn.1
  | none => fun _ => none

inductive Op where
  | save (p : Nat) (b : Bytes)
  | zeroPage (p : Nat)
  | ckpt (k block : Nat) (digest rvb : Bytes)
  | collect
  | finish
  /-- pages fetched for the checkpoint `d` arrive as the block `v` -/
  | install (d : Desc) (v : Bytes)
  /-- another replica asks for pages; `mc` is the size of a chunk -/
  | fetch (mc : Nat) (f : Fetch)
  /-- a crash and a new start -/
  | restart
  /-- another module writes to the database -/
  | other (k v : Bytes)

def Op.isInstall : Op → Bool
  | .install .. => true
  | _ => false

/-- what each operation means; `tp k` are the true pages of checkpoint `k`, `acc` says that fetched pages are accepted -/
def A.step (c : Cfg) (tp : Nat → Snap) (acc : Bool) (a : A) : Op → A
  | .save p b => if a.fetching then a else { a with
      cur := fun q => if q = p then some (pad c.pageSize b) else a.cur q
      dirty := fun q => if q = p then true else a.dirty q }
  | .zeroPage p => if a.fetching then a else { a with
      cur := fun q => if q = p then some (List.replicate c.pageSize 0) else a.cur q
      dirty := fun q => if q = p then true else a.dirty q }
  | .ckpt k block digest rvb => if k = a.last then a else { a with
      dirty := fun _ => false
      snap := fun j => if j = k then some ((fun p => if a.dirty p then (a.cur p).map (fun b => (k, b)) else a.base p), ⟨block, digest, rvb⟩) else a.snap j
      last := k }
  | .collect => if a.fetching then a else { a with
      cur := fun p => (a.base p).map (·.2)
      dirty := fun _ => false
      fetching := true }
  | .finish => { a with fetching := false }
  | .install d _ => if acc then { a with
      cur := fun p => (tp d.num p).map (·.2)
      snap := fun j => if j = d.num then some (tp d.num, ⟨d.maxBlock, d.maxDigest, d.rvb⟩) else a.snap j
      last := d.num } else a
  | .fetch .. => a
  | .restart => a
  | .other .. => a

/-- the line of a page in the descriptor of a checkpoint -/
def Snap.line (c : Cfg) (sn : Snap) (p : Nat) : Nat × Nat × Bytes :=
  match sn p with
  | some x => (p, x.1, c.pageH p x.1 x.2)
  | none => (0, 0, zero)

def Snap.lines (c : Cfg) (sn : Snap) : List (Nat × Nat × Bytes) := (List.range c.pages).map (Snap.line c sn)

/-- the digest of the pages of a checkpoint -/
def Snap.digest (c : Cfg) (sn : Snap) : Bytes := c.descH (Snap.lines c sn)

/-- the page if it was changed after checkpoint `known` -/
def Snap.newer (sn : Snap) (known p : Nat) : Option (Nat × Nat × Bytes) :=
  match sn p with
  | some x => if known < x.1 then some (p, x) else none
  | none => none

/-- the pages that were changed after checkpoint `known` -/
def Snap.since (c : Cfg) (sn : Snap) (known : Nat) : List (Nat × Nat × Bytes) := (List.range c.pages).filterMap (Snap.newer sn known)

/-- a page on the wire -/
def wire (c : Cfg) (x : Nat × Nat × Bytes) : Bytes := leEncode 4 x.1 ++ (leEncode 8 x.2.1 ++ (c.pageH x.1 x.2.1 x.2.2 ++ x.2.2))

/-- the block for a replica that has checkpoint `known` -/
def Snap.block (c : Cfg) (sn : Snap) (known : Nat) : Bytes :=
  leEncode 4 (Snap.since c sn known).length ++ (leEncode 8 known ++ ((Snap.since c sn known).map (wire c)).flatten)

/-- pages that can be those of checkpoint `k` -/
def Snap.Wf (c : Cfg) (k : Nat) (sn : Snap) : Prop := ∀ p v b, sn p = some (v, b) → p < c.pages ∧ 0 < v ∧ v ≤ k ∧ b.length = c.pageSize

structure CfgOk (c : Cfg) : Prop where
  pages : c.pages < 2 ^ 32
  size : c.pageSize < 2 ^ 32
  stored : 1 ≤ c.maxStored
  pageLen : ∀ p k b, (c.pageH p k b).length = 32
  pageNz : ∀ p k b, c.pageH p k b ≠ zero
  descLen : ∀ l, (c.descH l).length = 32

/-- the fetched pages are accepted (BCStateTran.cpp:3420-3440) -/
def S.accepts (c : Cfg) (s : S) : Op → Bool
  | .install d v =>
    match checkV c (store s.mem.pages) s.mem.last d.pagesDigest v with
    | .ok (some _) => true
    | _ => false
  | _ => false

/-- `tp` continues what the replica has: a page that was not changed after its last checkpoint is the same there -/
structure Continues (c : Cfg) (a : A) (k : Nat) (sn : Snap) : Prop where
  wf : Snap.Wf c k sn
  below : ∀ p v b, sn p = some (v, b) → v ≤ a.last → a.base p = some (v, b)
  grow : ∀ p, sn p = none → a.base p = none
  same : ∀ x, a.snap k = some x → x.1 = sn

/-- no collision between the block and the true pages -/
def NoCollision (c : Cfg) (sn : Snap) (m : Pages) (last : Nat) (want v : Bytes) : Prop :=
  ∀ es L, checkV c (store m) last want v = .ok (some (es, L)) → (c.descH L = Snap.digest c sn → L = Snap.lines c sn) ∧
    ∀ e ∈ es, ∀ w b, sn e.page = some (w, b) → c.pageH e.page w e.content = c.pageH e.page w b → e.content = b

/-- how the operations are used -/
def Legal (c : Cfg) (tp : Nat → Snap) (s : S) (a : A) : Op → Prop
  | .save p b => p < c.pages ∧ b.length ≤ c.pageSize
  | .zeroPage p => p < c.pages
  | .ckpt k block digest rvb => a.fetching = false ∧ 0 < k ∧ a.last ≤ k ∧ k < 2 ^ 64 ∧ block < 2 ^ 64 ∧ digest.length = 32 ∧ rvb.length < 2 ^ 64
  | .collect => True
  | .finish => True
  | .install d v => a.fetching = true ∧ 0 < d.num ∧ a.last ≤ d.num ∧ d.num < 2 ^ 64 ∧ d.maxBlock < 2 ^ 64 ∧ d.maxDigest.length = 32 ∧ d.rvb.length < 2 ^ 64 ∧
      d.pagesDigest = Snap.digest c (tp d.num) ∧ Continues c a d.num (tp d.num) ∧ NoCollision c (tp d.num) s.mem.pages s.mem.last d.pagesDigest v
  | .fetch _ f => f.known < 2 ^ 64 ∧ f.required < 2 ^ 64 ∧ f.lastKnown < 2 ^ 16
  | .restart => True
  | .other k _ => k.head? ≠ some 1

def S.step (c : Cfg) (s : S) : Op → R S
  | .save p b => s.save c p b
  | .zeroPage p => s.zeroPage c p
  | .ckpt k block digest rvb => s.ckpt c k block digest rvb
  | .collect => .ok s.collect
  | .finish => .ok s.finish
  | .install d v => s.install c d v
  | .fetch mc f => do
    let (s, _) ← s.fetch c mc f
    .ok s
  | .restart => s.restart c
  | .other k v => .ok { s with db := s.db.write (.put k v) }

/-- a new database: nothing of the state transfer in it -/
structure Fresh (db : Db) : Prop where
  inc : Inc Kvbc.keyLt db.kv
  none : ∀ e ∈ db.kv, e.1.head? ≠ some 1
  first : db.first = 0
  last : db.last = 0
  fetching : db.fetching = false

/-- every history: of the code, and of what it means -/
inductive Run (c : Cfg) (tp : Nat → Snap) : List Op → S → A → Prop where
  | init {db : Db} {s : S} : Fresh db → S.start c db = .ok s → Run c tp [] s A.init
  | step {ops : List Op} {s s' : S} {a : A} {op : Op} : Run c tp ops s a → Legal c tp s a op → s.step c op = .ok s' →
      Run c tp (ops ++ [op]) s' (a.step c tp (s.accepts c op) op)

/-- what happens afterwards -/
inductive Steps (c : Cfg) (tp : Nat → Snap) (s : S) (a : A) : S → A → Prop where
  | refl : Steps c tp s a s a
  | step {s' s'' : S} {a' : A} {op : Op} : Steps c tp s a s' a' → Legal c tp s' a' op → s'.step c op = .ok s'' →
      Steps c tp s a s'' (a'.step c tp (s'.accepts c op) op)

/-- number of chunks of a block -/
def chunkCount (mc : Nat) (v : Bytes) : Nat := (v.length + mc - 1) / mc

/-- chunk number `i` of a block, in a batch of which it is the last or not -/
def chunkOf (mc seq : Nat) (v : Bytes) (i : Nat) (last : Bool) : Item := ⟨seq, St.vblock, chunkCount mc v, i, last, 0, (v.drop ((i - 1) * mc)).take mc, true⟩

/-- operations that change neither pages nor checkpoints -/
def Op.passive : Op → Bool
  | .fetch .. => true
  | .restart => true
  | .other .. => true
  | _ => false

end Verif.Rp
