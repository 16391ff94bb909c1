/-
Model of `SimpleMemoryPool`, libs/util/SimpleMemoryPool.hpp:37-107, and of the contexts that the source of a
state transfer takes from it, BCStateTran.cpp:1900-1926, 2246-2253 (and 3145-3146).

Simplifications: an element is a number (the order of the constructor's `make_shared`, 48-51); the callback of
`alloc` is null as in its only use (BCStateTran.cpp:269); the callback of `free` is known by whether it throws
(BCStateTran.cpp:270-281 rethrows what the job of the context threw), and does not call the pool; `n > 0` (46).
-/

set_option linter.unusedSimpArgs false
set_option linter.unusedVariables false

namespace Verif.Pool

/-- What `alloc` and `free` throw (SimpleMemoryPool.hpp:73, 87, 91, and the callback 95). -/
inductive Err where
  | noFree
  | allFree
  | unknown
  | callback
deriving DecidableEq, Repr

/-- SimpleMemoryPool.hpp:102-104: `maxNumElements_`, `freeQ_`, `allocatedQ_`. -/
structure Pool where
  max : Nat
  free : List Nat
  used : List Nat
deriving DecidableEq, Repr

/-- SimpleMemoryPool.hpp:41-52, the constructor. -/
def Pool.init (n : Nat) : Pool := ⟨n, List.range n, []⟩

/-- SimpleMemoryPool.hpp:71-82. -/
def alloc (p : Pool) : Except Err Nat × Pool :=
  match p.free with
  | [] => (.error .noFree, p)
  | e :: r =>
    (.ok e,
      { p with
        free := r
        used := p.used ++ [e] })

/-- SimpleMemoryPool.hpp:85-99; `ok`: the callback returns. -/
def giveBack (e : Nat) (ok : Bool) (p : Pool) : Except Err Unit × Pool :=
  if p.free.length = p.max then (.error .allFree, p)
  else if p.used.contains e then
    if ok then
      (.ok (),
        { p with
          used := p.used.erase e
          free := p.free ++ [e] })
    else (.error .callback, p)
  else (.error .unknown, p)

/-- SimpleMemoryPool.hpp:65-68. -/
def numFree (p : Pool) : Nat := p.free.length
def numUsed (p : Pool) : Nat := p.used.length
def empty (p : Pool) : Bool := p.free.isEmpty
def full (p : Pool) : Bool := p.used.isEmpty

/-- A call. -/
inductive Op where
  | alloc
  | free (e : Nat) (ok : Bool)
deriving DecidableEq, Repr

/-- What the caller sees: it got an element, it gave one back, the call threw. -/
inductive Ev where
  | got (e : Nat)
  | gave (e : Nat)
  | threw (x : Err)
deriving DecidableEq, Repr

def step (p : Pool) : Op → Ev × Pool
  | .alloc =>
    match alloc p with
    | (.ok e, p') => (.got e, p')
    | (.error x, p') => (.threw x, p')
  | .free e ok =>
    match giveBack e ok p with
    | (.ok _, p') => (.gave e, p')
    | (.error x, p') => (.threw x, p')

def run (p : Pool) : List Op → List Ev × Pool
  | [] => ([], p)
  | o :: r => ((step p o).1 :: (run (step p o).2 r).1, (run (step p o).2 r).2)

/-! ### The contexts of a source -/

/-- `ioPool_` and `ioContexts_` (BCStateTran.hpp:575). -/
structure Src where
  pool : Pool
  ctxs : List Nat
deriving DecidableEq, Repr

def Src.init (n : Nat) : Src := ⟨Pool.init n, []⟩

/-- BCStateTran.cpp:1900-1916, `getBlocksConcurrentAsync` for `k` blocks; the number of jobs started. -/
def getBlocks : Nat → Src → Nat × Src
  | 0, s => (0, s)
  | k + 1, s =>
    if empty s.pool then (0, s)
    else
      match alloc s.pool with
      | (.ok e, p) => ((getBlocks k ⟨p, s.ctxs ++ [e]⟩).1 + 1, (getBlocks k ⟨p, s.ctxs ++ [e]⟩).2)
      | (.error _, p) => (0, ⟨p, s.ctxs⟩)

/-- BCStateTran.cpp:2246-2248, 3145-3146: the first context is given back. -/
def finish (ok : Bool) (s : Src) : Except Err Unit × Src :=
  match s.ctxs with
  | [] => (.ok (), s)
  | e :: r =>
    match giveBack e ok s.pool with
    | (.ok _, p) => (.ok (), ⟨p, r⟩)
    | (.error x, p) => (.error x, ⟨p, e :: r⟩)

/-- The loop of `clearIoContexts`, BCStateTran.cpp:1922-1924; `ok e`: the job of context `e` did not throw. -/
def freeAll (ok : Nat → Bool) : List Nat → Pool → Except Err Unit × Pool
  | [], p => (.ok (), p)
  | e :: r, p =>
    match giveBack e (ok e) p with
    | (.ok _, p') => freeAll ok r p'
    | (.error x, p') => (.error x, p')

/-- BCStateTran.cpp:1918-1926, `clearIoContexts`. -/
def clear (ok : Nat → Bool) (s : Src) : Except Err Unit × Src :=
  match freeAll ok s.ctxs s.pool with
  | (.ok _, p) => (.ok (), ⟨p, []⟩)
  | (.error x, p) => (.error x, ⟨p, s.ctxs⟩)

/-- A step of the source. -/
inductive SOp where
  | get (k : Nat)
  | finish
  | clear
deriving DecidableEq, Repr

/-- An execution in which no job throws. -/
def srun (s : Src) : List SOp → Src
  | [] => s
  | .get k :: r => srun (getBlocks k s).2 r
  | .finish :: r => srun (finish true s).2 r
  | .clear :: r => srun (clear (fun _ => true) s).2 r

end Verif.Pool
