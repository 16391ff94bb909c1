/-!
# LRU cache

libs/util/lru_cache.hpp.  `map_` is modelled as an association list with one pair per key; the list iterator stored with each value is
modelled by the key itself (iterators of `std::list` stay valid under `splice`, `push_front` and erasure of other elements, and a key
occurs in `keys_` at most once, which is proved).  Capacity 0 makes `keys_.back()` undefined (line 88): outcome `none`.
-/
namespace Verif.Lru

variable {K V : Type} [DecidableEq K]

/-- `LruCache`, lru_cache.hpp:70-74 (statistics as counters) -/
structure Cache (K V : Type) where
  capacity : Nat
  keys : List K
  map : List (K × V)
  hits : Nat
  misses : Nat
  puts : Nat

/-- lru_cache.hpp:27 -/
def new (capacity : Nat) : Cache K V := ⟨capacity, [], [], 0, 0, 0⟩

/-- `map_.find` -/
def find (m : List (K × V)) (k : K) : Option V := (m.find? (fun p => p.1 = k)).map (·.2)

/-- `moveToFront`, lru_cache.hpp:76 -/
def moveToFront (keys : List K) (k : K) : List K := k :: keys.erase k

/-- `map_.erase(key)` -/
def eraseKey (m : List (K × V)) (k : K) : List (K × V) := m.filter (fun p => p.1 ≠ k)

/-- assignment to the value of a found entry, lru_cache.hpp:84 -/
def setVal (m : List (K × V)) (k : K) (v : V) : List (K × V) := m.map (fun p => if p.1 = k then (k, v) else p)

/-- `get`, lru_cache.hpp:34-44 -/
def get (c : Cache K V) (k : K) : Option V × Cache K V :=
  match find c.map k with
  | none => (none, { c with misses := c.misses + 1 })
  | some v => (some v, { c with hits := c.hits + 1, keys := moveToFront c.keys k })

/-- `putImp`, lru_cache.hpp:78-94; `none`: undefined behaviour (`back` of an empty list) -/
def put (c : Cache K V) (k : K) (v : V) : Option (Cache K V) :=
  let c := { c with puts := c.puts + 1 }
  match find c.map k with
  | some _ => some { c with keys := moveToFront c.keys k, map := setVal c.map k v }
  | none =>
    if c.keys.length = c.capacity then
      match c.keys.getLast? with
      | none => none
      | some last => some { c with keys := k :: c.keys.dropLast, map := (k, v) :: eraseKey c.map last }
    else some { c with keys := k :: c.keys, map := (k, v) :: c.map }

/-- `clear`, lru_cache.hpp:61-65 -/
def clear (c : Cache K V) : Cache K V := { c with keys := [], map := [], hits := 0, misses := 0, puts := 0 }

/-- `size`, lru_cache.hpp:46-49; `none`: the assertion fails -/
def size (c : Cache K V) : Option Nat := if c.map.length = c.keys.length then some c.keys.length else none

/-- the calls a user can make -/
inductive Op (K V : Type) where
  | put (k : K) (v : V)
  | get (k : K)
  | clear

/-- one call -/
def step (c : Cache K V) : Op K V → Option (Cache K V)
  | .put k v => put c k v
  | .get k => some (get c k).2
  | .clear => some (clear c)

/-- a history of calls -/
def run (c : Cache K V) : List (Op K V) → Option (Cache K V)
  | [] => some c
  | o :: os => match step c o with | none => none | some c' => run c' os

end Verif.Lru
