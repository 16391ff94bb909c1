/-
Model of the reserved pages of the components: `ResPagesClient`, bftengine/include/bftengine/
ReservedPagesClient.hpp:33-145, the sizes set in bftengine/src/bftengine/ReplicaForStateTransfer.cpp:50-63, and
the pages kept by state transfer (`BCStateTran::{load,save,zero}ReservedPage`,
bftengine/src/bcstatetransfer/BCStateTran.cpp:687-759), as one process sees them.

Simplifications.  A component is a number: its place in the order of `std::type_index`, which the standard leaves
open.  What the store of the state transfer does with a page (checkpoints, database) is C41; here a page is its
last content.  Saving during a state transfer, which is ignored (BCStateTran.cpp:724-727), is left out; what a
finished transfer does is the operation `transfer`.  `none` as the result of an operation is a process that ended
(`std::terminate`, a failed `ConcordAssert`).
-/
import Verif.Rp.OMap

set_option linter.unusedSimpArgs false
set_option linter.unusedVariables false

namespace Verif.Layout

abbrev Bytes := List UInt8

/-- `uint32_t` arithmetic. -/
def u32 (n : Nat) : Nat := n % 4294967296

/-- `natural order` of the registry, a `std::map<std::type_index, uint32_t>`: ReservedPagesClient.hpp:45. -/
def lt (a b : Nat) : Bool := decide (a < b)

/-- The process: `registry_` (ReservedPagesClient.hpp:47-50), the function-local `offset_` of each component
(ReservedPagesClient.hpp:123-126; `none` is not yet computed), `numberOfReservedPages_` of the state transfer
(0 before `init`) and its pages. -/
structure St where
  reg : List (Nat × Nat)
  cache : Nat → Option Nat
  total : Nat
  pages : Nat → Option Bytes

def St.init : St := ⟨[], fun _ => none, 0, fun _ => none⟩

/-- `totalNumberOfPages`: ReservedPagesClient.hpp:35-40. -/
def totalPages (reg : List (Nat × Nat)) : Nat := reg.foldl (fun a e => u32 (a + e.2)) 0

/-- `calc_my_offset`: ReservedPagesClient.hpp:129-141; `none` is `std::terminate`. -/
def place (t : Nat) : List (Nat × Nat) → Nat → Option Nat
  | [], _ => none
  | e :: r, off => if e.1 = t then some off else place t r (u32 (off + e.2))

/-- `my_offset`: ReservedPagesClient.hpp:123-126: computed at the first call, then kept. -/
def offset (t : Nat) (s : St) : Option (Nat × St) :=
  match s.cache t with
  | some o => some (o, s)
  | none =>
    match place t s.reg 0 with
    | none => none
    | some o => some (o, { s with cache := fun t' => if t' = t then some o else s.cache t' })

inductive Op
  /-- `registerT`, at static initialisation: ReservedPagesClient.hpp:65-76. -/
  | register (t n : Nat)
  /-- `setNumResPages`: ReservedPagesClient.hpp:81-90. -/
  | setNum (t n : Nat)
  /-- `stateTransfer->init(.., totalNumberOfPages(), ..)`: ReplicaForStateTransfer.cpp:60-63; BCStateTran.cpp
  `init` keeps the number. -/
  | start
  | load (t page len : Nat)
  | save (t page : Nat) (b : Bytes)
  | zero (t page : Nat)
  /-- A finished state transfer: the pages are those of another replica. -/
  | transfer (pages : Nat → Option Bytes)

/-- The content of a page after `setPendingResPage` of shorter bytes (InMemoryDataStore.cpp:153-171). -/
def pad (size : Nat) (b : Bytes) : Bytes := b ++ List.replicate (size - b.length) 0

/-- One operation with what `loadReservedPage` gave (ReservedPagesClient.hpp:104-116, BCStateTran.cpp:687-759). -/
def step (size : Nat) (s : St) : Op → Option (Option Bytes × St)
  | .register t n =>
    match Rp.get t s.reg with
    | some _ => none
    | none => some (none, { s with reg := Rp.put lt t n s.reg })
  | .setNum t n =>
    match Rp.get t s.reg with
    | some _ => some (none, { s with reg := Rp.put lt t n s.reg })
    | none => none
  | .start => some (none, { s with total := totalPages s.reg })
  | .load t page len =>
    match offset t s with
    | none => none
    | some (o, s) =>
      if u32 (o + page) < s.total then
        if len ≤ size then some ((s.pages (u32 (o + page))).map (List.take len), s) else none
      else none
  | .save t page b =>
    match offset t s with
    | none => none
    | some (o, s) =>
      if u32 (o + page) < s.total then
        if b.length ≤ size then
          some (none, { s with pages := fun p => if p = u32 (o + page) then some (pad size b) else s.pages p })
        else none
      else none
  | .zero t page =>
    match offset t s with
    | none => none
    | some (o, s) =>
      if u32 (o + page) < s.total then
        some (none, { s with pages := fun p => if p = u32 (o + page) then some (List.replicate size 0) else s.pages p })
      else none
  | .transfer pages => some (none, { s with pages := pages })

/-- A process: the answers to all operations, and the state. -/
def run (size : Nat) : List Op → St → Option (List (Option Bytes) × St)
  | [], s => some ([], s)
  | o :: r, s =>
    match step size s o with
    | none => none
    | some (a, s) =>
      match run size r s with
      | none => none
      | some (as, s) => some (a :: as, s)

/-- `ClientsManager::setNumResPages(..)`, `ClusterKeyStore::setNumResPages(..)`: ReplicaForStateTransfer.cpp:51-58,
for the components `cm` and `ks`. -/
def sizes (cm ks numReplicas numRo numProxies numExternal numServices perClient : Nat) : List Op :=
  [.setNum cm (u32 (u32 (numReplicas + numRo + numProxies + numExternal + numReplicas + numServices) * perClient)),
   .setNum ks numReplicas]

end Verif.Layout
