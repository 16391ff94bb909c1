/-!
# Primaries, collectors and principal identifiers

bftengine/src/bftengine/ReplicasInfo.{hpp,cpp}.  Identifiers are 16-bit; the model uses natural numbers and every theorem about
identifiers asks for a configuration whose numbers add up to less than 2^15, so that neither `uint16_t` nor the `int16_t` locals overflow.
-/
namespace Verif.Replicas

/-- the part of `ReplicaConfig` used, ReplicasInfo.cpp:57-71 -/
structure Config where
  replicaId : Nat
  numReplicas : Nat
  numRo : Nat
  numProxies : Nat
  numExternal : Nat
  numServices : Nat
  fVal : Nat
  cVal : Nat
  operatorEnabled : Bool
  /-- `dynamicCollectorForPartialProofs` -/
  dynamic : Bool
  /-- `dynamicCollectorForExecutionProofs` -/
  dynamicExec : Bool

/-- `ConcordAssert`, ReplicasInfo.cpp:153 -/
def Config.ok (c : Config) : Bool := c.numReplicas == 3 * c.fVal + 2 * c.cVal + 1

/-- `primaryOfView`, ReplicasInfo.hpp:52 -/
def primaryOfView (c : Config) (view : Nat) : Nat := view % c.numReplicas

/-- "ignore primary", ReplicasInfo.cpp:178-181, 197-205 -/
def skipPrimary (n primary collector : Nat) : Nat :=
  if collector ≥ primary then
    let x := (collector + 1) % n
    if x = primary then (x + 1) % n else x
  else collector

/-- `getCollectorsForPartialProofs`: the output array, ReplicasInfo.cpp:156-216 -/
def collectors (c : Config) (view seq : Nat) : List Nat :=
  if !c.dynamic then [primaryOfView c view]
  else
    let primary := primaryOfView c view
    if c.cVal = 0 then [skipPrimary c.numReplicas primary (seq % c.numReplicas)]
    else
      let half := c.numReplicas / 2
      let collector1 := seq % half
      let collector2 := collector1 + half
      [skipPrimary c.numReplicas primary collector1, skipPrimary c.numReplicas primary collector2]

/-- the returned Boolean of `getCollectorsForPartialProofs(refReplica, ...)` (lines 170, 188, 213) -/
def isCollector (c : Config) (ref view seq : Nat) : Bool :=
  if !c.dynamic then primaryOfView c view == ref
  else
    let primary := primaryOfView c view
    if c.cVal = 0 then skipPrimary c.numReplicas primary (seq % c.numReplicas) == ref
    else
      let half := c.numReplicas / 2
      let collector1 := seq % half
      let collector2 := collector1 + half
      skipPrimary c.numReplicas primary collector1 == ref || skipPrimary c.numReplicas primary collector2 == ref

/-- `getExecutionCollectors`, ReplicasInfo.cpp:225-243 -/
def executionCollectors (c : Config) (view seq : Nat) : List Nat :=
  if !c.dynamicExec then [primaryOfView c view] else collectors c view seq

/-! ## Kinds of principals, ReplicasInfo.hpp:33-51, ReplicasInfo.cpp:64-66, 77-152 -/

/-- `end` of the external clients (line 113) -/
def extEnd (c : Config) : Nat := c.numReplicas + c.numRo + c.numProxies + c.numExternal

def op (c : Config) : Nat := if c.operatorEnabled then 1 else 0

def isReplica (c : Config) (i : Nat) : Bool := decide (i < c.numReplicas)
def isPeerReplica (c : Config) (i : Nat) : Bool := decide (i < c.numReplicas) && i != c.replicaId
def isPeerRo (c : Config) (i : Nat) : Bool := decide (c.numReplicas ≤ i) && decide (i < c.numReplicas + c.numRo) && i != c.replicaId
def isProxy (c : Config) (i : Nat) : Bool :=
  decide (c.numReplicas + c.numRo ≤ i) && decide (i < c.numReplicas + c.numRo + c.numProxies)
/-- lines 110-123: the range without the operator, and always the identifier `end + numOfClientServices - 1` -/
def isExternal (c : Config) (i : Nat) : Bool :=
  (decide (c.numReplicas + c.numRo + c.numProxies ≤ i) && decide (i < extEnd c - op c)) || i == extEnd c + c.numServices - 1
/-- lines 125-136 -/
def isService (c : Config) (i : Nat) : Bool := decide (extEnd c - op c ≤ i) && decide (i < extEnd c - op c + c.numServices)
/-- lines 138-148 -/
def isInternal (c : Config) (i : Nat) : Bool := decide (extEnd c + c.numServices ≤ i) && decide (i < extEnd c + c.numServices + c.numReplicas)
/-- `_maxValidPrincipalId`, `isValidPrincipalId` -/
def isValid (c : Config) (i : Nat) : Bool := decide (i ≤ extEnd c + c.numReplicas + c.numServices - 1)
/-- `_operator_id` -/
def operatorId (c : Config) : Nat := if c.operatorEnabled then extEnd c + c.numServices - 1 else 0

end Verif.Replicas
