import Mathlib.Data.List.Basic
/-!
Model of the threshold-signature collector (`/repo/bftengine/src/bftengine/CollectorOfThresholdSignatures.hpp`) and
of the only threshold scheme the code base ships, EdDSA multi-signatures
(`/repo/libs/crypto/src/threshsign/eddsa/EdDSAMultisigVerifier.cpp`).

`D` is the type of digests, `B` the type of 64-byte signatures. Single-signature verification is an arbitrary
predicate (`Scheme.ok`). A combined signature is the list of `SingleEdDSASignature` records in its buffer; buffers
whose length is not a multiple of the record size abort the process (EdDSAMultisigVerifier.cpp 92) and are not
modelled, nor are shares of a wrong length (EdDSAMultisigVerifier.cpp 17).
-/
namespace Concord.Collector

/-- `SingleEdDSASignature` (SingleEdDSASignature.h 21-24): the signer index is part of the bytes sent -/
structure Share (B : Type) where
  id : Nat
  bytes : B
deriving DecidableEq, Repr

/-- `EdDSAMultisigVerifier` (EdDSAMultisigVerifier.h 50-79): signers are numbered `1..n` -/
structure Scheme (B D : Type) where
  n : Nat
  threshold : Nat
  ok : Nat → D → B → Bool

variable {B D : Type}

/-- one iteration of the loop in `EdDSAMultisigVerifier::verify` (EdDSAMultisigVerifier.cpp 102-112) -/
def Scheme.good (v : Scheme B D) (d : D) (s : Share B) : Bool := s.id != 0 && s.id ≤ v.n && v.ok s.id d s.bytes

/-- `EdDSAMultisigVerifier::verify` (EdDSAMultisigVerifier.cpp 88-117). The loop counts valid records; it does not
look at whether two records carry the same signer. -/
def Scheme.verify (v : Scheme B D) (d : D) (sigs : List (Share B)) : Bool :=
  v.threshold ≤ sigs.length && v.threshold ≤ sigs.countP (v.good d)

/-- `EdDSASignatureAccumulator` data members (EdDSAMultisigVerifier.h 34-46) -/
structure Acc (B : Type) where
  sigs : List (Share B) := []
  invalid : List Nat := []

/-- `EdDSASignatureAccumulator::add` (EdDSAMultisigVerifier.cpp 15-40). `none`: with share verification the signer
index `n + 1` passes the range check and `verifiers_[n + 1]` is read out of bounds. -/
def Acc.add (v : Scheme B D) (verification : Bool) (d : D) (a : Acc B) (s : Share B) : Option (Acc B) :=
  if s.id = 0 ∨ v.n + 1 < s.id then some a
  else if verification && v.n < s.id then none
  else
    let inv := if verification && !v.ok s.id d s.bytes then (if a.invalid.elem s.id then a.invalid else a.invalid ++ [s.id])
      else a.invalid
    let sigs := if a.sigs.any (fun x => x.id == s.id) then a.sigs else a.sigs ++ [s]
    some ⟨sigs, inv⟩

/-- adding all shares of a job, in order (CollectorOfThresholdSignatures.hpp 381, 395) -/
def Acc.addAll (v : Scheme B D) (verification : Bool) (d : D) : Acc B → List (Share B) → Option (Acc B)
  | a, [] => some a
  | a, s :: l => (a.add v verification d s).bind (fun a' => addAll v verification d a' l)

/-- what a finished `SignaturesProcessingJob` reports -/
inductive JobResult (B : Type) where
  | combined (sigs : List (Share B))
  | bad (reps : List Nat)

/-- `SignaturesProcessingJob::execute` (CollectorOfThresholdSignatures.hpp 364-411); replica id = signer index - 1 -/
def runJob (v : Scheme B D) (d : D) (shares : List (Share B)) : Option (JobResult B) :=
  (Acc.addAll v false d {} shares).bind fun a1 =>
    if v.verify d a1.sigs then some (.combined a1.sigs)
    else (Acc.addAll v true d {} shares).bind fun a2 =>
      if v.verify d a2.sigs then some (.combined a2.sigs)
      else some (.bad (a2.invalid.map (· - 1)))

/-- `RepInfo` (CollectorOfThresholdSignatures.hpp 501-504) with its key; `share = none` is a null message -/
structure Rep (B : Type) where
  id : Nat
  share : Option (Share B)
  invalid : Bool
deriving DecidableEq, Repr

/-- A job handed to the thread pool -/
inductive Job (B D : Type) where
  | verifyCombined (s v : Nat) (d : D) (sigs : List (Share B))
  | process (s v : Nat) (d : D) (shares : List (Share B))

def Job.seq : Job B D → Nat
  | .verifyCombined s _ _ _ => s
  | .process s _ _ _ => s
def Job.view : Job B D → Nat
  | .verifyCombined _ v _ _ => v
  | .process _ v _ _ => v
def Job.digest : Job B D → D
  | .verifyCombined _ _ d _ => d
  | .process _ _ d _ => d

/-- Data members (CollectorOfThresholdSignatures.hpp 506-517), plus the pending jobs of the thread pool.
`builtFrom` is a ghost: the shares the accepted combined signature was computed from. -/
structure Col (B D : Type) where
  processing : Bool := false
  unknown : Nat := 0
  reps : List (Rep B) := []
  combined : Option (List (Share B)) := none
  cand : Option (List (Share B)) := none
  expected : Option (Nat × Nat × D) := none
  jobs : List (Job B D) := []
  builtFrom : Option (List (Share B)) := none

def live (reps : List (Rep B)) : List (Rep B) := reps.filter (fun r => !r.invalid)

/-- `trySendToBkThread` (CollectorOfThresholdSignatures.hpp 238-285). The iteration order of `unordered_map` is
arbitrary, so `sel` is any choice of `req` non-invalid entries. -/
inductive TrySend (req : Nat) : Col B D → Col B D → Prop
  | idle {c} : c.combined = none → (c.processing = true ∨ c.expected = none) → TrySend req c c
  | cand {c : Col B D} {s v d f} : c.combined = none → c.processing = false → c.expected = some (s, v, d) →
      c.cand = some f →
      TrySend req c { c with processing := true, jobs := c.jobs ++ [.verifyCombined s v d f] }
  | few {c : Col B D} {e} : c.combined = none → c.processing = false → c.expected = some e → c.cand = none →
      c.unknown < req → TrySend req c c
  | sigs {c : Col B D} {s v d} (sel : List (Rep B)) : c.combined = none → c.processing = false →
      c.expected = some (s, v, d) → c.cand = none → req ≤ c.unknown →
      sel ⊆ live c.reps → (sel.map (·.id)).Nodup → sel.length = req →
      TrySend req c { c with processing := true
                             jobs := c.jobs ++ [.process s v d (sel.filterMap (·.share))] }

/-- one round of the loop over `replicasWithBadSigs` (CollectorOfThresholdSignatures.hpp 129-134): `operator[]`
creates a missing entry with a null message -/
def markBad (reps : List (Rep B)) (id : Nat) : List (Rep B) :=
  if reps.any (fun r => r.id == id) then reps.map (fun r => if r.id == id then { r with invalid := true } else r)
  else reps ++ [⟨id, none, true⟩]

/-- The whole loop (129-134) -/
def Col.applyBad (c : Col B D) (bad : List Nat) : Col B D :=
  { c with reps := bad.foldl markBad c.reps, unknown := c.unknown - bad.length }

/-- The job is for the (sequence number, view) the collector expects: the check made in `ReplicaImp` before the
result is delivered (ReplicaImp.cpp 1919-1931 and similar) and the assertions in the handlers (122-125). -/
def Col.expects (c : Col B D) (j : Job B D) : Prop :=
  ∃ d, c.expected = some (j.seq, j.view, d)

/-- `resetContent` (CollectorOfThresholdSignatures.hpp 471-497); pending jobs go on -/
def Col.reset (c : Col B D) : Col B D := { jobs := c.jobs }

/-- One event. Calls that the code answers with `false` without any effect are left out. -/
inductive Step (v : Scheme B D) (req : Nat) : Col B D → Col B D → Prop
  /-- `addMsgWithPartialSignature` (45-60) -/
  | addPartial {c c' : Col B D} (id : Nat) (sh : Share B) : c.combined = none → (∀ r ∈ c.reps, r.id ≠ id) →
      TrySend req { c with reps := c.reps ++ [⟨id, some sh, false⟩], unknown := c.unknown + 1 } c' → Step v req c c'
  /-- `addMsgWithCombinedSignature` (62-71) -/
  | addCombined {c c' : Col B D} (f : List (Share B)) : c.combined = none → c.cand = none →
      TrySend req { c with cand := some f } c' → Step v req c c'
  /-- `setExpected` (73-85). That no job for the same (sequence number, view) is still running is the caller's part:
  a slot is reset only when its sequence number leaves the window or the view ends. -/
  | setExpected {c c' : Col B D} (s w : Nat) (d : D) : s ≠ 0 → c.expected = none → c.processing = false →
      (∀ j ∈ c.jobs, ¬ (j.seq = s ∧ j.view = w)) →
      TrySend req { c with expected := some (s, w, d) } c' → Step v req c c'
  /-- `onCompletionOfCombinedSigVerification` (162-181) -/
  | verified {c c' : Col B D} {s w d f} (pre post : List (Job B D)) :
      c.jobs = pre ++ .verifyCombined s w d f :: post → c.expects (.verifyCombined s w d f) →
      c.processing = true → c.combined = none →
      (v.verify d f = true ∧
          c' = { c with processing := false, combined := c.cand, cand := none, jobs := pre ++ post } ∨
        v.verify d f = false ∧ TrySend req { c with processing := false, cand := none, jobs := pre ++ post } c') →
      Step v req c c'
  /-- `onCompletionOfSignaturesProcessing`, success (139-160) -/
  | built {c : Col B D} {s w d shares f} (pre post : List (Job B D)) :
      c.jobs = pre ++ .process s w d shares :: post → c.expects (.process s w d shares) →
      c.processing = true → c.combined = none →
      runJob v d shares = some (.combined f) →
      Step v req c { c with processing := false, combined := some f, cand := none, jobs := pre ++ post
                            builtFrom := some shares }
  /-- `onCompletionOfSignaturesProcessing`, bad signatures (118-137) -/
  | failed {c c' : Col B D} {s w d shares bad} (pre post : List (Job B D)) :
      c.jobs = pre ++ .process s w d shares :: post → c.expects (.process s w d shares) →
      c.processing = true → c.combined = none →
      runJob v d shares = some (.bad bad) →
      TrySend req (({ c with processing := false, jobs := pre ++ post } : Col B D).applyBad bad) c' → Step v req c c'
  /-- a result that is not expected any more is dropped (ReplicaImp.cpp 1924-1927) -/
  | dropped {c : Col B D} (j : Job B D) (pre post : List (Job B D)) : c.jobs = pre ++ j :: post → ¬ c.expects j →
      Step v req c { c with jobs := pre ++ post }
  /-- `resetAndFree` / `getAndReset` (87-108) -/
  | reset {c : Col B D} : Step v req c c.reset
  /-- `initExpected` (183-191), used on an empty collector when the replica restarts (ReplicaImp.cpp 4060-4210) -/
  | initExpected {c : Col B D} (s w : Nat) (d : D) : s ≠ 0 → c.expected = none → c.processing = false →
      c.combined = none → c.cand = none → c.reps = [] → 0 < req → (∀ j ∈ c.jobs, ¬ (j.seq = s ∧ j.view = w)) →
      Step v req c { c with expected := some (s, w, d) }
  /-- `initMsgWithPartialSignature` (194-218) -/
  | initPartial {c : Col B D} (id : Nat) (sh : Share B) : c.processing = false → c.expected ≠ none →
      c.combined = none → c.cand = none → (∀ r ∈ c.reps, r.id ≠ id) → c.unknown = 0 → 1 < req →
      Step v req c { c with reps := c.reps ++ [⟨id, some sh, false⟩], unknown := 1 }
  /-- `initMsgWithCombinedSignature` (221-235) -/
  | initCombined {c : Col B D} {s w d} (f : List (Share B)) : c.processing = false → c.expected = some (s, w, d) →
      c.combined = none → c.cand = none → v.verify d f = true →
      Step v req c { c with combined := some f }

/-- States of a collector -/
inductive Reach (v : Scheme B D) (req : Nat) : Col B D → Prop
  | init : Reach v req {}
  | step {c c'} : Reach v req c → Step v req c c' → Reach v req c'

end Concord.Collector
