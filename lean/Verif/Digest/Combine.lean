import Verif.Consensus.C01Examples
/-!
# The data signed for a vote: `DigestHolder::calcCombination`

libs/crypto/digest_holder.hpp:81-91.  A prepare, commit or fast-path vote for digest `d` in view `v` at sequence number `s` is a
signature of `calcCombination(d, v, s)` (messages/SignedShareMsgs.cpp:51-58, SeqNumInfo.cpp:104 and 196, ReplicaImp.cpp:1343),
and a prepared certificate in a view-change message is checked against the same data (ViewChangeSafetyLogic.cpp:281-284).
-/
namespace Verif.Digest

/-- A digest: `DIGEST_SIZE` = 32 bytes, read as four 64-bit words (`uint64_t* ptr`), digest_holder.hpp:93. -/
structure Dig where
  w0 : UInt64
  w1 : UInt64
  w2 : UInt64
  w3 : UInt64
deriving DecidableEq, Repr

/-- `ptr[loc] = ptr[loc] ^ x` for `loc < X = 2`, digest_holder.hpp:89-90 -/
def xorAt (d : Dig) (loc : UInt64) (x : UInt64) : Dig :=
  if loc = 0 then { d with w0 := d.w0 ^^^ x } else { d with w1 := d.w1 ^^^ x }

/-- `locationA`, digest_holder.hpp:87; `X = (DIGEST_SIZE / 8) / 2 = 2` -/
def locA (d : Dig) : UInt64 := d.w0 % 2
/-- `locationB`, digest_holder.hpp:88 -/
def locB (d : Dig) : UInt64 := (d.w0 >>> 8) % 2

/-- `calcCombination`, digest_holder.hpp:81-91 -/
def calcCombination (d : Dig) (a b : UInt64) : Dig := xorAt (xorAt d (locA d) a) (locB d) b

/-- `nullDigest(0x18)`, PrePrepareMsg.cpp:29: the digest of the null operation -/
def nullDigest : Dig := ⟨0x1818181818181818, 0x1818181818181818, 0x1818181818181818, 0x1818181818181818⟩

theorem xor_cancel (a x y : UInt64) (h : a ^^^ x = a ^^^ y) : x = y := by
  have := congrArg (a ^^^ ·) h
  simpa [← UInt64.xor_assoc] using this

theorem loc_cases (x : UInt64) : x % 2 = 0 ∨ x % 2 = 1 := by
  have h : (x % 2).toNat < 2 := by
    simp [UInt64.toNat_mod]; omega
  by_cases h0 : (x % 2).toNat = 0
  · left; exact UInt64.toNat.inj h0
  · right; apply UInt64.toNat.inj; show (x % 2).toNat = 1; omega

/-- C10/C01: exactly when do two votes for one digest sign the same data?  If the two locations chosen by the digest differ, only for the
same view and sequence number; if they coincide, whenever view XOR sequence number is the same. -/
theorem combination_eq_iff (d : Dig) (v s v' s' : UInt64) :
    calcCombination d v s = calcCombination d v' s' ↔
      (locA d ≠ locB d ∧ v = v' ∧ s = s') ∨ (locA d = locB d ∧ v ^^^ s = v' ^^^ s') := by
  unfold calcCombination
  rcases loc_cases d.w0 with ha | ha <;> rcases loc_cases (d.w0 >>> 8) with hb | hb <;>
    simp only [locA, locB, ha, hb, xorAt] <;> simp
  · constructor
    · intro h; rw [UInt64.xor_assoc, UInt64.xor_assoc] at h; exact xor_cancel _ _ _ h
    · intro h; rw [UInt64.xor_assoc, UInt64.xor_assoc, h]
  · exact And.comm
  · constructor
    · intro h; rw [UInt64.xor_assoc, UInt64.xor_assoc] at h; exact xor_cancel _ _ _ h
    · intro h; rw [UInt64.xor_assoc, UInt64.xor_assoc, h]

/-- **Finding.** For half of all digests a vote does not fix its view and sequence number: the vote for view 0, number 3
is also the vote for view 2, number 1. -/
theorem vote_moves {d : Dig} (h : locA d = locB d) : calcCombination d 0 3 = calcCombination d 2 1 :=
  (combination_eq_iff d 0 3 2 1).2 (Or.inr ⟨h, by decide⟩)

/-- it is so for the null operation -/
theorem null_vote_moves (v s v' s' : UInt64) (h : v ^^^ s = v' ^^^ s') : calcCombination nullDigest v s = calcCombination nullDigest v' s' :=
  (combination_eq_iff _ _ _ _ _).2 (Or.inr ⟨by decide, h⟩)

/-- for digests with different locations a vote does fix them -/
theorem vote_fixed {d : Dig} (h : locA d ≠ locB d) {v s v' s' : UInt64} (he : calcCombination d v s = calcCombination d v' s') : v = v' ∧ s = s' := by
  rcases (combination_eq_iff d v s v' s').1 he with h1 | h1
  · exact h1.2
  · exact absurd h1.1 h

/-- a digest with different locations exists -/
example : locA ⟨1, 0, 0, 0⟩ ≠ locB ⟨1, 0, 0, 0⟩ := by decide

/-! ## What it does to agreement

The protocol of `Verif.Consensus.Protocol` lets a faulty replica report a valid prepared certificate for `(view, seq, digest)`
only if a quorum signed exactly that triple.  With the code's votes the quorum need only have signed the same *data*. -/

open Concord.Protocol Concord.VC

/-- `dig` gives the 32 bytes behind the digest names of the protocol model -/
def sameVote (dig : Nat → Dig) (d v s v' s' : Nat) : Bool :=
  calcCombination (dig d) (UInt64.ofNat v) (UInt64.ofNat s) == calcCombination (dig d) (UInt64.ofNat v') (UInt64.ofNat s')

/-- a combined prepare signature that verifies for `(v, s, d)` can be made: some triple with the same signed data has a quorum
(`bound` limits the search for the executable run) -/
def prepareVerifies (P : Params) (dig : Nat → Dig) (bound : Nat) (σ : State) (v s d : Nat) : Bool :=
  (List.range bound).any (fun v' => (List.range bound).any (fun s' => sameVote dig d v s v' s' && σ.prepareBacked P v' s' d))

/-- One step of the protocol with the code's votes: as `step?`, but faulty replicas may use any certificate that verifies. -/
def stepVotes (P : Params) (dig : Nat → Dig) (bound : Nat) (σ : State) (a : Action) : Option State :=
  match a with
  | .byzVC m =>
    if !P.honest m.sender && m.elems.all (fun e => match e.cert with
        | some c => !P.cfg.valid c.view e.seq e.digest c.sig || prepareVerifies P dig bound σ c.view e.seq e.digest
        | none => true) then
      some { σ with vcs := m :: σ.vcs }
    else none
  | a => step? P σ a

def runVotes (P : Params) (dig : Nat → Dig) (bound : Nat) : State → List Action → Option State
  | σ, [] => some σ
  | σ, a :: as => match stepVotes P dig bound σ a with | some σ' => runVotes P dig bound σ' as | none => none

/-- four replicas, number 3 is faulty -/
def p4c : Params :=
  { cfg := { F := 1, C := 0, nullDigest := 0, valid := fun _ _ _ sig => sig == 7 },
    honest := fun i => i != 3, timeService := false }

/-- batch 5 has a digest with different locations, batch 6 one with equal locations -/
def digs : Nat → Dig
  | 0 => nullDigest
  | 5 => ⟨1, 0, 0, 0⟩
  | 6 => ⟨2, 0, 0, 0⟩
  | _ => ⟨3, 0, 0, 0⟩

/-- Honest primary 0 orders batch 5 at number 1, 8 at 2 and 6 at 3, all in view 0; 5 is committed at 1 by replica 0.  The prepared
certificate of batch 6 for (view 0, number 3) also verifies for (view 2, number 1), and the faulty replica reports it so. -/
def moved : VCMsg := { sender := 3, newView := 3, lastStable := 0, elems := [⟨1, 6, 2, some ⟨2, 7⟩⟩] }
def own1 : VCMsg := { sender := 1, newView := 3, lastStable := 0, elems := [⟨1, 5, 0, some ⟨0, 7⟩⟩, ⟨3, 6, 0, none⟩] }
def own2 : VCMsg := { sender := 2, newView := 3, lastStable := 0, elems := [⟨1, 5, 0, none⟩, ⟨3, 6, 0, none⟩] }
def badVote : List Action :=
  [ .propose 0 1 5 true true, .accept 1 1 5 true true, .accept 2 1 5 true true,
    .propose 0 2 8 true true, .propose 0 3 6 true true, .accept 1 3 6 true true, .accept 2 3 6 true true,
    .sendPrepare 0 1, .sendPrepare 1 1, .sendPrepare 2 1, .prepareFull 0 1 7, .prepareFull 1 1 7,
    .sendPrepare 0 3, .sendPrepare 1 3, .sendPrepare 2 3,
    .sendCommit 0 1, .sendCommit 1 1, .byzShare ⟨.commit, 0, 1, 5, 3⟩, .commit 0 1,
    .leaveView 1 3, .leaveView 2 3, .byzVC moved,
    .pend 1 [none, some own1, some own2, some moved], .pend 2 [none, some own1, some own2, some moved],
    .enter 1, .enter 2,
    .sendPrepare 1 1, .sendPrepare 2 1, .byzShare ⟨.prepare, 3, 1, 6, 3⟩,
    .prepareFull 1 1 7, .prepareFull 2 1 7,
    .sendCommit 1 1, .sendCommit 2 1, .byzShare ⟨.commit, 3, 1, 6, 3⟩, .commit 1 1 ]

/-- **Finding.** With the code's votes agreement fails: four replicas, one faulty, no time service, a run in which two honest
replicas commit different batches at number 1 (and nothing else goes wrong: all reported stable points are 0). -/
theorem agreement_fails_with_combined_votes : ∃ (σ : State), FewFaulty p4c.cfg p4c.honest ∧
    runVotes p4c digs 4 State.init badVote = some σ ∧ σ.commits = [⟨1, 3, 1, 6⟩, ⟨0, 0, 1, 5⟩] := by
  have h : (runVotes p4c digs 4 State.init badVote).map (·.commits) = some [⟨1, 3, 1, 6⟩, ⟨0, 0, 1, 5⟩] := by decide +kernel
  rw [Option.map_eq_some_iff] at h
  obtain ⟨σ, h1, h2⟩ := h
  exact ⟨σ, by unfold FewFaulty; decide, h1, h2⟩

/-- the same run is impossible when votes name view and number -/
theorem ideal_votes_reject : run p4c State.init badVote = none := by
  have h : (run p4c State.init badVote).isNone = true := by decide +kernel
  cases hr : run p4c State.init badVote with
  | none => rfl
  | some σ => simp [hr] at h

/-- if the locations differ for every digest, a certificate that verifies was signed for that very view and number -/
theorem votes_ideal {P : Params} {dig : Nat → Dig} {bound : Nat} {σ : State} {v s d : Nat} (hd : locA (dig d) ≠ locB (dig d))
    (hb : bound ≤ 2 ^ 64) (hv : v < 2 ^ 64) (hs : s < 2 ^ 64) (h : prepareVerifies P dig bound σ v s d = true) :
    σ.prepareBacked P v s d = true := by
  unfold prepareVerifies at h
  simp only [List.any_eq_true, List.mem_range, Bool.and_eq_true] at h
  obtain ⟨v', hv', s', hs', h1, h2⟩ := h
  unfold sameVote at h1
  have := vote_fixed hd (beq_iff_eq.1 h1)
  have e1 : v = v' := by
    have := congrArg UInt64.toNat this.1
    simpa [UInt64.toNat_ofNat', Nat.mod_eq_of_lt hv, Nat.mod_eq_of_lt (Nat.lt_of_lt_of_le hv' hb)] using this
  have e2 : s = s' := by
    have := congrArg UInt64.toNat this.2
    simpa [UInt64.toNat_ofNat', Nat.mod_eq_of_lt hs, Nat.mod_eq_of_lt (Nat.lt_of_lt_of_le hs' hb)] using this
  rw [e1, e2]; exact h2

end Verif.Digest
