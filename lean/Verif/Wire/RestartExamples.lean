import Verif.Wire.RestartTheorems
/-!
# Restart after a stop: examples
-/
set_option maxRecDepth 100000
namespace Verif.Wire.Restarting
open Verif.Bytes Verif.Wire

/-- four replicas, one of which may be faulty; a signature is one byte -/
def e4 (me : Nat) : Env := ⟨4, 1, 0, me, 7, 1000, 16, fun g => g < 4, fun _ => 1, fun g _ s => s == [UInt8.ofNat (g + 1)], fun _ _ => false⟩

/-- replica `g` is ready to restart from the stop at `q` -/
def rdy (g q : Nat) : Msg := ⟨g, Ready.encode ⟨g, q, 7, 1, 0, [], [], [UInt8.ofNat (g + 1)]⟩⟩

/-- replica 0 says that it is ready -/
def own0 : Own := ⟨0, [], [1]⟩

def restarts (l : List Out) : Bool := l.any (fun o => o == .restart 0)
def proofs (l : List Out) : List Bytes := l.filterMap (fun o => match o with | .proof b => some b | _ => none)
def okP (e : Env) (b : Bytes) : Bool := match Proof.validate e ⟨0, b⟩ with | .ok _ => true | .error _ => false

/-- a stop with a quorum: replica 0 reaches it, then hears two others -/
def orderly : List Ev := [.stop 300 (some true), .stable 300 [own0], .ready (rdy 1 300), .ready (rdy 2 300)]

/-- it restarts, and the others accept its proof -/
example : restarts (run (e4 0) init orderly).2 = true ∧ (proofs (run (e4 0) init orderly).2).map (okP (e4 3)) = [true] := by decide +kernel

/-- without the second one it does not -/
example : restarts (run (e4 0) init (orderly.take 3)).2 = false := by decide +kernel

/-- a message twice counts once -/
example : restarts (run (e4 0) init [.stop 300 (some true), .stable 300 [own0], .ready (rdy 1 300), .ready (rdy 1 300)]).2 = false := by decide +kernel

/-- the hypotheses of `restart_when_all_ready`: replica 0 waits, stopped -/
example : Waiting (e4 0) 40 0 (run (e4 0) init (orderly.take 2)).1 :=
  ⟨by decide +kernel, by decide +kernel, by decide +kernel, by decide +kernel, by decide +kernel⟩
example : Short (e4 0) 40 := by unfold Short; decide
example : NoProofs orderly := by intro m h; simp [orderly] at h

/-- **BUG113** the three others are ready before replica 0 is at the stop point -/
def late : List Ev := [.stop 300 (some true), .ready (rdy 1 300), .ready (rdy 2 300), .ready (rdy 3 300)]

/-- it sends a proof itself, and does not restart; it has the state that `bug113_late_replica` is about -/
example : (proofs (run (e4 0) init late).2).length = 1 ∧ restarts (run (e4 0) init late).2 = false ∧
    ((run (e4 0) init late).1.table own0.reason).length = target (e4 0) (run (e4 0) init late).1 ∧
    has (e4 0).me ((run (e4 0) init late).1.table own0.reason) = false ∧ (run (e4 0) init late).1.proofAt own0.reason = 0 ∧
    (run (e4 0) init late).1.stop = 300 := by decide +kernel

/-- **BUG113** all four are ready, nobody is faulty: replica 0 stays where it is -/
theorem bug113_run (evs : List Ev) (hv : ∀ v ∈ evs, v.plain) :
    Out.restart 0 ∉ (run (e4 0) (run (e4 0) init late).1 (.stable 300 [own0] :: evs)).2 := by
  have hs : (run (e4 0) init late).1.stop = 300 := by decide +kernel
  have := bug113_late_replica (e4 0) (run (e4 0) init late).1 own0 (by rw [hs]; decide) (by decide +kernel) (by decide +kernel) (by decide +kernel) evs hv
  rw [hs] at this
  exact this

/-- **BUG114** a stop of all that replica 3 does not reach, unwedged; then another stop, of which replicas 0 and 3 only say that they are ready -/
def stale : List Ev :=
  [.stop 300 (some false), .superStable 300 [own0], .ready (rdy 1 300), .ready (rdy 2 300), .unwedge,
   .stop 600 none, .ready (rdy 3 600), .superStable 600 [own0]]

/-- nobody but replicas 0 and 3 has said anything since the second stop: replica 0 restarts, although all are needed;
and the proofs that it sends, one of them before it is at the stop point, are rejected by the others -/
theorem bug114_stale : restarts (run (e4 0) init stale).2 = true ∧ restarts (run (e4 0) init (stale.take 7)).2 = false ∧
    (run (e4 0) init stale).1.bft = false ∧ (proofs (run (e4 0) init stale).2).map (okP (e4 3)) = [false, false] := by decide +kernel

/-- **BUG112** the hypotheses of `bug112_restart`: stopped, and no message at all -/
example : ∃ body, Out.restart 0 ∈ (step (e4 0) (run (e4 0) init [.stop 300 (some true), .stable 300 []]).1 (.proof ⟨3, body⟩)).2 :=
  bug112_restart (e4 0) _ 3 0 (by decide +kernel) (by decide +kernel) (by decide +kernel) (by decide +kernel) (by decide) (Or.inl rfl) (by decide) (by decide)
    (by decide) (by decide) (by decide)

/-- **BUG115** a replica's message of the greatest size that is transported: 970 bytes follow the signature -/
def long : Msg := ⟨2, (rdy 2 300).body ++ List.replicate 970 0⟩

/-- it is accepted, and it aborts the replica that receives it last -/
theorem bug115_run : long.body.length = 1000 ∧ (run (e4 0) init [.stop 300 (some true), .stable 300 [own0], .ready (rdy 1 300), .ready long]).1.dead = true := by
  decide +kernel

/-- **BUG111** an element of a proof may lead out of the message: the hypotheses of `bug111_oob` -/
example : Proof.loop (e4 0) ⟨3, [] ++ (encF [(2, 30), (4, 0), (2, 1), (8, 300), (8, 7), (2, 1), (1, 0), (2, 65535)] ++ [2])⟩ 300 1 1 0 30 = .error .oob :=
  bug111_oob (e4 0) 3 300 1 0 [] [2] 30 0 1 7 1 0 65535 0 30
    (by simp only [fits_cons]; exact ⟨by decide, by decide, by decide, by decide, by decide, by decide, by decide, by decide, fits_nil⟩) rfl (by decide) (Or.inl rfl) (by decide) (by decide) (by decide)

end Verif.Wire.Restarting
