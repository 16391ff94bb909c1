import Verif.Wire.Status
/-!
# Messages of a group of four replicas
-/
set_option linter.unusedVariables false
set_option maxRecDepth 100000
namespace Verif.Wire
open Verif.Bytes

/-- four replicas, this is number 1, signatures are two bytes: the signer and the sum of the data -/
def env4 : Env where
  n := 4
  f := 1
  c := 0
  me := 1
  epoch := 7
  maxSize := 1000
  maxReplicas := 128
  known := fun g => decide (g < 4)
  sigLen := fun _ => 2
  verify := fun g d s => decide (s = [UInt8.ofNat g, d.foldl (· + ·) 0])
  collector := fun _ _ => true

def okB {α : Type} [DecidableEq α] (x : R α) (a : α) : Bool := match x with | .ok b => decide (b = a) | .error _ => false
theorem of_okB {α : Type} [DecidableEq α] {x : R α} {a : α} (h : okB x a = true) : x = .ok a := by
  unfold okB at h
  split at h
  · rw [of_decide_eq_true h]
  · cases h

def errB {α : Type} (x : R α) (r : Err) : Bool := match x with | .ok _ => false | .error s => decide (s = r)

def ack1 : Ack := ⟨0, 5, 0, 7, 99⟩
example : okB (Ack.receive env4 ⟨2, ack1.encode⟩) ack1 = true := by decide +kernel
example : errB (Ack.receive env4 ⟨1, ack1.encode⟩) .reject = true := by decide +kernel
example : errB (Ack.receive env4 ⟨2, ack1.encode.take 37⟩) .reject = true := by decide +kernel

def slow1 : Slow := ⟨2, 5, 7, [1, 2, 3]⟩
example : okB (Slow.receive env4 ⟨2, slow1.encode⟩) slow1 = true := by decide +kernel
example : errB (Slow.receive env4 ⟨3, slow1.encode⟩) .reject = true := by decide +kernel
example : errB (Slow.receive env4 ⟨2, slow1.encode.dropLast⟩) .reject = true := by decide +kernel

def miss1 : Missing := ⟨2, 5, 7, 3, [9]⟩
example : okB (Missing.receive env4 ⟨2, miss1.encode⟩) miss1 = true := by decide +kernel

def share1 : Share := ⟨1, 5, 7, [9], [4, 5, 6]⟩
example : okB (Share.receivePartial env4 codePreparePartial ⟨2, share1.encode codePreparePartial⟩) share1 = true := by decide +kernel
example : okB (Share.receiveFull env4 codeCommitFull ⟨2, share1.encode codeCommitFull⟩) share1 = true := by decide +kernel
example : okB (FullProof.receive env4 ⟨2, FullProof.encode share1⟩) share1 = true := by decide +kernel

def pp1 : PartialProof := ⟨1, 5, 7, 0, [9], [4, 5, 6]⟩
example : okB (PartialProof.receive env4 ⟨2, pp1.encode⟩) pp1 = true := by decide +kernel
example : errB (PartialProof.receive env4 ⟨2, PartialProof.encode { pp1 with path := 1 }⟩) .reject = true := by decide +kernel

/-- a checkpoint with its signature -/
def ckpt0 : Ckpt := ⟨300, 7, 2, 11, 12, 13, 3, 0, [9, 9], []⟩
def ckpt1 : Ckpt := { ckpt0 with sig := [3, ckpt0.signed.foldl (· + ·) 0] }
example : okB (Ckpt.receive env4 ⟨2, ckpt1.encode⟩) ckpt1 = true := by decide +kernel
example : errB (Ckpt.receive env4 ⟨2, Ckpt.encode { ckpt1 with seq := 450 }⟩) .reject = true := by decide +kernel
/-- a message that claims to be its receiver's fails an assertion -/
example : errB (Ckpt.receive env4 ⟨1, ckpt1.encode⟩) .abort = true := by decide +kernel

def leave0 : Leave := ⟨3, 2, 7, 1, 2, [9, 9], []⟩
def leave1 : Leave := { leave0 with sig := [3, leave0.signed.foldl (· + ·) 0] }
example : okB (Leave.receive env4 ⟨2, leave1.encode⟩) leave1 = true := by decide +kernel
example : errB (Leave.receive env4 ⟨2, Leave.encode { leave1 with view := 3 }⟩) .reject = true := by decide +kernel

def ready0 : Ready := ⟨3, 300, 7, 2, 1, [9, 9], [5, 6, 7], []⟩
def ready1 : Ready := { ready0 with sig := [3, ready0.signed.foldl (· + ·) 0] }
example : okB (Ready.receive env4 ⟨2, ready1.encode⟩) ready1 = true := by decide +kernel
example : errB (Ready.receive env4 ⟨2, Ready.encode { ready1 with extra := [5, 6, 8] }⟩) .reject = true := by decide +kernel
/-- **BUG109**: any message of 6 to 28 bytes of this type -/
example : errB (Ready.receive env4 ⟨2, ready1.encode.take 6⟩) .oob = true := by decide +kernel

def nv1 : NewView := ⟨2, 7, [9], [(0, 5), (1, 6), (3, 8)]⟩
example : okB (NewView.receive env4 ⟨2, nv1.encode⟩) nv1 = true := by decide +kernel
example : errB (NewView.receive env4 ⟨2, NewView.encode { nv1 with elems := [(0, 5), (3, 8), (1, 6)] }⟩) .reject = true := by decide +kernel
/-- **BUG110**: 24 bytes; the span context size 65410 makes the size of the content 65536, that is 0 -/
def nvBad : Bytes := encF [(2, codeNewView), (4, 65410), (8, 2), (8, 7), (2, 3)]
example : errB (NewView.receive env4 ⟨2, nvBad⟩) .oob = true := by decide +kernel
example : onNewMessage env4 ⟨2, nvBad⟩ = true := by decide +kernel

/-- the hypotheses of `NewView.receive_iff` hold of the message above -/
theorem nv1_noWrap : NewView.noWrap env4 ⟨2, nv1.encode⟩ := by
  refine ⟨by decide, ?_⟩
  intro sp h
  have h2 : (⟨2, nv1.encode⟩ : Msg).span = .ok 1 := of_okB (by decide +kernel)
  rw [h2] at h
  cases h
  decide

/-- an active view with PrePrepare messages: 301 and 309 of the window, a complaint about replica 3 -/
def st1 : Status := ⟨2, 300, 301, 7, 7⟩
def st1Bytes : Bytes := st1.encode [9] (lists env4 (st1.listSize env4) [3] ([301, 309].map (place st1.stable)))
def st1Msg : Msg := ⟨2, st1Bytes⟩
example : okB (Status.receive env4 st1Msg) st1 = true := by decide +kernel
example : okB (isPrePrepareInWindow env4 st1Msg 309) true = true := by decide +kernel
example : okB (isPrePrepareInWindow env4 st1Msg 310) false = true := by decide +kernel
example : okB (hasComplaint env4 st1Msg 3) true = true := by decide +kernel
example : okB (hasComplaint env4 st1Msg 2) false = true := by decide +kernel
example : errB (Status.receive env4 ⟨2, st1Bytes ++ [0]⟩) .reject = true := by decide +kernel

/-- the hypotheses of the theorems on lists hold of it -/
theorem st1_valid : st1.Valid env4 2 where
  other := by decide
  replica := by decide
  multiple := by decide
  order := by decide
  newView := by decide
  activeVCs := by decide
  activeMissing := by decide
  inactivePPs := by decide
  oneList := by decide
  fits := by
    intro p hp
    have : p = (2, 115) ∨ p = (4, 0) ∨ p = (8, 2) ∨ p = (8, 300) ∨ p = (8, 301) ∨ p = (8, 7) ∨ p = (1, 7) := by
      simpa [hdr, Status.fields, st1, codeReplicaStatus] using hp
    rcases this with rfl | rfl | rfl | rfl | rfl | rfl | rfl <;> simp

/-- **BUG116**: an active view without the list of PrePrepare messages is accepted, and the list is not there to be asked -/
def st2 : Status := ⟨2, 300, 301, 7, 3⟩
def st2Msg : Msg := ⟨2, st2.encode [] (lists env4 (st2.listSize env4) [] [])⟩
example : okB (Status.receive env4 st2Msg) st2 = true := by decide +kernel
example : errB (isPrePrepareInWindow env4 st2Msg 309) .abort = true := by decide +kernel

end Verif.Wire
