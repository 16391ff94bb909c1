import Verif.Wire.StatusHostile
import Verif.Wire.Examples
/-!
# Reports in a group of four replicas
-/
set_option linter.unusedVariables false
set_option maxRecDepth 100000
namespace Verif.Wire
open Verif.Bytes

/-- a run of `handle` and what it must give -/
def outB (x : H (List Out)) (l : List Out) : Bool := match x with | .ok b => decide (b = l) | .error _ => false
def stopB (x : H (List Out)) (z : Stop) : Bool := match x with | .ok _ => false | .error y => decide (y = z)

/-- replica 1, primary of view 1: stable 300, its PrePrepare messages 301 to 310 and, from before, 291 to 300 -/
def primary1 : Node where
  view := 1
  active := true
  pending := false
  hasNV := true
  stable := 300
  exec := 309
  hasPP := fun q => decide (300 < q) && decide (q ≤ 310)
  selfPP := fun q => decide (300 < q) && decide (q ≤ 310)
  hist := 150
  selfOld := fun q => decide (290 < q) && decide (q ≤ 300)
  vmPP := fun _ => false
  ownVC := true
  newView := true
  vcs := [0, 1, 3]
  complaints := [0, 2]
  ckptLow := 150
  ownCkpt := fun q => decide (q = 150) || decide (q = 300)
  ckpts := [0, 1, 3]
  lacksVC := []
  lacksPP := []

/-- replica 2 in the same view: stable 150, executed 297; it has 299, 301 and 305 -/
def behind2 : Node := { primary1 with
  stable := 150
  exec := 297
  hasPP := fun q => decide (q = 299) || decide (q = 301) || decide (q = 305)
  complaints := [2] }

/-- replica 2, waiting for view changes of view 1 -/
def waiting2 : Node := { primary1 with
  active := false
  hasNV := false
  exec := 300
  complaints := []
  lacksVC := [1, 3] }

/-- replica 2, waiting for PrePrepare messages of view 1 -/
def pending2 : Node := { primary1 with
  active := false
  pending := true
  exec := 300
  complaints := [0]
  lacksPP := [301, 302, 400] }

theorem primary1_wf : primary1.Wf env4 where
  stableMul := by decide
  order := by decide
  stableFits := by decide
  execFits := by decide
  viewFits := by decide
  inView := by decide
  ckptMul := by decide
  ckptLow := by decide
  ckptHigh := by decide
  ownVC := by decide
  ownNV := by decide
  vcsIds := by decide
  complaintIds := by decide
  vcIds := by decide
  ppWindow := by decide

theorem behind2_wf : behind2.Wf env4 where
  stableMul := by decide
  order := by decide
  stableFits := by decide
  execFits := by decide
  viewFits := by decide
  inView := by decide
  ckptMul := by decide
  ckptLow := by decide
  ckptHigh := by decide
  ownVC := by decide
  ownNV := by decide
  vcsIds := by decide
  complaintIds := by decide
  vcIds := by decide
  ppWindow := by decide

theorem waiting2_wf : waiting2.Wf env4 where
  stableMul := by decide
  order := by decide
  stableFits := by decide
  execFits := by decide
  viewFits := by decide
  inView := by decide
  ckptMul := by decide
  ckptLow := by decide
  ckptHigh := by decide
  ownVC := by decide
  ownNV := by decide
  vcsIds := by decide
  complaintIds := by decide
  vcIds := by decide
  ppWindow := by decide

theorem pending2_wf : pending2.Wf env4 where
  stableMul := by decide
  order := by decide
  stableFits := by decide
  execFits := by decide
  viewFits := by decide
  inView := by decide
  ckptMul := by decide
  ckptLow := by decide
  ckptHigh := by decide
  ownVC := by decide
  ownNV := by decide
  vcsIds := by decide
  complaintIds := by decide
  vcIds := by decide
  ppWindow := by decide

/-- the gaps of replica 2, the numbers of the window before, the checkpoint, a complaint -/
example : outB (handle env4 primary1 (behind2.reportMsg env4 2 7 [])) [.ckpt 300 1,
    .prePrepare 302, .prePrepare 303, .prePrepare 304, .prePrepare 306, .prePrepare 307, .prePrepare 308, .prePrepare 309, .prePrepare 310,
    .prePrepare 298, .prePrepare 300, .complaint 0] = true := by decide +kernel
/-- the new-view message and the view changes that replica 2 lacks -/
example : outB (handle env4 primary1 (waiting2.reportMsg env4 2 7 [9])) [.ckpt 300 1, .newView, .viewChange 1, .viewChange 3,
    .complaint 0, .complaint 2] = true := by decide +kernel
/-- the PrePrepare messages that it lacks and the primary has: not 400 -/
example : outB (handle env4 primary1 (pending2.reportMsg env4 2 7 [])) [.ckpt 300 1, .prePrepare 301, .prePrepare 302,
    .complaint 2] = true := by decide +kernel

/-- the theorems apply to them -/
example (outs : List Out) (h : handle env4 primary1 (behind2.reportMsg env4 2 7 []) = .ok outs) : .prePrepare 303 ∈ outs :=
  ((primary_fills_gaps primary1_wf behind2_wf (by decide) (by decide) (by decide) (by decide) h rfl rfl rfl (by decide) 303
    (by decide) (by decide) (by decide) (by decide)).resolve_left (by decide)).resolve_left (by decide)
example (outs : List Out) (h : handle env4 primary1 (behind2.reportMsg env4 2 7 []) = .ok outs) : .ckpt 300 1 ∈ outs :=
  behind_gets_checkpoint primary1_wf behind2_wf (by decide) (by decide) (by decide) (by decide) h (by decide) (by decide) (by decide)
example (outs : List Out) (h : handle env4 primary1 (waiting2.reportMsg env4 2 7 []) = .ok outs) : .viewChange 3 ∈ outs :=
  (waiting_gets_viewChanges primary1_wf waiting2_wf (by decide) (by decide) (by decide) (by decide) h rfl rfl rfl (by decide) 3
    (by decide)).resolve_left (by decide)

/-- a replica in the first view -/
def first3 : Node := { primary1 with
  view := 0
  stable := 0
  exec := 0
  ckptLow := 0
  ownVC := false
  newView := false
  vcs := []
  hist := 0 }
def env4' : Env := { env4 with me := 3 }

theorem first3_wf : first3.Wf env4' where
  stableMul := by decide
  order := by decide
  stableFits := by decide
  execFits := by decide
  viewFits := by decide
  inView := by decide
  ckptMul := by decide
  ckptLow := by decide
  ckptHigh := by decide
  ownVC := by decide
  ownNV := by decide
  vcsIds := by decide
  complaintIds := by decide
  vcIds := by decide
  ppWindow := by decide

/-- **BUG116**, **BUG117**, **BUG118** -/
example : stopB (handle env4 primary1 (bare env4 2 ⟨1, 300, 300, 0, 3⟩)) (.wire .abort) = true := by decide +kernel
example : stopB (handle env4' first3 (bare env4' 2 ⟨18446744073709551615, 0, 0, 0, 3⟩)) (.wire .abort) = true := by decide +kernel
example : stopB (handle env4' first3 (bare env4' 2 ⟨0, 9223372036854775800, 9223372036854775800, 0, 3⟩)) .overflow = true := by decide +kernel
example : ∃ z, handle env4' first3 (bare env4' 2 ⟨18446744073709551615, 0, 0, 0, 3⟩) = .error z :=
  bug117_negative_view first3_wf rfl rfl (by decide) (by decide)

end Verif.Wire
