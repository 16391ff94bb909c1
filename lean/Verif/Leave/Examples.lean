import Verif.Leave.Theorems
/-! C46: concrete runs with n = 4, f = 1, c = 0; replica 3 is faulty. -/
set_option maxRecDepth 100000
namespace Concord.Leave.Examples
open Concord.Leave

def cfg : Cfg := ⟨4, 1, 0, fun i => decide (i ≠ 3), false, false⟩
def cfgR : Cfg := { cfg with rotation := true }
def cfgC : Cfg := { cfg with checkSender := true }

theorem few (c : Cfg) (hn : c.n = 4) (hf : c.f = 1) (hh : c.honest = fun i => decide (i ≠ 3)) : FewFaulty c := by
  intro L hn' hL
  have : ∀ x ∈ L, x ∈ [3] := by
    intro x hx
    have := (hL x hx).2
    rw [hh] at this
    simpa using this
  have := Verif.ListU.nodup_subset_length hn' this
  rw [hf]; simpa using this

theorem few_cfg : FewFaulty cfg := few _ rfl rfl rfl
theorem few_cfgR : FewFaulty cfgR := few _ rfl rfl rfl
theorem few_cfgC : FewFaulty cfgC := few _ rfl rfl rfl

theorem reach {c : Cfg} {as : List Act} {σ : Sys} (h : run c Sys.init as = some σ) : Reachable c σ := by
  have : ∀ (as : List Act) {τ σ : Sys}, Reachable c τ → run c τ as = some σ → Reachable c σ := by
    intro as
    induction as with
    | nil => intro τ σ h1 h2; cases h2; exact h1
    | cons a as ih =>
      intro τ σ h1 h2
      simp only [run] at h2
      split at h2
      · next he =>
        obtain ⟨τ', h3, h4⟩ := Option.bind_eq_some_iff.1 h2
        exact ih (.step a h1 he h3) h4
      · cases h2
  exact this as .init h

/-- A regular view change: two replicas time out, everybody moves to view 1 and enters it. -/
def regular : List Act := [
  .requestTimeout 1, .requestTimeout 2, .complaint 1 ⟨2, 0⟩, .complaint 2 ⟨1, 0⟩,
  .vc 0 1 1 [⟨1, 0⟩, ⟨2, 0⟩],
  .vc 0 2 1 [], .vc 1 0 1 [], .vc 1 2 1 [], .vc 2 0 1 [], .vc 2 1 1 [],
  .pend 1, .enter 1, .enter 0, .enter 2]

def check (c : Cfg) (as : List Act) (p : Sys → Bool) : Bool := match run c Sys.init as with | some σ => p σ | none => false

theorem check_some {c : Cfg} {as : List Act} {p : Sys → Bool} (h : check c as p = true) :
    ∃ σ, Reachable c σ ∧ p σ = true := by
  unfold check at h
  split at h
  · next σ e => exact ⟨σ, reach e, h⟩
  · cases h

/-- the run is possible; `left_for_cause`, `active_quorum`, `asked_why` speak about it -/
theorem regular_ok : check cfg regular (fun σ => [0, 1, 2].all (fun i => (σ.rep i).active && (σ.rep i).view == 1)) = true := by
  decide +kernel

example : ∃ σ, Reachable cfg σ ∧ (σ.rep 0).view = 1 ∧ Caused cfg σ.net.log 0 ∧ Signed cfg σ.net 3 1 := by
  obtain ⟨σ, hr, h⟩ := check_some regular_ok
  simp only [List.all_cons, List.all_nil, Bool.and_eq_true, beq_iff_eq] at h
  exact ⟨σ, hr, h.1.2, view_for_cause few_cfg hr (i := 0) (by decide) rfl (by rw [h.1.2]; decide),
    by have := active_quorum few_cfg hr (i := 0) (by decide) rfl h.1.1 (by rw [h.1.2]; decide); rw [h.1.2] at this; exact this⟩

/-- Views below a reached view that nobody timed out in: after the regular change two correct replicas time out in view
1 as well.  Replica 0 jumps there over the complaints for a higher view. -/
def jump : List Act := regular ++ [.requestTimeout 0, .requestTimeout 2, .complaint 2 ⟨0, 1⟩, .restart 1,
  .vc 1 2 2 [⟨0, 1⟩, ⟨2, 1⟩]]
example : check cfg jump (fun σ => (σ.rep 1).view == 2 && (σ.rep 2).view == 2 && (σ.rep 0).view == 1) = true := by decide +kernel

/-- A replica that comes from view 0 jumps to view 2 with f+1 complaints about view 1. -/
def jump2 : List Act := [
  .requestTimeout 1, .requestTimeout 2, .complaint 1 ⟨2, 0⟩, .complaint 2 ⟨1, 0⟩, .forgeVC ⟨3, 1⟩,
  .vc 1 2 1 [], .vc 1 3 1 [], .vc 2 1 1 [], .vc 2 3 1 []]
example : check cfg jump2 (fun σ => (σ.rep 2).view == 1 && (σ.rep 2).agreed == 1) = true := by decide +kernel
def jump3 : List Act := jump2 ++ [.notInCharge 2, .forgeComplaint ⟨3, 1⟩, .complaint 2 ⟨3, 1⟩, .vc 0 2 2 [⟨3, 1⟩, ⟨2, 1⟩]]
example : check cfg jump3 (fun σ => (σ.rep 0).view == 2 && (σ.rep 2).view == 2 && (σ.rep 1).view == 1) = true := by decide +kernel

/-- With f complaints nothing happens, whoever repeats them and however often; a message of a faulty replica for a far
view is not followed. -/
def nothing : List Act := [.forgeComplaint ⟨3, 0⟩, .forgeComplaint ⟨3, 0⟩, .complaint 0 ⟨3, 0⟩, .complaint 0 ⟨3, 0⟩,
  .complaint 1 ⟨3, 0⟩, .forgeVC ⟨3, 7⟩, .vc 0 3 7 [⟨3, 0⟩, ⟨3, 6⟩, ⟨3, 6⟩], .forgeVC ⟨3, 1⟩, .vc 0 3 1 [⟨3, 0⟩, ⟨1, 0⟩, ⟨2, 0⟩]]
theorem nothing_ok : check cfg nothing (fun σ => (σ.rep 0).view == 0 && (σ.rep 1).view == 0 &&
    (σ.net.log == [])) = true := by decide +kernel
/-- `stays` speaks about it -/
example : ∃ σ, Reachable cfg σ ∧ (σ.rep 0).view ≤ 0 := by
  obtain ⟨σ, hr, h⟩ := check_some nothing_ok
  simp only [Bool.and_eq_true, beq_iff_eq] at h
  refine ⟨σ, hr, stays few_cfg hr (u := 0) rfl (fun i why _ => ?_) rfl (i := 0) (by decide) rfl⟩
  rw [h.2]; intro h1; cases h1

/-- **BUG102** Replica 3, which is not the primary, sends a batch with a bad pre-processed result to the others in every
view: they ask to leave the view of a correct primary, and do so.  No timer has run out anywhere. -/
def attack : List Act := [
  .badBatch 0 3 9, .badBatch 1 3 9, .badBatch 2 3 9,
  .complaint 0 ⟨1, 0⟩, .complaint 1 ⟨0, 0⟩, .complaint 2 ⟨1, 0⟩,
  .vc 0 1 1 [], .vc 0 2 1 [], .vc 1 0 1 [], .vc 1 2 1 [], .vc 2 0 1 [], .vc 2 1 1 [], .enter 0, .enter 1, .enter 2,
  .badBatch 0 3 9, .badBatch 1 3 9, .badBatch 2 3 9,
  .complaint 0 ⟨1, 1⟩, .complaint 1 ⟨0, 1⟩, .complaint 2 ⟨1, 1⟩]
theorem bug102_non_primary_changes_view : check cfg attack (fun σ => [0, 1, 2].all (fun i => (σ.rep i).view == 2) &&
    cfg.honest (cfg.primary 0) && cfg.honest (cfg.primary 1) &&
    σ.net.log.all (fun e => match e with | .asked _ _ .requestTimeout | .asked _ _ .primaryNotInCharge | .rotated _ _ => false | _ => true)) = true := by
  decide +kernel

/-- with the sender checked the first step is not possible, and bad batches of the primary still count -/
example : enabled cfgC Sys.init (.badBatch 0 3 9) = false := by decide +kernel
def badPrimary : List Act := [
  .requestTimeout 1, .requestTimeout 2, .complaint 1 ⟨2, 0⟩, .complaint 2 ⟨1, 0⟩, .vc 1 2 1 [], .vc 0 1 1 [], .vc 0 2 1 [],
  .vc 1 0 1 [], .vc 2 0 1 [], .vc 2 1 1 [], .enter 0, .enter 1, .enter 2,
  .requestTimeout 0, .requestTimeout 2, .complaint 0 ⟨2, 1⟩, .complaint 2 ⟨0, 1⟩, .vc 1 0 2 [⟨2, 1⟩, ⟨0, 1⟩],
  .vc 0 1 2 [], .vc 0 2 2 [], .enter 0, .requestTimeout 0, .vc 1 2 2 [], .enter 1, .requestTimeout 1, .complaint 0 ⟨1, 2⟩,
  .badBatch 0 3 3]
theorem badPrimary_ok : check cfgC badPrimary (fun σ => (σ.rep 0).view == 3 && σ.net.log.contains (.asked 0 3 (.badBatch 3)) &&
    decide (0 < 2 ∧ 2 < (σ.rep 0).view)) = true := by decide +kernel
/-- `no_running_ahead` and `bad_batch_primary` speak about it -/
example : ∃ σ, Reachable cfgC σ ∧ CorrectReached cfgC σ.net.log 2 2 := by
  obtain ⟨σ, hr, h⟩ := check_some badPrimary_ok
  simp only [Bool.and_eq_true, beq_iff_eq, decide_eq_true_eq] at h
  exact ⟨σ, hr, no_running_ahead few_cfgC rfl rfl hr (i := 0) (by decide) rfl (by decide) h.2.2 rfl⟩

/-- **BUG103** The rotation timer of replica 1 runs out in view 0 during an execution that ends while state is collected;
replica 1 moves to view 1 with the others and leaves it again at the end of its next execution, because of the flag that
was left from view 0.  Nothing happened in view 1. -/
def stale : List Act := [
  .execStart 1, .rotate 1, .execEnd 1 true, .rotate 0, .rotate 2,
  .vc 1 0 1 [], .vc 1 2 1 [], .vc 0 1 1 [], .vc 0 2 1 [], .vc 2 0 1 [], .vc 2 1 1 [], .enter 0, .enter 1, .enter 2,
  .execStart 1, .execEnd 1 false]
theorem bug103_stale_rotation : check cfgR stale (fun σ => (σ.rep 1).view == 2 && (σ.rep 0).view == 1 &&
    σ.net.log.all (fun e => match e with | .rotated _ v | .asked _ v _ => v == 0 | _ => true)) = true := by decide +kernel
/-- and everybody follows, since replica 1 is the primary of view 1 -/
example : check cfgR (stale ++ [.vc 0 1 2 [], .vc 2 1 2 []]) (fun σ => (σ.rep 0).view == 2 && (σ.rep 2).view == 2) = true := by
  decide +kernel

/-- more than `f` complaints are held only while an execution runs -/
example : check cfg [.forgeComplaint ⟨3, 0⟩, .complaint 1 ⟨3, 0⟩, .execStart 1, .requestTimeout 1]
    (fun σ => (σ.rep 1).compl.length == 2 && (σ.rep 1).view == 0 && (σ.rep 1).shouldTry) = true := by decide +kernel
example : check cfg [.forgeComplaint ⟨3, 0⟩, .complaint 1 ⟨3, 0⟩, .execStart 1, .requestTimeout 1, .execEnd 1 false]
    (fun σ => (σ.rep 1).compl.length == 0 && (σ.rep 1).view == 1) = true := by decide +kernel

/-- **BUG104** An old view-change message, sent again by anybody, replaces the newer one of the same replica. -/
def replaced : List Act := jump3 ++ [.vc 1 2 2 [], .vc 1 2 1 []]
example : check cfg (jump3 ++ [.vc 1 2 2 []]) (fun σ => (σ.rep 1).vcs 2 == some 2) = true := by decide +kernel
theorem bug104_older_replaces_newer : check cfg replaced (fun σ => (σ.rep 1).vcs 2 == some 1) = true := by decide +kernel

end Concord.Leave.Examples
