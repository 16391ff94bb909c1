/-
Cases that meet the hypotheses of the theorems on ticks (C56).
-/
import Verif.Ticks.Throttle
import Verif.Ticks.Timing

set_option linter.unusedSimpArgs false
set_option linter.unusedVariables false

namespace Verif.Ticks

def free : Nat → Bool := fun _ => false

/-- component 4 ticks three times; the second time its request (number 10) is pending -/
def three : List Op :=
  [.tick 4, .turn 10 free, .tick 4, .turn 11 free, .turn 12 free, .tick 4, .turn 13 (fun q => q == 10),
    .tick 4, .tick 5, .turn 14 free, .turn 15 free, .turn 16 free, .turn 17 free]

theorem three_run : (run State.init three).1 =
    [.asked 4 10 true, .gave 4 10, .asked 4 14 true, .asked 5 15 true, .gave 4 14, .gave 5 15] := by
  decide +kernel

/-- `requests_alternate` for the two requests of component 4 -/
example : ∃ q, Ev.gave 4 q ∈ [Ev.gave 4 10] :=
  requests_alternate (ops := three) (a := []) (q1 := 10) (q2 := 14) (b1 := true) (b2 := true)
    (z := [.asked 5 15 true, .gave 4 14, .gave 5 15]) (s := (run State.init three).2) (Prod.ext three_run rfl) rfl

/-- `asks_iff`: an internal tick comes while the request 10 is in the queue (it is not asked again), and after
it was given to the replica (it is asked exactly if it is not pending) -/
example : (Inbox.dispatch (run State.init (three.take 3)).2.inbox).1 = some (.internal 4) ∧
    Spec.waiting 4 (run State.init (three.take 3)).1 = true ∧
    (Inbox.dispatch (run State.init (three.take 6)).2.inbox).1 = some (.internal 4) ∧
    Spec.waiting 4 (run State.init (three.take 6)).1 = false ∧
    Spec.lastAsked 4 (run State.init (three.take 6)).1 = some 10 := by
  decide +kernel

/-- two requests in the queue, of two components -/
example : inQueueOf 4 (run State.init (three.take 11)).2 = 1 ∧ inQueueOf 5 (run State.init (three.take 11)).2 = 1 := by
  decide +kernel

theorem run_others (n : Nat) : ∀ (s : State), s.inbox.pe.length + n ≤ 20000 →
    run s (List.replicate n (.other 0)) =
      ([], { s with
             inbox := { s.inbox with
                        pe := s.inbox.pe ++ List.replicate n (.other 0) } }) := by
  induction n with
  | zero => intro s _; simp [run]
  | succ n ih =>
    intro s h
    have hm : ¬ Inbox.maxPending ≤ s.inbox.pe.length := by
      have : Inbox.maxPending = 20000 := rfl
      omega
    have hs : step s (.other 0) = ([], { s with
        inbox := { s.inbox with
                   pe := s.inbox.pe ++ [.other 0] } }) := by
      simp [step, Inbox.pushExternal, hm]
    have hl : (s.inbox.pe ++ [Msg.other 0]).length + n ≤ 20000 := by simp; omega
    have := ih { s with
        inbox := { s.inbox with
                   pe := s.inbox.pe ++ [.other 0] } } hl
    simp only [List.replicate_succ, run, hs, this]
    simp

/-- The thread takes two internal ticks over and handles the first; meanwhile `n + 1` messages come in; then
it handles the second. -/
def flood (n : Nat) : List Op :=
  [.tick 1, .tick 2, .turn 5 free] ++ (List.replicate n (.other 0) ++ ([.other 0] ++ [.turn 6 free]))

theorem run_append (a b : List Op) : ∀ s, run s (a ++ b) =
    ((run s a).1 ++ (run (run s a).2 b).1, (run (run s a).2 b).2) := by
  induction a with
  | nil => intro s; simp [run]
  | cons o r ih => intro s; simp [run, ih, List.append_assoc]

theorem dispatch_two (pe : List Msg) :
    Inbox.dispatch (⟨pe, [], [], [2], .running⟩ : Inbox.State Msg Nat) = (some (.internal 2), ⟨pe, [], [], [], .running⟩) := rfl

theorem flood_tail (pe : List Msg) (hp : pe.length ≥ 20000) (iq : List Nat) (l : Nat → Option Nat)
    (hi : iq.contains 2 = false) (hl : l 2 = none) :
    (run ⟨⟨pe, [], [], [2], .running⟩, iq, l⟩ [.turn 6 free]).1 = [.asked 2 6 false] := by
  have hp' : Inbox.maxPending ≤ pe.length := hp
  have hi' : ¬ 2 ∈ iq := by simpa using hi
  simp [run, step, dispatch_two, onInternalTick, hi', hl, sendTick, Inbox.pushExternal, hp']

/-- `refused_once_never_again` is not empty: with 20000 messages in between, BUG125 happens. -/
theorem flood_refused (n : Nat) (hn : n = 19999) : Ev.asked 2 6 false ∈ (run State.init (flood n)).1 := by
  unfold flood
  rw [run_append]
  have h0 : (run State.init [.tick 1, .tick 2, .turn 5 free]).2.inbox = ⟨[.tick 1 5], [], [], [2], .running⟩ := rfl
  have h1 : (run State.init [.tick 1, .tick 2, .turn 5 free]).2.inQueue = [1] := rfl
  have h2 : (run State.init [.tick 1, .tick 2, .turn 5 free]).2.last 2 = none := rfl
  generalize (run State.init [.tick 1, .tick 2, .turn 5 free]).2 = s at h0 h1 h2
  obtain ⟨ib, iq, l⟩ := s
  simp only at h0 h1 h2
  subst h0 h1
  have hle : ([Msg.tick 1 5] : List Msg).length + n ≤ 20000 := by
    rw [List.length_singleton]; omega
  rw [run_append, run_others n _ hle]
  simp only
  rw [run_append]
  have hlen : ([Msg.tick 1 5] ++ List.replicate n (Msg.other 0)).length = 20000 := by
    rw [List.length_append, List.length_replicate, List.length_singleton]; omega
  generalize [Msg.tick 1 5] ++ List.replicate n (Msg.other 0) = pe at hlen
  have hp' : Inbox.maxPending ≤ pe.length := by rw [hlen]; exact Nat.le_refl _
  have hone : run (⟨⟨pe, [], [], [2], .running⟩, [1], l⟩ : State) [.other 0] =
      ([], ⟨⟨pe, [], [], [2], .running⟩, [1], l⟩) := by
    simp [run, step, Inbox.pushExternal, hp']
  rw [hone]
  have := flood_tail pe (by omega) [1] l (by decide) h2
  simp only [List.mem_append]
  exact Or.inr (Or.inr (Or.inr (by rw [this]; exact List.mem_cons_self)))

/-- and then component 2 is silent for ever -/
theorem flood_silent (n : Nat) (hn : n = 19999) (more : List Op) :
    ∀ e ∈ (run (run State.init (flood n)).2 more).1, (∀ q' b, e ≠ .asked 2 q' b) ∧ (∀ q', e ≠ .gave 2 q') := by
  have h := flood_refused n hn
  rcases hr : run State.init (flood n) with ⟨evs, s⟩
  rw [hr] at h
  exact refused_once_never_again hr h more

/-! ### The timers -/

/-- Components 1 and 2, every 10 and every 4; 2 is stopped, 1 gets the period 3; a start with 0 stops. -/
def calls : List Call :=
  [.start 1 10 0, .start 2 4 0, .evaluate 4, .evaluate 7, .evaluate 10, .start 1 3 11, .stop 2, .evaluate 14,
    .start 1 0 15, .evaluate 100]

theorem calls_run : ((grun Gen.init calls).toOption.map (fun x => (x.1, isGenerating 1 x.2, isGenerating 2 x.2))) =
    some ([[], [], [2], [], [1, 2], [], [], [1], [], []], false, false) := by
  decide +kernel

example : ((grun Gen.init (calls.take 8)).toOption.map
    (fun x => (isGenerating 1 x.2, isGenerating 2 x.2, x.2.timers.ts.length))) = some (true, false, 1) := by
  decide +kernel

/-- `generating_after_start` and `nothing_after_stop` -/
example : calls = [.start 1 10 0, .start 2 4 0, .evaluate 4, .evaluate 7, .evaluate 10, .start 1 3 11] ++
    .stop 2 :: [.evaluate 14, .start 1 0 15, .evaluate 100] := rfl

end Verif.Ticks
