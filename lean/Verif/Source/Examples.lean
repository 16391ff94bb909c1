/-
Cases that meet the hypotheses of the theorems on the source of state transfer.
-/
import Verif.Source.Silence

set_option linter.unusedSimpArgs false
set_option linter.unusedVariables false

namespace Verif.Source

/-- replica 0 of seven (f = 2) -/
def c0 : Cfg := ⟨[1, 2, 3, 4, 5, 6], 100, 0, 2, 3⟩

theorem c0_ok : c0.Ok := ⟨by decide, by decide, by decide⟩

/-- replicas 1, 2 and 3 vouched for the state -/
def start : List Op := [.reset, .add 1, .add 2, .add 3]

theorem start_fair : ∀ o ∈ start, o.Fair c0 := by
  intro o ho
  simp only [start, List.mem_cons, List.not_mem_nil, or_false] at ho
  rcases ho with rfl | rfl | rfl | rfl <;> simp [Op.Fair, c0]

def s0 : Sel := { Sel.init with pref := [3, 2, 1] }

theorem start_run : run c0 start Sel.init = some s0 := by decide +kernel

/-- five sources in a row: 3, 2, 1, then, as the set was filled again, 1 and 2 -/
def five : List Op :=
  [.update 10 0, .stamp 11 true, .ask 200 false false, .update 200 0, .removeCurrent, .update 300 0, .block, .update 400 0,
    .update 500 0]

theorem five_fetching : ∀ o ∈ five, o.Fetching := by
  intro o ho
  simp only [five, List.mem_cons, List.not_mem_nil, or_false] at ho
  rcases ho with rfl | rfl | rfl | rfl | rfl | rfl | rfl | rfl | rfl <;> trivial

theorem five_run : ((run c0 five s0).map fun s => (s.log, s.cur, s.pref)) = some ([3, 2, 1, 1, 2], 2, [2, 3, 4, 5, 6]) := by
  decide +kernel

/-- `good_source_comes`: two bad replicas, and five sources -/
example : ∃ s', run c0 five s0 = some s' ∧ ∃ ks, s'.log = s0.log ++ ks ∧
    (2 * 2 + changes c0 five s0 * 3 < ks.length → ∃ k ∈ ks, (decide (k = 3 ∨ k = 2)) = false) := by
  have hr : ∃ s', run c0 five s0 = some s' := by
    cases h : run c0 five s0 with
    | none => exact absurd h (by decide +kernel)
    | some s' => exact ⟨s', rfl⟩
  obtain ⟨s', h⟩ := hr
  exact ⟨s', h, good_source_comes c0 c0_ok (fun k => decide (k = 3 ∨ k = 2)) 2 (by decide) (by decide) start five s0 s'
    start_fair start_run five_fetching h⟩

theorem five_changes : changes c0 five s0 = 0 := by decide +kernel

/-- the bound is met: all of the first four sources can be bad, if the set is filled again in between -/
example : (run c0 [.update 10 0, .update 20 0] { s0 with pref := [2, 1] }).map
    (fun s => ((run c0 [.update 30 0, .update 40 0] s).map Sel.log)) = some (some [2, 1, 1, 2]) := by decide +kernel

/-- `good_source_first` and `no_repetition` start in such a state -/
example : s0.cur = noReplica ∧ 2 + 1 ≤ s0.pref.length := by decide

/-- a request sent at time 1000 to replica 3 -/
def w0 : Sel := ⟨[3, 2, 1], 3, noReplica, 1000, 1000, 0, true, false, [], noReplica, 0, [3]⟩

example : tick c0 1000 0 0 s0 = some w0 := by decide +kernel

theorem w0_waiting : Waiting 1000 w0 := by
  refine ⟨by decide, by decide, by decide, rfl, by decide, rfl, rfl⟩

/-- ticks each 40 ms, and 5 ms for the sending -/
def quietTicks : List (Nat × Nat × Nat) :=
  [(1040, 5, 0), (1080, 5, 0), (1120, 5, 0), (1160, 5, 0), (1200, 5, 0), (1240, 5, 0), (1280, 5, 0), (1320, 5, 0)]

theorem quiet_sched : Sched 40 5 1000 quietTicks := by simp [Sched, quietTicks]

/-- the request is sent again at 1125, and at 1240 another source is taken -/
example : ((ticks c0 quietTicks w0).map fun s => (s.log, s.fts, s.cur)) = some ([3, 2], 1245, 2) := by decide +kernel

example : (1320, 5, 0) ∈ quietTicks ∧ 1000 + c0.maxRetrans * (c0.retransTimeout + 40 + 2 * 5) < 1320 := by decide

example (s' : Sel) (h : ticks c0 quietTicks w0 = some s') : w0.log.length < s'.log.length :=
  silent_source_replaced c0 40 5 1000 quietTicks w0 s' (by decide) w0_waiting quiet_sched h
    ⟨(1320, 5, 0), by decide, by decide⟩

/-- the same chunk each 90 ms, for ever -/
def chatter : Nat → Nat → List Ev
  | 0, _ => []
  | n + 1, t => .data (t + 90) :: .tick (t + 95) 5 0 :: chatter n (t + 90)

theorem chatter_chatty (n t : Nat) (h : t + n * 90 + 95 < 2 ^ 64) : Chatty c0 t (chatter n t) := by
  induction n generalizing t with
  | zero => trivial
  | succ n ih =>
    refine ⟨by omega, by omega, by omega, by omega, ?_, ih (t + 90) (by omega)⟩
    show t + 95 ≤ t + 90 + 100; omega

/-- after a million repetitions the source is still the same -/
example : ∃ s', evs c0 (chatter 1000000 1000) w0 = some s' ∧ s'.cur = 3 ∧ s'.log = [3] :=
  chatty_source_stays c0 (chatter 1000000 1000) w0 (by decide) (by decide) (by decide) (by decide) rfl
    (chatter_chatty 1000000 1000 (by decide))

/-- three PrePrepares of replica 4 make it known; in the second case it is replica 5, that sent one -/
example : (hear c0 [4, 4, 4] s0).prim = 4 ∧ (hear c0 [4, 4, 5] s0).prim = 5 ∧ (hear c0 [4, 5, 4] s0).prim = noReplica ∧
    (hear c0 [4, 0, 4, 4, 4] s0).prim = 4 := by decide +kernel

theorem s0_no_nominee : NoNominee s0 := ⟨rfl, rfl⟩

example : (hear c0 (List.replicate (max c0.minPP 2 - 1) 4 ++ [5]) s0).prim = 5 :=
  one_vote_takes_it c0 c0_ok s0 s0_no_nominee 4 5 (by decide) (by decide) (by decide) (by decide)

/-- `primary_needs_support` -/
example : ∃ q pre n, 1 ≤ n ∧ c0.minPP ≤ n + 1 ∧
    [6, 5, 4, 4].filter (fun x => !decide (x = s0.prim)) = pre ++ List.replicate n q := by
  refine (primary_needs_support c0 c0_ok s0 s0_no_nominee [6, 5, 4, 4] 4 ?_ (by decide +kernel)).2.2
  intro qs hqs
  have hm : qs ∈ [[], [6], [6, 5], [6, 5, 4], [6, 5, 4, 4]] := by
    have := List.prefix_iff_eq_take.1 hqs
    have hl : qs.length ≤ 4 := hqs.length_le
    obtain h | h | h | h | h : qs.length = 0 ∨ qs.length = 1 ∨ qs.length = 2 ∨ qs.length = 3 ∨ qs.length = 4 := by omega
    all_goals rw [h] at this; rw [this]; decide
  simp only [List.mem_cons, List.not_mem_nil, or_false] at hm
  rcases hm with rfl | rfl | rfl | rfl | rfl <;> decide +kernel

/-- the new primary, the last preferred source, is preferred again; a source can then be the primary -/
example : (hear c0 [1, 1, 1] { s0 with pref := [1], cur := 1 }).pref = [1, 2, 3, 4, 5, 6] := by decide +kernel

end Verif.Source
