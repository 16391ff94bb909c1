import Verif.Trs.BlocksProps
set_option linter.unusedVariables false
/-!
# C32: concrete runs and findings (blocks)
-/
namespace Verif.Trs.BlocksExamples
open Verif.Trs

def W : World Nat Nat :=
  { C := fun i => 10 * i
    flt := fun d => d + 1
    cap := 3 }

def s0 (req : Nat) : Sys Nat Nat := Sys.start 1 5 3 req none

def subs (n : Nat) : List Lbl := List.replicate n .sub

/-- block 4 is requested; 4 and 5 are pushed while history is read; then block 6 comes live -/
def run1 : List Lbl := subs 5 ++ [.push 4] ++ subs 2 ++ [.write, .push 5] ++ subs 5 ++ [.push 6] ++ subs 1

example : (runL W (s0 4) run1).map (fun s => (s.pc, s.sent)) = some (.live, [(4, 41), (5, 51), (6, 61)]) := by decide +kernel

/-- a gap between history and the first live block: blocks 6 and 7 arrive by state transfer and are not pushed -/
def run2 : List Lbl := subs 9 ++ [.write, .write, .write, .push 8] ++ subs 5 ++ [.write, .push 9] ++ subs 1

example : (runL W (s0 4) run2).map (fun s => (s.pc, s.sent.map (·.1))) = some (.live, [4, 5, 6, 7, 8, 9]) := by decide +kernel

/-- `last + 1` is requested: the subscriber waits, and drops the older live block -/
def run3 : List Lbl := subs 5 ++ [.push 4, .push 5, .write, .push 6] ++ subs 7 ++ [.write, .push 7] ++ subs 2

example : (runL W (s0 6) run3).map (fun s => (s.pc, s.sent.map (·.1))) = some (.live, [6, 7]) := by decide +kernel

/-- the same run without the producer's contract -/
def stepAny (s : Sys Nat Nat) : Lbl → Option (Sys Nat Nat)
  | .push q => if s.pushed < q ∧ q ≤ s.last then some (pushTo W s q) else none
  | l => step W s l
def runAny (s : Sys Nat Nat) : List Lbl → Option (Sys Nat Nat)
  | [] => some s
  | l :: ls => (stepAny s l).bind (fun s' => runAny s' ls)

/-- **Finding.** The server does not check the ids of live blocks.  A block that is written but never pushed to a live subscriber
(blocks that arrive by state transfer are not) is missing from its stream, with no error. -/
theorem skipped_block_lost : (runAny (s0 4) (run1 ++ [.write, .write, .push 8, .sub])).map (fun s => (s.pc, s.sent.map (·.1), s.last)) =
    some (.live, [4, 5, 6, 8], 8) := by decide +kernel

/-- **Finding.** When a live subscriber is too slow its stream ends with status OK. -/
theorem overrun_ends_ok : (runL W (s0 4) (run1 ++ [.write, .write, .write, .write, .push 7, .push 8, .push 9, .push 10, .sub])).map
    (·.pc) = some (.done .ok) := by decide +kernel

/-- **Finding.** When the buffer overruns while a subscriber that asked for the next block drops older ones, the exception is not
caught: the call fails and the buffer stays in the subscriber list. -/
theorem overrun_while_waiting_uncaught :
    (runL { W with cap := 1 } (s0 6) (subs 5 ++ [.push 4, .push 5, .sub])).map (·.pc) = some (.done .uncaught) := by decide +kernel

/-- **Finding.** Block 0 requested while the chain is empty: the replica fails an assertion. -/
theorem block_zero_aborts : (runL W (Sys.start 0 0 0 0 none) (subs 6)).map (·.pc) = some (.done .aborted) := by decide +kernel

/-- **Finding.** Block 6 is written and pushed, and event groups begin with block 7, while the subscriber waits: it goes on with event
groups and block 6 is never sent. -/
theorem transition_skips_blocks : (runL W (s0 4) (subs 9 ++ [.write, .push 4, .push 5, .push 6, .write, .egOn, .sub])).map
    (fun s => (s.pc, s.sent.map (·.1), s.eg)) = some (.done .eventGroups, [4, 5], some 7) := by decide +kernel

end Verif.Trs.BlocksExamples
