set_option linter.unusedVariables false
/-!
# Thin replica server: the subscription buffer (C32)

Model of `SubUpdateBuffer` (thin-replica-server/include/thin-replica-server/subscription_buffer.hpp:45-294).  Every method holds
the buffer's mutex, so an interleaving of producer and consumer is a sequence of calls.  The boost queue inside is taken as a
bounded FIFO.  Block updates and event groups have separate queues with the same code; one is modelled.  Time-outs are modelled
by the environment (`TryPop` on an empty buffer).
-/
namespace Verif.Trs

structure Buf (α : Type) where
  cap : Nat
  queue : List α
  tooSlow : Bool
  /-- `newest_block_id_` -/
  newest : Nat
deriving DecidableEq

/-- the constructor (subscription_buffer.hpp:47-54) -/
def Buf.new (α : Type) (cap : Nat) : Buf α :=
  { cap := cap
    queue := []
    tooSlow := false
    newest := 0 }

/-- `Push` (subscription_buffer.hpp:61-76) -/
def Buf.push {α : Type} (id : α → Nat) (b : Buf α) (u : α) : Buf α :=
  if b.tooSlow then { b with newest := id u }
  else if b.queue.length < b.cap then
    { b with
      queue := b.queue ++ [u]
      newest := id u }
  else { b with tooSlow := true }

inductive PopRes (α : Type) where
  | got (u : α)
  | empty
  /-- `ConsumerTooSlow` -/
  | tooSlow
deriving DecidableEq

/-- `Pop`, `TryPop` (subscription_buffer.hpp:97-129); for `Pop`, `empty` means that it waits -/
def Buf.pop {α : Type} (b : Buf α) : Buf α × PopRes α :=
  if b.tooSlow then (b, .tooSlow)
  else match b.queue with
    | [] => (b, .empty)
    | u :: us => ({ b with queue := us }, .got u)

/-- `oldestBlockId` (subscription_buffer.hpp:227-232): the first element; `none` = assertion failure -/
def Buf.front {α : Type} (b : Buf α) : Option α := b.queue.head?

/-- `newestBlockId` (subscription_buffer.hpp:206-213); `none` = assertion failure -/
def Buf.newestId {α : Type} (b : Buf α) : Option Nat := if b.queue = [] then none else some b.newest

/-- producer and consumer calls -/
inductive BufOp (α : Type) where
  | push (u : α)
  | pop

/-- run a history; collects the answers of the pops -/
def Buf.run {α : Type} (id : α → Nat) (b : Buf α) : List (BufOp α) → Buf α × List (PopRes α)
  | [] => (b, [])
  | .push u :: ops => (b.push id u).run id ops
  | .pop :: ops => ((b.pop).1.run id ops |>.1, (b.pop).2 :: ((b.pop).1.run id ops).2)

/-! ## Specification -/

/-- the updates pushed in a history, in order -/
def pushedOf {α : Type} : List (BufOp α) → List α
  | [] => []
  | .push u :: ops => u :: pushedOf ops
  | .pop :: ops => pushedOf ops

/-- the updates handed to the consumer, in order -/
def gotOf {α : Type} : List (PopRes α) → List α
  | [] => []
  | .got u :: rs => u :: gotOf rs
  | _ :: rs => gotOf rs

theorem run_spec {α : Type} (id : α → Nat) (ops : List (BufOp α)) : ∀ b : Buf α, b.tooSlow = false →
    (∃ rest, b.queue ++ pushedOf ops = gotOf (b.run id ops).2 ++ rest ∧
      ((b.run id ops).1.tooSlow = false → rest = (b.run id ops).1.queue ∧ .tooSlow ∉ (b.run id ops).2)) := by
  -- once the consumer was too slow it gets nothing any more
  have slow : ∀ (ops : List (BufOp α)) (b : Buf α), b.tooSlow = true → gotOf (b.run id ops).2 = [] ∧ (b.run id ops).1.tooSlow = true := by
    intro ops
    induction ops with
    | nil => intro b hb; exact ⟨rfl, hb⟩
    | cons o ops ih =>
      intro b hb
      cases o with
      | push u =>
        rw [Buf.run]
        exact ih _ (by rw [Buf.push, if_pos hb]; exact hb)
      | pop =>
        have hp : b.pop = (b, .tooSlow) := by rw [Buf.pop, if_pos hb]
        rw [Buf.run, hp]
        exact ih b hb
  induction ops with
  | nil => intro b hb; exact ⟨b.queue, by simp [pushedOf, Buf.run, gotOf], fun _ => ⟨rfl, by simp [Buf.run]⟩⟩
  | cons o ops ih =>
    intro b hb
    cases o with
    | push u =>
      rw [Buf.run, pushedOf]
      by_cases hc : b.queue.length < b.cap
      · have he : b.push id u = { b with
            queue := b.queue ++ [u]
            newest := id u } := by
          rw [Buf.push, if_neg (by rw [hb]; decide), if_pos hc]
        obtain ⟨rest, h1, h2⟩ := ih (b.push id u) (by rw [he]; exact hb)
        refine ⟨rest, ?_, h2⟩
        rw [← h1, he]
        show _ = (b.queue ++ [u]) ++ pushedOf ops
        rw [List.append_assoc]; rfl
      · have he : (b.push id u).tooSlow = true := by
          rw [Buf.push, if_neg (by rw [hb]; decide), if_neg hc]
        obtain ⟨h1, h2⟩ := slow ops _ he
        exact ⟨b.queue ++ u :: pushedOf ops, by rw [h1]; rfl, fun h => by rw [h2] at h; cases h⟩
    | pop =>
      rw [pushedOf]
      cases hq : b.queue with
      | nil =>
        have hp : b.pop = (b, .empty) := by rw [Buf.pop, if_neg (by rw [hb]; decide), hq]
        rw [Buf.run, hp]
        obtain ⟨rest, h1, h2⟩ := ih b hb
        rw [hq] at h1
        exact ⟨rest, h1, fun h => ⟨(h2 h).1, by simpa using (h2 h).2⟩⟩
      | cons u us =>
        have hp : b.pop = ({ b with queue := us }, .got u) := by rw [Buf.pop, if_neg (by rw [hb]; decide), hq]
        rw [Buf.run, hp]
        obtain ⟨rest, h1, h2⟩ := ih { b with queue := us } hb
        refine ⟨rest, ?_, fun h => ⟨(h2 h).1, by simpa using (h2 h).2⟩⟩
        show u :: us ++ pushedOf ops = u :: gotOf _ ++ rest
        rw [List.cons_append, List.cons_append, ← h1]

/-- **C32.** For every interleaving of pushes and pops: what the consumer got is a prefix of what was pushed, in order and without
gaps. -/
theorem got_prefix_of_pushed {α : Type} (id : α → Nat) (cap : Nat) (ops : List (BufOp α)) :
    gotOf ((Buf.new α cap).run id ops).2 <+: pushedOf ops := by
  obtain ⟨rest, h1, _⟩ := run_spec id ops (Buf.new α cap) rfl
  exact ⟨rest, h1.symm⟩

/-- **C32.** Unless the buffer overran, nothing is lost: what was pushed and not yet consumed is in the buffer. -/
theorem nothing_lost {α : Type} (id : α → Nat) (cap : Nat) (ops : List (BufOp α))
    (h : ((Buf.new α cap).run id ops).1.tooSlow = false) :
    pushedOf ops = gotOf ((Buf.new α cap).run id ops).2 ++ ((Buf.new α cap).run id ops).1.queue := by
  obtain ⟨rest, h1, h2⟩ := run_spec id ops (Buf.new α cap) rfl
  rw [← (h2 h).1]
  exact h1

/-- **C32.** After an overrun every later read reports it. -/
theorem overrun_reported {α : Type} {b : Buf α} (h : b.tooSlow = true) : b.pop = (b, .tooSlow) := by
  rw [Buf.pop, if_pos h]

/-- **C32.** The buffer overruns only when it is full. -/
theorem overrun_only_if_full {α : Type} (id : α → Nat) {b : Buf α} {u : α} (h : b.tooSlow = false)
    (h' : (b.push id u).tooSlow = true) : b.cap ≤ b.queue.length := by
  rw [Buf.push, if_neg (by rw [h]; decide)] at h'
  split at h'
  · rw [h] at h'; cases h'
  · omega

example : ((Buf.new Nat 2).run id [.push 5, .pop, .push 6, .push 7, .pop, .pop, .pop]).2 = [.got 5, .got 6, .got 7, .empty] := by
  decide
example : ((Buf.new Nat 2).run id [.push 5, .push 6, .push 7, .pop]).2 = [.tooSlow] := by decide

end Verif.Trs
