import Verif.Reconf.Wedge
set_option linter.unusedVariables false
set_option linter.unusedSimpArgs false
/-!
# Stopping the system: specification

What the log alone says: where the system stops and in which epoch a request is executed, if every stop is
lifted exactly once.
-/
namespace Verif.Wedge

/-- the second checkpoint after `s` -/
def second (s : Nat) : Nat := 150 * (s / 150 + 2)

/-- the stop point in force after request `n` has been executed -/
def stopAfter (log : Nat → List Cmd) : Nat → Option Nat
  | 0 => none
  | n + 1 =>
    if log (n + 1) ≠ [] then some (second (n + 1))
    else if stopAfter log n = some n then none
    else stopAfter log n

/-- the epoch in which request `n` is executed: it grows by one behind every stop point -/
def epochAfter (log : Nat → List Cmd) : Nat → Nat
  | 0 => 0
  | n + 1 => if stopAfter log n = some n then epochAfter log n + 1 else epochAfter log n

/-- no `InstallCommand` is ordered -/
def NoInstall (log : Nat → List Cmd) : Prop := ∀ s b, Cmd.install b ∉ log s

/-! ### the chain that belongs to the log -/

/-- the records of one command -/
def record (seq epoch : Nat) (c : Chain) : Cmd → Chain
  | .wedge => c.putWedge seq epoch
  | .scale b rs => { c.putWedge seq epoch with scale := some (seq, epoch, b, rs) }
  | .restart b rs => c.putWedge seq epoch
  | .install b => { c with epoch := epoch, install := some (seq, b) }

/-- the chain after request `n` -/
def chainAfter (log : Nat → List Cmd) : Nat → Chain
  | 0 => {}
  | n + 1 => (log (n + 1)).foldl (record (n + 1) (epochAfter log (n + 1))) { chainAfter log n with epoch := epochAfter log (n + 1) }

/-- the chain after the stop has been lifted -/
def lift (c : Chain) : Chain := { c with epoch := c.epoch + 1 }

/-- the stop point that a chain's latest wedge record stands for -/
def stopOf (c : Chain) : Option Nat :=
  match c.wedge with
  | none => none
  | some (s, e) => if e = c.epoch then stopFor s else none

theorem stopFor_eq {s : Nat} (h : 1 ≤ s) : stopFor s = some (second s) := by
  unfold stopFor second
  rw [if_neg (by omega)]
  congr 1
  omega

theorem second_gt (s : Nat) : s + 150 < second s := by unfold second; omega

/-- **Why the second checkpoint**: whoever has not executed the command cannot accept a request beyond the stop
point, because it lies outside the window. -/
theorem second_window {s stable : Nat} (h1 : stable % 150 = 0) (h2 : stable < s) : stable + 300 ≤ second s := by
  unfold second; omega

theorem second_mod (s : Nat) : second s % 150 = 0 := by unfold second; omega

theorem stopAfter_ge (log : Nat → List Cmd) (n : Nat) : ∀ w, stopAfter log n = some w → n ≤ w := by
  induction n with
  | zero => intro w h; cases h
  | succ n ih =>
    intro w h
    unfold stopAfter at h
    split at h
    · cases h; have := second_gt (n + 1); omega
    · split at h
      · cases h
      · rename_i hne
        have := ih w h
        have : n ≠ w := by intro e; rw [e] at h; rw [e] at hne; exact hne h
        omega

theorem epochAfter_step (log : Nat → List Cmd) (n : Nat) : epochAfter log n ≤ epochAfter log (n + 1) := by
  conv => rhs; unfold epochAfter
  split <;> omega

theorem epochAfter_mono (log : Nat → List Cmd) {n m : Nat} (h : n ≤ m) : epochAfter log n ≤ epochAfter log m := by
  induction h with
  | refl => exact Nat.le_refl _
  | step h ih => exact Nat.le_trans ih (epochAfter_step log _)

theorem epochAfter_pass (log : Nat → List Cmd) {n m : Nat} (h : n < m) (hs : stopAfter log n = some n) : epochAfter log n + 1 ≤ epochAfter log m := by
  have : epochAfter log (n + 1) = epochAfter log n + 1 := by conv => lhs; unfold epochAfter
                                                             rw [if_pos hs]
  have := epochAfter_mono log (show n + 1 ≤ m from h)
  omega

/-- a stop point goes back to a command, and holds from then on -/
theorem stopAfter_origin (log : Nat → List Cmd) (c : Nat) : ∀ w, stopAfter log c = some w →
    ∃ s, 1 ≤ s ∧ s ≤ c ∧ w = second s ∧ log s ≠ [] ∧ ∀ n, s ≤ n → n ≤ c → stopAfter log n = some w ∧ epochAfter log n = epochAfter log c := by
  induction c with
  | zero => intro w h; cases h
  | succ c ih =>
    intro w h
    have hq := h
    unfold stopAfter at h
    split at h
    · rename_i hl
      cases h
      refine ⟨c + 1, by omega, by omega, rfl, hl, ?_⟩
      intro n h1 h2
      have : n = c + 1 := by omega
      subst this
      exact ⟨hq, rfl⟩
    · split at h
      · cases h
      · rename_i hl hne
        obtain ⟨s, h1, h2, h3, h4, h5⟩ := ih w h
        refine ⟨s, h1, by omega, h3, h4, ?_⟩
        have he : epochAfter log (c + 1) = epochAfter log c := by conv => lhs; unfold epochAfter
                                                                  rw [if_neg hne]
        intro n h6 h7
        by_cases hn : n = c + 1
        · subst hn; exact ⟨hq, rfl⟩
        · have := h5 n h6 (by omega); exact ⟨this.1, by rw [this.2, he]⟩

/-! ### facts about the chain -/

structure CInv (log : Nat → List Cmd) (n : Nat) (c : Chain) : Prop where
  epoch : c.epoch = epochAfter log n
  stop : stopOf c = stopAfter log n
  wedge : ∀ s e, c.wedge = some (s, e) → 1 ≤ s ∧ s ≤ n ∧ e ≤ epochAfter log n
  empty : c.wedge = none → c.scale = none ∧ ∀ m, m ≤ n → stopAfter log m = none
  scale : ∀ s e b r, c.scale = some (s, e, b, r) → e ≤ epochAfter log n
  install : c.install = none

theorem fold_record_stop {s ep : Nat} (cmds : List Cmd) (hni : ∀ b, Cmd.install b ∉ cmds) : ∀ c : Chain, c.epoch = ep →
    (cmds.foldl (record s ep) c).epoch = ep ∧ (cmds.foldl (record s ep) c).install = c.install ∧
    (cmds ≠ [] → (cmds.foldl (record s ep) c).wedge = some (s, ep)) ∧
    (∀ x, (cmds.foldl (record s ep) c).scale = some x → c.scale = some x ∨ x.2.1 = ep) := by
  induction cmds with
  | nil => intro c hc; exact ⟨hc, rfl, fun h => absurd rfl h, fun x h => .inl h⟩
  | cons a cmds ih =>
    intro c hc
    have hn : ∀ b, Cmd.install b ∉ cmds := fun b h => hni b (List.mem_cons_of_mem _ h)
    have ha : (record s ep c a).epoch = ep ∧ (record s ep c a).install = c.install ∧ (record s ep c a).wedge = some (s, ep) ∧
        (∀ x, (record s ep c a).scale = some x → c.scale = some x ∨ x.2.1 = ep) := by
      cases a with
      | wedge => exact ⟨rfl, rfl, rfl, fun x h => .inl h⟩
      | scale b rs => exact ⟨rfl, rfl, rfl, fun x h => .inr (by cases h; rfl)⟩
      | restart b rs => exact ⟨rfl, rfl, rfl, fun x h => .inl h⟩
      | install b => exact absurd List.mem_cons_self (hni b)
    obtain ⟨i1, i2, i3, i4⟩ := ih hn (record s ep c a) ha.1
    refine ⟨i1, i2.trans ha.2.1, fun _ => ?_, ?_⟩
    · show (cmds.foldl (record s ep) (record s ep c a)).wedge = _
      by_cases hc : cmds = []
      · rw [hc]; exact ha.2.2.1
      · exact i3 hc
    · intro x hx
      rcases i4 x hx with h | h
      · exact ha.2.2.2 x h
      · exact .inr h

theorem chainAfter_inv {log : Nat → List Cmd} (hni : NoInstall log) (n : Nat) : CInv log n (chainAfter log n) := by
  induction n with
  | zero =>
    refine ⟨rfl, rfl, ?_, ?_, ?_, rfl⟩
    · intro s e h; cases h
    · intro _
      refine ⟨rfl, fun m hm => ?_⟩
      have : m = 0 := by omega
      subst this; rfl
    · intro s e b r h; cases h
  | succ n ih =>
    have hf := fold_record_stop (s := n + 1) (ep := epochAfter log (n + 1)) (log (n + 1)) (fun b => hni (n + 1) b)
      { chainAfter log n with epoch := epochAfter log (n + 1) } rfl
    have hm := epochAfter_step log n
    by_cases hl : log (n + 1) = []
    · have hc : chainAfter log (n + 1) = { chainAfter log n with epoch := epochAfter log (n + 1) } := by
        conv => lhs; unfold chainAfter
        rw [hl]; rfl
      rw [hc]
      have hstop : stopOf { chainAfter log n with epoch := epochAfter log (n + 1) } = stopAfter log (n + 1) := by
        conv => rhs; unfold stopAfter
        rw [if_neg (by simpa using hl)]
        by_cases hs : stopAfter log n = some n
        · rw [if_pos hs]
          have he : epochAfter log (n + 1) = epochAfter log n + 1 := by conv => lhs; unfold epochAfter
                                                                        rw [if_pos hs]
          unfold stopOf
          simp only
          cases hw : (chainAfter log n).wedge with
          | none => rfl
          | some x =>
            obtain ⟨s, e⟩ := x
            have := ih.wedge s e hw
            simp only
            rw [if_neg (by omega)]
        · rw [if_neg hs]
          have he : epochAfter log (n + 1) = epochAfter log n := by conv => lhs; unfold epochAfter
                                                                    rw [if_neg hs]
          rw [← ih.stop]
          unfold stopOf
          simp only [he, ih.epoch]
      refine ⟨rfl, hstop, ?_, ?_, ?_, ih.install⟩
      · intro s e h
        obtain ⟨h1, h2, h3⟩ := ih.wedge s e h
        exact ⟨h1, by omega, by omega⟩
      · intro h
        obtain ⟨h1, h2⟩ := ih.empty h
        refine ⟨h1, ?_⟩
        intro m hm
        by_cases he : m = n + 1
        · subst he
          rw [← hstop]
          unfold stopOf
          have h : (chainAfter log n).wedge = none := h
          simp only [h]
        · exact h2 m (by omega)
      · intro s e b r h
        have := ih.scale s e b r h
        omega
    · obtain ⟨h1, h2, h3, h4⟩ := hf
      have h3 := h3 hl
      have hc : chainAfter log (n + 1) = (log (n + 1)).foldl (record (n + 1) (epochAfter log (n + 1))) { chainAfter log n with epoch := epochAfter log (n + 1) } := rfl
      rw [hc]
      refine ⟨h1, ?_, ?_, ?_, ?_, h2.trans ih.install⟩
      · conv => rhs; unfold stopAfter
        rw [if_pos hl]
        unfold stopOf
        rw [h3]
        simp only
        rw [if_pos h1.symm, stopFor_eq (by omega)]
      · intro s e h
        rw [h3] at h
        cases h
        exact ⟨by omega, by omega, Nat.le_refl _⟩
      · intro h; rw [h3] at h; cases h
      · intro s e b r h
        rcases h4 _ h with h | h
        · have := ih.scale s e b r h; omega
        · have h : e = _ := h
          omega

theorem stopOf_lift {log : Nat → List Cmd} (hni : NoInstall log) (n : Nat) : stopOf (lift (chainAfter log n)) = none := by
  have h := chainAfter_inv hni n
  unfold stopOf lift
  simp only
  cases hw : (chainAfter log n).wedge with
  | none => rfl
  | some x =>
    obtain ⟨s, e⟩ := x
    have := h.wedge s e hw
    have := h.epoch
    simp only
    rw [if_neg (by omega)]

end Verif.Wedge
