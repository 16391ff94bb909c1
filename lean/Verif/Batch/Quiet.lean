import Verif.Batch.Steps
/-! # The window, and one batch for every view and sequence number -/
set_option linter.unusedSimpArgs false
set_option linter.unusedVariables false
namespace Concord.Batch
open Verif

/-- different views or different sequence numbers -/
def Apart (a b : PP) : Prop := ¬ (a.view = b.view ∧ a.seq = b.seq)

/-- the second invariant, for executions in which nothing is in flight when a view is entered or a transfer ends -/
structure Inv2 (cfg : Cfg) (s : St) : Prop where
  win : s.lastUsed + s.transient ≤ s.lastStable + window
  below : ∀ pp ∈ s.sent, (pp.view = s.view ∨ ∃ f ∈ s.flight, f.view = pp.view) → pp.seq ≤ s.lastUsed
  dist : s.sent.Pairwise Apart

theorem inv2_init (cfg : Cfg) : Inv2 cfg (init cfg) := ⟨by simp [init], by simp [init], by simp [init]⟩

theorem inv2_push {cfg : Cfg} {s : St} {r : Req} (h : Inv2 cfg s) : Inv2 cfg (pushed s r) := ⟨h.win, h.below, h.dist⟩

theorem dist_snoc {l : List PP} {x : PP} (h : l.Pairwise Apart) (hx : ∀ y ∈ l, Apart y x) : (l ++ [x]).Pairwise Apart := by
  rw [List.pairwise_append]
  exact ⟨h, List.pairwise_singleton _ _, fun a ha b hb => by rw [List.mem_singleton.1 hb]; exact hx a ha⟩

theorem inv2_out {cfg : Cfg} {s t : St} {popped new : List Req} {ov : Nat} (h : Inv2 cfg s) (o : Out cfg s t popped new ov)
    (hm : new = [] ∨ MayPropose cfg s) (hs : cfg.async = false → s.transient = 0) : Inv2 cfg t := by
  cases o.went with
  | nowhere w1 w2 w3 w4 w5 w6 =>
    exact ⟨by rw [w6, w5, o.frame.stab]; exact h.win, by rw [w3, w4, w6, o.frame.view]; exact h.below, by rw [w3]; exact h.dist⟩
  | gone w0 w1 w7 w2 w3 w4 w5 w6 =>
    exact ⟨by rw [w6, w5, o.frame.stab]; exact h.win, by rw [w3, w4, w6, o.frame.view]; exact h.below, by rw [w3]; exact h.dist⟩
  | thread w0 w1 w7 w2 w3 w4 w5 w6 =>
    have hm' : MayPropose cfg s := hm.resolve_left w0
    refine ⟨by rw [w6, w5, o.frame.stab]; have := hm'.inWindow; unfold window; omega, ?_, by rw [w3]; exact h.dist⟩
    intro pp hpp hv
    rw [w3] at hpp
    rw [w6]
    refine h.below pp hpp ?_
    rcases hv with hv | ⟨f, hf, hv⟩
    · left; rw [hv, o.frame.view]
    · rw [w4] at hf
      rcases List.mem_append.1 hf with hf | hf
      · exact Or.inr ⟨f, hf, hv⟩
      · rw [List.mem_singleton.1 hf] at hv; exact Or.inl hv.symm
  | sent w0 w1 w2 w3 w4 w5 w6 w7 w8 =>
    have h0 := hs w1
    refine ⟨by rw [w6, w5, o.frame.stab, h0]; omega, ?_, ?_⟩
    · intro pp hpp hv
      rw [w3] at hpp
      rw [w6]
      rcases List.mem_append.1 hpp with hpp | hpp
      · rw [w4, o.frame.view] at hv
        have := h.below pp hpp hv; omega
      · rw [List.mem_singleton.1 hpp]; exact Nat.le_refl _
    · rw [w3]
      refine dist_snoc h.dist ?_
      intro y hy ⟨h1, h2⟩
      have := h.below y hy (Or.inl h1)
      simp only at h2
      omega

theorem inv2_step {cfg : Cfg} {s t : St} {a : Act} (hi : Inv cfg s) (h : Inv2 cfg s) (ha : Allowed cfg s a) (hq : Quiet s a)
    (ht : step cfg s a = some t) : Inv2 cfg t := by
  have hs0 : cfg.async = false → s.transient = 0 := fun hs => by rw [hi.tr, hi.sync hs]; rfl
  cases stepped ht with
  | same e => rw [e]; exact h
  | tried logic _ e =>
    obtain ⟨p, n, ov, o, _, hm⟩ := tryToSend_out e
    exact inv2_out h o hm hs0
  | pushed r hr hl hadm _ _ e =>
    subst hr
    obtain ⟨p, n, ov, o, _, hm⟩ := tryToSend_out e
    exact inv2_out (inv2_push h) o hm hs0
  | landed k pp hk hpp e =>
    have hpp' := hpp
    rw [List.getElem?_eq_some_iff] at hpp'
    obtain ⟨hlt, he⟩ := hpp'
    have hmem : pp ∈ s.flight := by rw [← he]; exact List.getElem_mem hlt
    have htr : s.transient = s.flight.length := hi.tr
    have hl : Inv2 cfg (landed s k) := by
      refine ⟨?_, ?_, h.dist⟩
      · show s.lastUsed + (s.transient - 1) ≤ s.lastStable + window
        have := h.win; omega
      · intro x hx hv
        refine h.below x hx ?_
        rcases hv with hv | ⟨f, hf, hv⟩
        · exact Or.inl hv
        · exact Or.inr ⟨f, mem_eraseIdx hf, hv⟩
    rcases e with e | e
    · rw [e]; exact hl
    · rcases start_early e with ⟨_, e⟩ | ⟨_, _, _, e⟩
      · rw [e]; exact hl
      · have hb : ∀ x ∈ s.sent, x.view = pp.view → x.seq ≤ s.lastUsed := fun x hx hv => h.below x hx (Or.inr ⟨pp, hmem, hv.symm⟩)
        rw [e]
        refine ⟨?_, ?_, ?_⟩
        · show s.lastUsed + 1 + (s.transient - 1) ≤ s.lastStable + window
          have := h.win; omega
        · intro x hx hv
          show x.seq ≤ s.lastUsed + 1
          rcases List.mem_append.1 hx with hx | hx
          · have := hl.below x hx hv
            have h2 : x.seq ≤ s.lastUsed := this
            omega
          · rw [List.mem_singleton.1 hx]; exact Nat.le_refl _
        · refine dist_snoc h.dist ?_
          intro y hy ⟨h1, h2⟩
          have := hb y hy h1
          have h3 : y.seq = s.lastUsed + 1 := h2
          omega
  | env he e =>
    cases a with
    | request r => cases he
    | flush => cases he
    | retry => cases he
    | force => cases he
    | finished k => cases he
    | clients o =>
      change (Clients.step cfg.clients s.cm o).map _ = some t at e
      cases hc : Clients.step cfg.clients s.cm o with
      | none => rw [hc] at e; cases e
      | some cm =>
        rw [hc] at e
        simp only [Option.map_some, Option.some.injEq] at e
        subst e
        exact ⟨h.win, h.below, h.dist⟩
    | executed e1 a1 => cases e; exact ⟨h.win, h.below, h.dist⟩
    | stable q =>
      cases e
      have hq' : s.lastStable ≤ q := ha
      have hlow := hi.low
      have hwin := h.win
      refine ⟨?_, ?_, h.dist⟩
      · show (if q > s.lastUsed then q else s.lastUsed) + s.transient ≤ q + window
        split <;> omega
      · intro x hx hv
        have := h.below x hx hv
        show x.seq ≤ if q > s.lastUsed then q else s.lastUsed
        split <;> omega
    | collect => cases e; exact ⟨h.win, h.below, h.dist⟩
    | transferred q =>
      cases e
      have hfl : s.flight = [] := hq
      have h0 : s.transient = 0 := by rw [hi.tr, hfl]; rfl
      have hwin := h.win
      refine ⟨?_, ?_, h.dist⟩
      · show (if q > s.lastUsed then q else s.lastUsed) + s.transient ≤ s.lastStable + window
        have := ha.2
        split <;> omega
      · intro x hx hv
        have := h.below x hx hv
        show x.seq ≤ if q > s.lastUsed then q else s.lastUsed
        split <;> omega
    | leave v =>
      cases e
      have hv' : s.view < v := ha
      refine ⟨h.win, ?_, h.dist⟩
      intro x hx hv
      rcases hv with hv | hv
      · exfalso
        obtain ⟨m, hm, _, hmv, _⟩ := hi.sent x hx
        have := hi.vle m hm
        have h2 : x.view = v := hv
        omega
      · exact h.below x hx (Or.inr hv)
    | enter q =>
      cases e
      have hfl : s.flight = [] := hq
      obtain ⟨h1, h2, h3, h4⟩ := ha
      have h0 : s.transient = 0 := by rw [hi.tr, hfl]; rfl
      refine ⟨?_, ?_, h.dist⟩
      · show q + s.transient ≤ s.lastStable + window
        omega
      · intro x hx hv
        exfalso
        rcases hv with hv | ⟨f, hf, _⟩
        · obtain ⟨m, hm, _, hmv, _⟩ := hi.sent x hx
          have := hi.vlt h1 m hm
          have h2 : x.view = s.view := hv
          omega
        · have : f ∈ s.flight := hf
          rw [hfl] at this; cases this
    | control p w st => cases e; exact ⟨h.win, h.below, h.dist⟩
    | adapt k => cases e; exact ⟨h.win, h.below, h.dist⟩

theorem inv2_path {cfg : Cfg} {s t : St} {as : List Act} (p : Path cfg (fun s a => Allowed cfg s a ∧ Quiet s a) s as t)
    (hi : Inv cfg s) (h : Inv2 cfg s) : Inv cfg t ∧ Inv2 cfg t := by
  induction p with
  | nil => exact ⟨hi, h⟩
  | cons ha ht _ ih => exact ih (inv_step hi ha.1 ht) (inv2_step hi h ha.1 ha.2 ht)

theorem quiet_of_nil {s : St} (h : s.flight = []) (a : Act) : Quiet s a := by
  cases a <;> first | exact h | trivial

/-- with the batches finished in the same thread nothing is ever in flight -/
theorem quiet_sync {cfg : Cfg} (hs : cfg.async = false) {s t : St} {as : List Act} (p : Path cfg (Allowed cfg) s as t)
    (h : Inv cfg s) : Path cfg (fun s a => Allowed cfg s a ∧ Quiet s a) s as t := by
  induction p with
  | nil => exact .nil _
  | cons ha ht _ ih =>
    exact .cons ⟨ha, quiet_of_nil (h.sync hs) _⟩ ht (ih (inv_step h ha ht))

/-! ## no abort -/

theorem started {cfg : Cfg} {s : St} {pp : PP} {b : Bool} (h1 : s.lastStable ≤ s.lastUsed)
    (h2 : s.lastUsed + 1 ≤ s.lastStable + window) : ∃ t, start cfg s pp b = some t := by
  unfold start
  split
  · exact ⟨_, rfl⟩
  · rw [if_pos ⟨by omega, h2⟩]; exact ⟨_, rfl⟩

theorem sendBuilt_some {cfg : Cfg} {s : St} (lim : Limit) (h1 : s.lastStable ≤ s.lastUsed)
    (h2 : s.lastUsed + 1 ≤ s.lastStable + window) : ∃ t, sendBuilt cfg (build cfg lim s) = some t := by
  unfold build
  split
  · exact ⟨_, rfl⟩
  · simp only
    split
    · exact ⟨_, rfl⟩
    · split
      · split <;> exact ⟨_, rfl⟩
      · exact started h1 h2

theorem check_some {cfg : Cfg} {s : St} (hc : cfg.conc ≤ maxConcurrent)
    (he : primary cfg s = true → s.viewActive = true → s.lastExec + s.active ≤ s.lastUsed) : ∃ b, check cfg s = some b := by
  cases h : check cfg s with
  | some b => exact ⟨b, rfl⟩
  | none =>
    obtain ⟨a, b, c⟩ := check_none h hc
    have := he a b
    omega

theorem checkedBuild_some {cfg : Cfg} {s : St} (lim : Limit) (hc : cfg.conc ≤ maxConcurrent)
    (he : primary cfg s = true → s.viewActive = true → s.lastExec + s.active ≤ s.lastUsed)
    (h1 : s.lastStable ≤ s.lastUsed) (h2 : s.lastUsed + 1 ≤ s.lastStable + window) :
    ∃ r, checkedBuild cfg lim s = some r ∧ ∃ t, sendBuilt cfg r = some t := by
  obtain ⟨b, hb⟩ := check_some hc he
  unfold checkedBuild
  rw [hb]
  cases b with
  | false => exact ⟨_, rfl, _, rfl⟩
  | true => exact ⟨_, rfl, sendBuilt_some (s := removeDuplicated cfg s) lim h1 h2⟩

theorem tryToSend_some {cfg : Cfg} {s : St} (logic : Bool) (hc : cfg.conc ≤ maxConcurrent) (hn : 0 < s.maxNum)
    (he : primary cfg s = true → s.viewActive = true → s.lastExec + s.active ≤ s.lastUsed)
    (h1 : s.lastStable ≤ s.lastUsed) : ∃ t, tryToSend cfg logic s = some t := by
  obtain ⟨b, hb⟩ := check_some hc he
  unfold tryToSend
  rw [hb]
  cases b with
  | false => exact ⟨_, rfl⟩
  | true =>
    have hw := (check_true hb).1.inWindow
    have h2 : s.lastUsed + 1 ≤ s.lastStable + window := by unfold window; omega
    show ∃ t, (if logic = true then _ else _) = some t
    split
    · have : ∃ r, batchRequests cfg (removeDuplicated cfg s) = some r ∧ ∃ t, sendBuilt cfg r = some t := by
        have hcb := fun lim => checkedBuild_some (s := removeDuplicated cfg s) lim hc he h1 h2
        unfold batchRequests
        split
        · exact ⟨_, rfl, _, rfl⟩
        · split
          · split
            · exact ⟨_, rfl, _, rfl⟩
            · obtain ⟨f, _, _, _, _, _, _, _, a8⟩ := adjust_same cfg (removeDuplicated cfg s)
              refine ⟨_, rfl, sendBuilt_some _ ?_ ?_⟩
              · rw [f.stab, a8]; exact h1
              · rw [f.stab, a8]; exact h2
          · split
            · exact ⟨_, rfl, _, rfl⟩
            · exact hcb _
          · rw [if_neg (show ¬ (removeDuplicated cfg s).maxNum = 0 from by show ¬ s.maxNum = 0; omega)]
            split
            · exact ⟨_, rfl, _, rfl⟩
            · exact hcb _
          · rw [if_neg (show ¬ (removeDuplicated cfg s).maxNum = 0 from by show ¬ s.maxNum = 0; omega)]
            split
            · exact ⟨_, rfl, _, rfl⟩
            · exact hcb _
      obtain ⟨r, hr, t, ht⟩ := this
      rw [hr]; exact ⟨t, ht⟩
    · exact sendBuilt_some (s := removeDuplicated cfg s) .all h1 h2

theorem step_some {cfg : Cfg} (hc : cfg.conc ≤ maxConcurrent) {s : St} {a : Act} (hi : Inv cfg s) (h : Inv2 cfg s)
    (ha : Allowed cfg s a) : ∃ t, step cfg s a = some t := by
  cases a with
  | request r =>
    show ∃ t, onRequest cfg s r = some t
    unfold onRequest
    split; · exact ⟨_, rfl⟩
    split; · exact ⟨_, rfl⟩
    split; · exact ⟨_, rfl⟩
    split; · exact ⟨_, rfl⟩
    split; · exact ⟨_, rfl⟩
    split
    · exact tryToSend_some (s := pushed s r) true hc hi.num hi.exec hi.low
    · exact ⟨_, rfl⟩
  | flush =>
    unfold step
    simp only
    split
    · exact tryToSend_some false hc hi.num hi.exec hi.low
    · exact ⟨_, rfl⟩
  | retry =>
    unfold step
    simp only
    split
    · exact tryToSend_some true hc hi.num hi.exec hi.low
    · exact ⟨_, rfl⟩
  | force => exact tryToSend_some false hc hi.num hi.exec hi.low
  | finished k =>
    show ∃ t, onFinished cfg s k = some t
    unfold onFinished
    split
    · exact ⟨_, rfl⟩
    · rename_i pp hpp
      simp only
      split
      · exact ⟨_, rfl⟩
      · have hlt : k < s.flight.length := by
          rw [List.getElem?_eq_some_iff] at hpp; exact hpp.1
        refine started (s := landed s k) hi.low ?_
        show s.lastUsed + 1 ≤ s.lastStable + window
        have := h.win
        have := hi.tr
        omega
  | clients o =>
    have : (Clients.step cfg.clients s.cm o).isSome = true := ha
    obtain ⟨cm, hcm⟩ := Option.isSome_iff_exists.1 this
    exact ⟨_, by show (Clients.step cfg.clients s.cm o).map _ = _; rw [hcm]; rfl⟩
  | executed e a => exact ⟨_, rfl⟩
  | stable q => exact ⟨_, rfl⟩
  | collect => exact ⟨_, rfl⟩
  | transferred q => exact ⟨_, rfl⟩
  | leave v => exact ⟨_, rfl⟩
  | enter q => exact ⟨_, rfl⟩
  | control p w st => exact ⟨_, rfl⟩
  | adapt k => exact ⟨_, rfl⟩

end Concord.Batch
