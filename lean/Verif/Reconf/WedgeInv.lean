import Verif.Reconf.WedgeSpec
set_option linter.unusedVariables false
set_option linter.unusedSimpArgs false
/-!
# Stopping the system: the invariant
-/
namespace Verif.Wedge

/-- The transfers to which the positive results are restricted: within the replica's own epoch, or to a state in
which no stop is pending.  (WedgeExamples: otherwise the replica does not learn the stop point.) -/
def okTransfer (w : World) : Ev → Prop
  | .transfer i _ _ ch => (w i).self = ch.epoch ∨ stopOf ch = none
  | _ => True

structure Inv (log : Nat → List Cmd) (r : Rep) : Prop where
  chain : r.chain = chainAfter log r.last ∨ (stopAfter log r.last = some r.last ∧ r.chain = lift (chainAfter log r.last))
  self : r.self = r.chain.epoch
  stop : r.stop = stopOf r.chain
  wedged : r.wedged = true → r.stop = some r.last
  acc : ∀ p ∈ r.accepted, p ≤ r.stable + 300 ∧ ∀ w, r.stop = some w → p ≤ w
  stable : r.stable % 150 = 0 ∧ r.stable ≤ r.last
  snaps : ∀ x ∈ r.snaps, x.2 = chainAfter log x.1 ∧ x.1 % 150 = 0

theorem Inv.init (log : Nat → List Cmd) : Inv log {} :=
  ⟨.inl rfl, rfl, rfl, fun h => (by cases h), fun p h => (by cases h), ⟨rfl, Nat.le_refl _⟩, fun x h => (by cases h)⟩

/-- the stop point of a replica in terms of the log -/
theorem Inv.stop_eq {log : Nat → List Cmd} (hni : NoInstall log) {r : Rep} (h : Inv log r) :
    (r.chain = chainAfter log r.last ∧ r.stop = stopAfter log r.last ∧ r.self = epochAfter log r.last) ∨
    (stopAfter log r.last = some r.last ∧ r.chain = lift (chainAfter log r.last) ∧ r.stop = none ∧ r.self = epochAfter log r.last + 1) := by
  have hc := chainAfter_inv hni r.last
  rcases h.chain with h1 | ⟨h1, h2⟩
  · exact .inl ⟨h1, by rw [h.stop, h1, hc.stop], by rw [h.self, h1, hc.epoch]⟩
  · refine .inr ⟨h1, h2, by rw [h.stop, h2, stopOf_lift hni], ?_⟩
    rw [h.self, h2]
    show (chainAfter log r.last).epoch + 1 = _
    rw [hc.epoch]

theorem Inv.last_le {log : Nat → List Cmd} (hni : NoInstall log) {r : Rep} (h : Inv log r) {w : Nat} (hw : r.stop = some w) : r.last ≤ w := by
  rcases h.stop_eq hni with ⟨_, h2, _⟩ | ⟨_, _, h2, _⟩
  · rw [h2] at hw; exact stopAfter_ge log _ w hw
  · rw [h2] at hw; cases hw

theorem Inv.accept {log : Nat → List Cmd} {r : Rep} (h : Inv log r) {p : Nat} (ha : accepts r p = true) :
    Inv log { r with accepted := r.accepted ++ [p] } := by
  refine ⟨h.chain, h.self, h.stop, h.wedged, ?_, h.stable, h.snaps⟩
  intro q hq
  rcases List.mem_append.1 hq with hq | hq
  · exact h.acc q hq
  · rw [List.mem_singleton.1 hq]
    unfold accepts stopAt at ha
    simp only [Bool.and_eq_true, decide_eq_true_eq, Bool.not_eq_true', Bool.or_eq_false_iff] at ha
    refine ⟨ha.2, ?_⟩
    intro w hw
    have hw : r.stop = some w := hw
    have := ha.1.1.2
    rw [hw] at this
    simp only [decide_eq_false_iff_not] at this
    omega

/-- what the commands of one batch do -/
theorem fold_command {s : Nat} (hs : 1 ≤ s) (cmds : List Cmd) : ∀ r : Rep,
    (cmds.foldl (command s) r).chain = cmds.foldl (record s r.self) r.chain ∧
    (cmds.foldl (command s) r).self = r.self ∧ (cmds.foldl (command s) r).last = r.last ∧ (cmds.foldl (command s) r).stable = r.stable ∧
    (cmds.foldl (command s) r).wedged = r.wedged ∧ (cmds.foldl (command s) r).accepted = r.accepted ∧
    (cmds.foldl (command s) r).snaps = r.snaps ∧
    (cmds.foldl (command s) r).stop = if cmds = [] then r.stop else some (second s) := by
  induction cmds with
  | nil => intro r; exact ⟨rfl, rfl, rfl, rfl, rfl, rfl, rfl, rfl⟩
  | cons a cmds ih =>
    intro r
    have ha : (command s r a).chain = record s r.self r.chain a ∧ (command s r a).self = r.self ∧ (command s r a).last = r.last ∧
        (command s r a).stable = r.stable ∧ (command s r a).wedged = r.wedged ∧ (command s r a).accepted = r.accepted ∧
        (command s r a).snaps = r.snaps ∧ (command s r a).stop = some (second s) := by
      cases a <;> exact ⟨rfl, rfl, rfl, rfl, rfl, rfl, rfl, stopFor_eq hs⟩
    obtain ⟨h1, h2, h3, h4, h5, h6, h7, h8⟩ := ha
    obtain ⟨i1, i2, i3, i4, i5, i6, i7, i8⟩ := ih (command s r a)
    refine ⟨?_, i2.trans h2, i3.trans h3, i4.trans h4, i5.trans h5, i6.trans h6, i7.trans h7, ?_⟩
    · show (cmds.foldl (command s) (command s r a)).chain = cmds.foldl (record s r.self) (record s r.self r.chain a)
      rw [i1, h1, h2]
    · show (cmds.foldl (command s) (command s r a)).stop = _
      rw [i8, if_neg (List.cons_ne_nil _ _)]
      split
      · exact h8
      · rfl

/-- the chain a replica that goes on has belongs to the next epoch if it was at a stop point -/
theorem Inv.next {log : Nat → List Cmd} (hni : NoInstall log) {r : Rep} (h : Inv log r) (hns : r.stop ≠ some r.last) :
    r.self = epochAfter log (r.last + 1) ∧ r.chain = { chainAfter log r.last with epoch := epochAfter log (r.last + 1) } ∧
    (r.stop = if stopAfter log r.last = some r.last then none else stopAfter log r.last) := by
  have hc := chainAfter_inv hni r.last
  rcases h.stop_eq hni with ⟨h1, h2, h3⟩ | ⟨h1, h2, h3, h4⟩
  · have hs : stopAfter log r.last ≠ some r.last := by rw [← h2]; exact hns
    have he : epochAfter log (r.last + 1) = epochAfter log r.last := by conv => lhs; unfold epochAfter
                                                                        rw [if_neg hs]
    refine ⟨by rw [he, h3], ?_, ?_⟩
    · rw [h1, he, ← hc.epoch]
    · rw [if_neg hs, h2]
  · have he : epochAfter log (r.last + 1) = epochAfter log r.last + 1 := by conv => lhs; unfold epochAfter
                                                                            rw [if_pos h1]
    refine ⟨by rw [he, h4], ?_, ?_⟩
    · rw [h2, he, ← hc.epoch]; rfl
    · rw [if_pos h1, h3]

theorem Inv.exec {log : Nat → List Cmd} (hni : NoInstall log) {r : Rep} (h : Inv log r) (hx : canExec r = true) : Inv log (exec log r) := by
  unfold canExec at hx
  simp only [Bool.and_eq_true, decide_eq_true_eq, Bool.not_eq_true', List.contains_iff_mem] at hx
  obtain ⟨⟨hw1, hw2⟩, hm⟩ := hx
  have hns : r.stop ≠ some r.last := by
    intro e
    have := (h.acc _ hm).2 _ e
    omega
  obtain ⟨n1, n2, n3⟩ := h.next hni hns
  obtain ⟨f1, f2, f3, f4, f5, f6, f7, f8⟩ := fold_command (s := r.last + 1) (by omega) (log (r.last + 1)) { r with last := r.last + 1 }
  simp only at f1 f2 f3 f4 f5 f6 f7 f8
  have hchain : (((log (r.last + 1)).foldl (command (r.last + 1)) { r with last := r.last + 1 })).chain = chainAfter log (r.last + 1) := by
    rw [f1, n1, n2]; rfl
  have hci := chainAfter_inv hni (r.last + 1)
  have hstop : (((log (r.last + 1)).foldl (command (r.last + 1)) { r with last := r.last + 1 })).stop = stopAfter log (r.last + 1) := by
    rw [f8]
    conv => rhs; unfold stopAfter
    by_cases hl : log (r.last + 1) = []
    · rw [if_pos hl, if_neg (by simpa using hl), n3]
    · rw [if_neg hl, if_pos hl]
  unfold Wedge.exec
  simp only
  generalize ((log (r.last + 1)).foldl (command (r.last + 1)) { r with last := r.last + 1 }) = r1 at f1 f2 f3 f4 f5 f6 f7 f8 hchain hstop ⊢
  refine ⟨.inl ?_, ?_, ?_, ?_, ?_, ?_, ?_⟩
  · show r1.chain = chainAfter log r1.last
    rw [f3]; exact hchain
  · show r1.self = r1.chain.epoch
    rw [f2, hchain, hci.epoch, n1]
  · show r1.stop = stopOf r1.chain
    rw [hchain, hci.stop, hstop]
  · intro hw
    show r1.stop = some r1.last
    have hw : (r1.wedged || decide (r1.stop = some (r.last + 1))) = true := hw
    rw [f5, hw2, Bool.false_or, decide_eq_true_eq] at hw
    rw [hw, f3]
  · intro p hp
    show p ≤ r1.stable + 300 ∧ ∀ w, r1.stop = some w → p ≤ w
    have hp : p ∈ r1.accepted := hp
    rw [f6] at hp
    obtain ⟨h1, h2⟩ := h.acc p hp
    rw [f4]
    refine ⟨h1, ?_⟩
    intro w hw
    rw [f8] at hw
    by_cases hl : log (r.last + 1) = []
    · rw [if_pos hl] at hw; exact h2 w hw
    · rw [if_neg hl] at hw
      cases hw
      have := second_window (s := r.last + 1) h.stable.1 (by have := h.stable.2; omega)
      omega
  · show r1.stable % 150 = 0 ∧ r1.stable ≤ r1.last
    rw [f4, f3]
    exact ⟨h.stable.1, by have := h.stable.2; omega⟩
  · intro x hx
    have hx : x ∈ (if (r.last + 1) % 150 = 0 then r1.snaps ++ [(r.last + 1, r1.chain)] else r1.snaps) := hx
    rw [f7] at hx
    split at hx
    · rename_i hm
      rcases List.mem_append.1 hx with hx | hx
      · exact h.snaps x hx
      · rw [List.mem_singleton.1 hx]; exact ⟨hchain, hm⟩
    · exact h.snaps x hx

theorem Inv.fire {log : Nat → List Cmd} {r : Rep} (h : Inv log r) (b : Bool) (hw : r.stop = some r.last) : Inv log { fire r b with wedged := true } :=
  ⟨h.chain, h.self, h.stop, fun _ => hw, h.acc, h.stable, h.snaps⟩

theorem Inv.stableAt {log : Nat → List Cmd} (hni : NoInstall log) {r : Rep} (h : Inv log r) {c : Nat} (h1 : c % 150 = 0) (h2 : r.stable < c) (h3 : c ≤ r.last) :
    Inv log (stableAt r c) := by
  have hb : Inv log { r with stable := c } := by
    refine ⟨h.chain, h.self, h.stop, h.wedged, ?_, ⟨h1, h3⟩, h.snaps⟩
    intro p hp
    have := h.acc p hp
    refine ⟨?_, this.2⟩
    show p ≤ c + 300
    omega
  unfold Wedge.stableAt
  simp only
  split
  · rename_i hs
    have := h.last_le hni hs
    have : c = r.last := by omega
    exact hb.fire false (by show r.stop = some r.last; rw [hs, this])
  · exact hb

theorem Inv.superStableAt {log : Nat → List Cmd} (hni : NoInstall log) {r : Rep} (h : Inv log r) {c : Nat} (h3 : c ≤ r.last) :
    Inv log (superStableAt r c) := by
  unfold Wedge.superStableAt
  split
  · rename_i hs
    have := h.last_le hni hs
    have : c = r.last := by omega
    exact h.fire true (by rw [hs, this])
  · exact h

/-- the state after a restart -/
theorem Inv.restart {log : Nat → List Cmd} (hni : NoInstall log) {r : Rep} (h : Inv log r) (e : Bool) (he : e = true → r.stop = some r.last) :
    Inv log (restart e r) := by
  have hc := chainAfter_inv hni r.last
  -- the chain after the restart
  let ch : Chain := { r.chain with epoch := if e then r.chain.epoch + 1 else r.chain.epoch }
  have hch : ch = chainAfter log r.last ∨ (stopAfter log r.last = some r.last ∧ ch = lift (chainAfter log r.last)) := by
    cases e with
    | false => exact h.chain
    | true =>
      have hs := he rfl
      rcases h.stop_eq hni with ⟨h1, h2, h3⟩ | ⟨h1, h2, h3, h4⟩
      · refine .inr ⟨by rw [← h2, hs], ?_⟩
        show ({ r.chain with epoch := r.chain.epoch + 1 } : Chain) = _
        rw [h1]; rfl
      · rw [h3] at hs; cases hs
  have hchw : ∀ s x, ch.wedge = some (s, x) → 1 ≤ s := by
    intro s x hw
    rcases hch with h1 | ⟨_, h1⟩
    · rw [h1] at hw; exact (hc.wedge s x hw).1
    · rw [h1] at hw; exact (hc.wedge s x hw).1
  have hns : ∀ w, stopOf ch = some w → ∀ p ∈ r.accepted, p ≤ w := by
    intro w hw p hp
    cases e with
    | false => exact (h.acc p hp).2 w (by rw [h.stop]; exact hw)
    | true =>
      exfalso
      have hs := he rfl
      rcases h.stop_eq hni with ⟨h1, h2, h3⟩ | ⟨h1, h2, h3, h4⟩
      · have : ch = lift (chainAfter log r.last) := by
          show ({ r.chain with epoch := r.chain.epoch + 1 } : Chain) = _
          rw [h1]; rfl
        rw [this, stopOf_lift hni] at hw; cases hw
      · rw [h3] at hs; cases hs
  have hshow : Wedge.restart e r = wedgeEvent { r with stop := none, wedged := false, cbs := [], onStable := false, onSuper := false, self := ch.epoch, chain := ch } := rfl
  rw [hshow]
  generalize hchd : ch = c2 at hch hchw hns
  unfold wedgeEvent
  simp only
  have hrest : ∀ st : Option Nat, st = stopOf c2 → ∀ (x : Bool) (y z : Bool) (f : List Cb), (x = true → st = some r.last) →
      Inv log { r with stop := st, wedged := x, cbs := [], fired := f, onStable := y, onSuper := z, self := c2.epoch, chain := c2 } := by
    intro st hst x y z f hx
    refine ⟨hch, rfl, hst, hx, ?_, h.stable, h.snaps⟩
    intro p hp
    refine ⟨(h.acc p hp).1, ?_⟩
    intro w hw
    have hw : st = some w := hw
    exact hns w (by rw [← hst]; exact hw) p hp
  cases hwg : c2.wedge with
  | none =>
    simp only
    exact hrest none (by unfold stopOf; rw [hwg]) false false false r.fired (fun h => by cases h)
  | some x =>
    obtain ⟨s, ep⟩ := x
    have hs1 := hchw s ep hwg
    simp only
    rw [if_neg (show s ≠ 0 by omega)]
    by_cases hep : ep = c2.epoch
    · have hso : stopFor s = stopOf c2 := by unfold stopOf; rw [hwg]; simp only; rw [if_pos hep]
      rw [if_pos hep]
      by_cases hl : stopFor s = some r.last
      · rw [if_pos hl]
        exact hrest (stopFor s) hso true _ _ _ (fun _ => hl)
      · rw [if_neg hl]
        exact hrest (stopFor s) hso false _ _ _ (fun h => by cases h)
    · rw [if_neg hep]
      exact hrest none (by unfold stopOf; rw [hwg]; simp only; rw [if_neg hep]) false false false r.fired (fun h => by cases h)

theorem Inv.unwedge {log : Nat → List Cmd} (hni : NoInstall log) {r : Rep} (h : Inv log r) (cfg : Cfg) (u : Unwedge) : Inv log (unwedge cfg u r) := by
  unfold Wedge.unwedge
  split
  · exact h
  · rename_i hw
    have hs := h.wedged (by simpa using hw)
    split
    · exact h
    · split
      · exact h.restart hni true (fun _ => hs)
      · rcases h.stop_eq hni with ⟨h1, h2, h3⟩ | ⟨h1, h2, h3, h4⟩
        · have hch : ({ r.chain with epoch := r.self + 1 } : Chain) = lift (chainAfter log r.last) := by
            rw [h.self, h1]; rfl
          refine ⟨.inr ⟨by rw [← h2]; exact hs, hch⟩, rfl, ?_, fun h => (by cases h), ?_, h.stable, h.snaps⟩
          · show none = stopOf { r.chain with epoch := r.self + 1 }
            rw [hch, stopOf_lift hni]
          · intro p hp
            exact ⟨(h.acc p hp).1, fun w hw => by cases hw⟩
        · rw [h3] at hs; cases hs

/-- what `stCallBack` does under the restriction, without install records: own epoch, stop point and flag -/
theorem stCallBack_eq {c ge : Nat} {r : Rep} (hi : r.chain.install = none) (he : r.self ≤ ge)
    (hw0 : r.chain.wedge = none → r.chain.scale = none)
    (hok : r.self = ge ∨ ∀ s e, r.chain.wedge = some (s, e) → e < ge)
    (hc300 : r.self < ge → c ≠ 300) :
    let r1 := stCallBack c ge r
    r1.chain = r.chain ∧ r1.last = r.last ∧ r1.stable = r.stable ∧ r1.accepted = r.accepted ∧ r1.snaps = r.snaps ∧
    (∀ s e, r.chain.wedge = some (s, e) → r1.self = ge ∧
      (e = ge → r1.stop = stopFor s ∧ r1.wedged = r.wedged) ∧
      (e < ge → r1.stop = none ∧ (r1.wedged = true → r.wedged = true ∧ r.stop = none))) ∧
    (r.chain.wedge = none → r1 = r) := by
  have hinst : ∀ x : Rep, x.chain.install = none → stInstall x = x := by
    intro x hx; unfold stInstall; rw [hx]
  have h1 : stCallBack c ge r = stInstall (stWedge ge (stScale c ge r)) := by unfold stCallBack; rw [hinst r hi]
  intro r1
  -- scaling changes only the stop point and the callbacks, and only if the own epoch is behind
  have h2 : (stScale c ge r).chain = r.chain ∧ (stScale c ge r).last = r.last ∧ (stScale c ge r).stable = r.stable ∧
      (stScale c ge r).accepted = r.accepted ∧ (stScale c ge r).snaps = r.snaps ∧ (stScale c ge r).self = r.self ∧
      (stScale c ge r).wedged = r.wedged ∧ ((stScale c ge r).stop = r.stop ∨ r.self < ge) ∧
      (r.chain.scale = none → stScale c ge r = r) := by
    unfold stScale
    cases hs : r.chain.scale with
    | none => exact ⟨rfl, rfl, rfl, rfl, rfl, rfl, rfl, .inl rfl, fun _ => rfl⟩
    | some x =>
      obtain ⟨s, e, b, rs⟩ := x
      simp only
      by_cases c1 : e < r.self
      · rw [if_pos c1]; exact ⟨rfl, rfl, rfl, rfl, rfl, rfl, rfl, .inl rfl, fun h => (by cases h)⟩
      · rw [if_neg c1]
        by_cases c2 : r.self = e ∧ r.self = ge ∧ c < (s + 300) - (s + 300) % 150
        · rw [if_pos c2]; exact ⟨rfl, rfl, rfl, rfl, rfl, rfl, rfl, .inl rfl, fun h => (by cases h)⟩
        · rw [if_neg c2]
          by_cases c3 : r.self < ge
          · rw [if_pos c3]; exact ⟨rfl, rfl, rfl, rfl, rfl, rfl, rfl, .inr c3, fun h => (by cases h)⟩
          · rw [if_neg c3]
            split <;> exact ⟨rfl, rfl, rfl, rfl, rfl, rfl, rfl, .inl rfl, fun h => (by cases h)⟩
  generalize hx : stScale c ge r = x at h1 h2
  obtain ⟨a1, a2, a3, a4, a5, a6, a7, a8, a9⟩ := h2
  have h3 : stInstall (stWedge ge x) = stWedge ge x := by
    apply hinst
    unfold stWedge
    split
    · rw [a1]; exact hi
    · split
      · rw [← a1] at hi; exact hi
      · split <;> (rw [← a1] at hi; exact hi)
  have hr1 : r1 = stWedge ge x := by rw [← h3, ← h1]
  rw [hr1]
  cases hwd : r.chain.wedge with
  | none =>
    have : stWedge ge x = x := by unfold stWedge; rw [a1, hwd]
    rw [this]
    refine ⟨a1, a2, a3, a4, a5, fun s e h => (by cases h), fun _ => a9 (hw0 hwd)⟩
  | some y =>
    obtain ⟨s, e⟩ := y
    unfold stWedge
    rw [a1, hwd]
    simp only [a6]
    by_cases c1 : r.self = e ∧ r.self = ge
    · rw [if_pos c1]
      refine ⟨rfl, a2, a3, a4, a5, ?_, fun h => (by cases h)⟩
      intro s' e' he'
      cases he'
      refine ⟨?_, ?_, ?_⟩
      · exact c1.2
      · intro _; exact ⟨rfl, a7⟩
      · intro hlt; omega
    · rw [if_neg c1]
      have hlt : e < ge ∨ e = ge ∨ ge < e := by omega
      by_cases c2 : e < ge ∧ x.stop.isSome = true
      · rw [if_pos c2]
        refine ⟨rfl, a2, a3, a4, a5, ?_, fun h => (by cases h)⟩
        intro s' e' he'
        cases he'
        exact ⟨rfl, fun h => (by omega), fun _ => ⟨rfl, fun h => (by cases h)⟩⟩
      · rw [if_neg c2]
        refine ⟨rfl, a2, a3, a4, a5, ?_, fun h => (by cases h)⟩
        intro s' e' he'
        cases he'
        refine ⟨rfl, ?_, ?_⟩
        · intro heq
          exfalso
          rcases hok with h | h
          · exact c1 ⟨by omega, h⟩
          · have := h s e hwd; omega
        · intro hl
          have hn : x.stop = none := by
            cases hst : x.stop with
            | none => rfl
            | some v => exact absurd ⟨hl, by rw [hst]; rfl⟩ c2
          refine ⟨hn, ?_⟩
          intro hwt
          refine ⟨by rw [← a7]; exact hwt, ?_⟩
          rcases a8 with h | h
          · rw [← h]; exact hn
          · -- the scaling handler put a stop point: then it is not none
            cases hs : r.chain.scale with
            | none =>
              have := a9 hs
              rw [this] at hn; exact hn
            | some z =>
              rw [← hx] at hn
              unfold stScale at hn
              rw [hs] at hn
              obtain ⟨zs, ze, zb, zr⟩ := z
              simp only at hn
              by_cases c1 : ze < r.self
              · rw [if_pos c1] at hn; exact hn
              · rw [if_neg c1, if_neg (by omega), if_pos h] at hn
                unfold stopHere at hn
                rw [if_neg (hc300 h)] at hn
                cases hn

theorem epochAfter_zero {log : Nat → List Cmd} (n : Nat) (h : ∀ m, m < n → stopAfter log m ≠ some m) : epochAfter log n = 0 := by
  induction n with
  | zero => rfl
  | succ n ih =>
    unfold epochAfter
    rw [if_neg (h n (by omega))]
    exact ih (fun m hm => h m (by omega))

/-- nothing is lifted before the first possible stop point, 300 -/
theorem epochAfter_pos {log : Nat → List Cmd} {n : Nat} (h : 0 < epochAfter log n) : 300 < n := by
  by_cases hn : 300 < n
  · exact hn
  · exfalso
    have := epochAfter_zero (log := log) n ?_
    · omega
    · intro m hm hs
      obtain ⟨s, h1, h2, h3, _⟩ := stopAfter_origin log m m hs
      unfold second at h3
      omega

theorem Inv.transfer {log : Nat → List Cmd} (hni : NoInstall log) {r : Rep} (h : Inv log r) {c : Nat} {ch : Chain}
    (hch : ch = chainAfter log c) (hm : c % 150 = 0) (hlt : r.last < c) (hok : r.self = ch.epoch ∨ stopOf ch = none) :
    Inv log (transfer c ch r) := by
  have hc := chainAfter_inv hni c
  rw [← hch] at hc
  have hself : r.self ≤ epochAfter log c := by
    rcases h.stop_eq hni with ⟨h1, h2, h3⟩ | ⟨h1, h2, h3, h4⟩
    · rw [h3]; exact epochAfter_mono log (by omega)
    · rw [h4]; exact epochAfter_pass log hlt h1
  have key := stCallBack_eq (c := c) (ge := ch.epoch) (r := { r with chain := ch }) hc.install (by rw [hc.epoch]; exact hself)
    (fun hw => (hc.empty hw).1)
    (by
      rcases hok with h1 | h1
      · exact .inl h1
      · refine .inr ?_
        intro s e hw
        have hw : ch.wedge = some (s, e) := hw
        have hb := hc.wedge s e hw
        unfold stopOf at h1
        rw [hw] at h1
        simp only at h1
        by_cases he : e = ch.epoch
        · rw [if_pos he, stopFor_eq hb.1] at h1; cases h1
        · have := hc.epoch; omega)
    (by
      intro hlt
      have hlt : r.self < ch.epoch := hlt
      have := epochAfter_pos (log := log) (n := c) (by rw [← hc.epoch]; omega)
      omega)
  simp only at key
  unfold Wedge.transfer
  simp only
  generalize stCallBack c ch.epoch { r with chain := ch } = r1 at key ⊢
  obtain ⟨k1, k2, k3, k4, k5, k6, k7⟩ := key
  -- own epoch, stop point, flag
  have hfacts : r1.self = ch.epoch ∧ r1.stop = stopOf ch ∧ r1.wedged = false := by
    cases hw : ch.wedge with
    | none =>
      have hr := k7 hw
      obtain ⟨_, hall⟩ := hc.empty hw
      have h0 := epochAfter_zero (log := log) c (fun m hm e => by rw [hall m (by omega)] at e; cases e)
      have hst : r.stop = none := by
        rcases h.stop_eq hni with ⟨h1, h2, h3⟩ | ⟨h1, h2, h3, h4⟩
        · rw [h2]; exact hall _ (by omega)
        · exact h3
      refine ⟨?_, ?_, ?_⟩
      · rw [hr, hc.epoch, h0]; show r.self = 0; omega
      · rw [hr]; show r.stop = _; rw [hst]; unfold stopOf; rw [hw]
      · rw [hr]; show r.wedged = false
        cases hwd : r.wedged with
        | false => rfl
        | true => have := h.wedged hwd; rw [hst] at this; cases this
    | some y =>
      obtain ⟨s, e⟩ := y
      obtain ⟨q1, q2, q3⟩ := k6 s e hw
      have hb := hc.wedge s e hw
      have hso : stopOf ch = if e = ch.epoch then stopFor s else none := by unfold stopOf; rw [hw]
      by_cases he : e = ch.epoch
      · obtain ⟨q4, q5⟩ := q2 he
        rw [if_pos he] at hso
        refine ⟨q1, by rw [q4, hso], ?_⟩
        rw [q5]
        show r.wedged = false
        cases hwd : r.wedged with
        | false => rfl
        | true =>
          exfalso
          have hs := h.wedged hwd
          have hse : r.self = ch.epoch := by
            rcases hok with h1 | h1
            · exact h1
            · rw [hso, stopFor_eq hb.1] at h1; cases h1
          rcases h.stop_eq hni with ⟨h1, h2, h3⟩ | ⟨h1, h2, h3, h4⟩
          · have := epochAfter_pass log hlt (by rw [← h2]; exact hs)
            rw [hc.epoch] at hse
            omega
          · rw [h3] at hs; cases hs
      · rw [if_neg he] at hso
        obtain ⟨q4, q5⟩ := q3 (by have := hc.epoch; omega)
        refine ⟨q1, by rw [q4, hso], ?_⟩
        cases hwd : r1.wedged with
        | false => rfl
        | true =>
          exfalso
          obtain ⟨q6, q7⟩ := q5 hwd
          have hs := h.wedged q6
          have q7 : r.stop = none := q7
          rw [q7] at hs; cases hs
  obtain ⟨f1, f2, f3⟩ := hfacts
  refine ⟨.inl ?_, ?_, ?_, ?_, ?_, ?_, ?_⟩
  · show r1.chain = _
    rw [k1]; exact hch
  · show r1.self = r1.chain.epoch
    rw [f1, k1]
  · show r1.stop = stopOf r1.chain
    rw [f2, k1]
  · intro hw
    have hw : r1.wedged = true := hw
    rw [f3] at hw; cases hw
  · intro p hp
    have hp : p ∈ r1.accepted := hp
    rw [k4] at hp
    obtain ⟨a1, a2⟩ := h.acc p hp
    have k3 : r1.stable = r.stable := k3
    refine ⟨?_, ?_⟩
    · show p ≤ (if r1.stable + 300 < c then c - 300 else r1.stable) + 300
      rw [k3]
      split <;> omega
    · intro w hw
      have hw : r1.stop = some w := hw
      rw [f2] at hw
      have hse : r.self = ch.epoch := by
        rcases hok with h1 | h1
        · exact h1
        · rw [h1] at hw; cases hw
      rw [hc.epoch] at hse
      rw [hc.stop] at hw
      obtain ⟨s, s1, s2, s3, s4, s5⟩ := stopAfter_origin log c w hw
      by_cases hl : r.last < s
      · have := second_window (s := s) h.stable.1 (by have := h.stable.2; omega)
        omega
      · obtain ⟨t1, t2⟩ := s5 r.last (by omega) (by omega)
        rcases h.stop_eq hni with ⟨h1, h2, h3⟩ | ⟨h1, h2, h3, h4⟩
        · exact a2 w (by rw [h2]; exact t1)
        · omega
  · have k3 : r1.stable = r.stable := k3
    show (if r1.stable + 300 < c then c - 300 else r1.stable) % 150 = 0 ∧ (if r1.stable + 300 < c then c - 300 else r1.stable) ≤ c
    rw [k3]
    have := h.stable
    split <;> omega
  · intro x hx
    have hx : x ∈ r1.snaps ++ [(c, ch)] := hx
    rcases List.mem_append.1 hx with hx | hx
    · rw [k5] at hx; exact h.snaps x hx
    · rw [List.mem_singleton.1 hx]; exact ⟨hch, hm⟩

/-- every replica of every permitted run satisfies the invariant -/
theorem reach_inv {cfg : Cfg} {log : Nat → List Cmd} (hni : NoInstall log) {ok : World → Ev → Prop} (hok : ∀ w e, ok w e → okTransfer w e)
    {l : List Ev} {w : World} (h : Reach cfg log ok l w) : ∀ i, Inv log (w i) := by
  induction h with
  | init => intro i; exact Inv.init log
  | step hr ho hs ih =>
    have ho := hok _ _ ho
    have upd : ∀ (v : World) (i : Nat) (r : Rep), (∀ j, Inv log (v j)) → Inv log r → ∀ j, Inv log (v.set i r j) := by
      intro v i r hv hr j
      unfold World.set
      split
      · exact hr
      · exact hv j
    cases hs with
    | accept i p h => exact upd _ _ _ ih ((ih i).accept h)
    | exec i h => exact upd _ _ _ ih ((ih i).exec hni h)
    | stable i c h1 h2 h3 => exact upd _ _ _ ih ((ih i).stableAt hni h1 h2 h3)
    | superStable i c h1 h2 => exact upd _ _ _ ih ((ih i).superStableAt hni h2)
    | restart i => exact upd _ _ _ ih ((ih i).restart hni false (fun h => by cases h))
    | unwedge i u => exact upd _ _ _ ih ((ih i).unwedge hni cfg u)
    | transfer i j c ch h1 h2 =>
      have hsn := (ih j).snaps _ h1
      exact upd _ _ _ ih ((ih i).transfer hni hsn.1 hsn.2 h2 ho)

end Verif.Wedge
