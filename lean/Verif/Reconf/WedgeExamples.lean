import Verif.Reconf.WedgeTheorems
set_option linter.unusedVariables false
set_option linter.unusedSimpArgs false
/-!
# Stopping the system: runs that meet the hypotheses, and runs that show the restrictions are needed
-/
namespace Verif.Wedge

theorem Reach.mono {cfg : Cfg} {log : Nat → List Cmd} {ok ok' : World → Ev → Prop} (hm : ∀ w e, ok w e → ok' w e) {l : List Ev} {w : World}
    (h : Reach cfg log ok l w) : Reach cfg log ok' l w := by
  induction h with
  | init => exact .init
  | step _ ho hs ih => exact .step ih (hm _ _ ho) hs

/-- four replicas, every signature valid -/
def cfg4 : Cfg := ⟨4, 1, 0, fun _ _ _ => true⟩

/-- wedge at 5 and at 310 -/
def log2 (s : Nat) : List Cmd := if s = 5 then [.wedge] else if s = 310 then [.wedge] else []

theorem log2_ni : NoInstall log2 := by
  intro s b h
  unfold log2 at h
  split at h
  · simp at h
  · split at h
    · simp at h
    · cases h

theorem log2_quiet {p : Nat} (h5 : p ≠ 5) (h3 : p ≠ 310) : log2 p = [] := by
  unfold log2; rw [if_neg h5, if_neg h3]

/-- four different voters for epochs 0 and 1 -/
def votes4 : Unwedge := ⟨[⟨0, 1, 0⟩, ⟨1, 1, 0⟩, ⟨2, 1, 0⟩, ⟨3, 1, 0⟩], false, false⟩

theorem exec_wedge {log : Nat → List Cmd} {r : Rep} (hl : log (r.last + 1) = [.wedge]) :
    (exec log r).last = r.last + 1 ∧ (exec log r).stop = some (second (r.last + 1)) ∧ (exec log r).self = r.self ∧
    (exec log r).chain = r.chain.putWedge (r.last + 1) r.self ∧ (exec log r).stable = r.stable ∧ (exec log r).wedged = r.wedged := by
  have h1 : stopFor (r.last + 1) = some (second (r.last + 1)) := stopFor_eq (by omega)
  have h2 : decide (some (second (r.last + 1)) = some (r.last + 1)) = false := by
    have := second_gt (r.last + 1)
    rw [decide_eq_false_iff_not]; intro e; have := Option.some.inj e; omega
  unfold exec
  simp only [hl, List.foldl_cons, List.foldl_nil, command, h1, h2, Bool.or_false, and_self]

theorem okT : (∀ v i p, okTransfer v (.accept i p)) ∧ (∀ v i, okTransfer v (.exec i)) ∧ (∀ v i c, okTransfer v (.stable i c)) :=
  ⟨fun _ _ _ => trivial, fun _ _ => trivial, fun _ _ _ => trivial⟩

theorem set_same (v : World) (i : Nat) (r : Rep) : v.set i r i = r := by unfold World.set; rw [if_pos rfl]
theorem set_other (v : World) {i j : Nat} (r : Rep) (h : j ≠ i) : v.set i r j = v j := by unfold World.set; rw [if_neg h]

/-- **The first stop**: replica 0 executes the command at 5 and stops at 300. -/
theorem run_stop : ∃ l w, Reach cfg4 log2 okTransfer l w ∧ (w 0).last = 300 ∧ (w 0).stop = some 300 ∧ (w 0).wedged = true ∧ (w 0).self = 0 ∧
    (w 0).chain = { epoch := 0, wedge := some (5, 0) } ∧ ((w 0).stable % 150 = 0 ∧ (w 0).stable ≤ 300) ∧ ∀ j, j ≠ 0 → w j = {} := by
  obtain ⟨l1, w1, r1, o1, a1, a2, a3, a4, a5, a6, _⟩ := go_to (cfg := cfg4) (log := log2) okT 0 4 .init rfl (fun q h => by cases h) ⟨rfl, Nat.le_refl _⟩
    (by intro p p1 p2; have p2 : p ≤ 0 + 4 := p2; exact log2_quiet (by omega) (by omega))
  have a1 : (w1 0).last = 4 := a1
  have a2 : (w1 0).stop = none := a2
  have a3 : (w1 0).self = 0 := a3
  have a4 : (w1 0).chain = {} := a4
  have a6 : (w1 0).wedged = false := a6
  obtain ⟨l2, st, acc, r2, s1, s2⟩ := advance okT r1 0 a6 (by intro q h; rw [a2] at h; cases h) a5
  obtain ⟨b1, b2, b3, b4, b5, b6⟩ := exec_wedge (log := log2) (r := { w1 0 with stable := st, accepted := acc }) (by show log2 ((w1 0).last + 1) = _; rw [a1]; rfl)
  generalize hx : exec log2 { w1 0 with stable := st, accepted := acc } = x at r2 b1 b2 b3 b4 b5 b6
  have b1 : x.last = 5 := by rw [b1]; show (w1 0).last + 1 = 5; omega
  have b2 : x.stop = some 300 := by rw [b2]; show some (second ((w1 0).last + 1)) = _; rw [a1]; rfl
  have b3 : x.self = 0 := by rw [b3]; exact a3
  have b4 : x.chain = { epoch := 0, wedge := some (5, 0) } := by
    rw [b4]; show (w1 0).chain.putWedge ((w1 0).last + 1) (w1 0).self = _; rw [a4, a1, a3]; rfl
  have b5 : x.stable = st := b5
  have b6 : x.wedged = false := by rw [b6]; exact a6
  obtain ⟨l3, w3, r3, o3, c1, c2, c3, c4, c5, c6, _⟩ := go_to okT 0 295 r2 (by rw [set_same]; exact b6)
    (by intro q h; rw [set_same] at h ⊢; rw [b2] at h; cases h; omega) (by rw [set_same, b5, b1]; exact ⟨s1, by omega⟩)
    (by intro p p1 p2; rw [set_same, b1] at p1 p2; exact log2_quiet (by omega) (by omega))
  rw [set_same] at c1 c2 c3 c4 c6
  refine ⟨_, w3, r3, by rw [c1, b1], by rw [c2, b2], ?_, by rw [c3, b3], by rw [c4, b4], ⟨c5.1, by have := c5.2; omega⟩, ?_⟩
  · rw [c6, b2, b1]; rfl
  · intro j hj
    rw [o3 j hj, set_other _ _ hj, o1 j hj]

/-- **The lift, and the second command**: replica 0 goes on in epoch 1 to 450, with the stop point 600. -/
theorem run_second : ∃ l w, Reach cfg4 log2 okTransfer l w ∧ (w 0).last = 450 ∧ (w 0).stop = some 600 ∧ (w 0).wedged = false ∧ (w 0).self = 1 ∧
    (w 0).chain = { epoch := 1, wedge := some (310, 1) } ∧ ((w 0).stable % 150 = 0 ∧ (w 0).stable ≤ 450) ∧
    (450, ({ epoch := 1, wedge := some (310, 1) } : Chain)) ∈ (w 0).snaps ∧ ∀ j, j ≠ 0 → w j = {} := by
  obtain ⟨l0, w0, r0, z1, z2, z3, z4, z5, z6, z7⟩ := run_stop
  have r1 := Reach.step r0 (show okTransfer w0 (.unwedge 0 votes4) from trivial) (Step.unwedge w0 0 votes4)
  have hu := ((unwedge_exact log2_ni r0 0 votes4).1 ⟨z3, by rw [z4]; decide⟩)
  have huc : (unwedge cfg4 votes4 (w0 0)).chain = { epoch := 1, wedge := some (5, 0) } ∧ (unwedge cfg4 votes4 (w0 0)).stable = (w0 0).stable := by
    have hv : ¬ countVotes cfg4 (w0 0).self votes4.votes < quorum cfg4 votes4.bft := by rw [z4]; decide
    unfold unwedge
    rw [if_neg (by rw [z3]; simp), if_neg hv, if_neg (by decide)]
    exact ⟨by show ({ (w0 0).chain with epoch := (w0 0).self + 1 } : Chain) = _; rw [z5, z4], rfl⟩
  generalize hx : unwedge cfg4 votes4 (w0 0) = x at r1 hu huc
  obtain ⟨u1, u2, u3, u4, _⟩ := hu
  rw [z1] at u4
  rw [z4] at u3
  obtain ⟨l1, w1, r2, o1, a1, a2, a3, a4, a5, a6, _⟩ := go_to okT 0 9 r1 (by rw [set_same]; exact u2)
    (by intro q h; rw [set_same, u1] at h; cases h) (by rw [set_same, u4, huc.2]; exact z6)
    (by intro p p1 p2; rw [set_same, u4] at p1 p2; exact log2_quiet (by omega) (by omega))
  rw [set_same] at a1 a2 a3 a4 a6
  rw [u4] at a1
  rw [u1] at a2
  rw [u3] at a3
  rw [huc.1] at a4
  have a6 : (w1 0).wedged = false := by rw [a6, u1]; rfl
  obtain ⟨l2, st, acc, r3, s1, s2⟩ := advance okT r2 0 a6 (by intro q h; rw [a2] at h; cases h) a5
  obtain ⟨b1, b2, b3, b4, b5, b6⟩ := exec_wedge (log := log2) (r := { w1 0 with stable := st, accepted := acc }) (by show log2 ((w1 0).last + 1) = _; rw [a1]; rfl)
  generalize hx : exec log2 { w1 0 with stable := st, accepted := acc } = y at r3 b1 b2 b3 b4 b5 b6
  have b1 : y.last = 310 := by rw [b1]; show (w1 0).last + 1 = 310; omega
  have b2 : y.stop = some 600 := by rw [b2]; show some (second ((w1 0).last + 1)) = _; rw [a1]; rfl
  have b3 : y.self = 1 := by rw [b3]; exact a3
  have b4 : y.chain = { epoch := 1, wedge := some (310, 1) } := by
    rw [b4]; show (w1 0).chain.putWedge ((w1 0).last + 1) (w1 0).self = _; rw [a4, a1, a3]; rfl
  have b5 : y.stable = st := b5
  have b6 : y.wedged = false := by rw [b6]; exact a6
  obtain ⟨l3, w3, r4, o3, c1, c2, c3, c4, c5, c6, c7, c8, _⟩ := go_to okT 0 140 r3 (by rw [set_same]; exact b6)
    (by intro q h; rw [set_same] at h ⊢; rw [b2] at h; cases h; omega) (by rw [set_same, b5, b1]; exact ⟨s1, by omega⟩)
    (by intro p p1 p2; rw [set_same, b1] at p1 p2; exact log2_quiet (by omega) (by omega))
  rw [set_same] at c1 c2 c3 c4 c6 c8
  rw [b1] at c1
  refine ⟨_, w3, r4, c1, by rw [c2, b2], ?_, by rw [c3, b3], by rw [c4, b4], ⟨c5.1, by have := c5.2; omega⟩, ?_, ?_⟩
  · rw [c6, b2, b1]; rfl
  · have := c8 (by decide) (by rw [b1])
    rw [b1, b4] at this; exact this
  · intro j hj
    rw [o3 j hj, set_other _ _ hj, o1 j hj, set_other _ _ hj, z7 j hj]

/-- what happened is what the specification says: the points where the system stops are 300 and 600 -/
example : StopPoint log2 300 ∧ StopPoint log2 600 ∧ Pending log2 450 600 := by
  refine ⟨⟨5, by omega, by omega, by decide, fun p h1 h2 => log2_quiet (by omega) (by omega), rfl, by omega⟩,
    ⟨310, by omega, by omega, by decide, fun p h1 h2 => log2_quiet (by omega) (by omega), rfl, by omega⟩,
    ⟨310, by omega, by omega, by decide, fun p h1 h2 => log2_quiet (by omega) (by omega), rfl, by omega⟩⟩

/-- the hypotheses of `never_beyond_partial`, `reaches_stop_partial` and `restart_keeps_partial` are met with a stop point ahead, those
of `passed_only_if_lifted_partial` by a stop point that has been passed -/
example : ∃ l w, Reach cfg4 log2 okTransfer l w ∧ (w 0).stop = some 600 ∧ (w 0).last < 600 ∧ StopPoint log2 300 ∧ 300 < (w 0).last ∧ Lifted cfg4 log2 l 300 := by
  obtain ⟨l, w, r, h1, h2, _⟩ := run_second
  have hs : StopPoint log2 300 := ⟨5, by omega, by omega, by decide, fun p h1 h2 => log2_quiet (by omega) (by omega), rfl, by omega⟩
  exact ⟨l, w, r, h2, by omega, hs, by omega, passed_only_if_lifted_partial log2_ni r hs 0 (by omega)⟩

/-! ### a replica brought into a later epoch does not learn that a stop is pending -/

theorem okA : (∀ (v : World) i p, (fun _ _ => True : World → Ev → Prop) v (.accept i p)) ∧ (∀ (v : World) i, (fun _ _ => True : World → Ev → Prop) v (.exec i)) ∧
    (∀ (v : World) i c, (fun _ _ => True : World → Ev → Prop) v (.stable i c)) := ⟨fun _ _ _ => trivial, fun _ _ => trivial, fun _ _ _ => trivial⟩

set_option maxRecDepth 100000 in
theorem transfer_450 : transfer 450 { epoch := 1, wedge := some (310, 1) } {} = { last := 450, stable := 150, self := 1, chain := { epoch := 1, wedge := some (310, 1) }, snaps := [(450, { epoch := 1, wedge := some (310, 1) })] } := by
  decide +kernel

/-- **The stop point is missed** (defect): replica 1 obtains the state of checkpoint 450 by state transfer while it is in epoch 0; the state
says epoch 1 and a stop at 600.  It takes over the epoch but not the stop point. -/
theorem stop_missed : ∃ l w, Reach cfg4 log2 (fun _ _ => True) l w ∧ (w 0).last = 450 ∧ (w 0).stop = some 600 ∧ (w 0).wedged = false ∧ (w 0).self = 1 ∧
    (w 0).chain = { epoch := 1, wedge := some (310, 1) } ∧ ((w 0).stable % 150 = 0 ∧ (w 0).stable ≤ 450) ∧
    (w 1).last = 600 ∧ StopPoint log2 (w 1).last ∧ (w 1).stop = none ∧ (w 1).wedged = false ∧ (w 1).self = 1 ∧
    (w 1).chain = { epoch := 1, wedge := some (310, 1) } ∧ ((w 1).stable % 150 = 0 ∧ (w 1).stable ≤ 600) ∧ ∀ j, j ≠ 0 → j ≠ 1 → w j = {} := by
  obtain ⟨l, w, r, h1, h2, h3, h4, h5, h6, h7, h8⟩ := run_second
  have r1 := Reach.step (Reach.mono (ok' := fun _ _ => True) (fun _ _ _ => trivial) r) trivial
    (Step.transfer w 1 0 450 _ h7 (by rw [h8 1 (by omega)]; decide))
  have ht : transfer 450 { epoch := 1, wedge := some (310, 1) } (w 1) = { last := 450, stable := 150, self := 1, chain := { epoch := 1, wedge := some (310, 1) }, snaps := [(450, { epoch := 1, wedge := some (310, 1) })] } := by
    rw [h8 1 (by omega)]; exact transfer_450
  rw [ht] at r1
  obtain ⟨l3, w3, r4, o3, c1, c2, c3, c4, c5, c6, _⟩ := go_to okA 1 150 r1 (by rw [set_same])
    (by intro q h; rw [set_same] at h; cases h) (by rw [set_same]; decide)
    (by intro p p1 p2; rw [set_same] at p1 p2; exact log2_quiet (show p ≠ 5 by have p1 : 450 < p := p1; omega) (by have p1 : 450 < p := p1; omega))
  rw [set_same] at c1 c2 c3 c4 c6
  have h01 : w3 0 = w 0 := by rw [o3 0 (by omega), set_other _ _ (by omega)]
  have c1 : (w3 1).last = 600 := c1
  refine ⟨_, w3, r4, by rw [h01, h1], by rw [h01, h2], by rw [h01, h3], by rw [h01, h4], by rw [h01, h5], by rw [h01]; exact h6, c1, ?_, c2, c6, c3, c4, ?_, ?_⟩
  · rw [c1]; exact ⟨310, by omega, by omega, by decide, fun p h1 h2 => log2_quiet (by omega) (by omega), rfl, by omega⟩
  · exact ⟨c5.1, by have := c5.2; omega⟩
  · intro j j0 j1
    rw [o3 j j1, set_other _ _ j1, h8 j j0]

/-- **It executes requests beyond the stop point that nobody has lifted** (nobody but replica 1 has even reached it). -/
theorem beyond_missed_stop : ∃ l w, Reach cfg4 log2 (fun _ _ => True) l w ∧ StopPoint log2 600 ∧ (w 1).last = 601 ∧ (w 0).last = 450 ∧ ∀ j, j ≠ 0 → j ≠ 1 → w j = {} := by
  obtain ⟨l, w, r, h1, h2, h3, h4, h5, h6, i1, i2, i3, i4, i5, i6, i7, i8⟩ := stop_missed
  obtain ⟨l3, w3, r4, o3, c1, _⟩ := go_to okA 1 1 r i4 (by intro q h; rw [i3] at h; cases h) (by rw [i1]; exact i7)
    (by intro p p1 p2; rw [i1] at p1 p2; exact log2_quiet (by omega) (by omega))
  rw [i1] at i2
  exact ⟨_, w3, r4, i2, by rw [c1, i1], by rw [o3 0 (by omega), h1], fun j j0 j1 => by rw [o3 j j1, i8 j j0 j1]⟩

/-- **And it diverges**: the stop at 600 is lifted with the votes of all four replicas; replica 1 ignores the command because it has not
stopped.  From then on the two replicas have different blocks at the same position. -/
theorem diverged : ∃ l w, Reach cfg4 log2 (fun _ _ => True) l w ∧ (w 0).last = 601 ∧ (w 1).last = 601 ∧ (w 0).chain ≠ (w 1).chain ∧ (w 0).self = 2 ∧ (w 1).self = 1 := by
  obtain ⟨l, w, r, h1, h2, h3, h4, h5, h6, i1, i2, i3, i4, i5, i6, i7, i8⟩ := stop_missed
  -- replica 0 goes to 600 and stops
  obtain ⟨l1, w1, r1, o1, a1, a2, a3, a4, a5, a6, _⟩ := go_to okA 0 150 r h3 (by intro q h; rw [h2] at h; cases h; omega) (by rw [h1]; exact h6)
    (by intro p p1 p2; rw [h1] at p1 p2; exact log2_quiet (by omega) (by omega))
  have a1 : (w1 0).last = 600 := by rw [a1, h1]
  have a6 : (w1 0).wedged = true := by rw [a6, h2, h1]; rfl
  rw [h4] at a3
  rw [h5] at a4
  have w11 : w1 1 = w 1 := o1 1 (by omega)
  -- both get the command
  have r2 := Reach.step r1 trivial (Step.unwedge w1 0 votes4)
  have r3 := Reach.step r2 trivial (Step.unwedge _ 1 votes4)
  have hx0 : unwedge cfg4 votes4 (w1 0) = { w1 0 with chain := { epoch := 2, wedge := some (310, 1) }, self := 2, stop := none, wedged := false, cbs := [], onStable := false, onSuper := false } := by
    have hv : ¬ countVotes cfg4 (w1 0).self votes4.votes < quorum cfg4 votes4.bft := by rw [a3]; decide
    unfold unwedge
    rw [if_neg (by rw [a6]; simp), if_neg hv, if_neg (by decide), a4, a3]
  rw [hx0] at r3
  generalize hx : ({ w1 0 with chain := { epoch := 2, wedge := some (310, 1) }, self := 2, stop := none, wedged := false, cbs := [], onStable := false, onSuper := false } : Rep) = x at r3
  have x1 : x.last = 600 := by rw [← hx]; exact a1
  have x2 : x.stop = none := by rw [← hx]
  have x3 : x.wedged = false := by rw [← hx]
  have x4 : x.stable % 150 = 0 ∧ x.stable ≤ x.last := by rw [← hx]; exact a5
  have x5 : x.self = 2 := by rw [← hx]
  have x6 : x.chain = { epoch := 2, wedge := some (310, 1) } := by rw [← hx]
  have hx1 : unwedge cfg4 votes4 ((w1.set 0 x) 1) = w 1 := by
    rw [set_other _ _ (by omega), w11]
    unfold unwedge
    rw [if_pos i4]
  rw [hx1] at r3
  -- both execute 601
  have y0 : ((w1.set 0 x).set 1 (w 1)) 0 = x := by rw [set_other _ _ (by omega), set_same]
  have y1 : ((w1.set 0 x).set 1 (w 1)) 1 = w 1 := set_same _ _ _
  obtain ⟨l2, w2, r4, o2, b1, b2, b3, b4, b5, b6, _⟩ := go_to okA 0 1 r3 (by rw [y0]; exact x3) (by intro q h; rw [y0, x2] at h; cases h) (by rw [y0]; exact x4)
    (by intro p p1 p2; rw [y0, x1] at p1 p2; exact log2_quiet (by omega) (by omega))
  rw [y0] at b1 b3 b4
  have w21 : w2 1 = w 1 := by rw [o2 1 (by omega), y1]
  obtain ⟨l3, w3, r5, o3, c1, c2, c3, c4, _⟩ := go_to okA 1 1 r4 (by rw [w21]; exact i4) (by intro q h; rw [w21, i3] at h; cases h) (by rw [w21, i1]; exact i7)
    (by intro p p1 p2; rw [w21, i1] at p1 p2; exact log2_quiet (by omega) (by omega))
  rw [w21] at c1 c3 c4
  have w30 : w3 0 = w2 0 := o3 0 (by omega)
  refine ⟨_, w3, r5, by rw [w30, b1, x1], by rw [c1, i1], ?_, by rw [w30, b3, x5], by rw [c3, i5]⟩
  rw [w30, b4, x6, c4, i6]
  decide

/-! ### install -/

/-- **A restart forgets the stop point of an `InstallCommand`** (defect): only records under the wedge key are looked at. -/
theorem install_lost (r : Rep) (hw : r.chain.wedge = none) : (restart false r).stop = none ∧ (restart false r).wedged = false := by
  unfold restart wedgeEvent
  simp only [hw]
  exact ⟨trivial, trivial⟩

/-- **An old install record stops a replica for good** (defect): after any later state transfer the stop point is that of the last install,
however long ago that was, and no request is accepted. -/
theorem install_stale {c s : Nat} {b : Bool} {ch : Chain} (r : Rep) (hi : ch.install = some (s, b)) (hs : 1 ≤ s) (hc : second s ≤ c) :
    (transfer c ch r).stop = some (second s) ∧ ∀ p, c < p → accepts (transfer c ch r) p = false := by
  have hscale : ∀ x : Rep, (stScale c ch.epoch x).chain = x.chain := by
    intro x; unfold stScale; split
    · rfl
    · split
      · rfl
      · split
        · rfl
        · split
          · rfl
          · split <;> rfl
  have hwed : ∀ x : Rep, (stWedge ch.epoch x).chain = x.chain := by
    intro x; unfold stWedge; split
    · rfl
    · split
      · rfl
      · split <;> rfl
  have hins : ∀ x : Rep, (stInstall x).chain = x.chain := by
    intro x; unfold stInstall; split <;> rfl
  have hst : (transfer c ch r).stop = some (second s) := by
    show (stCallBack c ch.epoch { r with chain := ch }).stop = _
    unfold stCallBack
    have hch : (stWedge ch.epoch (stScale c ch.epoch (stInstall { r with chain := ch }))).chain = ch := by
      rw [hwed, hscale, hins]
    generalize stWedge ch.epoch (stScale c ch.epoch (stInstall { r with chain := ch })) = y at hch ⊢
    unfold stInstall
    rw [hch, hi]
    exact stopFor_eq hs
  refine ⟨hst, ?_⟩
  intro p hp
  unfold accepts stopAt
  rw [hst]
  have : decide (second s < p) = true := by rw [decide_eq_true_eq]; omega
  simp [this]

/-- not vacuous: an install command at 5 is recorded in the chain by the model itself, and 450 is behind its stop point -/
example : (exec (fun s => if s = 1 then [.install true] else []) {}).chain.install = some (1, true) ∧
    (exec (fun s => if s = 1 then [.install true] else []) {}).stop = some 300 ∧
    (restart false (exec (fun s => if s = 1 then [.install true] else []) {})).stop = none ∧ second 1 ≤ 450 := by decide

/-! ### callbacks -/

/-- **The actions to be taken at the stop point are lost by a crash before it** (defect): whatever was registered, after a restart nothing is,
and the replica reaches its stop point and the checkpoint there becomes stable without any of them being carried out. -/
theorem callbacks_lost (r : Rep) : (restart false r).cbs = [] ∧ (fire { restart false r with fired := [] } false).fired = [] := by
  have := (restart_fields false r).2.2.2.2.1
  refine ⟨this, ?_⟩
  unfold fire
  simp [this]

/-- with a command at 1 that asks for it, the new epoch is announced at the stop point if the replica does not crash, and is not if it does -/
example : (Cb.newEpoch ∈ (fire (exec (fun s => if s = 1 then [.restart true true] else []) {}) false).fired) ∧
    Cb.newEpoch ∉ (fire (restart false (exec (fun s => if s = 1 then [.restart true true] else []) {})) false).fired := by decide

/-- **Signatures for a lift are given without a stop** (defect): a replica without a stop point signs its epoch for the `UnwedgeCommand`;
so the votes for lifting the stop of the present epoch can be collected before there is one. -/
theorem signs_without_stop (r : Rep) (bft : Bool) (h : r.stop = none) : signsUnwedge r bft = true := by unfold signsUnwedge; rw [h]

example : signsUnwedge {} true = true ∧ (exec (fun s => if s = 1 then [.wedge] else []) {}).stop = some 300 ∧
    signsUnwedge (exec (fun s => if s = 1 then [.wedge] else []) {}) true = false := by decide

/-- the hypotheses of `scaling_lost` are met: a chain with a scaling record of epoch 0, a replica in epoch 0, the others in epoch 1 -/
example : (stCallBack 450 1 { chain := { epoch := 1, wedge := some (5, 0), scale := some (5, 0, false, true) } }).cbs = [] ∧
    (stScale 450 1 { chain := { epoch := 1, wedge := some (5, 0), scale := some (5, 0, false, true) } }).cbs = [(false, .rejoin)] := by decide

end Verif.Wedge
