import Verif.Reconf.PruneSpec
set_option linter.unusedVariables false
set_option linter.unusedSimpArgs false
/-!
# Pruning: invariants
-/
namespace Verif.Prune

theorem cnt_append (a b : List Req) : cnt (a ++ b) = cnt a + cnt b := by
  unfold cnt; simp

theorem cnt_snoc (a : List Req) (q : Req) : cnt (a ++ [q]) = cnt a + q.adds := by
  rw [cnt_append]; simp [cnt]

/-- `u - 1` is the number of an accepted request among `h` -/
def OkU (cfg : Cfg) (h : List Req) (u : Nat) : Prop := ∃ p m, Req.prune true p ∈ h ∧ Accepted cfg p m ∧ u = m + 1

theorem OkU.mono {cfg : Cfg} {h h' : List Req} {u : Nat} (hs : ∀ q ∈ h, q ∈ h') (a : OkU cfg h u) : OkU cfg h' u := by
  obtain ⟨p, m, a, b, c⟩ := a
  exact ⟨p, m, hs _ a, b, c⟩

/-- A replica after executing `h`. -/
structure InvA (cfg : Cfg) (h : List Req) (r : Rep) : Prop where
  last : r.last ≤ cnt h
  gen1 : 1 ≤ r.gen
  gen : r.gen = 1 ∨ ∃ u, OkU cfg h u ∧ r.gen ≤ u
  start : ∀ u, r.job = .starting u → OkU cfg h u
  run : ∀ i l, r.job = .running i l → r.gen ≤ i ∧ ∃ u, OkU cfg h u ∧ l + 1 ≤ u
  wait : ∀ u, r.wait = some u → OkU cfg h u
  stored : ∀ p, r.stored = some p → Req.prune true p ∈ h

theorem InvA.mono {cfg : Cfg} {h h' : List Req} {r : Rep} (hs : ∀ q ∈ h, q ∈ h') (hc : cnt h ≤ cnt h') (a : InvA cfg h r) :
    InvA cfg h' r where
  last := Nat.le_trans a.last hc
  gen1 := a.gen1
  gen := a.gen.imp id (fun ⟨u, x, y⟩ => ⟨u, x.mono hs, y⟩)
  start := fun u e => (a.start u e).mono hs
  run := fun i l e => ⟨(a.run i l e).1, (a.run i l e).2.imp (fun u x => ⟨x.1.mono hs, x.2⟩)⟩
  wait := fun u e => (a.wait u e).mono hs
  stored := fun p e => hs _ (a.stored p e)

theorem InvA.add {cfg : Cfg} {h : List Req} {r : Rep} (a : InvA cfg h r) (k : Nat) (hk : r.last + k ≤ cnt h) : InvA cfg h (r.add k) where
  last := hk
  gen1 := a.gen1
  gen := a.gen
  start := a.start
  run := a.run
  wait := a.wait
  stored := a.stored

theorem InvA.dead {cfg : Cfg} {h : List Req} {r : Rep} (a : InvA cfg h r) : InvA cfg h { r with dead := true } where
  last := a.last
  gen1 := a.gen1
  gen := a.gen
  start := a.start
  run := a.run
  wait := a.wait
  stored := a.stored

theorem InvA.pruneThrough {cfg : Cfg} {h : List Req} {r : Rep} (a : InvA cfg h r) {m : Nat} (ok : OkU cfg h (m + 1)) :
    InvA cfg h (pruneThrough r m) := by
  unfold Prune.pruneThrough
  split
  · split
    · exact ⟨a.last, a.gen1, a.gen, fun u e => (by cases e; exact ok), fun i l e => (by cases e), a.wait, a.stored⟩
    · exact ⟨a.last, a.gen1, a.gen, a.start, a.run, fun u e => (by cases e; exact ok), a.stored⟩
  · exact a

theorem InvA.handlePrune {cfg : Cfg} {h : List Req} {r : Rep} (a : InvA cfg h r) {p : PReq} (hp : Req.prune true p ∈ h) :
    InvA cfg h (handlePrune cfg r p) := by
  unfold Prune.handlePrune
  split
  · exact a
  · split
    · exact a
    · rename_i hv
      split
      · exact a.dead
      · rename_i m hm
        exact a.pruneThrough ⟨p, m, hp, (accepted_iff cfg p m).1 ⟨by simpa using hv, hm⟩, rfl⟩

theorem InvA.finish {cfg : Cfg} {h : List Req} {r : Rep} (a : InvA cfg h r) : InvA cfg h (finish r) := by
  unfold Prune.finish
  split
  · exact ⟨a.last, a.gen1, a.gen, fun u e => (by cases e), fun i l e => (by cases e), a.wait, a.stored⟩
  · rename_i u hu
    exact ⟨a.last, a.gen1, a.gen, fun v e => (by cases e; exact a.wait u hu), fun i l e => (by cases e), fun v e => (by cases e), a.stored⟩

theorem InvA.tick {cfg : Cfg} {h : List Req} {r : Rep} (a : InvA cfg h r) : InvA cfg h (tick cfg r) := by
  unfold Prune.tick
  split
  · exact a
  · rename_i u hu
    have ou := a.start u hu
    split
    · split
      · exact a.dead
      · split
        · exact a.finish
        · apply InvA.finish
          rename_i h1 h2
          obtain ⟨p, m, _, _, e⟩ := ou
          exact ⟨a.last, by show 1 ≤ min (r.last - 1) (u - 1) + 1; omega,
            .inr ⟨u, a.start u hu, by show min (r.last - 1) (u - 1) + 1 ≤ u; omega⟩, a.start, fun i l e' => (by rw [hu] at e'; cases e'),
            a.wait, a.stored⟩
    · split
      · exact a.dead
      · split
        · exact a.dead
        · rename_i h1 h2
          refine ⟨a.last, a.gen1, a.gen, fun v e => (by cases e), ?_, a.wait, a.stored⟩
          intro i l e
          cases e
          have : r.genesisId = r.gen := by
            unfold Rep.genesisId at h1 ⊢
            split
            · rename_i h0; rw [if_pos h0] at h1; exact absurd rfl h1
            · rfl
          obtain ⟨p, m, _, _, e⟩ := ou
          exact ⟨by rw [this]; exact Nat.le_refl _, u, a.start u hu, by omega⟩
  · rename_i i l hj
    obtain ⟨hi, u, ou, hu⟩ := a.run i l hj
    split
    · split
      · exact a.dead
      · split
        · refine ⟨Nat.le_trans (Nat.sub_le _ _) a.last, a.gen1, a.gen, fun v e => (by cases e), ?_, a.wait, a.stored⟩
          intro i' l' e
          cases e
          exact ⟨by show r.gen ≤ i + 1; omega, u, ou, hu⟩
        · refine ⟨a.last, by show 1 ≤ r.gen + 1; omega, .inr ⟨u, ou, by show r.gen + 1 ≤ u; omega⟩, fun v e => (by cases e), ?_, a.wait, a.stored⟩
          intro i' l' e
          cases e
          exact ⟨by show r.gen + 1 ≤ i + 1; omega, u, ou, hu⟩
    · exact a.finish

theorem InvA.restart {cfg : Cfg} {h : List Req} {r : Rep} (a : InvA cfg h r) : InvA cfg h (restart cfg r) := by
  have a0 : InvA cfg h { r with job := .idle, wait := none } :=
    ⟨a.last, a.gen1, a.gen, fun u e => (by cases e), fun i l e => (by cases e), fun u e => (by cases e), a.stored⟩
  unfold Prune.restart
  simp only
  split
  · exact a0
  · rename_i p hp
    split
    · exact a0.handlePrune (a.stored p hp)
    · exact a0

theorem InvA.rest {cfg : Cfg} {h : List Req} {r : Rep} (a : InvA cfg h r) (t : List Req) (n : Nat) : InvA cfg h { r with rest := t, pos := n } where
  last := a.last
  gen1 := a.gen1
  gen := a.gen
  start := a.start
  run := a.run
  wait := a.wait
  stored := a.stored

theorem InvA.execReq {cfg : Cfg} {h : List Req} {r : Rep} (a : InvA cfg h r) (q : Req) : InvA cfg (h ++ [q]) (execReq cfg r q) := by
  have hs : ∀ x ∈ h, x ∈ h ++ [q] := fun x hx => List.mem_append_left _ hx
  have hc := cnt_snoc h q
  have a' := a.mono hs (by omega)
  have hl := a.last
  unfold Prune.execReq
  split
  · exact a'.add _ (by rw [hc]; simp only [Req.adds]; omega)
  · exact a'
  · rename_i p
    apply InvA.handlePrune
    · have a2 := a'.add 1 (by rw [hc]; simp only [Req.adds]; omega)
      exact ⟨a2.last, a2.gen1, a2.gen, a2.start, a2.run, a2.wait, fun p' e => by cases e; simp⟩
    · simp

/-! `execReq` and the others leave position and rest alone -/

theorem pruneThrough_pos (r : Rep) (m : Nat) : (pruneThrough r m).pos = r.pos ∧ (pruneThrough r m).rest = r.rest := by
  unfold pruneThrough; split
  · split <;> exact ⟨rfl, rfl⟩
  · exact ⟨rfl, rfl⟩

theorem handlePrune_pos (cfg : Cfg) (r : Rep) (p : PReq) : (handlePrune cfg r p).pos = r.pos ∧ (handlePrune cfg r p).rest = r.rest := by
  unfold handlePrune; split
  · exact ⟨rfl, rfl⟩
  · split
    · exact ⟨rfl, rfl⟩
    · split
      · exact ⟨rfl, rfl⟩
      · exact pruneThrough_pos _ _

theorem execReq_pos (cfg : Cfg) (r : Rep) (q : Req) : (execReq cfg r q).pos = r.pos ∧ (execReq cfg r q).rest = r.rest := by
  unfold execReq; split
  · exact ⟨rfl, rfl⟩
  · exact ⟨rfl, rfl⟩
  · exact handlePrune_pos _ _ _

theorem finish_pos (r : Rep) : (finish r).pos = r.pos ∧ (finish r).rest = r.rest := by
  unfold finish; split <;> exact ⟨rfl, rfl⟩

theorem tick_pos (cfg : Cfg) (r : Rep) : (tick cfg r).pos = r.pos ∧ (tick cfg r).rest = r.rest := by
  unfold tick; split
  · exact ⟨rfl, rfl⟩
  · split
    · split
      · exact ⟨rfl, rfl⟩
      · split
        · exact finish_pos _
        · exact finish_pos _
    · split
      · exact ⟨rfl, rfl⟩
      · split <;> exact ⟨rfl, rfl⟩
  · split
    · split
      · exact ⟨rfl, rfl⟩
      · split <;> exact ⟨rfl, rfl⟩
    · exact finish_pos _

theorem restart_pos (cfg : Cfg) (r : Rep) : (restart cfg r).pos = r.pos ∧ (restart cfg r).rest = r.rest := by
  unfold restart; simp only; split
  · exact ⟨rfl, rfl⟩
  · split
    · exact handlePrune_pos _ _ _
    · exact ⟨rfl, rfl⟩

/-! ### the cluster -/

/-- what replica `r` has begun of the log is what it has executed and the rest of its batch -/
def Split (log : List (List Req)) (r : Rep) (h : List Req) : Prop :=
  r.pos ≤ log.length ∧ (log.take r.pos).flatten = h ++ r.rest

theorem Split.log {log : List (List Req)} {r : Rep} {h : List Req} (s : Split log r h) (b : List Req) : Split (log ++ [b]) r h := by
  refine ⟨by simp; have := s.1; omega, ?_⟩
  rw [List.take_append_of_le_length s.1]; exact s.2

theorem Split.executed {w : World} {x : Nat} {h : List Req} (s : Split w.log (w.rep x) h) : w.executed x = h := by
  unfold World.executed
  rw [s.2]; simp

theorem Split.prefix {log : List (List Req)} {r : Rep} {h : List Req} (s : Split log r h) : ∃ f, log.flatten = h ++ f := by
  refine ⟨r.rest ++ (log.drop r.pos).flatten, ?_⟩
  conv => lhs; rw [← List.take_append_drop r.pos log]
  rw [List.flatten_append, s.2]; simp

/-- A property of every replica and what it has executed, for one step. -/
theorem step_split {cfg : Cfg} {hon : Nat → Prop} {P : List Req → Rep → Prop} {w w' : World} (st : Step cfg hon w w')
    (hbegin : ∀ x h b, P h (w.rep x) → (w.rep x).rest = [] → (w.rep x).job = .idle → b ∈ w.log →
      P h { w.rep x with pos := (w.rep x).pos + 1, rest := b })
    (hone : ∀ x h q t, Split w.log (w.rep x) h → P h (w.rep x) → (w.rep x).rest = q :: t → (w.rep x).wait = none →
      P (h ++ [q]) (execReq cfg { w.rep x with rest := t } q))
    (htick : ∀ x h, Split w.log (w.rep x) h → P h (w.rep x) → P h (tick cfg (w.rep x)))
    (hrestart : ∀ x h, Split w.log (w.rep x) h → P h (w.rep x) → (w.rep x).rest = [] → P h (restart cfg (w.rep x)))
    (ih : ∀ x, ∃ h, Split w.log (w.rep x) h ∧ P h (w.rep x)) :
    ∀ x, ∃ h, Split w'.log (w'.rep x) h ∧ P h (w'.rep x) := by
  have upd : ∀ (x : Nat) (r : Rep), (∃ h, Split w.log r h ∧ P h r) →
      ∀ y, ∃ h, Split (w.set x r).log ((w.set x r).rep y) h ∧ P h ((w.set x r).rep y) := by
    intro x r hr y
    show ∃ h, Split w.log (if y = x then r else w.rep y) h ∧ P h (if y = x then r else w.rep y)
    by_cases e : y = x
    · rw [if_pos e]; exact hr
    · rw [if_neg e]; exact ih y
  cases st with
  | order b hu =>
    intro x
    obtain ⟨h, hs, hp⟩ := ih x
    exact ⟨h, hs.log b, hp⟩
  | answer x hx he hj hd => exact ih
  | unwedge x e hx => exact ih
  | begin x hx b hb hr hj hd =>
    apply upd
    obtain ⟨h, hs, hp⟩ := ih x
    have hlt := (List.getElem?_eq_some_iff.1 hb).1
    have hbm : b ∈ w.log := List.mem_of_getElem? hb
    refine ⟨h, ⟨hlt, ?_⟩, hbegin x h b hp hr hj hbm⟩
    show (w.log.take ((w.rep x).pos + 1)).flatten = h ++ b
    rw [List.take_add_one, hb, List.flatten_append, hs.2, hr]
    simp
  | one x hx q t hr hw hd =>
    apply upd
    obtain ⟨h, hs, hp⟩ := ih x
    have e := execReq_pos cfg { w.rep x with rest := t } q
    refine ⟨h ++ [q], ⟨by rw [e.1]; exact hs.1, ?_⟩, hone x h q t hs hp hr hw⟩
    rw [e.1, e.2]
    show (w.log.take (w.rep x).pos).flatten = _ ++ t
    rw [hs.2, hr]; simp
  | tick x hx hd =>
    apply upd
    obtain ⟨h, hs, hp⟩ := ih x
    have e := tick_pos cfg (w.rep x)
    exact ⟨h, ⟨by rw [e.1]; exact hs.1, by rw [e.1, e.2]; exact hs.2⟩, htick x h hs hp⟩
  | restart x hx hr hd =>
    apply upd
    obtain ⟨h, hs, hp⟩ := ih x
    have e := restart_pos cfg (w.rep x)
    exact ⟨h, ⟨by rw [e.1]; exact hs.1, by rw [e.1, e.2]; exact hs.2⟩, hrestart x h hs hp hr⟩

theorem invA {cfg : Cfg} {hon : Nat → Prop} {w : World} (hr : Reach cfg hon w) :
    ∀ x, ∃ h, Split w.log (w.rep x) h ∧ InvA cfg h (w.rep x) := by
  induction hr with
  | init =>
    intro x
    refine ⟨[], ⟨Nat.zero_le _, rfl⟩, ⟨Nat.le_refl _, Nat.le_refl _, .inl rfl, ?_, ?_, ?_, ?_⟩⟩
    · intro u e; cases e
    · intro i l e; cases e
    · intro u e; cases e
    · intro u e; cases e
  | step h st ih =>
    refine step_split st ?_ ?_ ?_ ?_ ih
    · intro x h b a hr hj hb; exact a.rest b _
    · intro x h q t hs a hr hw; exact (a.rest t _).execReq q
    · intro x h hs a; exact a.tick
    · intro x h hs a hr; exact a.restart

/-- What correct replicas have signed and what the log contains. -/
structure InvG (cfg : Cfg) (hon : Nat → Prop) (w : World) : Prop where
  signed : ∀ y t, (y, t) ∈ w.signed → (∃ k, (y, k) ∈ w.answers ∧ t = lpbText y k) ∨ (∃ e, (y, e) ∈ w.epochs ∧ t = unwedgeText y e)
  answers : ∀ y k, (y, k) ∈ w.answers → k = 0 ∨ k + cfg.keep ≤ cnt w.log.flatten
  order : ∀ h1 op p h2, w.log.flatten = h1 ++ Req.prune op p :: h2 → ∀ l ∈ p.blocks, hon l.replica →
    cfg.valid l.replica (lpbText l.replica l.block) l.sig = true →
      ((l.replica, l.block) ∈ w.answers ∧ (l.block = 0 ∨ l.block + cfg.keep ≤ cnt h1)) ∨ (l.replica, l.block) ∈ w.epochs

theorem InvG.set {cfg : Cfg} {hon : Nat → Prop} {w : World} (g : InvG cfg hon w) (x : Nat) (r : Rep) : InvG cfg hon (w.set x r) :=
  ⟨g.signed, g.answers, g.order⟩

theorem invG {cfg : Cfg} {hon : Nat → Prop} {w : World} (hr : Reach cfg hon w) : InvG cfg hon w := by
  induction hr with
  | init =>
    refine ⟨?_, ?_, ?_⟩
    · intro y t h; cases h
    · intro y k h; cases h
    · intro h1 op p h2 h; cases h1 <;> cases h
  | @step w w' hreach st g =>
    cases st with
    | order b hu =>
      have hfl : (w.log ++ [b]).flatten = w.log.flatten ++ b := by simp
      refine ⟨g.signed, ?_, ?_⟩
      · intro y k h
        show k = 0 ∨ k + cfg.keep ≤ cnt (w.log ++ [b]).flatten
        rw [hfl, cnt_append]
        rcases g.answers y k h with h | h
        · exact .inl h
        · exact .inr (by omega)
      · intro h1 op p h2 hh l hl hy hv
        have hh : (w.log ++ [b]).flatten = h1 ++ Req.prune op p :: h2 := hh
        rw [hfl, List.append_eq_append_iff] at hh
        have inB : ∀ a, h1 = w.log.flatten ++ a → Req.prune op p ∈ b →
            ((l.replica, l.block) ∈ w.answers ∧ (l.block = 0 ∨ l.block + cfg.keep ≤ cnt h1)) ∨ (l.replica, l.block) ∈ w.epochs := by
          intro a e hin
          rcases g.signed _ _ (hu op p hin l hl hy _ hv) with ⟨k, hk, e'⟩ | ⟨k, hk, e'⟩
          · have := lpbText_inj e'
            rw [← this] at hk
            refine .inl ⟨hk, ?_⟩
            rw [e, cnt_append]
            rcases g.answers _ _ hk with h | h
            · exact .inl h
            · exact .inr (by omega)
          · have : l.block = k := lpbText_inj e'
            rw [← this] at hk
            exact .inr hk
        rcases hh with ⟨a, e1, e2⟩ | ⟨a, e1, e2⟩
        · exact inB a e1 (by rw [e2]; simp)
        · cases a with
          | nil =>
            simp only [List.nil_append, List.append_nil] at e1 e2
            exact inB [] (by rw [e1]; simp) (by rw [← e2]; simp)
          | cons c a =>
            simp only [List.cons_append, List.cons.injEq] at e2
            obtain ⟨rfl, e2⟩ := e2
            exact g.order h1 op p a e1 l hl hy hv
    | answer x hx he hj hd =>
      obtain ⟨h, hs, a⟩ := invA hreach x
      have hle : cnt h ≤ cnt w.log.flatten := by
        obtain ⟨f, e⟩ := hs.prefix
        rw [e, cnt_append]; omega
      refine ⟨?_, ?_, ?_⟩
      · intro y t hm
        rcases List.mem_cons.1 hm with e | hm
        · cases e
          exact .inl ⟨_, List.mem_cons_self, rfl⟩
        · rcases g.signed y t hm with ⟨k, hk, e⟩ | h
          · exact .inl ⟨k, List.mem_cons_of_mem _ hk, e⟩
          · exact .inr h
      · intro y k hm
        rcases List.mem_cons.1 hm with e | hm
        · cases e
          show latestPrunable cfg (w.rep x) = 0 ∨ latestPrunable cfg (w.rep x) + cfg.keep ≤ cnt w.log.flatten
          have := a.last
          unfold latestPrunable
          split
          · exact .inl rfl
          · exact .inr (by omega)
        · exact g.answers y k hm
      · intro h1 op p h2 hh l hl hy hv
        rcases g.order h1 op p h2 hh l hl hy hv with ⟨h, h'⟩ | h
        · exact .inl ⟨List.mem_cons_of_mem _ h, h'⟩
        · exact .inr h
    | unwedge x e hx =>
      refine ⟨?_, g.answers, ?_⟩
      · intro y t hm
        rcases List.mem_cons.1 hm with e' | hm
        · cases e'
          exact .inr ⟨_, List.mem_cons_self, rfl⟩
        · rcases g.signed y t hm with h | ⟨k, hk, e'⟩
          · exact .inl h
          · exact .inr ⟨k, List.mem_cons_of_mem _ hk, e'⟩
      · intro h1 op p h2 hh l hl hy hv
        rcases g.order h1 op p h2 hh l hl hy hv with h | h
        · exact .inl h
        · exact .inr (List.mem_cons_of_mem _ h)
    | begin x hx b hb hr hj hd => exact g.set x _
    | one x hx q t hr hw hd => exact g.set x _
    | tick x hx hd => exact g.set x _
    | restart x hx hr hd => exact g.set x _

end Verif.Prune
