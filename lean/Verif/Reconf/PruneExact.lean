import Verif.Reconf.PruneInv
set_option linter.unusedVariables false
set_option linter.unusedSimpArgs false
/-!
# Pruning: invariants while nobody has signed an unwedge status
-/
namespace Verif.Prune

/-- there are enough blocks to delete everything below `u` -/
def Lim (cfg : Cfg) (r : Rep) (u : Nat) : Prop := u ≤ 1 ∨ u + cfg.keep ≤ r.last

/-- A replica after executing `h`. -/
structure InvK (cfg : Cfg) (h : List Req) (r : Rep) : Prop where
  last : r.last = cnt h
  gen1 : 1 ≤ r.gen
  gen : Lim cfg r r.gen
  start : ∀ u, r.job = .starting u → Lim cfg r u
  run : ∀ i l, r.job = .running i l → i = r.gen ∧ Lim cfg r (l + 1)
  wait : ∀ u, r.wait = some u → Lim cfg r u
  stored : ∀ p m, r.stored = some p → Accepted cfg p m → Lim cfg r (m + 1)

theorem InvK.dead {cfg : Cfg} {h : List Req} {r : Rep} (a : InvK cfg h r) : InvK cfg h { r with dead := true } :=
  ⟨a.last, a.gen1, a.gen, a.start, a.run, a.wait, a.stored⟩

theorem InvK.rest {cfg : Cfg} {h : List Req} {r : Rep} (a : InvK cfg h r) (t : List Req) (n : Nat) : InvK cfg h { r with rest := t, pos := n } :=
  ⟨a.last, a.gen1, a.gen, a.start, a.run, a.wait, a.stored⟩

theorem InvK.pruneThrough {cfg : Cfg} {h : List Req} {r : Rep} (a : InvK cfg h r) {m : Nat} (ok : Lim cfg r (m + 1)) :
    InvK cfg h (pruneThrough r m) := by
  unfold Prune.pruneThrough
  split
  · split
    · exact ⟨a.last, a.gen1, a.gen, fun u e => (by cases e; exact ok), fun i l e => (by cases e), a.wait, a.stored⟩
    · exact ⟨a.last, a.gen1, a.gen, a.start, a.run, fun u e => (by cases e; exact ok), a.stored⟩
  · exact a

theorem InvK.handlePrune {cfg : Cfg} {h : List Req} {r : Rep} (a : InvK cfg h r) {p : PReq} (ok : ∀ m, Accepted cfg p m → Lim cfg r (m + 1)) :
    InvK cfg h (handlePrune cfg r p) := by
  unfold Prune.handlePrune
  split
  · exact a
  · split
    · exact a
    · rename_i hv
      split
      · exact a.dead
      · rename_i m hm
        exact a.pruneThrough (ok m ((accepted_iff cfg p m).1 ⟨by simpa using hv, hm⟩))

theorem InvK.finish {cfg : Cfg} {h : List Req} {r : Rep} (a : InvK cfg h r) : InvK cfg h (finish r) := by
  unfold Prune.finish
  split
  · exact ⟨a.last, a.gen1, a.gen, fun u e => (by cases e), fun i l e => (by cases e), a.wait, a.stored⟩
  · rename_i u hu
    exact ⟨a.last, a.gen1, a.gen, fun v e => (by cases e; exact a.wait u hu), fun i l e => (by cases e), fun v e => (by cases e), a.stored⟩

theorem Rep.genesisId_eq {r : Rep} (h : r.genesisId ≠ 0) : r.genesisId = r.gen := by
  unfold Rep.genesisId at h ⊢
  split
  · rename_i h0; rw [if_pos h0] at h; exact absurd rfl h
  · rfl

theorem InvK.tick {cfg : Cfg} {h : List Req} {r : Rep} (a : InvK cfg h r) : InvK cfg h (tick cfg r) := by
  have hg1 := a.gen1
  unfold Prune.tick
  split
  · exact a
  · rename_i u hu
    have ou := a.start u hu
    split
    · split
      · exact a.dead
      · split
        · exact a.finish
        · apply InvK.finish
          rename_i h1 h2
          have hg : r.genesisId = r.gen := Rep.genesisId_eq (fun e => h1 (.inl e))
          refine ⟨a.last, by show 1 ≤ min (r.last - 1) (u - 1) + 1; omega, ?_, a.start, fun i l e' => (by rw [hu] at e'; cases e'), a.wait, a.stored⟩
          show min (r.last - 1) (u - 1) + 1 ≤ 1 ∨ min (r.last - 1) (u - 1) + 1 + cfg.keep ≤ r.last
          unfold Lim at ou; omega
    · split
      · exact a.dead
      · split
        · exact a.dead
        · rename_i h1 h2
          refine ⟨a.last, a.gen1, a.gen, fun v e => (by cases e), ?_, a.wait, a.stored⟩
          intro i l e
          cases e
          have hg := Rep.genesisId_eq h1
          refine ⟨hg, ?_⟩
          show min r.last (u - 1) + 1 ≤ 1 ∨ min r.last (u - 1) + 1 + cfg.keep ≤ r.last
          unfold Lim at ou; omega
  · rename_i i l hj
    obtain ⟨hi, ou⟩ := a.run i l hj
    split
    · split
      · exact a.dead
      · unfold Lim at ou
        split
        · omega
        · refine ⟨a.last, by show 1 ≤ r.gen + 1; omega, ?_, fun v e => (by cases e), ?_, a.wait, a.stored⟩
          · show r.gen + 1 ≤ 1 ∨ r.gen + 1 + cfg.keep ≤ r.last
            omega
          · intro i' l' e
            cases e
            exact ⟨by show i + 1 = r.gen + 1; omega, ou⟩
    · exact a.finish

theorem InvK.restart {cfg : Cfg} {h : List Req} {r : Rep} (a : InvK cfg h r) : InvK cfg h (restart cfg r) := by
  have a0 : InvK cfg h { r with job := .idle, wait := none } :=
    ⟨a.last, a.gen1, a.gen, fun u e => (by cases e), fun i l e => (by cases e), fun u e => (by cases e), a.stored⟩
  unfold Prune.restart
  simp only
  split
  · exact a0
  · rename_i p hp
    split
    · exact a0.handlePrune (fun m hm => a.stored p m hp hm)
    · exact a0

theorem InvK.add {cfg : Cfg} {h h' : List Req} {r : Rep} (a : InvK cfg h r) (k : Nat) (hk : cnt h' = cnt h + k) : InvK cfg h' (r.add k) := by
  have hl : ∀ u, Lim cfg r u → Lim cfg (r.add k) u := by
    intro u hu
    unfold Lim at hu ⊢
    show u ≤ 1 ∨ u + cfg.keep ≤ r.last + k
    omega
  have := a.last
  exact ⟨by show r.last + k = _; omega, a.gen1, hl _ a.gen, fun u e => hl _ (a.start u e), fun i l e => ⟨(a.run i l e).1, hl _ (a.run i l e).2⟩,
    fun u e => hl _ (a.wait u e), fun p m e e' => hl _ (a.stored p m e e')⟩

theorem InvK.record {cfg : Cfg} {h : List Req} {r : Rep} (a : InvK cfg h r) (p : PReq) (ok : ∀ m, Accepted cfg p m → Lim cfg r (m + 1)) :
    InvK cfg h { r with stored := some p } :=
  ⟨a.last, a.gen1, a.gen, a.start, a.run, a.wait, fun p' m e e' => (by cases e; exact ok m e')⟩

theorem InvK.execReq {cfg : Cfg} {h : List Req} {r : Rep} (a : InvK cfg h r) (q : Req)
    (ok : ∀ p m, q = .prune true p → Accepted cfg p m → m = 0 ∨ m + cfg.keep ≤ cnt h) : InvK cfg (h ++ [q]) (execReq cfg r q) := by
  have hc := cnt_snoc h q
  unfold Prune.execReq
  split
  · exact a.add _ hc
  · exact ⟨by rw [hc]; exact a.last, a.gen1, a.gen, a.start, a.run, a.wait, a.stored⟩
  · rename_i p
    have hl := a.last
    have ok' : ∀ m, Accepted cfg p m → Lim cfg (r.add 1) (m + 1) := by
      intro m hm
      have := ok p m rfl hm
      show m + 1 ≤ 1 ∨ m + 1 + cfg.keep ≤ r.last + 1
      omega
    exact ((a.add 1 hc).record p ok').handlePrune ok'

/-- What one replica has done when every batch has at most one prune request of the operator. -/
structure InvB (cfg : Cfg) (h : List Req) (r : Rep) : Prop where
  wait : r.wait = none
  dead : r.dead = false
  one : (r.rest.filter Req.isOp).length ≤ 1
  idle : r.job = .idle → ∀ p m, Req.prune true p ∈ h → Accepted cfg p m → m < r.gen
  stored : ∀ p, r.stored = some p → Req.prune true p ∈ h
  busy : r.job ≠ .idle → r.rest.filter Req.isOp = [] ∧ ∃ p m, r.stored = some p ∧ Accepted cfg p m ∧
    ((r.job = .starting (m + 1) ∧ r.gen ≤ m) ∨ (r.job = .running r.gen m ∧ r.gen ≤ m + 1)) ∧
    ∀ p' m', Req.prune true p' ∈ h → Accepted cfg p' m' → m' < r.gen ∨ m' ≤ m

theorem InvB.tick {cfg : Cfg} {h : List Req} {r : Rep} (k : InvK cfg h r) (a : InvB cfg h r) : InvB cfg h (tick cfg r) := by
  by_cases hj : r.job = .idle
  · have : Prune.tick cfg r = r := by unfold Prune.tick; rw [hj]
    rw [this]; exact a
  · obtain ⟨hf, p, m, hs, hacc, hjob, hall⟩ := a.busy hj
    have hg1 := k.gen1
    have hfin : ∀ g, g = m + 1 → r.gen ≤ g → InvB cfg h (finish { r with gen := g }) := by
      intro g hg hle
      have : finish { r with gen := g } = { r with gen := g, job := .idle } := by
        unfold finish
        show (match r.wait with | none => _ | some u => _) = _
        rw [a.wait]
      rw [this]
      refine ⟨a.wait, a.dead, a.one, ?_, a.stored, fun e => absurd rfl e⟩
      intro _ p' m' h1 h2
      have := hall p' m' h1 h2
      show m' < g
      omega
    rcases hjob with ⟨hjob, hle⟩ | ⟨hjob, hle⟩
    · have hlim := k.start _ hjob
      unfold Lim at hlim
      have hgen : r.genesisId = r.gen := by unfold Rep.genesisId; rw [if_neg (by omega)]
      unfold Prune.tick
      rw [hjob, hgen]
      simp only
      by_cases hv : cfg.v4 = true
      · rw [if_pos hv, if_neg (by omega), if_neg (by omega)]
        exact hfin _ (by omega) (by omega)
      · rw [if_neg hv, if_neg (by omega), if_neg (by omega)]
        have hmin : min r.last (m + 1 - 1) = m := by omega
        rw [hmin]
        refine ⟨a.wait, a.dead, a.one, fun e => (by cases e), a.stored, fun _ => ⟨hf, p, m, hs, hacc, .inr ⟨rfl, by show r.gen ≤ m + 1; omega⟩, hall⟩⟩
    · have hlim := (k.run _ _ hjob).2
      unfold Lim at hlim
      unfold Prune.tick
      rw [hjob]
      simp only
      by_cases hd : r.gen ≤ m
      · have hgen : r.genesisId = r.gen := by unfold Rep.genesisId; rw [if_neg (by omega)]
        rw [if_pos hd, if_neg (by rw [hgen]; omega), if_neg (by omega)]
        refine ⟨a.wait, a.dead, a.one, fun e => (by cases e), a.stored,
          fun _ => ⟨hf, p, m, hs, hacc, .inr ⟨rfl, by show r.gen + 1 ≤ m + 1; omega⟩, ?_⟩⟩
        intro p' m' h1 h2
        have := hall p' m' h1 h2
        show m' < r.gen + 1 ∨ m' ≤ m
        omega
      · rw [if_neg hd]
        exact hfin r.gen (by omega) (Nat.le_refl _)

/-- `PruneRequest` handled by an idle replica -/
theorem InvB.handlePrune {cfg : Cfg} {h : List Req} {r : Rep} (hne : cfg.ids ≠ []) (p : PReq) (hen : cfg.enabled = true)
    (hl : r.last ≠ 0) (hw : r.wait = none) (hd : r.dead = false) (hj : r.job = .idle)
    (hf : r.rest.filter Req.isOp = []) (hs : r.stored = some p) (hin : Req.prune true p ∈ h)
    (hall : ∀ p' m', Req.prune true p' ∈ h → Accepted cfg p' m' → m' < r.gen ∨ Accepted cfg p m') :
    InvB cfg h (handlePrune cfg r p) := by
  have hst : ∀ p', r.stored = some p' → Req.prune true p' ∈ h := by
    intro p' e; rw [hs] at e; cases e; exact hin
  have hone : (r.rest.filter Req.isOp).length ≤ 1 := by rw [hf]; exact Nat.zero_le _
  unfold Prune.handlePrune
  rw [if_neg (by simp [hen])]
  by_cases hv : verifyReq cfg p = true
  · rw [if_neg (by simp [hv])]
    cases hm : agreed p.blocks with
    | none =>
      exfalso
      have : p.blocks = [] := by
        cases hb : p.blocks with
        | nil => rfl
        | cons b bs => rw [hb] at hm; cases hm
      unfold verifyReq at hv
      rw [this] at hv
      have hlen : ([] : List Lpb).length ≠ cfg.ids.length := by
        intro e; exact hne (List.eq_nil_of_length_eq_zero e.symm)
      rw [if_pos (by simpa using hlen)] at hv
      cases hv
    | some m =>
      simp only
      have hacc := (accepted_iff cfg p m).1 ⟨hv, hm⟩
      have hu : ∀ m', Accepted cfg p m' → m' = m := by
        intro m' h'
        have := ((accepted_iff cfg p m').2 h').2
        rw [hm] at this
        exact (Option.some.inj this).symm
      have hgen : r.genesisId = r.gen := by unfold Rep.genesisId; rw [if_neg hl]
      unfold pruneThrough
      rw [hgen]
      by_cases hg : r.gen ≤ m
      · rw [if_pos hg, hj]
        refine ⟨hw, hd, hone, fun e => (by cases e), hst, fun _ => ⟨hf, p, m, hs, hacc, .inl ⟨rfl, hg⟩, ?_⟩⟩
        intro p' m' h1 h2
        rcases hall p' m' h1 h2 with h | h
        · exact .inl h
        · exact .inr (by rw [hu m' h]; exact Nat.le_refl _)
      · rw [if_neg hg]
        refine ⟨hw, hd, hone, ?_, hst, fun e => absurd hj e⟩
        intro _ p' m' h1 h2
        rcases hall p' m' h1 h2 with h | h
        · exact h
        · rw [hu m' h]; omega
  · rw [if_pos (by simp [hv])]
    refine ⟨hw, hd, hone, ?_, hst, fun e => absurd hj e⟩
    intro _ p' m' h1 h2
    rcases hall p' m' h1 h2 with h | h
    · exact h
    · exact absurd ((accepted_iff cfg p m').2 h).1 hv

theorem cnt_of_mem {h : List Req} {p : PReq} (hm : Req.prune true p ∈ h) : cnt h ≠ 0 := by
  obtain ⟨a, b, e⟩ := List.append_of_mem hm
  rw [e, cnt_append]
  have : cnt (Req.prune true p :: b) = 1 + cnt b := by simp [cnt, Req.adds]
  omega

theorem InvB.restart {cfg : Cfg} {h : List Req} {r : Rep} (hne : cfg.ids ≠ []) (hen : cfg.enabled = true) (k : InvK cfg h r)
    (a : InvB cfg h r) (hr : r.rest = []) : InvB cfg h (restart cfg r) := by
  have key : ∀ p, r.stored = some p → ∀ p' m', Req.prune true p' ∈ h → Accepted cfg p' m' → m' < r.gen ∨
      ∃ m, Accepted cfg p m ∧ r.gen ≤ m + 1 ∧ m' ≤ m := by
    intro p hp p' m' h1 h2
    by_cases hj : r.job = .idle
    · exact .inl (a.idle hj p' m' h1 h2)
    · obtain ⟨hf, p0, m, hs, hacc, hjob, hall⟩ := a.busy hj
      rw [hp] at hs; cases hs
      rcases hall p' m' h1 h2 with h | h
      · exact .inl h
      · refine .inr ⟨m, hacc, ?_, h⟩
        rcases hjob with ⟨_, h⟩ | ⟨_, h⟩ <;> omega
  unfold Prune.restart
  simp only
  cases hp : r.stored with
  | none =>
    refine ⟨rfl, a.dead, a.one, ?_, ?_, fun e => absurd rfl e⟩
    · intro _ p m h1 h2
      by_cases hj : r.job = .idle
      · exact a.idle hj p m h1 h2
      · obtain ⟨hf, p0, m, hs, _⟩ := a.busy hj
        rw [hp] at hs; cases hs
    · intro p e; cases e
  | some p =>
    simp only
    rw [if_pos hen]
    have hin := a.stored p hp
    -- handled again, as an idle replica
    have hl : r.last ≠ 0 := by rw [k.last]; exact cnt_of_mem hin
    by_cases hacc : ∃ m, Accepted cfg p m
    · obtain ⟨m, hacc⟩ := hacc
      have hm := (accepted_iff cfg p m).2 hacc
      have hu : ∀ m', Accepted cfg p m' → m' = m := by
        intro m' h'
        have := ((accepted_iff cfg p m').2 h').2
        rw [hm.2] at this
        exact (Option.some.inj this).symm
      have hall : ∀ p' m', Req.prune true p' ∈ h → Accepted cfg p' m' → m' < r.gen ∨ m' ≤ m := by
        intro p' m' h1 h2
        rcases key p hp p' m' h1 h2 with h | ⟨m0, h, _, h'⟩
        · exact .inl h
        · rw [hu m0 h] at h'; exact .inr h'
      unfold Prune.handlePrune
      rw [if_neg (by simp [hen]), if_neg (by simp [hm.1]), hm.2]
      simp only
      have hgen : ∀ st, Rep.genesisId { r with job := .idle, wait := none, stored := st } = r.gen := by
        intro st; unfold Rep.genesisId; rw [if_neg hl]
      unfold pruneThrough
      rw [hgen]
      by_cases hg : r.gen ≤ m
      · rw [if_pos hg]
        refine ⟨rfl, a.dead, a.one, fun e => (by cases e), fun p' e => a.stored p' (by rw [hp]; exact e), fun _ => ⟨by rw [hr]; rfl, p, m, rfl, hacc, .inl ⟨rfl, hg⟩, hall⟩⟩
      · rw [if_neg hg]
        refine ⟨rfl, a.dead, a.one, ?_, fun p' e => a.stored p' (by rw [hp]; exact e), fun e => absurd rfl e⟩
        intro _ p' m' h1 h2
        have := hall p' m' h1 h2
        show m' < r.gen
        omega
    · refine InvB.handlePrune hne p hen hl rfl a.dead rfl (by rw [hr]; rfl) rfl hin ?_
      intro p' m' h1 h2
      rcases key p hp p' m' h1 h2 with h | ⟨m0, h, _⟩
      · exact .inl h
      · exact absurd ⟨m0, h⟩ hacc

theorem InvB.execReq {cfg : Cfg} {h : List Req} {r : Rep} (hne : cfg.ids ≠ []) (hen : cfg.enabled = true) (a : InvB cfg h r) (q : Req)
    (t : List Req) (hr : r.rest = q :: t) : InvB cfg (h ++ [q]) (execReq cfg { r with rest := t } q) := by
  have hnp : ∀ p, q ≠ .prune true p → Req.prune true p ∈ h ++ [q] → Req.prune true p ∈ h := by
    intro p hq hm
    rcases List.mem_append.1 hm with h | h
    · exact h
    · exact absurd (List.mem_singleton.1 h).symm hq
  have hone := a.one
  have hbusy := a.busy
  rw [hr] at hone hbusy
  have same : q.isOp = false → ∀ k, InvB cfg (h ++ [q]) { r with rest := t, last := k } := by
    intro hop k
    rw [List.filter_cons, if_neg (by simp [hop])] at hone hbusy
    have hq : ∀ p, q ≠ .prune true p := by intro p e; rw [e] at hop; cases hop
    refine ⟨a.wait, a.dead, hone, ?_, fun p e => List.mem_append_left _ (a.stored p e), ?_⟩
    · intro hj p m h1 h2
      exact a.idle hj p m (hnp p (hq p) h1) h2
    · intro hj
      obtain ⟨hf, p, m, h1, h2, h3, h4⟩ := hbusy hj
      exact ⟨hf, p, m, h1, h2, h3, fun p' m' x y => h4 p' m' (hnp p' (hq p') x) y⟩
  cases q with
  | user k => exact same rfl (r.last + k)
  | prune op p =>
    cases op with
    | false => exact same rfl r.last
    | true =>
      rw [List.filter_cons, if_pos (by rfl)] at hone hbusy
      have hj : r.job = .idle := by
        by_cases hj : r.job = .idle
        · exact hj
        · have := (hbusy hj).1; cases this
      have ht : t.filter Req.isOp = [] := by
        apply List.eq_nil_of_length_eq_zero
        simp only [List.length_cons] at hone
        omega
      refine InvB.handlePrune (r := { Rep.add { r with rest := t } 1 with stored := some p }) hne p hen ?_ a.wait a.dead hj ht rfl (by simp) ?_
      · show r.last + 1 ≠ 0
        omega
      · intro p' m' h1 h2
        show m' < r.gen ∨ _
        rcases List.mem_append.1 h1 with h | h
        · exact .inl (a.idle hj p' m' h h2)
        · have := List.mem_singleton.1 h
          cases this
          exact .inr h2

/-! ### the cluster -/

theorem epochs_mono {cfg : Cfg} {hon : Nat → Prop} {w w' : World} (st : Step cfg hon w w') (h : w'.epochs = []) : w.epochs = [] := by
  cases st with
  | unwedge x e hx => cases h
  | _ => exact h

theorem log_mono {cfg : Cfg} {hon : Nat → Prop} {w w' : World} (st : Step cfg hon w w') (h : OneEach w'.log) : OneEach w.log := by
  cases st with
  | order b hu => exact fun b' hb' => h b' (List.mem_append_left _ hb')
  | _ => exact h

/-- what a correct replica of the configuration guarantees about an accepted request of the log -/
theorem agreed_small {cfg : Cfg} {hon : Nat → Prop} {w : World} (g : InvG cfg hon w) (he : w.epochs = []) {y : Nat} (hy : hon y) (hyi : y ∈ cfg.ids)
    {h : List Req} {p : PReq} {m : Nat} {f : List Req} (hl : w.log.flatten = h ++ Req.prune true p :: f) (ha : Accepted cfg p m) :
    m = 0 ∨ m + cfg.keep ≤ cnt h := by
  have : y ∈ p.blocks.map (fun l => l.replica) := ha.answers.mem_iff.2 hyi
  obtain ⟨l, hlm, rfl⟩ := List.mem_map.1 this
  have hm := ha.lower l hlm
  rcases g.order h true p f hl l hlm hy (ha.signed l hlm) with ⟨_, h | h⟩ | h
  · exact .inl (by omega)
  · exact .inr (by omega)
  · rw [he] at h; cases h

theorem next_of_split {log : List (List Req)} {r : Rep} {h : List Req} (s : Split log r h) {q : Req} {t : List Req} (hr : r.rest = q :: t) :
    ∃ f, log.flatten = h ++ q :: f := by
  refine ⟨t ++ (log.drop r.pos).flatten, ?_⟩
  conv => lhs; rw [← List.take_append_drop r.pos log]
  rw [List.flatten_append, s.2, hr]; simp

theorem invK {cfg : Cfg} {hon : Nat → Prop} {y : Nat} (hy : hon y) (hyi : y ∈ cfg.ids) {w : World} (hr : Reach cfg hon w) (he : w.epochs = []) :
    ∀ x, ∃ h, Split w.log (w.rep x) h ∧ InvK cfg h (w.rep x) := by
  induction hr with
  | init =>
    intro x
    refine ⟨[], ⟨Nat.zero_le _, rfl⟩, ⟨rfl, Nat.le_refl _, .inl (Nat.le_refl _), ?_, ?_, ?_, ?_⟩⟩
    · intro u e; cases e
    · intro i l e; cases e
    · intro u e; cases e
    · intro u m e; cases e
  | @step w w' h st ih =>
    have he' := epochs_mono st he
    refine step_split st ?_ ?_ ?_ ?_ (ih he')
    · intro x h b a hr hj hb; exact a.rest b _
    · intro x h' q t hs a hr hw
      refine (a.rest t _).execReq q ?_
      intro p m e ha
      obtain ⟨f, hf⟩ := next_of_split hs hr
      rw [e] at hf
      exact agreed_small (invG h) he' hy hyi hf ha
    · intro x h hs a; exact a.tick
    · intro x h hs a hr; exact a.restart

theorem invB {cfg : Cfg} {hon : Nat → Prop} {y : Nat} (hy : hon y) (hyi : y ∈ cfg.ids) (hen : cfg.enabled = true) {w : World}
    (hr : Reach cfg hon w) (he : w.epochs = []) (ho : OneEach w.log) :
    ∀ x, ∃ h, Split w.log (w.rep x) h ∧ InvB cfg h (w.rep x) := by
  have hne : cfg.ids ≠ [] := fun e => by rw [e] at hyi; cases hyi
  induction hr with
  | init =>
    intro x
    refine ⟨[], ⟨Nat.zero_le _, rfl⟩, ⟨rfl, rfl, Nat.zero_le _, ?_, ?_, fun e => absurd rfl e⟩⟩
    · intro _ p m h; cases h
    · intro p e; cases e
  | @step w w' h st ih =>
    have he' := epochs_mono st he
    have ho' := log_mono st ho
    have kk : ∀ x h', Split w.log (w.rep x) h' → InvK cfg h' (w.rep x) := by
      intro x h' hs
      obtain ⟨h2, hs2, k⟩ := invK hy hyi h he' x
      have := hs.executed.symm.trans hs2.executed
      rw [this]; exact k
    refine step_split st ?_ ?_ ?_ ?_ (ih he' ho')
    · intro x h b a hr hj hb
      exact ⟨a.wait, a.dead, ho' b hb, a.idle, a.stored, fun e => absurd hj e⟩
    · intro x h' q t hs a hr hw; exact a.execReq hne hen q t hr
    · intro x h hs a; exact InvB.tick (kk x h hs) a
    · intro x h hs a hr; exact InvB.restart hne hen (kk x h hs) a hr

end Verif.Prune
