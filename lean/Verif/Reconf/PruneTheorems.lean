import Verif.Reconf.PruneExact
set_option linter.unusedVariables false
/-!
# Pruning: theorems
-/
namespace Verif.Prune

/-- **A block is deleted only after the operator has ordered it and every correct replica has agreed.**
If block `b` is gone at replica `x` then `x` has executed a prune request signed by the operator which
has exactly one correctly signed answer of every replica, all of them for `b` or a later block; and
every correct replica of the configuration has itself signed such a number: as an answer to
`LatestPrunableBlockRequest`, or as the epoch of an unwedge status (the two signatures cannot be told
apart). -/
theorem pruned_only_agreed {cfg : Cfg} {hon : Nat → Prop} {w : World} (hr : Reach cfg hon w) (x b : Nat) (hb : 1 ≤ b)
    (hg : b < (w.rep x).gen) :
    ∃ p m, Req.prune true p ∈ w.executed x ∧ Accepted cfg p m ∧ b ≤ m ∧
      ∀ y ∈ cfg.ids, hon y → ∃ k, b ≤ k ∧ ((y, k) ∈ w.answers ∨ (y, k) ∈ w.epochs) := by
  obtain ⟨h, hs, a⟩ := invA hr x
  rcases a.gen with e | ⟨u, ⟨p, m, hp, hacc, e⟩, hle⟩
  · omega
  · refine ⟨p, m, by rw [hs.executed]; exact hp, hacc, by omega, ?_⟩
    intro y hy hh
    have : y ∈ p.blocks.map (fun l => l.replica) := hacc.answers.mem_iff.2 hy
    obtain ⟨l, hlm, rfl⟩ := List.mem_map.1 this
    have hm := hacc.lower l hlm
    obtain ⟨f, hf⟩ := hs.prefix
    obtain ⟨h1, h2, e2⟩ := List.append_of_mem hp
    refine ⟨l.block, by omega, ?_⟩
    rcases (invG hr).order h1 true p (h2 ++ f) (by rw [hf, e2]; simp) l hlm hh (hacc.signed l hlm) with ⟨h, _⟩ | h
    · exact .inl h
    · exact .inr h

/-- **The latest blocks stay.**  As long as no correct replica has signed an unwedge status and one
replica of the configuration is correct, a replica from which anything has been deleted keeps more than
`numBlocksToKeep` blocks, and every block added since the first one is either before the genesis block or
still there. -/
theorem keeps_latest {cfg : Cfg} {hon : Nat → Prop} {w : World} (hr : Reach cfg hon w) (he : w.epochs = []) {y : Nat} (hy : hon y)
    (hyi : y ∈ cfg.ids) (x : Nat) :
    (w.rep x).last = cnt (w.executed x) ∧ ((w.rep x).gen = 1 ∨ (w.rep x).gen + cfg.keep ≤ (w.rep x).last) := by
  obtain ⟨h, hs, k⟩ := invK hy hyi hr he x
  rw [hs.executed]
  refine ⟨k.last, ?_⟩
  have h1 := k.gen1
  rcases k.gen with h | h
  · exact .inl (by omega)
  · exact .inr h

/-- **Exactly what was ordered is deleted.**  If no batch has two prune requests of the operator, no
correct replica has signed an unwedge status and some replica of the configuration is correct, then at
a replica that is between batches and not deleting, whatever it did in between (crashes included), the
first remaining block follows the largest agreed block of the accepted requests it has executed. -/
theorem exact_genesis {cfg : Cfg} {hon : Nat → Prop} {w : World} (hr : Reach cfg hon w) (he : w.epochs = []) (ho : OneEach w.log)
    (hen : cfg.enabled = true) {y : Nat} (hy : hon y) (hyi : y ∈ cfg.ids) (x : Nat) (hq : w.quiet x) :
    (∀ p m, Req.prune true p ∈ w.executed x → Accepted cfg p m → m < (w.rep x).gen) ∧
    ((w.rep x).gen = 1 ∨ ∃ p m, Req.prune true p ∈ w.executed x ∧ Accepted cfg p m ∧ (w.rep x).gen = m + 1) := by
  obtain ⟨h, hs, a⟩ := invA hr x
  obtain ⟨h', hs', b⟩ := invB hy hyi hen hr he ho x
  rw [hs'.executed]
  have e : h = h' := hs.executed.symm.trans hs'.executed
  have hall := b.idle hq.2
  refine ⟨hall, ?_⟩
  rcases a.gen with h1 | ⟨u, ⟨p, m, hp, hacc, eu⟩, hle⟩
  · exact .inl h1
  · rw [e] at hp
    have := hall p m hp hacc
    exact .inr ⟨p, m, hp, hacc, by omega⟩

/-- **Replicas agree on the first block.**  Two replicas that have executed the same batches and are
not deleting have the same first and last blocks. -/
theorem same_genesis {cfg : Cfg} {hon : Nat → Prop} {w : World} (hr : Reach cfg hon w) (he : w.epochs = []) (ho : OneEach w.log)
    (hen : cfg.enabled = true) {y : Nat} (hy : hon y) (hyi : y ∈ cfg.ids) (x x' : Nat) (hq : w.quiet x) (hq' : w.quiet x')
    (hp : (w.rep x).pos = (w.rep x').pos) :
    (w.rep x).gen = (w.rep x').gen ∧ (w.rep x).last = (w.rep x').last := by
  have hex : w.executed x = w.executed x' := by unfold World.executed; rw [hp, hq.1, hq'.1]
  have l := (keeps_latest hr he hy hyi x).1
  have l' := (keeps_latest hr he hy hyi x').1
  refine ⟨?_, by rw [l, l', hex]⟩
  obtain ⟨a, b⟩ := exact_genesis hr he ho hen hy hyi x hq
  obtain ⟨a', b'⟩ := exact_genesis hr he ho hen hy hyi x' hq'
  obtain ⟨_, _, i⟩ := invK hy hyi hr he x
  obtain ⟨_, _, i'⟩ := invK hy hyi hr he x'
  have g := i.gen1
  have g' := i'.gen1
  rcases b with b | ⟨p, m, h1, h2, h3⟩
  · rcases b' with b' | ⟨p', m', h1', h2', h3'⟩
    · omega
    · have := a p' m' (by rw [hex]; exact h1') h2'
      omega
  · have h4 := a' p m (by rw [← hex]; exact h1) h2
    rcases b' with b' | ⟨p', m', h1', h2', h3'⟩
    · omega
    · have := a p' m' (by rw [hex]; exact h1') h2'
      omega

/-- **Pruning does not stop a replica** under the same conditions: no exception of the background job
terminates the process. -/
theorem never_terminates {cfg : Cfg} {hon : Nat → Prop} {w : World} (hr : Reach cfg hon w) (he : w.epochs = []) (ho : OneEach w.log)
    (hen : cfg.enabled = true) {y : Nat} (hy : hon y) (hyi : y ∈ cfg.ids) (x : Nat) : (w.rep x).dead = false := by
  obtain ⟨h', hs', b⟩ := invB hy hyi hen hr he ho x
  exact b.dead

/-- a bound for the steps of a job -/
def Job.len : Job → Nat
  | .running _ m => m + 1
  | _ => 0

/-- the job comes to an end: after `m` steps of deleting and two more nothing is being deleted -/
theorem job_ends {cfg : Cfg} {h : List Req} {r : Rep} (k : InvK cfg h r) (b : InvB cfg h r) :
    ∃ n, (Nat.rec r (fun _ s => tick cfg s) n : Rep).job = .idle := by
  -- measure: distance from genesis to the end
  have main : ∀ (d : Nat) (r : Rep), InvK cfg h r → InvB cfg h r →
      (∀ m, r.job = .running r.gen m → m + 1 - r.gen ≤ d) → (∀ u, r.job ≠ .starting u) →
      ∃ n, (Nat.rec r (fun _ s => tick cfg s) n : Rep).job = .idle := by
    intro d
    induction d with
    | zero =>
      intro r k b hd hs
      by_cases hj : r.job = .idle
      · exact ⟨0, hj⟩
      · obtain ⟨_, p, m, _, _, h1, _⟩ := b.busy hj
        rcases h1 with ⟨h1, _⟩ | ⟨h1, _⟩
        · exact absurd h1 (hs _)
        · refine ⟨1, ?_⟩
          show (tick cfg r).job = .idle
          have := hd m h1
          unfold tick
          rw [h1]
          simp only
          rw [if_neg (by omega)]
          unfold finish
          rw [b.wait]
    | succ d ih =>
      intro r k b hd hs
      by_cases hj : r.job = .idle
      · exact ⟨0, hj⟩
      · obtain ⟨_, p, m, _, _, h1, _⟩ := b.busy hj
        rcases h1 with ⟨h1, _⟩ | ⟨h1, _⟩
        · exact absurd h1 (hs _)
        · have hm := hd m h1
          have hk := k.tick
          have hb := InvB.tick k b
          have hrun := (k.run _ _ h1).2
          have hg1 := k.gen1
          unfold Lim at hrun
          by_cases hle : r.gen ≤ m
          · have hgen : r.genesisId = r.gen := by unfold Rep.genesisId; rw [if_neg (by omega)]
            have ht : tick cfg r = { r with gen := r.gen + 1, job := .running (r.gen + 1) m } := by
              unfold tick; rw [h1]; simp only
              rw [if_pos hle, if_neg (by rw [hgen]; omega), if_neg (by omega)]
            obtain ⟨n, hn⟩ := ih (tick cfg r) hk hb (by rw [ht]; intro m' e; cases e; show m + 1 - (r.gen + 1) ≤ d; omega)
              (by rw [ht]; intro u e; cases e)
            refine ⟨n + 1, ?_⟩
            have sh : ∀ n, (Nat.rec r (fun _ s => tick cfg s) (n + 1) : Rep) = (Nat.rec (tick cfg r) (fun _ s => tick cfg s) n : Rep) := by
              intro n
              induction n with
              | zero => rfl
              | succ n ihn => exact congrArg (tick cfg) ihn
            rw [sh]; exact hn
          · refine ⟨1, ?_⟩
            show (tick cfg r).job = .idle
            unfold tick
            rw [h1]
            simp only
            rw [if_neg (by omega)]
            unfold finish
            rw [b.wait]
  by_cases hs : ∃ u, r.job = .starting u
  · obtain ⟨u, hu⟩ := hs
    have hk := k.tick
    have hb := InvB.tick k b
    have hns : ∀ v, (tick cfg r).job ≠ .starting v := by
      intro v e
      have hlim := k.start u hu
      unfold tick at e
      rw [hu] at e
      simp only at e
      have hf : ∀ r' : Rep, r'.wait = none → (finish r').job = .idle := by
        intro r' h; unfold finish; rw [h]
      split at e
      · split at e
        · have := hb.dead
          unfold tick at this
          rw [hu] at this
          simp only at this
          rename_i h1 h2
          rw [if_pos h1, if_pos h2] at this
          cases this
        · split at e
          · rw [hf _ b.wait] at e; cases e
          · refine absurd ((hf _ ?_).symm.trans e) (by intro h; cases h)
            exact b.wait
      · split at e
        · have := hb.dead
          unfold tick at this
          rw [hu] at this
          simp only at this
          rename_i h1 h2
          rw [if_neg h1, if_pos h2] at this
          cases this
        · split at e
          · have := hb.dead
            unfold tick at this
            rw [hu] at this
            simp only at this
            rename_i h1 h2 h3
            rw [if_neg h1, if_neg h2, if_pos h3] at this
            cases this
          · cases e
    obtain ⟨n, hn⟩ := main (Job.len (tick cfg r).job) (tick cfg r) hk hb (by
      intro m e; rw [e]; show m + 1 - _ ≤ m + 1; omega) hns
    refine ⟨n + 1, ?_⟩
    have sh : ∀ n, (Nat.rec r (fun _ s => tick cfg s) (n + 1) : Rep) = (Nat.rec (tick cfg r) (fun _ s => tick cfg s) n : Rep) := by
      intro n
      induction n with
      | zero => rfl
      | succ n ihn => exact congrArg (tick cfg) ihn
    rw [sh]; exact hn
  · exact main (Job.len r.job) r k b (by
      intro m e; rw [e]; show m + 1 - _ ≤ m + 1; omega) (fun u e => hs ⟨u, e⟩)

/-- `n` steps of the background job -/
def ticks (cfg : Cfg) (r : Rep) (n : Nat) : Rep := Nat.rec r (fun _ s => tick cfg s) n

/-- **An ordered pruning is carried out**: the background job ends after finitely many steps. -/
theorem pruning_ends {cfg : Cfg} {hon : Nat → Prop} {w : World} (hr : Reach cfg hon w) (he : w.epochs = []) (ho : OneEach w.log)
    (hen : cfg.enabled = true) {y : Nat} (hy : hon y) (hyi : y ∈ cfg.ids) (x : Nat) :
    ∃ n, (ticks cfg (w.rep x) n).job = .idle := by
  obtain ⟨h, hs, k⟩ := invK hy hyi hr he x
  obtain ⟨h', hs', b⟩ := invB hy hyi hen hr he ho x
  have e : h = h' := hs.executed.symm.trans hs'.executed
  subst e
  exact job_ends k b

/-- **Pruning switched off**: nothing is ever deleted. -/
theorem disabled_keeps_all {cfg : Cfg} {hon : Nat → Prop} {w : World} (hr : Reach cfg hon w) (hen : cfg.enabled = false) (x : Nat) :
    (w.rep x).gen = 1 ∧ (w.rep x).last = cnt (w.executed x) ∧ (w.rep x).dead = false := by
  have : ∀ x, ∃ h, Split w.log (w.rep x) h ∧
      ((w.rep x).gen = 1 ∧ (w.rep x).last = cnt h ∧ (w.rep x).dead = false ∧ (w.rep x).job = .idle) := by
    induction hr with
    | init => intro x; exact ⟨[], ⟨Nat.zero_le _, rfl⟩, rfl, rfl, rfl, rfl⟩
    | step h st ih =>
      have hp : ∀ (r : Rep) p, handlePrune cfg r p = r := by
        intro r p; unfold handlePrune; rw [if_pos (by simp [hen])]
      refine step_split (P := fun h r => r.gen = 1 ∧ r.last = cnt h ∧ r.dead = false ∧ r.job = .idle) st ?_ ?_ ?_ ?_ ih
      · intro x h b a hr hj hb; exact a
      · intro x h q t hs a hr hw
        unfold execReq
        split
        · exact ⟨a.1, by rw [cnt_snoc]; show _ + _ = _; rw [a.2.1]; rfl, a.2.2⟩
        · exact ⟨a.1, by rw [cnt_snoc]; exact a.2.1, a.2.2⟩
        · rw [hp]
          exact ⟨a.1, by rw [cnt_snoc]; show _ + 1 = _; rw [a.2.1]; rfl, a.2.2⟩
      · intro x h hs a
        unfold tick; rw [a.2.2.2]; exact a
      · intro x h hs a hr
        unfold restart
        simp only
        split
        · exact ⟨a.1, a.2.1, a.2.2.1, rfl⟩
        · rw [if_neg (by simp [hen])]; exact ⟨a.1, a.2.1, a.2.2.1, rfl⟩
  obtain ⟨h, hs, a⟩ := this x
  rw [hs.executed]
  exact ⟨a.1, a.2.1, a.2.2.1⟩

/-- **A replayed request only takes up a block**: a request for blocks that are already gone deletes
nothing. -/
theorem replay_harmless (cfg : Cfg) (r : Rep) (p : PReq) (m : Nat) (ha : Accepted cfg p m) (hm : m < r.gen) :
    execReq cfg r (.prune true p) = { r with last := r.last + 1, stored := some p } := by
  have h := (accepted_iff cfg p m).2 ha
  show handlePrune cfg _ p = _
  unfold handlePrune
  split
  · rfl
  · rw [if_neg (by simp [h.1]), h.2]
    simp only
    unfold pruneThrough
    rw [if_neg]
    · rfl
    · show ¬ Rep.genesisId _ ≤ m
      unfold Rep.genesisId
      rw [if_neg]
      · show ¬ r.gen ≤ m; omega
      · show r.last + 1 ≠ 0; omega

end Verif.Prune
