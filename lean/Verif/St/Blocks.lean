import Verif.St.Basic
set_option linter.unusedVariables false
set_option linter.unusedSimpArgs false
/-!
# State transfer: invariant while blocks are fetched
-/
namespace Verif.St
open Verif.Bytes

/-- the tree is the one of the checkpoint; if there is none, no block to be fetched has a number that is a multiple of the range -/
def TreeOk (c : Cfg) (d : Desc) (r : Nat) (t : Rvt.Tree) : Prop :=
  (d.rvb ≠ [] ∧ c.parse d.rvb = some t) ∨ (d.rvb = [] ∧ ∀ j, r < j → j ≤ d.maxBlock → j % c.fetch ≠ 0)

/-- the summaries kept are from messages -/
def CertsOk (c : Cfg) (evs : List Ev) (certs : Nat → Option (Concord.Cert.St Summary)) : Prop :=
  ∀ k ct, certs k = some ct → ∀ e ∈ ct.msgs, e.1 ≠ c.self ∧ ∃ reach o cut, Ev.summary e.1 e.2 reach o cut ∈ evs

structure B (c : Cfg) (evs : List Ev) (d : Desc) (r : Nat) (s : S) : Prop where
  cbf : s.cbf = some d
  on : s.fetching = true
  fin : s.finalizing = false
  good : Good c evs s.log
  certs : CertsOk c evs s.certs
  cyc : (cycle s.log).head? = some (.adopt d r)
  target : s.target = d
  last : s.last = d.maxBlock
  pos : 0 < s.last
  first : r < s.first
  tree : TreeOk c d r s.rv.tree
  stored : ∀ e ∈ s.rv.stored, ∃ ds, Out.digests ds ∈ cycle s.log ∧ e ∈ ds ∧ GroupOk c d ds
  same : s.commit.lo = s.fetch.lo ∧ s.commit.hi = s.fetch.hi
  lo : r < s.fetch.lo
  ord : s.fetch.lo ≤ s.fetch.next ∧ s.fetch.next ≤ s.commit.next ∧ s.commit.next ≤ s.fetch.hi ∧ s.fetch.hi ≤ s.last
  dn : (s.fetch.next = s.fetch.hi ∧ s.dnext = zero) ∨ ∃ b, Out.put (s.fetch.next + 1) b ∈ cycle s.log ∧ Chains c d (cycle s.log) (s.fetch.next + 1) b ∧ s.dnext = c.prev b
  io : s.io.length = s.commit.next - s.fetch.next
  ioput : ∀ i ∈ s.io, ∃ b, Out.put i b ∈ cycle s.log
  d1 : ∀ j, r < j → j < s.first → Settled (cycle s.log) j
  d2 : ∀ j, r < j → j < s.commit.lo → Settled (cycle s.log) j
  d3 : ∀ j, s.commit.next < j → j ≤ s.commit.hi → Settled (cycle s.log) j

variable {c : Cfg} {evs : List Ev} {d : Desc} {r : Nat} {s : S}

/-- the other fields do not matter -/
theorem B.other (h : B c evs d r s) (a1 a2 a3 a4 a5 a6 a7 a8 a9 a10 a11) : B c evs d r { s with
    firstStored := a1
    lastStored := a2
    descs := a3
    pages := a4
    counts := a5
    seq := a6
    pending := a7
    buf := a8
    src := a9
    pref := a10
    postponed := a11 } :=
  ⟨h.cbf, h.on, h.fin, h.good, h.certs, h.cyc, h.target, h.last, h.pos, h.first, h.tree, h.stored, h.same, h.lo, h.ord, h.dn, h.io, h.ioput, h.d1, h.d2, h.d3⟩

/-! ## Writes -/

/-- what `finLoop` does: it either stops on the way, or ends the batch -/
theorem finLoop_spec : ∀ (k : Nat) (s : S), s.commit.lo ≤ s.commit.next → (s.finLoop k).All (fun s' => ∃ t, t ≤ s.io.length ∧ t ≤ k ∧
    ((s' = { s with
        io := s.io.drop t
        commit := { s.commit with next := s.commit.next - t }
        log := s.log ++ (s.io.take t).map Out.done } ∧ s.commit.lo + t ≤ s.commit.next ∧ (t = k ∨ t = s.io.length) ∧
        ∀ j, s.commit.next - t < j → j ≤ s.commit.next → j ∈ s.io.take t) ∨
     (s' = { s with
        io := []
        commit := { s.commit with next := s.commit.lo }
        first := s.commit.hi + 1
        log := s.log ++ s.io.map Out.done } ∧ s.io.length = s.commit.next - s.commit.lo + 1 ∧
        ∀ j, s.commit.lo ≤ j → j ≤ s.commit.next → j ∈ s.io))) := by
  intro k
  induction k with
  | zero =>
    intro s hlo
    rw [S.finLoop, all_ok]
    exact ⟨0, by omega, by omega, .inl ⟨by simp, by omega, .inl rfl, fun j h1 h2 => by omega⟩⟩
  | succ k ih =>
    intro s hlo
    rw [S.finLoop]
    cases hio : s.io with
    | nil =>
      dsimp only
      rw [all_ok]
      refine ⟨0, by simp, by omega, .inl ⟨?_, by omega, .inr rfl, fun j h1 h2 => by omega⟩⟩
      cases s
      simp_all
    | cons b io =>
      dsimp only
      refine all_ite.2 ⟨fun _ => all_abort, fun hb => ?_⟩
      have hb : b = s.commit.next := Decidable.not_not.1 hb
      refine all_ite.2 ⟨fun he => all_ite.2 ⟨fun hl => all_ok.2 ?_, fun _ => all_abort⟩, fun he => ?_⟩
      · refine ⟨1, by simp, by omega, .inr ⟨?_, ?_, ?_⟩⟩
        · have hcm : s.commit = { s.commit with next := s.commit.lo } := by
            cases hcc : s.commit with
            | mk a b' c' => rw [hcc] at he; simp only at he; rw [he]
          rw [hl.2, ← hcm]; rfl
        · rw [hl.2]; simp; omega
        · intro j h1 h2
          rw [hb]; simp; omega
      · refine (ih _ ?_).mono ?_
        · show s.commit.lo ≤ s.commit.next - 1
          omega
        · rintro s' ⟨t, h1, h2, h3⟩
          refine ⟨t + 1, ?_, by omega, ?_⟩
          · simp only [List.length_cons]; simp only at h1; omega
          · rcases h3 with ⟨rfl, g2, g3, g4⟩ | ⟨rfl, g2, g3⟩
            · refine .inl ⟨?_, ?_, ?_, ?_⟩
              · simp only [List.drop_succ_cons, List.take_succ_cons, List.map_cons, List.append_assoc, List.cons_append, List.nil_append]
                congr 2
                omega
              · simp only at g2; omega
              · simp only [List.length_cons]; simp only at g3; omega
              · intro j q1 q2
                simp only [List.take_succ_cons, List.mem_cons]
                by_cases e : j = b
                · exact .inl e
                · exact .inr (g4 j (by simp only; omega) (by simp only; omega))
            · refine .inr ⟨?_, ?_, ?_⟩
              · simp only [List.map_cons, List.append_assoc, List.cons_append, List.nil_append]
              · simp only [List.length_cons]; simp only at g2; omega
              · intro j q1 q2
                by_cases e : j = b
                · exact List.mem_cons.2 (.inl e)
                · exact List.mem_cons_of_mem _ (g3 j (by simp only; omega) (by simp only; omega))

theorem finalize_loop {k : Nat} {p : S → Prop} (h : (s.finLoop k).All p) : (s.finalize k).All p := by
  unfold S.finalize
  refine all_ite.2 ⟨fun e => all_ok.2 ?_, fun _ => all_ite.2 ⟨fun _ => all_abort, fun _ => h⟩⟩
  cases k with
  | zero => exact all_ok.1 h
  | succ k => rw [S.finLoop, e] at h; exact all_ok.1 h

/-- writes that end on the way -/
theorem B.finalize (h : B c evs d r s) (k : Nat) : (s.finalize k).All (fun s' => B c evs d r s' ∧ s'.fetch = s.fetch ∧ s'.pending = s.pending ∧ (∀ x ∈ cycle s.log, x ∈ cycle s'.log) ∧
    (s.io.length ≤ k → s'.io = [])) := by
  obtain ⟨o1, o2, o3, o4⟩ := h.ord
  obtain ⟨e1, e2⟩ := h.same
  have hio := h.io
  refine finalize_loop ((finLoop_spec k s (by omega)).mono ?_)
  rintro s' ⟨t, ht, hk, ⟨rfl, g2, g3, g4⟩ | ⟨rfl, g2, g3⟩⟩
  · have hc : cycle (s.log ++ (s.io.take t).map Out.done) = cycle s.log ++ (s.io.take t).map Out.done := cycle_dones _ _
    have hsub : ∀ x ∈ cycle s.log, x ∈ cycle (s.log ++ (s.io.take t).map Out.done) := fun x hx => by rw [hc]; exact List.mem_append_left _ hx
    refine ⟨⟨h.cbf, h.on, h.fin, ?_, h.certs, ?_, h.target, h.last, h.pos, h.first, h.tree, ?_, h.same, h.lo, ?_, ?_, ?_, ?_, ?_, ?_, ?_⟩, rfl, rfl, hsub, ?_⟩
    · exact h.good.dones _ (fun i hi => h.ioput i (List.mem_of_mem_take hi))
    · show (cycle _).head? = _
      rw [hc]; exact head_append h.cyc
    · intro e he
      obtain ⟨ds, q1, q2, q3⟩ := h.stored e he
      exact ⟨ds, hsub _ q1, q2, q3⟩
    · refine ⟨o1, ?_, ?_, o4⟩
      · show s.fetch.next ≤ s.commit.next - t
        omega
      · show s.commit.next - t ≤ s.fetch.hi
        omega
    · rcases h.dn with q | ⟨b, q1, q2, q3⟩
      · exact .inl q
      · exact .inr ⟨b, hsub _ q1, q2.mono hsub, q3⟩
    · show (s.io.drop t).length = s.commit.next - t - s.fetch.next
      rw [List.length_drop]; omega
    · intro i hi
      obtain ⟨b, hb⟩ := h.ioput i (List.mem_of_mem_drop hi)
      exact ⟨b, hsub _ hb⟩
    · exact fun j q1 q2 => (h.d1 j q1 q2).mono hsub
    · exact fun j q1 q2 => (h.d2 j q1 q2).mono hsub
    · intro j q1 q2
      have q1 : s.commit.next - t < j := q1
      by_cases q : j ≤ s.commit.next
      · refine .inl ?_
        show _ ∈ cycle _
        rw [hc]
        exact List.mem_append_right _ (List.mem_map.2 ⟨j, g4 j q1 q, rfl⟩)
      · exact (h.d3 j (by omega) q2).mono hsub
    · intro hk'
      show s.io.drop t = []
      rw [show t = s.io.length by omega, List.drop_length]
  · omega

/-! ## The next batch -/

theorem nextBatch_spec (rv : Rvbm) (lo : Nat) : (s.nextBatch c rv lo).All (fun b => b.lo = lo ∧ b.lo ≤ b.hi ∧ b.next = b.hi ∧ b.hi ≤ s.last) := by
  unfold S.nextBatch
  refine all_bind.2 (fun u _ => all_bind.2 (all_require.2 fun hv => all_bind.2 (all_require.2 fun _ => all_ok.2 ?_)))
  have := of_decide_eq_true hv
  refine ⟨rfl, this.2.1, rfl, ?_⟩
  exact Nat.le_trans (Nat.min_le_left _ _) (Nat.min_le_right _ _)

/-- the fields of a batch to be fetched -/
theorem B.ofBatch {s : S} {b : Batch} {fs : Nat} {tg : Desc} (htg : tg = d) (cbf : s.cbf = some d) (on : s.fetching = true) (fin : s.finalizing = false) (good : Good c evs s.log)
    (certs : CertsOk c evs s.certs) (cyc : (cycle s.log).head? = some (.adopt d r)) (last : s.last = d.maxBlock) (pos : 0 < s.last)
    (first : r < s.first) (tree : TreeOk c d r s.rv.tree) (stored : ∀ e ∈ s.rv.stored, ∃ ds, Out.digests ds ∈ cycle s.log ∧ e ∈ ds ∧ GroupOk c d ds)
    (hb : b.lo = fs ∧ b.lo ≤ b.hi ∧ b.next = b.hi ∧ b.hi ≤ s.last) (hfs : r < fs) (io : s.io = []) (hd1 : ∀ j, r < j → j < s.first → Settled (cycle s.log) j)
    (hd : ∀ j, r < j → j < fs → Settled (cycle s.log) j) : B c evs d r { s with
      target := tg
      fetch := b
      commit := b
      dnext := zero } := by
  obtain ⟨h1, h2, h3, h4⟩ := hb
  refine ⟨cbf, on, fin, good, certs, cyc, htg, last, pos, first, tree, stored, ⟨rfl, rfl⟩, ?_, ?_, .inl ⟨h3, rfl⟩, ?_, ?_, hd1, ?_, ?_⟩
  · show r < b.lo
    omega
  · show b.lo ≤ b.next ∧ b.next ≤ b.next ∧ b.next ≤ b.hi ∧ b.hi ≤ s.last
    omega
  · show s.io.length = b.next - b.next
    rw [io]; simp
  · intro i hi
    have hi : i ∈ s.io := hi
    rw [io] at hi; cases hi
  · intro j q1 q2
    have q2 : j < b.lo := q2
    exact hd j q1 (by omega)
  · intro j q1 q2
    have q1 : b.next < j := q1
    have q2 : j ≤ b.hi := q2
    omega

/-! ## Blocks -/

theorem B.trySend (h : B c evs d r s) (o : Ora) : (s.trySend c o).All (B c evs d r) := by
  unfold S.trySend
  refine all_ite.2 ⟨fun _ => all_abort, fun _ => all_ite.2 ⟨fun _ => all_ok.2 ?_, fun _ => all_bind.2 (fun _ _ => all_ok.2 ?_)⟩⟩
  · exact h.other ..
  · exact h.other ..

theorem nextRvb_spec (h : 0 < c.fetch) {lo hi : Nat} (hlo : 0 < lo) (hle : c.nextRvb lo ≤ c.prevRvb hi) : lo ≤ c.nextRvb lo ∧ c.nextRvb lo ≤ hi ∧ c.nextRvb lo % c.fetch = 0 := by
  have e1 : c.prevRvb hi ≤ hi := Nat.mul_div_le ..
  have e2 : c.fetch * (lo / c.fetch) + lo % c.fetch = lo := Nat.div_add_mod ..
  have e3 := Nat.mod_lt lo h
  unfold Cfg.nextRvb at *
  split at hle
  · rename_i g
    rw [if_pos g]
    refine ⟨by omega, by omega, ?_⟩
    rw [← Nat.mul_succ]; exact Nat.mul_mod_right ..
  · rename_i g
    rw [if_neg g]
    exact ⟨by omega, by omega, Nat.mul_mod_right ..⟩

theorem noRvb_of (h : 0 < c.fetch) {lo hi : Nat} (hn : ¬ c.nextRvb lo ≤ c.prevRvb hi) {j : Nat} (h1 : lo ≤ j) (h2 : j ≤ hi) : j % c.fetch ≠ 0 := by
  intro e
  apply hn
  obtain ⟨q, rfl⟩ := Nat.dvd_of_mod_eq_zero e
  have e1 : c.nextRvb lo ≤ c.fetch * q := by
    unfold Cfg.nextRvb
    have g1 : lo / c.fetch ≤ q := by
      have := Nat.div_le_div_right (c := c.fetch) h1
      rwa [Nat.mul_div_cancel_left _ h] at this
    split
    · rename_i g
      have : lo / c.fetch < q := by
        rcases Nat.lt_or_ge (lo / c.fetch) q with g' | g'
        · exact g'
        · have := Nat.le_antisymm g1 g'
          rw [this] at g
          omega
      rw [← Nat.mul_succ]
      exact Nat.mul_le_mul_left _ this
    · exact Nat.mul_le_mul_left _ g1
  have e2 : c.fetch * q ≤ c.prevRvb hi := by
    have : q ≤ hi / c.fetch := (Nat.le_div_iff_mul_le h).2 (by rw [Nat.mul_comm]; exact h2)
    exact Nat.mul_le_mul_left _ this
  omega

/-- digests that are accepted go to the log -/
theorem B.takeDigests (hf : 0 < c.fetch) (h : B c evs d r s) (rvb : Nat) :
    (s.takeDigests c rvb).All (fun o => B c evs d r o.2 ∧ o.2.fetch = s.fetch) := by
  unfold S.takeDigests
  refine all_ite.2 ⟨fun _ => all_ok.2 ⟨h, rfl⟩, fun _ => all_bind.2 ((setDigests_spec c s.rv s.buf rvb s.fetch.lo s.fetch.hi s.target.maxBlock).mono fun o ho => ?_)⟩
  match o, ho with
  | none, _ => exact all_ok.2 ⟨h, rfl⟩
  | some (rv, ds), ho =>
    obtain ⟨q1, q2, q3, q4, g, t, q5, q6, q7, q8⟩ := ho _ _ rfl
    refine all_ok.2 ⟨?_, rfl⟩
    obtain ⟨o1, o2, o3, o4⟩ := h.ord
    have hlo := h.lo
    have hg : GroupOk c d ds := by
      rcases h.tree with ⟨p1, p2⟩ | ⟨p1, p2⟩
      · exact ⟨p1, _, g, t, p2, q4, q5, q6, q7, q8⟩
      · obtain ⟨z1, z2, z3⟩ := nextRvb_spec hf (by omega) q1
        exact absurd z3 (p2 _ (by omega) (by have := h.last; omega))
    have hc : cycle (s.log ++ [.digests ds]) = cycle s.log ++ [.digests ds] := cycle_snoc _ _ rfl
    have hsub : ∀ x ∈ cycle s.log, x ∈ cycle (s.log ++ [.digests ds]) := fun x hx => by rw [hc]; exact List.mem_append_left _ hx
    refine ⟨h.cbf, h.on, h.fin, h.good.snoc ⟨d, r, h.cyc, hg⟩, h.certs, ?_, h.target, h.last, h.pos, h.first, ?_, ?_, h.same, h.lo, h.ord, ?_, h.io, ?_, ?_, ?_, ?_⟩
    · show (cycle _).head? = _
      rw [hc]; exact head_append h.cyc
    · show TreeOk c d r rv.tree
      rw [q2]; exact h.tree
    · intro e he
      rcases q3 e he with he | he
      · exact ⟨ds, by show _ ∈ cycle _; rw [hc]; exact List.mem_append_right _ (List.mem_singleton.2 rfl), he, hg⟩
      · obtain ⟨ds', z1, z2, z3⟩ := h.stored e he
        exact ⟨ds', hsub _ z1, z2, z3⟩
    · rcases h.dn with q | ⟨b, z1, z2, z3⟩
      · exact .inl q
      · exact .inr ⟨b, hsub _ z1, z2.mono hsub, z3⟩
    · intro i hi
      obtain ⟨b, hb⟩ := h.ioput i hi
      exact ⟨b, hsub _ hb⟩
    · exact fun j z1 z2 => (h.d1 j z1 z2).mono hsub
    · exact fun j z1 z2 => (h.d2 j z1 z2).mono hsub
    · exact fun j z1 z2 => (h.d3 j z1 z2).mono hsub

/-- a block that passes is bound to the checkpoint -/
theorem B.checkBlock (h : B c evs d r s) (b : Bytes) : (s.checkBlock c s.fetch.next b).All (fun ok => ok = true → Chains c d (cycle s.log) s.fetch.next b) := by
  unfold S.checkBlock
  refine all_ite.2 ⟨fun _ => all_abort, fun _ => all_ite.2 ⟨fun hr => all_ok.2 fun ok => ?_, fun _ => all_ite.2 ⟨fun hm => all_ok.2 fun ok => ?_, fun _ => all_ite.2 ⟨fun _ => all_abort, fun hz => all_ok.2 fun ok => ?_⟩⟩⟩⟩
  · cases he : s.rv.stored.find? (fun e => e.1 == s.fetch.next) with
    | none => rw [he] at ok; cases ok
    | some e =>
      rw [he] at ok
      have e2 : e.2 = c.H s.fetch.next b := eq_of_beq ok
      have e1 : e.1 = s.fetch.next := eq_of_beq (List.find?_some (p := fun e : Nat × Bytes => e.1 == s.fetch.next) he)
      obtain ⟨ds, q1, q2, q3⟩ := h.stored e (List.mem_of_find?_eq_some he)
      refine .group q1 q3 ?_
      have : e = (s.fetch.next, c.H s.fetch.next b) := by
        cases e
        simp only at e1 e2
        rw [e1, e2]
      rw [← this]; exact q2
  · unfold S.isMaxInCycle at hm
    rw [Bool.and_eq_true] at hm
    have e1 : s.fetch.next = s.fetch.hi := eq_of_beq hm.1
    have e2 : s.last = s.fetch.hi := eq_of_beq hm.2
    refine .top ?_ ?_
    · rw [e1, ← e2, h.last]
    · have := eq_of_beq ok
      rw [h.target] at this
      exact this.symm
  · rcases h.dn with q | ⟨b', q1, q2, q3⟩
    · exact absurd q.2 hz
    · refine .link q1 q2 ?_
      rw [← q3]; exact eq_of_beq ok

end Verif.St
