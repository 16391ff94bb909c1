import Verif.St.Run
import Verif.St.Group
import Verif.Util.ListLemmas
set_option linter.unusedVariables false
set_option linter.unusedSimpArgs false
/-!
# State transfer: theorems on checkpoints and blocks (C35)
-/
namespace Verif.St
open Verif.Bytes

variable {c : Cfg} {evs : List Ev} {s : S} {buf : Bytes} {blk : Nat → Bytes}

/-- every entry of the log is justified by the messages and by the entries before -/
theorem log_justified (hf : 0 < c.fetch) (h : (S.init c buf).run c evs = .ok s) : Good c evs s.log := by
  have := Inv.run hf evs (Inv.init c buf) s h
  rw [List.nil_append] at this
  exact this.good

theorem ok_of_mem {log : List Out} (h : Good c evs log) {x : Out} (hx : x ∈ log) : ∃ pre post, log = pre ++ x :: post ∧ Ok c evs pre x := by
  obtain ⟨pre, post, e⟩ := List.append_of_mem hx
  exact ⟨pre, post, e, h _ _ _ e⟩

/-- a checkpoint is chosen only if `f + 1` other replicas reported exactly it -/
theorem chosen_is_vouched (hf : 0 < c.fetch) (h : (S.init c buf).run c evs = .ok s) {d : Desc} {r : Nat} (hx : Out.adopt d r ∈ s.log) : Vouched c evs d := by
  obtain ⟨_, _, _, ho⟩ := ok_of_mem (log_justified hf h) hx
  exact ho

theorem adopt_mem {l : List Out} {d : Desc} {r : Nat} (h : (cycle l).head? = some (.adopt d r)) : Out.adopt d r ∈ l :=
  mem_cycle (List.mem_of_head? h)

/-- with at most `f` faulty replicas, one of those that vouch is correct -/
theorem honest_backer {d : Desc} (hv : Vouched c evs d) {faulty : List Nat} (hn : faulty.length ≤ c.f) :
    ∃ r m reach o cut, r ∉ faulty ∧ r < c.n ∧ r ≠ c.self ∧ Ev.summary r m reach o cut ∈ evs ∧ m.desc = d := by
  obtain ⟨ids, h1, h2, h3⟩ := hv
  have : ∃ r ∈ ids, r ∉ faulty := by
    refine Classical.byContradiction fun hno => ?_
    have hsub : ∀ r ∈ ids, r ∈ faulty := fun r hr => Classical.byContradiction fun hr' => hno ⟨r, hr, hr'⟩
    have := ListU.nodup_subset_length h1 hsub
    omega
  obtain ⟨r, hr, hr'⟩ := this
  obtain ⟨g1, g2, m, reach, o, cut, g3, g4⟩ := h3 r hr
  exact ⟨r, m, reach, o, cut, hr', g1, g2, g3, g4⟩

/-- what correct replicas report is true, and at most `f` replicas are not correct -/
structure Honest (c : Cfg) (evs : List Ev) (faulty : List Nat) (q : Desc → Prop) : Prop where
  few : faulty.length ≤ c.f
  right : ∀ r m reach o cut, Ev.summary r m reach o cut ∈ evs → r ∉ faulty → q m.desc

theorem Honest.of_vouched {faulty : List Nat} {q : Desc → Prop} (hh : Honest c evs faulty q) {d : Desc} (hv : Vouched c evs d) : q d := by
  obtain ⟨r, m, reach, o, cut, h1, _, _, h2, h3⟩ := honest_backer hv hh.few
  rw [← h3]; exact hh.right _ _ _ _ _ h2 h1

/-- accepted digests are the true ones, or they are a collision of sums -/
theorem digests_true (hP : c.P.Ok) (hf : 0 < c.fetch) {d : Desc} (ht : TrueDesc c blk d) {ds : List (Nat × Bytes)} (hg : GroupOk c d ds) {log : List Out} (hin : Out.digests ds ∈ log) :
    (∀ e ∈ ds, e.2 = digestAt c blk e.1) ∨ SumCollision c blk log := by
  by_cases hall : ∀ e ∈ ds, e.2 = digestAt c blk e.1
  · exact .inl hall
  · right
    refine ⟨ds, hin, ?_, ?_⟩
    · refine Classical.byContradiction fun hno => hall fun e he => Classical.byContradiction fun hne => hno ⟨e, he, hne⟩
    · obtain ⟨h0, T, g, t, h1, h2, h3, h4, h5, h6⟩ := hg
      obtain ⟨w, T', w1, w2, w3, w4, w5⟩ := ht.tree h0
      have : T' = T := by rw [h1] at w3; exact (Option.some.inj w3).symm
      subst this
      have := group_sum hP hf w1 w2 w4 (fun k => digestAt c blk (k * c.fetch)) w5 h2 h3 h4 h5 h6
      have e : (ds.map (fun e => c.P.leaf (e.1 / c.fetch) (digestAt c blk e.1))) = ds.map (fun e => c.P.leaf (e.1 / c.P.fetch) (digestAt c blk (e.1 / c.P.fetch * c.fetch))) := by
        apply List.map_congr_left
        intro e he
        obtain ⟨i, _, hi, _⟩ := groupIds_one hP (h3 e he)
        have hdiv : e.1 / c.P.fetch * c.fetch = e.1 := by
          show e.1 / c.P.fetch * c.P.fetch = e.1
          rw [hi, Nat.mul_div_cancel _ (show 0 < c.P.fetch from hf)]
        rw [hdiv]; rfl
      rw [e]; exact this

/-- a block bound to a true checkpoint is the true block -/
theorem chained_true (hP : c.P.Ok) (hf : 0 < c.fetch) {d : Desc} (ht : TrueDesc c blk d) (hch : ∀ i, c.prev (blk (i + 1)) = c.H i (blk i)) {l log : List Out} (hsub : ∀ x ∈ l, x ∈ log)
    {i : Nat} {b : Bytes} (h : Chains c d l i b) : Out.put i b ∈ log → b = blk i ∨ BlockCollision c blk log ∨ SumCollision c blk log := by
  have fin : ∀ {i : Nat} {b : Bytes}, Out.put i b ∈ log → c.H i b = c.H i (blk i) → b = blk i ∨ BlockCollision c blk log ∨ SumCollision c blk log := by
    intro i b hp e
    by_cases hb : b = blk i
    · exact .inl hb
    · exact .inr (.inl ⟨i, b, hp, hb, e⟩)
  induction h with
  | group h1 h2 h3 =>
    intro hp
    rcases digests_true hP hf ht h2 (hsub _ h1) with g | g
    · exact fin hp (g _ h3)
    · exact .inr (.inr g)
  | top h1 h2 =>
    intro hp
    refine fin hp ?_
    rw [h2, ht.top, ← h1]
  | link h1 _ h3 ih =>
    intro hp
    rcases ih (hsub _ h1) with g | g
    · rw [g, hch] at h3
      exact fin hp h3.symm
    · exact .inr g

/-- **Blocks.** With at most `f` faulty replicas, in every run, every block that is handed to the storage is the block of the correct
replicas, unless the log itself shows two different blocks with the same digest, or wrong digests of a group with the right sum. -/
theorem blocks_true (hP : c.P.Ok) (hf : 0 < c.fetch) (h : (S.init c buf).run c evs = .ok s) {faulty : List Nat} (hh : Honest c evs faulty (TrueDesc c blk))
    (hch : ∀ i, c.prev (blk (i + 1)) = c.H i (blk i)) {i : Nat} {b : Bytes} (hx : Out.put i b ∈ s.log) :
    b = blk i ∨ BlockCollision c blk s.log ∨ SumCollision c blk s.log := by
  have hg := log_justified hf h
  obtain ⟨pre, post, e, d, r, h1, h2, h3, h4⟩ := ok_of_mem hg hx
  have hd : Vouched c evs d := chosen_is_vouched hf h (r := r) (by rw [e]; exact List.mem_append_left _ (adopt_mem h1))
  exact chained_true hP hf (hh.of_vouched hd) hch (fun x hx => by rw [e]; exact List.mem_append_left _ (mem_cycle hx)) h4 hx

/-- **Completion.** When the transfer ends, the checkpoint was vouched for, and of every block above the last one that was reachable
when it was chosen, up to the last block of the checkpoint, either the storage confirmed the write of some bytes handed over, or it
said after a restart that it has it. -/
theorem complete_has_all (hf : 0 < c.fetch) (h : (S.init c buf).run c evs = .ok s) {d : Desc} {before after : Store} {lines : List (Nat × Nat × Bytes)} {pre post : List Out}
    (e : s.log = pre ++ .complete d before lines after :: post) :
    Vouched c evs d ∧ ∃ r, Out.adopt d r ∈ pre ∧ ∀ j, r < j → j ≤ d.maxBlock → (∃ b, Out.put j b ∈ pre ∧ Out.done j ∈ pre) ∨ ∃ q, Out.restart q ∈ pre ∧ j ≤ q := by
  have hg := log_justified hf h
  obtain ⟨⟨r, h1, h2⟩, _⟩ := hg _ _ _ e
  have ha := adopt_mem h1
  refine ⟨chosen_is_vouched hf h (r := r) (by rw [e]; exact List.mem_append_left _ ha), r, ha, fun j q1 q2 => ?_⟩
  rcases h2 j q1 q2 with g | ⟨q, g1, g2⟩
  · left
    have g := mem_cycle g
    obtain ⟨p1, p2, e2⟩ := List.append_of_mem g
    have := hg p1 (.done j) (p2 ++ .complete d before lines after :: post) (by rw [e, e2]; simp)
    obtain ⟨b, hb⟩ := this
    exact ⟨b, by rw [e2]; exact List.mem_append_left _ (mem_cycle hb), g⟩
  · exact .inr ⟨q, mem_cycle g1, g2⟩

end Verif.St
