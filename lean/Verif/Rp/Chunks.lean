import Verif.Rp.Theorems
set_option linter.unusedVariables false
set_option linter.unusedSimpArgs false
/-!
# Reserved pages and checkpoints: theorems about the transfer (C41)
-/
namespace Verif.Rp
open Verif.Bytes Verif.St

variable {c : Cfg} {tp : Nat → Snap} {ops : List Op} {s : S} {a : A}

/-! ## Transfer of pages -/

theorem ok_bind' {α β : Type} (x : α) (g : α → R β) : (R.ok x >>= g) = g x := rfl

theorem off_eq (w : Nat) {next mc : Nat} (h1 : 1 ≤ next) (h2 : (next - 1) * mc < w) : ((next + w - 1) * mc) % w = (next - 1) * mc := by
  have : next + w - 1 = (next - 1) + w := by omega
  rw [this, Nat.add_mul, Nat.mul_comm w mc, Nat.add_mul_mod_self_right, Nat.mod_eq_of_lt h2]

theorem chunks_spec {mc seq : Nat} {v : Bytes} {num lastSize : Nat} (hmc : 0 < mc) (hv : v.length < 2 ^ 32) (hn : num < 2 ^ 16) (hls : v.length = (num - 1) * mc + lastSize) (h0 : 0 < lastSize) (h1 : lastSize ≤ mc) :
    ∀ fuel next, 1 ≤ next → next ≤ num → 0 < fuel → ∃ l, chunks mc seq v num lastSize fuel next = .ok l ∧ l.length = min fuel (num + 1 - next) ∧
      ∀ i, i < l.length → l[i]? = some ⟨seq, St.vblock, num, next + i, decide (i + 1 = l.length), 0, (v.drop ((next + i - 1) * mc)).take mc, true⟩ := by
  intro fuel
  induction fuel with
  | zero => intro next _ _ h; omega
  | succ fuel ih =>
    intro next hn1 hn2 _
    rw [chunks]
    have hsize : 0 < (if next < num then mc else lastSize) := by split <;> omega
    rw [require, if_pos hsize, ok_bind']
    have hoff0 : (next - 1) * mc + (if next < num then mc else lastSize) ≤ v.length ∧ (next - 1) * mc < v.length := by
      split
      · rename_i g
        have := Nat.mul_le_mul_right mc (show next - 1 + 1 ≤ num - 1 by omega)
        rw [Nat.add_mul, Nat.one_mul] at this
        omega
      · have : next = num := by omega
        subst this
        omega
    have hoff : chunkOff mc next = (next - 1) * mc := off_eq _ hn1 (by omega)
    rw [hoff, if_neg (by omega), Nat.mod_eq_of_lt hn]
    have hdata : (v.drop ((next - 1) * mc)).take (if next < num then mc else lastSize) = (v.drop ((next - 1) * mc)).take mc := by
      split
      · rfl
      · have : next = num := by omega
        subst this
        rw [List.take_of_length_le (by rw [List.length_drop]; omega), List.take_of_length_le (by rw [List.length_drop]; omega)]
    rw [hdata]
    by_cases hf : fuel = 0
    · subst hf
      rw [if_pos rfl]
      refine ⟨_, rfl, by simp; omega, fun i hi => ?_⟩
      have : i = 0 := by simpa using hi
      subst this
      simp
    · rw [if_neg hf]
      by_cases hnx : next < num
      · rw [if_pos hnx, Nat.mod_eq_of_lt (show next + 1 < 2 ^ 16 by omega)]
        obtain ⟨l, q1, q2, q3⟩ := ih (next + 1) (by omega) (by omega) (by omega)
        rw [q1, ok_bind']
        refine ⟨_, rfl, by rw [List.length_cons, q2]; omega, fun i hi => ?_⟩
        rw [List.length_cons] at hi
        cases i with
        | zero =>
          rw [List.getElem?_cons_zero, List.length_cons, q2]
          have e1 : decide (fuel = 0 ∨ next = num) = decide (0 + 1 = min fuel (num + 1 - (next + 1)) + 1) := decide_eq_decide.2 (by omega)
          rw [e1, Nat.add_zero next]
        | succ i =>
          rw [List.getElem?_cons_succ, q3 i (by omega), List.length_cons]
          have e1 : decide (i + 1 = l.length) = decide (i + 1 + 1 = l.length + 1) := decide_eq_decide.2 (by omega)
          rw [e1, show next + 1 + i = next + (i + 1) by omega]
      · rw [if_neg hnx]
        have : next = num := by omega
        subst this
        refine ⟨_, rfl, by simp, fun i hi => ?_⟩
        have : i = 0 := by simpa using hi
        subst this
        simp

theorem chunkCount_eq {mc : Nat} (hmc : 0 < mc) (v : Bytes) : v.length / mc + (if v.length % mc ≠ 0 then 1 else 0) = chunkCount mc v := by
  unfold chunkCount
  have h1 := Nat.div_add_mod v.length mc
  have h2 := Nat.mod_lt v.length hmc
  generalize v.length / mc = q at *
  generalize hr : v.length % mc = r at *
  rw [← h1]
  by_cases h : r = 0
  · subst h
    rw [if_neg (by simp)]
    symm
    have : mc * q + 0 + mc - 1 = (mc - 1) + mc * q := by omega
    rw [this, Nat.add_mul_div_left _ _ hmc, Nat.div_eq_of_lt (by omega)]
    omega
  · rw [if_pos h]
    symm
    have : mc * q + r + mc - 1 = (r - 1) + mc * (q + 1) := by rw [Nat.mul_add]; omega
    rw [this, Nat.add_mul_div_left _ _ hmc, Nat.div_eq_of_lt (by omega)]
    omega

/-- A replica that has the checkpoint answers with exactly the chunks of the pages that were changed after what the other replica
knows: the ones after the last chunk that the other one has, as many as fit in a batch. -/
theorem fetch_answers (ok : CfgOk c) (h : Run c tp ops s a) {mc : Nat} {f : Fetch} (hf : a.fetching = false) {sn : Snap × Info} (hs : a.snap f.required = some sn) (hk : a.last < f.required + c.maxStored)
    (hseq : f.seq ≠ 0) (hmc : 0 < mc) (hkn : f.known < 2 ^ 64) (hlk : f.lastKnown < chunkCount mc (Snap.block c sn.1 f.known)) (hcc : chunkCount mc (Snap.block c sn.1 f.known) < 2 ^ 16)
    (hsz : (Snap.block c sn.1 f.known).length < 2 ^ 32) :
    ∃ s' l, s.fetch c mc f = .ok (s', some l) ∧ l.length = min (max 1 c.batch) (chunkCount mc (Snap.block c sn.1 f.known) - f.lastKnown) ∧
      ∀ i, i < l.length → l[i]? = some (chunkOf mc f.seq (Snap.block c sn.1 f.known) (f.lastKnown + 1 + i) (decide (i + 1 = l.length))) := by
  have hi := run_inv ok h
  have hm := hi.m
  have hfi := hm.keep _ (by rw [hs]; simp) hk
  have hso := hm.snapOk _ _ hs
  have hr := hm.rel _ sn hs hfi
  have hlt := hm.lastLt
  obtain ⟨s', g1, g2⟩ := vblock_ok ok hi (known := f.known) hs hfi
  unfold S.fetch
  rw [if_neg (by omega), if_neg (by rw [hm.fetching, hf]; simp), hasDesc_eq (fun hn => absurd hn hr.1)]
  simp only [bind, R.bind]
  have hsome : (get f.required s.mem.descs).isSome = true := by
    cases hg : get f.required s.mem.descs with
    | none => exact absurd hg hr.1
    | some d => rfl
  rw [if_pos hsome]
  have e0 : ({ s with mem := s.mem } : S) = s := rfl
  rw [e0, g1]
  simp only
  rw [parse_block ok hso.2.2 (by omega) hkn, require, if_pos (by rfl)]
  simp only
  generalize hv : Snap.block c sn.1 f.known = v at *
  unfold sendV
  simp only
  rw [chunkCount_eq hmc, Nat.mod_eq_of_lt (show f.lastKnown + 1 < 2 ^ 16 by omega), if_neg (by omega)]
  have h1 := Nat.div_add_mod v.length mc
  have h2 := Nat.mod_lt v.length hmc
  have hcnt := chunkCount_eq hmc v
  have hls : v.length = (chunkCount mc v - 1) * mc + (if v.length % mc ≠ 0 then v.length % mc else mc) ∧ 0 < (if v.length % mc ≠ 0 then v.length % mc else mc) ∧ (if v.length % mc ≠ 0 then v.length % mc else mc) ≤ mc := by
    rw [← hcnt]
    by_cases h0 : v.length % mc = 0
    · rw [if_neg (by simp [h0]), if_neg (by simp [h0])]
      refine ⟨?_, hmc, Nat.le_refl _⟩
      have hq : 0 < v.length / mc := by
        rw [if_neg (by simp [h0])] at hcnt
        omega
      have := Nat.sub_one_mul (v.length / mc) mc
      have h3 := Nat.le_mul_of_pos_left mc hq
      rw [Nat.add_zero, this, Nat.mul_comm (v.length / mc) mc] at *
      omega
    · rw [if_pos h0, if_pos h0]
      refine ⟨?_, by omega, by omega⟩
      rw [Nat.add_sub_cancel, Nat.mul_comm]
      omega
  obtain ⟨l, q1, q2, q3⟩ := chunks_spec (seq := f.seq) hmc hsz hcc hls.1 hls.2.1 hls.2.2 (max 1 c.batch) (f.lastKnown + 1) (by omega) (by omega) (by omega)
  rw [q1]
  refine ⟨s', l, rfl, by rw [q2]; omega, fun i hi => ?_⟩
  rw [q3 i hi]
  rfl

theorem chunks_join {mc : Nat} (hmc : 0 < mc) : ∀ (n : Nat) (v : Bytes), v.length ≤ n * mc → ((List.range n).map (fun i => (v.drop (i * mc)).take mc)).flatten = v := by
  intro n
  induction n with
  | zero => intro v hv; have : v = [] := List.length_eq_zero_iff.1 (by omega); rw [this]; rfl
  | succ n ih =>
    intro v hv
    rw [List.range_succ_eq_map, List.map_cons, List.flatten_cons, List.map_map]
    have := ih (v.drop mc) (by rw [List.length_drop]; rw [Nat.add_mul] at hv; omega)
    have e : ((fun i => (v.drop (i * mc)).take mc) ∘ Nat.succ) = fun i => ((v.drop mc).drop (i * mc)).take mc := by
      funext i
      simp only [Function.comp, List.drop_drop]
      rw [Nat.succ_mul, Nat.add_comm]
    rw [e, this, Nat.zero_mul, List.drop_zero, List.take_append_drop]

/-- All chunks together are the block. -/
theorem fetch_complete (ok : CfgOk c) (h : Run c tp ops s a) {mc : Nat} {f : Fetch} (hf : a.fetching = false) {sn : Snap × Info} (hs : a.snap f.required = some sn) (hk : a.last < f.required + c.maxStored)
    (hseq : f.seq ≠ 0) (hmc : 0 < mc) (hkn : f.known < 2 ^ 64) (hlk : f.lastKnown = 0) (hb : chunkCount mc (Snap.block c sn.1 f.known) ≤ c.batch) (hcc : chunkCount mc (Snap.block c sn.1 f.known) < 2 ^ 16)
    (hsz : (Snap.block c sn.1 f.known).length < 2 ^ 32) :
    ∃ s' l, s.fetch c mc f = .ok (s', some l) ∧ (l.map (·.data)).flatten = Snap.block c sn.1 f.known := by
  have hlen : 12 ≤ (Snap.block c sn.1 f.known).length := by
    unfold Snap.block
    simp only [List.length_append, leEncode_length]
    omega
  have hpos : 0 < chunkCount mc (Snap.block c sn.1 f.known) := by
    unfold chunkCount
    exact Nat.div_pos (by omega) hmc
  obtain ⟨s', l, h1, h2, h3⟩ := fetch_answers ok h hf hs hk hseq hmc hkn (by omega) hcc hsz
  refine ⟨s', l, h1, ?_⟩
  generalize Snap.block c sn.1 f.known = v at *
  have e : l.map (·.data) = (List.range (chunkCount mc v)).map (fun i => (v.drop (i * mc)).take mc) := by
    refine List.ext_getElem? fun i => ?_
    rw [List.getElem?_map, List.getElem?_map]
    by_cases hi : i < l.length
    · rw [h3 i hi, List.getElem?_range (by omega), Option.map_some, Option.map_some, hlk]
      unfold chunkOf
      simp only
      rw [show 0 + 1 + i - 1 = i by omega]
    · rw [List.getElem?_eq_none (by omega), List.getElem?_eq_none (by simp; omega)]
      rfl
  rw [e]
  refine chunks_join hmc _ _ ?_
  have h4 := Nat.div_add_mod (v.length + mc - 1) mc
  have h5 := Nat.mod_lt (v.length + mc - 1) hmc
  unfold chunkCount
  rw [Nat.mul_comm]
  omega


/-- Found: any peer can make a replica read outside of the buffer of the block, by the number 65535 as the last chunk that it has
(BCStateTran.cpp:2393-2410): the next chunk is then number 0. -/
theorem bad_chunk_number_faults (ok : CfgOk c) (h : Run c tp ops s a) {mc : Nat} {f : Fetch} (hf : a.fetching = false) {sn : Snap × Info} (hs : a.snap f.required = some sn) (hk : a.last < f.required + c.maxStored)
    (hseq : f.seq ≠ 0) (hmc : 0 < mc) (hmc2 : mc < 2 ^ 32) (hkn : f.known < 2 ^ 64) (hlk : f.lastKnown = 2 ^ 16 - 1) (hsz : (Snap.block c sn.1 f.known).length < 2 ^ 32) :
    s.fetch c mc f = .fault := by
  have hlen : 12 ≤ (Snap.block c sn.1 f.known).length := by
    unfold Snap.block
    simp only [List.length_append, leEncode_length]
    omega
  have hpos : 0 < chunkCount mc (Snap.block c sn.1 f.known) := by
    unfold chunkCount
    exact Nat.div_pos (by omega) hmc
  have hi := run_inv ok h
  have hm := hi.m
  have hfi := hm.keep _ (by rw [hs]; simp) hk
  have hso := hm.snapOk _ _ hs
  have hr := hm.rel _ sn hs hfi
  have hlt := hm.lastLt
  obtain ⟨s', g1, g2⟩ := vblock_ok ok hi (known := f.known) hs hfi
  unfold S.fetch
  rw [if_neg (by omega), if_neg (by rw [hm.fetching, hf]; simp), hasDesc_eq (fun hn => absurd hn hr.1)]
  simp only [bind, R.bind]
  have hsome : (get f.required s.mem.descs).isSome = true := by
    cases hg : get f.required s.mem.descs with
    | none => exact absurd hg hr.1
    | some d => rfl
  rw [if_pos hsome]
  have e0 : ({ s with mem := s.mem } : S) = s := rfl
  rw [e0, g1]
  simp only
  rw [parse_block ok hso.2.2 (by omega) hkn, require, if_pos (by rfl)]
  simp only
  generalize hv : Snap.block c sn.1 f.known = v at *
  have hnext : (f.lastKnown + 1) % 2 ^ 16 = 0 := by omega
  have hoff : chunkOff mc 0 = 2 ^ 32 - mc := by
    unfold chunkOff
    rw [Nat.zero_add]
    omega
  have key : sendV c mc f.seq v f.lastKnown = .fault := by
    unfold sendV
    simp only
    rw [chunkCount_eq hmc, hnext, if_neg (by omega)]
    obtain ⟨n, hn⟩ : ∃ n, max 1 c.batch = n + 1 := ⟨max 1 c.batch - 1, by omega⟩
    rw [hn, chunks, require, if_pos (by rw [if_pos hpos]; exact hmc), ok_bind', hoff, if_pos (by rw [if_pos hpos]; omega)]
  rw [key]

end Verif.Rp
