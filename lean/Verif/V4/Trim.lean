import Verif.V4.Run

/-!
# DB checkpoints: trimming the blocks added while the copy was made
-/
set_option linter.unusedSimpArgs false
set_option linter.unusedVariables false
namespace Verif.V4
open Verif.Bytes Spec

section
variable {H : Nat → Block → Digest}

/-- the copy with its recovery DB in the place of the other one -/
def mirror (s : Sys) (stable : Nat) : Sys :=
  { s with d := { s.d with
      rcv := s.d.rcvChk
      st := []
      snap := some ⟨fun _ _ => none, stable⟩ } }

theorem mirror_revert (s : Sys) (stable : Nat) (b : RevBatch) :
    mirror (applyRevert s b) stable = applyRevert (mirror s stable) b := rfl

theorem trimLoop_ok {hb : List Block} {k g : Nat} {view : Kv} {stable : Nat} {cats : Cats} (hcc : CatsOk cats)
    (hhist : HistOk cats hb) : ∀ (n : Nat) {s : Sys}, OInv hb k g view stable cats (mirror s stable) →
    s.p.last - k ≤ n → ∃ s', trimLoop k n s = .ok s' ∧ OInv hb k g view stable cats (mirror s' stable) ∧ s'.p.last = k := by
  intro n
  induction n with
  | zero =>
    intro s h hn
    have : k ≤ s.p.last := h.disk.kj
    exact ⟨s, rfl, h, by omega⟩
  | succ n ih =>
    intro s h hn
    have hkj : k ≤ s.p.last := h.disk.kj
    unfold trimLoop
    by_cases hc : k < s.p.last
    · rw [if_pos hc]
      obtain ⟨s1, b, h1, h2, _, h4, h5⟩ := h.del' hcc hhist hc
      have h1 : s.d.rcvChk s.p.last = some b := h1
      rw [h1]
      dsimp only
      rw [h2, ← mirror_revert] at h4 h5
      exact ih h4 (by
        have h5 : (applyRevert s b).p.last = s.p.last - 1 := h5
        omega)
    · rw [if_neg hc]
      exact ⟨s, rfl, h, by omega⟩

/-- **C37, DB checkpoints.**  A copy of the DB made while the replica went on from block `k` to later blocks, with
the snapshot taken at block `k`, is brought back to exactly block `k`. -/
theorem v4_trim {o o0 : Bool} {hb : List Block} {s s0 : Sys} {k : Nat} (h : Reach H o hb s)
    (h0 : Reach H o0 (hb.take k) s0) (hc : s0.d.cats = s.d.cats) (hg : s0.p.genesis ≤ s.p.genesis)
    (hgk : s.p.genesis < k) (hk : k ≤ hb.length) {d : Disk}
    (hd : d = { s.d with
      chkSnap := fun i => if i = k then some ⟨s0.d.kv, k⟩ else s.d.chkSnap i
      rcvChk := fun _ => none }) :
    ∃ d1 p s', recoverChk d k = .ok d1 ∧ openProc d1 = .ok p ∧ trim ⟨d1, p⟩ k = .ok s' ∧
      Reads (hb.take k) s.p.genesis s' := by
  have hi := h.runInv.inv
  have hi0 := h0.runInv.inv
  have hl0 := take_length hk
  have hpos : 0 < hb.length := by omega
  have hr := hi.gen.range hpos
  have hg1 := hr.1
  have hview : KvOk s.d.cats hb k s.p.genesis s0.d.kv := by
    have := hi0.kv
    rw [hl0, hc] at this
    exact (this.congr fun i hi => by rw [List.getElem?_take_of_lt hi]).mono hg
  have hprot : Prot (some k) hb k s0.d.kv k s.d.cats s.p.genesis :=
    ⟨hk, fun i b h1 _ => ⟨i + 1, rfl, by omega⟩, fun b _ _ => ⟨k, rfl, Nat.le_refl _⟩, hview⟩
  have hop : openProc d = .ok { last := hb.length, genesis := s.p.genesis, stLast := s.d.st.maxKey } := by
    rw [hd]
    exact openProc_eq (d := { s.d with chkSnap := _, rcvChk := _ }) hi.gen hi.blocks
  have hdb : d.blocks = s.d.blocks := by rw [hd]
  have hdc : d.cats = s.d.cats := by rw [hd]
  obtain ⟨rc', hrl, _, hgood, hfull⟩ := revertLoop_ok hprot hi.hist hdc (j := hb.length) (Nat.le_refl _)
    (by omega) hg1 (by rw [List.take_length, hdb]; exact hi.blocks) ⟨s0.d.kv, k⟩ rfl (hb.length + 1) d.rcvChk hb.length
    hk (Nat.le_refl _) (by omega) (Or.inr rfl)
  have hrec : recoverChk d k = .ok { d with rcvChk := rc' } := by
    unfold recoverChk
    rw [hop]
    simp only [bind, Except.bind]
    rw [if_neg (by omega)]
    have hs : d.chkSnap k = some ⟨s0.d.kv, k⟩ := by rw [hd]; exact if_pos rfl
    rw [hs]
    dsimp only
    rw [hrl]
    rfl
  have hop1 : openProc { d with rcvChk := rc' } = .ok { last := hb.length, genesis := s.p.genesis, stLast := s.d.st.maxKey } := hop
  have ho : OInv hb k s.p.genesis s0.d.kv k s.d.cats
      (mirror ⟨{ d with rcvChk := rc' }, { last := hb.length, genesis := s.p.genesis, stLast := s.d.st.maxKey }⟩ k) := by
    refine ⟨⟨hdc, hk, Nat.le_refl _, hg1, by omega, ?_, ?_, rfl, ?_, ?_, ⟨_, rfl⟩⟩, ?_, rfl, rfl, rfl, rfl⟩
    · show GenOk hb.length s.p.genesis d.genesis
      rw [hd]; exact hi.gen
    · show BlocksOk (hb.take hb.length) s.p.genesis d.blocks
      rw [List.take_length, hdb]; exact hi.blocks
    · show Mid s.d.cats hb s0.d.kv hb.length s.p.genesis d.kv
      rw [hd]; exact Mid.start hi.kv
    · intro i x hx
      have hx : rc' i = some x := hx
      rcases hgood i x hx with h1 | h1
      · rw [hd] at h1; cases h1
      · exact h1
    · intro i h1 h2
      exact hfull (by omega) i h1 h2
  obtain ⟨s1, ht, h1, h2⟩ := trimLoop_ok hi.cats hi.hist hb.length ho (by show hb.length - k ≤ _; omega)
  refine ⟨_, _, { s1 with d := { s1.d with rcvChk := fun _ => none, chkSnap := fun i => if i = k then none else s1.d.chkSnap i } },
    hrec, hop1, ?_, ?_⟩
  · unfold trim
    rw [if_neg (by dsimp only; omega), if_neg (by dsimp only; omega)]
    dsimp only
    rw [ht]
    rfl
  · have hgen : s1.p.genesis = s.p.genesis := h1.genesis
    rw [← hgen]
    refine Inv.reads (H := H) (s := ⟨{ s1.d with
      rcvChk := fun _ => none
      chkSnap := fun i => if i = k then none else s1.d.chkSnap i }, s1.p⟩) ?_
    have hd1 := h1.disk
    have hdc1 : s1.d.cats = s.d.cats := hd1.dcats
    have hlast : (mirror s1 k).p.last = k := h2
    rw [hlast] at hd1
    refine ⟨?_, ?_, chainOk_take hi.chain k, by rw [hl0]; have := hi.size; omega, by rw [hl0]; exact h2, ?_, ?_, ?_, ?_⟩
    · show CatsOk s1.d.cats
      rw [hdc1]; exact hi.cats
    · show HistOk s1.d.cats _
      rw [hdc1]
      exact ⟨fun b hb' => hi.hist.1 b (List.mem_of_mem_take hb'), fun b hb' => hi.hist.2 b (List.mem_of_mem_take hb')⟩
    · rw [hl0]
      show GenOk k s1.p.genesis s1.d.genesis
      rw [hgen]; exact hd1.gen
    · show BlocksOk _ s1.p.genesis s1.d.blocks
      rw [hgen]; exact hd1.blocks
    · show KvOk s1.d.cats _ _ s1.p.genesis s1.d.kv
      rw [hl0, hdc1, hgen]
      exact Mid.finish hi.hist hk hi.size hview hd1.kv
    · intro x hx
      have h3 : s1.p.future = none := h1.future
      have hx : s1.p.future = some x := hx
      rw [h3] at hx
      cases hx

end
end Verif.V4
