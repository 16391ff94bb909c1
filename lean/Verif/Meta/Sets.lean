import Verif.Meta.Reads
set_option linter.unusedSimpArgs false
set_option linter.unusedVariables false
/-!
# The updates
-/
namespace Verif.Meta
open Verif.Bytes

/-! ## Advancing a window -/

theorem cleanLoop_eq {N c : Nat} (hN : 0 < N) : ∀ (k fuel a : Nat), k ≤ fuel → a < N → (∀ j, j < k → (a + j) % N ≠ c) → (a + k) % N = c →
    cleanLoop N c fuel a = (List.range k).map (fun j => (a + j) % N)
  | 0, fuel, a, _, ha, _, hc => by
    have : a = c := by rw [← hc, Nat.add_zero, Nat.mod_eq_of_lt ha]
    cases fuel with
    | zero => rfl
    | succ fuel => simp [cleanLoop, this]
  | k + 1, 0, a, hf, _, _, _ => by omega
  | k + 1, fuel + 1, a, hf, ha, hj, hc => by
    have h0 : a ≠ c := by have := hj 0 (by omega); rw [Nat.add_zero, Nat.mod_eq_of_lt ha] at this; exact this
    have step : ∀ j, ((a + 1) % N + j) % N = (a + (j + 1)) % N := by
      intro j; rw [Nat.mod_add_mod]; congr 1; omega
    show (if a = c then [] else a :: cleanLoop N c fuel ((a + 1) % N)) = _
    rw [if_neg h0, cleanLoop_eq hN k fuel ((a + 1) % N) (by omega) (Nat.mod_lt _ hN)
      (fun j h => by rw [step]; exact hj (j + 1) (by omega)) (by rw [step]; exact hc)]
    rw [List.range_succ_eq_map, List.map_cons, List.map_map]
    have h00 : (a + 0) % N = a := Nat.mod_eq_of_lt ha
    rw [h00]
    congr 1
    apply List.map_congr_left
    intro j _
    exact step j

theorem mod_cases {N a k : Nat} (ha : a < N) (hk : k < N) : (a + k) % N = if a + k < N then a + k else a + k - N := by
  split
  · next h => exact Nat.mod_eq_of_lt h
  · next h => rw [Nat.mod_eq_sub_mod (by omega), Nat.mod_eq_of_lt (by omega)]

theorem advance_eq {R N old new : Nat} (hR : 0 < R) (hN : 1 < N) (ho : old % R = 0) (hn : new % R = 0) (hle : old ≤ new) :
    ∃ l, advance R N old new = some l ∧
      ∀ i, i ∈ l ↔ ∃ j, j < N ∧ old / R + j < new / R ∧ i = (old / R % N + j) % N := by
  have ho' : old / R * R = old := Nat.div_mul_cancel (Nat.dvd_of_mod_eq_zero ho)
  have hn' : new / R * R = new := Nat.div_mul_cancel (Nat.dvd_of_mod_eq_zero hn)
  obtain ⟨o, hoe⟩ : ∃ o, o = old / R := ⟨_, rfl⟩
  obtain ⟨w, hwe⟩ : ∃ w, w = new / R := ⟨_, rfl⟩
  rw [← hoe] at ho' ⊢
  rw [← hwe] at hn' ⊢
  have how : o ≤ w := by rw [hoe, hwe]; exact Nat.div_le_div_right hle
  have ha : o % N < N := Nat.mod_lt _ (by omega)
  unfold advance
  rw [if_pos ⟨hn, hle⟩]
  by_cases h1 : new = old
  · rw [if_pos h1]
    have : w = o := by rw [hoe, hwe, h1]
    exact ⟨[], rfl, fun i => ⟨fun h => (by cases h), fun ⟨j, h1, h2, _⟩ => (by omega)⟩⟩
  · rw [if_neg h1]
    by_cases h2 : new - old ≥ N * R
    · rw [if_pos h2]
      have hNw : o + N ≤ w := by
        have h3 : (o + N) * R ≤ w * R := by rw [Nat.add_mul]; omega
        exact Nat.le_of_mul_le_mul_right h3 hR
      refine ⟨List.range N, rfl, fun i => ⟨fun h => ?_, fun ⟨j, h1, h2, h3⟩ => ?_⟩⟩
      · have hi := List.mem_range.1 h
        by_cases hc : o % N ≤ i
        · exact ⟨i - o % N, by omega, by omega, by rw [mod_cases ha (by omega), if_pos (by omega)]; omega⟩
        · exact ⟨i + N - o % N, by omega, by omega, by rw [mod_cases ha (by omega), if_neg (by omega)]; omega⟩
      · rw [List.mem_range, h3]; exact Nat.mod_lt _ (by omega)
    · rw [if_neg h2]
      have hk0 : o < w := by
        rcases Nat.lt_or_ge o w with h | h
        · exact h
        · have : w = o := by omega
          subst this; omega
      have hkN : w < o + N := by
        have h3 : w * R < (o + N) * R := by rw [Nat.add_mul]; omega
        exact Nat.lt_of_mul_lt_mul_right h3
      obtain ⟨k, hk⟩ : ∃ k, w = o + k := ⟨w - o, by omega⟩
      have hc : w % N = (o % N + k) % N := by rw [hk, Nat.mod_add_mod]
      have hc2 := mod_cases ha (k := k) (by omega)
      have hl : cleanLoop N (w % N) N (o % N) = (List.range k).map (fun j => (o % N + j) % N) := by
        refine cleanLoop_eq (by omega) k N (o % N) (by omega) ha ?_ hc.symm
        intro j hj
        rw [hc, hc2, mod_cases ha (by omega)]
        split <;> split <;> omega
      simp only [← hoe, ← hwe, hl, List.length_map, List.length_range]
      rw [if_pos]
      · refine ⟨_, rfl, fun i => ⟨fun h => ?_, fun ⟨j, h1, h2, h3⟩ => ?_⟩⟩
        · obtain ⟨j, hj, rfl⟩ := List.mem_map.1 h
          have := List.mem_range.1 hj
          exact ⟨j, by omega, by omega, rfl⟩
        · exact List.mem_map.2 ⟨j, List.mem_range.2 (by omega), h3.symm⟩
      · rw [hc, hc2]
        split <;> (try split) <;> (try split) <;> omega

/-- the indices of the sequence numbers that leave the window -/
theorem advance_seq {old new : Nat} (h : old ≤ new) : ∃ l, advance 1 W old new = some l ∧ ∀ i, i ∈ l ↔ i < 300 ∧ seqAt old i < new := by
  obtain ⟨l, h1, h2⟩ := advance_eq (R := 1) (N := W) (old := old) (new := new) (by decide) (by decide) (Nat.mod_one _) (Nat.mod_one _) h
  refine ⟨l, h1, fun i => (h2 i).trans ⟨?_, ?_⟩⟩
  · rintro ⟨j, hj, hlt, rfl⟩
    have : W = 300 := rfl
    rw [this] at hj ⊢
    unfold seqAt
    simp only [Nat.div_one] at *
    omega
  · rintro ⟨hi, hlt⟩
    have : W = 300 := rfl
    rw [this]
    unfold seqAt at hlt
    exact ⟨(i + 300 - old % 300) % 300, by omega, by simp only [Nat.div_one]; omega, by simp only [Nat.div_one]; omega⟩

/-- the indices of the checkpoints that leave the window -/
theorem advance_ck {old new : Nat} (ho : old % 150 = 0) (hn : new % 150 = 0) (h : old ≤ new) :
    ∃ l, advance CW ckItems old new = some l ∧ ∀ i, i ∈ l ↔ i < 3 ∧ ckAt old i < new := by
  obtain ⟨l, h1, h2⟩ := advance_eq (R := CW) (N := ckItems) (old := old) (new := new) (by decide) (by decide) ho hn h
  have e1 : CW = 150 := rfl
  have e2 : ckItems = 3 := rfl
  refine ⟨l, h1, fun i => (h2 i).trans ⟨?_, ?_⟩⟩
  · rintro ⟨j, hj, hlt, rfl⟩
    rw [e1] at hlt
    rw [e2] at hj
    rw [e1, e2]
    unfold ckAt
    omega
  · rintro ⟨hi, hlt⟩
    rw [e1, e2]
    unfold ckAt at hlt
    exact ⟨(i + 3 - old / 150 % 3) % 3, by omega, by omega, by omega⟩

theorem advance_bad {R N old new : Nat} (h : ¬(new % R = 0 ∧ old ≤ new)) : advance R N old new = none := by
  unfold advance; rw [if_neg h]

/-! ## Admissible arguments -/

/-- arguments the storage can hold: numbers below 2^63, messages of 1 to the largest number of bytes of their type,
descriptors that were not made by the default constructor -/
def Upd.Ok (g : Cfg) : Upd → Prop
  | .lastExec n | .primary n | .lower n | .lastView n | .lastStable n => n < 2 ^ 63
  | .exit d => d.isDefault = false ∧ (d.elements.length ≤ 300 → OkExit g d)
  | .newView d => d.isDefault = false ∧ (d.vcs.length = g.vcNum → OkNew g d)
  | .exec d => d.bits.n ≤ 4096 → OkExec d
  | .stable l => OkStable g l
  | .prePrepare _ m => OkOpt g g.maxExt m
  | .fullCommitProof _ m => OkOpt g g.maxFcp m
  | .prepareFull _ m | .commitFull _ m => OkOpt g g.maxFull m
  | .ckMsg _ m => OkOpt g (g.maxExt + 1024) m
  | .user v => 0 < v.length ∧ v.length ≤ 256
  | .rsi i v => (i < g.numPrinc * g.batch ∧ g.idRsi + i < g.objs) ∧ 0 < v.length ∧ v.length ≤ 24 + 1024 * 1024
  | _ => True

def Atom.Ok (g : Cfg) : Atom → Prop
  | .user v => 0 < v.length ∧ v.length ≤ 256
  | .dbCk v => 0 < v.length ∧ v.length ≤ g.maxDbCk
  | _ => True

theorem okExec_empty : OkExec ExecDesc.empty := by
  refine ⟨by decide, ⟨by decide, by decide⟩, by decide⟩

theorem okSlot_empty (g : Cfg) : OkSlot g Spec.Slot.empty := ⟨okOpt_none _ _, okOpt_none _ _, okOpt_none _ _, okOpt_none _ _⟩

/-! ### the record stays admissible -/

theorem WF.setSlot {g : Cfg} {m : Spec.Rec} (w : WF g m) {n : Nat} {f : Spec.Slot → Spec.Slot} (hn : Spec.inWindow m n = true)
    (hf : OkSlot g (f (m.slot n))) : WF g (Spec.setSlot m n f) := by
  simp only [Spec.inWindow, Bool.and_eq_true, decide_eq_true_eq] at hn
  refine { w with slot := ?_, slotOut := ?_ }
  · intro x
    show OkSlot g (if x = n then f (m.slot x) else m.slot x)
    by_cases h : x = n
    · subst h; rw [if_pos rfl]; exact hf
    · rw [if_neg h]; exact w.slot x
  · intro x hx
    show (if x = n then f (m.slot x) else m.slot x) = _
    have hx' : ¬(m.lastStable < x ∧ x ≤ m.lastStable + 300) := hx
    rw [if_neg (by omega)]; exact w.slotOut x hx

theorem WF.setCk {g : Cfg} {m : Spec.Rec} (w : WF g m) {n : Nat} {f : Spec.CkSlot → Spec.CkSlot} (hn : Spec.inCkWindow m n = true)
    (hf : OkOpt g (g.maxExt + 1024) (f (m.ck n)).msg) : WF g (Spec.setCk m n f) := by
  simp only [Spec.inCkWindow, Bool.and_eq_true, decide_eq_true_eq] at hn
  refine { w with ck := ?_, ckOut := ?_ }
  · intro x
    show OkOpt g _ (if x = n then f (m.ck x) else m.ck x).msg
    by_cases h : x = n
    · subst h; rw [if_pos rfl]; exact hf
    · rw [if_neg h]; exact w.ck x
  · intro x hx
    show (if x = n then f (m.ck x) else m.ck x) = _
    have hx' : ¬(x % 150 = 0 ∧ m.lastStable ≤ x ∧ x < m.lastStable + 450) := hx
    rw [if_neg (by omega)]; exact w.ckOut x hx

theorem WF.apply {g : Cfg} {m : Spec.Rec} (w : WF g m) {u : Upd} (hu : u.Ok g) (ha : Spec.accepts g m u = true) :
    WF g (Spec.apply m u) := by
  cases u with
  | lastExec n => exact { w with lastExec := hu }
  | primary n => exact { w with primary := hu }
  | lower n => exact { w with lower := hu }
  | lastView n => exact { w with lastView := hu }
  | exit d =>
    simp only [Spec.accepts, Bool.and_eq_true, decide_eq_true_eq] at ha
    exact { w with exit := hu.2 ha.1.2 }
  | newView d =>
    simp only [Spec.accepts, Bool.and_eq_true] at ha
    have : d.vcs.length = g.vcNum := by
      have h2 := ha.2
      unfold newOk at h2
      cases hd : d.newView with
      | none => rw [hd] at h2; cases h2
      | some x => rw [hd] at h2; simp only [Bool.and_eq_true, decide_eq_true_eq] at h2; exact h2.1.2
    exact { w with newView := hu.2 this }
  | exec d =>
    simp only [Spec.accepts, Bool.and_eq_true, decide_eq_true_eq] at ha
    exact { w with exec := hu ha.2 }
  | stable l => exact { w with stable := hu }
  | lastStable n =>
    simp only [Spec.accepts, Bool.and_eq_true, decide_eq_true_eq] at ha
    refine { w with lastStable := hu, aligned := ha.1, slot := ?_, slotOut := ?_, ck := ?_, ckOut := ?_ }
    · intro x
      show OkSlot g (if x ≤ n then _ else _)
      split
      · exact okSlot_empty g
      · exact w.slot x
    · intro x hx
      show (if x ≤ n then Spec.Slot.empty else m.slot x) = _
      have hx' : ¬(n < x ∧ x ≤ n + 300) := hx
      split
      · rfl
      · exact w.slotOut x (by omega)
    · intro x
      show OkOpt g _ (if x < n then Spec.CkSlot.empty else m.ck x).msg
      split
      · exact okOpt_none _ _
      · exact w.ck x
    · intro x hx
      show (if x < n then Spec.CkSlot.empty else m.ck x) = _
      have hx' : ¬(x % 150 = 0 ∧ n ≤ x ∧ x < n + 450) := hx
      split
      · rfl
      · exact w.ckOut x (by omega)
  | prePrepare n x => exact w.setSlot (f := fun s => { s with prePrepare := x }) ha ⟨hu, (w.slot n).fcp, (w.slot n).pf, (w.slot n).cf⟩
  | fullCommitProof n x => exact w.setSlot (f := fun s => { s with fullCommitProof := x }) ha ⟨(w.slot n).pp, hu, (w.slot n).pf, (w.slot n).cf⟩
  | prepareFull n x => exact w.setSlot (f := fun s => { s with prepareFull := x }) ha ⟨(w.slot n).pp, (w.slot n).fcp, hu, (w.slot n).cf⟩
  | commitFull n x => exact w.setSlot (f := fun s => { s with commitFull := x }) ha ⟨(w.slot n).pp, (w.slot n).fcp, (w.slot n).pf, hu⟩
  | forceCompleted n b =>
    exact w.setSlot (f := fun s => { s with forceCompleted := b }) ha ⟨(w.slot n).pp, (w.slot n).fcp, (w.slot n).pf, (w.slot n).cf⟩
  | slowStarted n b =>
    exact w.setSlot (f := fun s => { s with slowStarted := b }) ha ⟨(w.slot n).pp, (w.slot n).fcp, (w.slot n).pf, (w.slot n).cf⟩
  | ckMsg n x => exact w.setCk (f := fun s => { s with msg := x }) ha hu
  | completed n b =>
    simp only [Spec.accepts, Bool.and_eq_true] at ha
    exact w.setCk (f := fun s => { s with completed := b }) ha.2 (w.ck n)
  | clearWindow => exact { w with slot := fun _ => okSlot_empty g, slotOut := fun _ _ => rfl }
  | user v => exact { w with user := fun b hb => by cases hb; exact hu }
  | rsi i v =>
    refine { w with rsi := ?_ }
    intro j
    show OkBytes _ (if j = i then some v else m.rsi j)
    split
    · intro b hb; cases hb; exact hu.2
    · exact w.rsi j

end Verif.Meta
