import Verif.Consensus.ProtocolEff
/-!
What the view-change message built by `exitElems` contains.
-/
namespace Concord.Protocol
open Concord.VC

theorem goToAtLeast_goToAtLeast {a b : Nat} (h : a ≤ b) : ∀ l : List Elem,
    goToAtLeast b (goToAtLeast a l) = goToAtLeast b l
  | [] => rfl
  | e :: l => by
    unfold goToAtLeast
    by_cases h1 : e.seq < a
    · rw [List.dropWhile_cons_of_pos (by simpa using h1), List.dropWhile_cons_of_pos (p := fun (e : Elem) => decide (e.seq < b))
        (by simp only [decide_eq_true_eq]; omega)]
      exact goToAtLeast_goToAtLeast h l
    · rw [List.dropWhile_cons_of_neg (by simpa using h1)]

theorem exitSlot_fst {nullD u s : Nat} {it it0 : List Elem} {sl : Slot}
    (h : goToAtLeast s it = goToAtLeast s it0) : (exitSlot nullD u s it sl).1 = (exitSlot nullD u s it0 sl).1 := by
  unfold exitSlot
  rw [h]
  split <;> rfl

theorem exitSlot_snd {nullD u s : Nat} {it : List Elem} {sl : Slot} {b : Nat} (h : s ≤ b) :
    goToAtLeast b (exitSlot nullD u s it sl).2 = goToAtLeast b it := by
  unfold exitSlot
  split
  · rfl
  · dsimp only
    split
    · exact goToAtLeast_goToAtLeast h it
    · split <;> exact goToAtLeast_goToAtLeast h it

/-- the element for one slot, independent of the iterator position -/
def slotElem (nullD u : Nat) (it0 : List Elem) (s : Nat) (sl : Slot) : Option Elem := (exitSlot nullD u s it0 sl).1

theorem mem_exitElems {nullD u : Nat} {slot : Nat → Option Slot} {it0 : List Elem} {e : Elem} :
    ∀ (k s : Nat) (it : List Elem), (∀ b, s ≤ b → goToAtLeast b it = goToAtLeast b it0) →
    (e ∈ exitElems nullD u slot k s it ↔ ∃ t sl, s ≤ t ∧ t < s + k ∧ slot t = some sl ∧ sl.timeOk = true ∧
      slotElem nullD u it0 t sl = some e)
  | 0, s, it, _ => by
    simp only [exitElems, List.not_mem_nil, false_iff]
    rintro ⟨t, sl, h1, h2, _⟩; omega
  | k + 1, s, it, hit => by
    have ih : ∀ it', (∀ b, s + 1 ≤ b → goToAtLeast b it' = goToAtLeast b it0) →
        (e ∈ exitElems nullD u slot k (s + 1) it' ↔ ∃ t sl, s + 1 ≤ t ∧ t < s + 1 + k ∧ slot t = some sl ∧
          sl.timeOk = true ∧ slotElem nullD u it0 t sl = some e) := fun it' h => mem_exitElems k (s + 1) it' h
    have skip : (¬ ∃ sl, slot s = some sl ∧ sl.timeOk = true ∧ slotElem nullD u it0 s sl = some e) →
        ((∃ t sl, s + 1 ≤ t ∧ t < s + 1 + k ∧ slot t = some sl ∧ sl.timeOk = true ∧ slotElem nullD u it0 t sl = some e) ↔
        ∃ t sl, s ≤ t ∧ t < s + (k + 1) ∧ slot t = some sl ∧ sl.timeOk = true ∧ slotElem nullD u it0 t sl = some e) := by
      intro hno
      constructor
      · rintro ⟨t, sl, h1, h2, h3⟩; exact ⟨t, sl, by omega, by omega, h3⟩
      · rintro ⟨t, sl, h1, h2, h3⟩
        by_cases hts : t = s
        · subst hts; exact absurd ⟨sl, h3⟩ hno
        · exact ⟨t, sl, by omega, by omega, h3⟩
    simp only [exitElems]
    split
    · next sl hs =>
      split
      · next htime =>
        have hfst : (exitSlot nullD u s it sl).1 = slotElem nullD u it0 s sl := exitSlot_fst (hit s (Nat.le_refl _))
        have hit' : ∀ b, s + 1 ≤ b → goToAtLeast b (exitSlot nullD u s it sl).2 = goToAtLeast b it0 := by
          intro b hb; rw [exitSlot_snd (by omega), hit b (by omega)]
        split
        · next e' it' heq =>
          rw [heq] at hfst hit'
          simp only at hfst hit'
          rw [List.mem_cons, ih it' hit']
          constructor
          · rintro (rfl | ⟨t, sl', h1, h2, h3⟩)
            · exact ⟨s, sl, Nat.le_refl _, by omega, hs, htime, hfst.symm⟩
            · exact ⟨t, sl', by omega, by omega, h3⟩
          · rintro ⟨t, sl', h1, h2, h3, h4, h5⟩
            by_cases hts : t = s
            · subst hts
              rw [hs] at h3; cases h3
              rw [← hfst] at h5; cases h5; exact Or.inl rfl
            · exact Or.inr ⟨t, sl', by omega, by omega, h3, h4, h5⟩
        · next it' heq =>
          rw [heq] at hfst hit'
          simp only at hfst hit'
          rw [ih it' hit']
          apply skip
          rintro ⟨sl', h3, h4, h5⟩
          rw [hs] at h3; cases h3
          rw [← hfst] at h5; cases h5
      · next htime =>
        rw [ih it (fun b hb => hit b (by omega))]
        apply skip
        rintro ⟨sl', h3, h4, h5⟩
        rw [hs] at h3; cases h3; exact htime h4
    · next hs =>
      rw [ih it (fun b hb => hit b (by omega))]
      apply skip
      rintro ⟨sl', h3, h4, h5⟩
      rw [hs] at h3; cases h3

theorem slotElem_some {nullD u s : Nat} {it0 : List Elem} {sl : Slot} {e : Elem}
    (h : slotElem nullD u it0 s sl = some e) : e.seq = s ∧ e.digest = sl.digest ∧ e.originView = u ∧
      (∀ c, e.cert = some c → (∃ sig, sl.cert = some sig ∧ c = ⟨u, sig⟩) ∨
        (sl.cert = none ∧ ∃ e0 ∈ it0, e0.seq = s ∧ e0.digest = sl.digest ∧ e0.cert = some c)) := by
  unfold slotElem exitSlot at h
  split at h
  · next sig hc =>
    simp only [Option.some.injEq] at h
    subst h
    refine ⟨rfl, rfl, rfl, ?_⟩
    intro c hcc; simp only [Option.some.injEq] at hcc
    exact Or.inl ⟨sig, hc, hcc.symm⟩
  · next hc =>
    dsimp only at h
    split at h
    · next c hp =>
      simp only [Option.some.injEq] at h
      subst h
      refine ⟨rfl, rfl, rfl, ?_⟩
      intro c' hcc; simp only [Option.some.injEq] at hcc
      subst hcc
      refine Or.inr ⟨hc, ?_⟩
      split at hp
      · next e0 hh =>
        split at hp
        · next hcond =>
          have hmem : e0 ∈ goToAtLeast s it0 := List.mem_of_mem_head? (by rw [hh]; rfl)
          exact ⟨e0, (List.dropWhile_sublist _).subset hmem, hcond.1, hcond.2, hp⟩
        · cases hp
      · cases hp
    · split at h
      · simp only [Option.some.injEq] at h
        subst h
        refine ⟨rfl, rfl, rfl, ?_⟩
        intro c hcc; cases hcc
      · cases h

theorem slotElem_nonnull {nullD u s : Nat} {it0 : List Elem} {sl : Slot} (h : sl.digest ≠ nullD) :
    ∃ e, slotElem nullD u it0 s sl = some e := by
  unfold slotElem exitSlot
  split
  · exact ⟨_, rfl⟩
  · dsimp only
    split
    · exact ⟨_, rfl⟩
    · rw [if_pos h]; exact ⟨_, rfl⟩

theorem slotElem_cert {nullD u s sig : Nat} {it0 : List Elem} {sl : Slot} (h : sl.cert = some sig) :
    slotElem nullD u it0 s sl = some ⟨s, sl.digest, u, some ⟨u, sig⟩⟩ := by
  unfold slotElem exitSlot
  rw [h]

theorem goToAtLeast_head {s : Nat} : ∀ {l : List Elem} {e : Elem}, l.Pairwise (fun a b => a.seq < b.seq) → e ∈ l →
    e.seq = s → (goToAtLeast s l).head? = some e
  | a :: l, e, hp, he, hs => by
    rw [List.pairwise_cons] at hp
    unfold goToAtLeast
    rcases List.mem_cons.1 he with rfl | he'
    · rw [List.dropWhile_cons_of_neg (by simp only [decide_eq_true_eq]; omega)]; rfl
    · have := hp.1 e he'
      rw [List.dropWhile_cons_of_pos (by simp only [decide_eq_true_eq]; omega)]
      exact goToAtLeast_head hp.2 he' hs

/-- a certificate of the previous message is kept when the digest is the same -/
theorem slotElem_prev {nullD u s : Nat} {it0 : List Elem} {sl : Slot} {e0 : Elem} {c : Cert}
    (hp : it0.Pairwise (fun a b => a.seq < b.seq)) (he : e0 ∈ it0) (hs : e0.seq = s) (hd : e0.digest = sl.digest)
    (hc : e0.cert = some c) (hcu : c.view ≤ u) :
    ∃ e, slotElem nullD u it0 s sl = some e ∧ e.seq = s ∧ e.digest = sl.digest ∧ ∃ c', e.cert = some c' ∧ c.view ≤ c'.view := by
  cases hcert : sl.cert with
  | some sig => exact ⟨_, slotElem_cert hcert, rfl, rfl, _, rfl, hcu⟩
  | none =>
    refine ⟨⟨s, sl.digest, u, some c⟩, ?_, rfl, rfl, c, rfl, Nat.le_refl _⟩
    unfold slotElem exitSlot
    rw [hcert]
    simp only [goToAtLeast_head hp he hs, hs, hd, and_self, if_true, hc]

theorem exitElems_sorted {nullD u : Nat} {slot : Nat → Option Slot} : ∀ (k s : Nat) (it : List Elem),
    (exitElems nullD u slot k s it).Pairwise (fun a b => a.seq < b.seq) ∧
    ∀ e ∈ exitElems nullD u slot k s it, s ≤ e.seq ∧ e.seq < s + k
  | 0, s, it => by simp [exitElems]
  | k + 1, s, it => by
    have ih := fun it' => exitElems_sorted (nullD := nullD) (u := u) (slot := slot) k (s + 1) it'
    have wk : ∀ it', (exitElems nullD u slot k (s + 1) it').Pairwise (fun a b => a.seq < b.seq) ∧
      ∀ e ∈ exitElems nullD u slot k (s + 1) it', s ≤ e.seq ∧ e.seq < s + (k + 1) := fun it' =>
      ⟨(ih it').1, fun e he => by have := (ih it').2 e he; omega⟩
    simp only [exitElems]
    split
    · split
      · split
        · next e' it' heq =>
          have hseq : e'.seq = s := by
            have h1 := congrArg Prod.fst heq
            exact (slotElem_some (it0 := it) h1).1
          refine ⟨List.pairwise_cons.2 ⟨fun a ha => ?_, (wk it').1⟩, ?_⟩
          · have := (ih it').2 a ha; omega
          · intro e he
            rcases List.mem_cons.1 he with rfl | he
            · omega
            · exact (wk it').2 e he
        · exact wk _
      · exact wk _
    · exact wk _

end Concord.Protocol
