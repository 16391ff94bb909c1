/-
C55: the source of state transfer.
-/
import Verif.Source.Spec

set_option linter.unusedSimpArgs false
set_option linter.unusedVariables false

namespace Verif.Source

/-! ## Lists without repetition -/

theorem badIn_erase {bad : Nat → Bool} {l : List Nat} {x : Nat} (hx : x ∈ l) :
    badIn bad l = badIn bad (l.erase x) + (if bad x then 1 else 0) := by
  unfold badIn
  induction l with
  | nil => cases hx
  | cons a l ih =>
    by_cases h : a = x
    · subst h; by_cases hb : bad a <;> simp [hb]
    · have hx' : x ∈ l := by
        rcases List.mem_cons.1 hx with h' | h'
        · exact absurd h'.symm h
        · exact h'
      have he : (a :: l).erase x = a :: l.erase x := by
        rw [List.erase_cons]; simp [h]
      rw [he]
      have := ih hx'
      by_cases hb : bad a <;> simp [hb] at this ⊢ <;> omega

theorem badIn_erase_le {bad : Nat → Bool} {l : List Nat} {x : Nat} : badIn bad (l.erase x) ≤ badIn bad l := by
  by_cases hx : x ∈ l
  · have := badIn_erase (bad := bad) hx; omega
  · rw [List.erase_of_not_mem hx]; exact Nat.le_refl _

theorem badIn_all (bad : Nat → Bool) (l : List Nat) : l.length = badIn bad l + badIn (fun x => !bad x) l := by
  unfold badIn
  induction l with
  | nil => rfl
  | cons a l ih => by_cases hb : bad a <;> simp [hb] at ih ⊢ <;> omega

theorem badIn_sub {bad : Nat → Bool} {l m : List Nat} (hl : l.Nodup) (h : ∀ x ∈ l, x ∈ m) : badIn bad l ≤ badIn bad m := by
  induction l generalizing m with
  | nil => simp [badIn]
  | cons a l ih =>
    have hnd := List.nodup_cons.1 hl
    have hm : a ∈ m := h a (by simp)
    have h1 : badIn bad l ≤ badIn bad (m.erase a) := ih hnd.2 (by
      intro x hx
      have hxa : x ≠ a := fun e => hnd.1 (e ▸ hx)
      exact (List.mem_erase_of_ne hxa).2 (h x (by simp [hx])))
    have h2 := badIn_erase (bad := bad) hm
    have h3 : badIn bad (a :: l) = badIn bad l + (if bad a then 1 else 0) := by
      unfold badIn; by_cases hb : bad a <;> simp [hb]
    omega

theorem erase_len {l : List Nat} {x : Nat} : l.length ≤ (l.erase x).length + 1 := by
  by_cases hx : x ∈ l
  · rw [List.length_erase_of_mem hx]; omega
  · rw [List.erase_of_not_mem hx]; omega

/-! ## What is always so -/

structure Inv (c : Cfg) (s : Sel) : Prop where
  nodup : s.pref.Nodup
  peers : ∀ x ∈ s.pref, x ∈ c.others
  cur : s.cur = noReplica ∨ s.cur ∈ c.others
  prim : s.prim = noReplica ∨ s.prim ∈ c.others
  log : ∀ x ∈ s.log, x ∈ c.others

/-- what the set is filled with -/
def full (c : Cfg) (s : Sel) : List Nat := if s.prim = noReplica then c.others else c.others.erase s.prim

theorem full_nodup {c : Cfg} (hc : c.Ok) (s : Sel) : (full c s).Nodup := by
  unfold full; split
  · exact hc.nodup
  · exact hc.nodup.erase _

theorem full_sub {c : Cfg} (s : Sel) : ∀ x ∈ full c s, x ∈ c.others := by
  intro x hx; unfold full at hx; split at hx
  · exact hx
  · exact List.mem_of_mem_erase hx

theorem full_len {c : Cfg} (s : Sel) : c.others.length ≤ (full c s).length + 1 := by
  unfold full; split
  · omega
  · exact erase_len

theorem refill_pref {c : Cfg} {s : Sel} : (refill c s).pref = if s.pref = [] then full c s else s.pref := by
  unfold refill full; split <;> rfl

theorem refill_rest {c : Cfg} {s : Sel} : (refill c s).cur = s.cur ∧ (refill c s).prim = s.prim ∧ (refill c s).log = s.log
    ∧ (refill c s).nom = s.nom ∧ (refill c s).nomCnt = s.nomCnt := by
  unfold refill; split <;> simp

theorem refill_ne {c : Cfg} (hc : c.Ok) {s : Sel} : (refill c s).pref ≠ [] := by
  rw [refill_pref]; split
  · intro h
    have h1 := full_len (c := c) s
    rw [h] at h1
    have h2 := hc.two
    simp only [List.length_nil] at h1
    omega
  · assumption

theorem Inv.refill {c : Cfg} (hc : c.Ok) {s : Sel} (h : Inv c s) : Inv c (refill c s) := by
  obtain ⟨e1, e2, e3, _⟩ := refill_rest (c := c) (s := s)
  constructor
  · rw [refill_pref]; split
    · exact full_nodup hc s
    · exact h.nodup
  · rw [refill_pref]; split
    · exact full_sub s
    · exact h.peers
  · rw [e1]; exact h.cur
  · rw [e2]; exact h.prim
  · rw [e3]; exact h.log

theorem Inv.erase {c : Cfg} {s : Sel} (h : Inv c s) (x : Nat) : Inv c { s with pref := s.pref.erase x } :=
  ⟨h.nodup.erase _, fun y hy => h.peers y (List.mem_of_mem_erase hy), h.cur, h.prim, h.log⟩

theorem Inv.add {c : Cfg} {s : Sel} (h : Inv c s) {r : Nat} (hr : r ∈ c.others) : Inv c (addPreferred r s) := by
  unfold addPreferred; split
  · exact h
  · rename_i hn
    refine ⟨List.nodup_cons.2 ⟨by simpa using hn, h.nodup⟩, ?_, h.cur, h.prim, h.log⟩
    intro x hx
    rcases List.mem_cons.1 hx with e | e
    · exact e ▸ hr
    · exact h.peers x e

theorem Inv.removePreferred {c : Cfg} (hc : c.Ok) {s : Sel} (h : Inv c s) (r : Nat) : Inv c (removePreferred c r s) := by
  unfold Source.removePreferred; split
  · exact (h.erase r).refill hc
  · exact h

theorem Inv.adopt {c : Cfg} (hc : c.Ok) {s : Sel} (h : Inv c s) {p : Nat} (hp : p ∈ c.others) : Inv c (adopt c p s) := by
  have h0 : Inv c (resetNom s) := ⟨h.nodup, h.peers, h.cur, h.prim, h.log⟩
  have h1 : Inv c (if s.prim ≠ noReplica then addPreferred s.prim (resetNom s) else resetNom s) := by
    split
    · rename_i hn
      exact h0.add (h.prim.resolve_left hn)
    · exact h0
  have h2 := h1.removePreferred hc p
  exact ⟨h2.nodup, h2.peers, h2.cur, .inr hp, h2.log⟩

theorem updatePrimary_cases {c : Cfg} {p : Nat} {s : Sel} :
    (∃ n k, updatePrimary c p s = { s with nom := n, nomCnt := k }) ∨
      (updatePrimary c p s = Source.adopt c p s ∧ p ∈ c.others ∧ s.prim ≠ p) := by
  unfold updatePrimary
  by_cases h1 : s.prim = p
  · simp only [if_pos h1]; exact .inl ⟨s.nom, s.nomCnt, rfl⟩
  simp only [if_neg h1]
  by_cases h2 : isPeer c p = false
  · simp only [if_pos h2]; exact .inl ⟨_, _, rfl⟩
  simp only [if_neg h2]
  by_cases h3 : s.nom = noReplica
  · simp only [if_pos h3]; exact .inl ⟨_, _, rfl⟩
  simp only [if_neg h3]
  by_cases h4 : p ≠ s.nom ∧ s.nomCnt + 1 < c.minPP
  · simp only [if_pos h4]; exact .inl ⟨_, _, rfl⟩
  simp only [if_neg h4]
  by_cases h5 : s.nomCnt + 1 < c.minPP
  · simp only [if_pos h5]; exact .inl ⟨_, _, rfl⟩
  simp only [if_neg h5]
  refine .inr ⟨trivial, ?_, h1⟩
  simpa [isPeer] using h2

theorem countExpiry_rest {c : Cfg} {now : Nat} {s : Sel} :
    (countExpiry c now s).pref = s.pref ∧ (countExpiry c now s).cur = s.cur ∧ (countExpiry c now s).prim = s.prim ∧
      (countExpiry c now s).log = s.log := by
  unfold countExpiry; split
  · split <;> simp
  · simp

theorem ask_rest {c : Cfg} {now : Nat} {b l : Bool} {s : Sel} :
    (shouldReplace c now b l s).2.pref = s.pref ∧ (shouldReplace c now b l s).2.cur = s.cur ∧
      (shouldReplace c now b l s).2.prim = s.prim ∧ (shouldReplace c now b l s).2.log = s.log := by
  unfold shouldReplace
  split
  · simp
  · split
    · simp
    · exact countExpiry_rest

/-- the replicas that are still to be tried before the set is filled again -/
def rem (s : Sel) : List Nat := s.pref.erase s.cur

theorem erase_no {c : Cfg} (hc : c.Ok) {s : Sel} (h : Inv c s) (hn : s.cur = noReplica) : rem s = s.pref := by
  unfold rem; rw [hn]; apply List.erase_of_not_mem; intro hx; exact hc.real (h.peers _ hx)

/-- `updateSource` selects one of the replicas that are still to be tried, or if there is none, of all but
the primary -/
theorem update_spec {c : Cfg} (hc : c.Ok) {s : Sel} (h : Inv c s) (now rnd : Nat) :
    ∃ x, x ∈ (if rem s = [] then full c s else rem s) ∧
      updateSource c now rnd s = some { s with
        pref := if rem s = [] then full c s else rem s
        cur := x
        selTime := now
        ongoing := false
        fts := 0
        cnt := 0
        valid := false
        log := s.log ++ [x] } := by
  unfold updateSource
  generalize ht : (if s.cur ≠ noReplica then { s with pref := s.pref.erase s.cur } else s) = t
  have ht' : t = { s with pref := rem s } := by
    subst ht; split
    · rfl
    · rename_i hn
      have hn : s.cur = noReplica := Classical.byContradiction fun h' => hn h'
      rw [erase_no hc h hn]
  have hr : Source.refill c t = { s with pref := if rem s = [] then full c s else rem s } := by
    subst ht'; unfold refill full
    by_cases e : rem s = []
    · simp [e]
    · simp [e]
  rw [hr]
  have hne : (if rem s = [] then full c s else rem s) ≠ [] := by
    have := refill_ne hc (s := t); rw [hr] at this; exact this
  unfold select
  have hlt : rnd % (if rem s = [] then full c s else rem s).length < (if rem s = [] then full c s else rem s).length :=
    Nat.mod_lt _ (List.length_pos_iff.2 hne)
  refine ⟨(if rem s = [] then full c s else rem s)[rnd % (if rem s = [] then full c s else rem s).length]'hlt, List.getElem_mem _, ?_⟩
  simp only [List.getElem?_eq_getElem hlt]

theorem rem_sub {c : Cfg} {s : Sel} (h : Inv c s) : ∀ x ∈ rem s, x ∈ c.others :=
  fun x hx => h.peers x (List.mem_of_mem_erase hx)

theorem next_nodup {c : Cfg} (hc : c.Ok) {s : Sel} (h : Inv c s) : (if rem s = [] then full c s else rem s).Nodup := by
  split
  · exact full_nodup hc s
  · exact h.nodup.erase _

theorem next_sub {c : Cfg} {s : Sel} (h : Inv c s) : ∀ x ∈ (if rem s = [] then full c s else rem s), x ∈ c.others := by
  split
  · exact full_sub s
  · exact rem_sub h

theorem Inv.step {c : Cfg} (hc : c.Ok) {s s' : Sel} (h : Inv c s) {o : Op} (ho : o.Fair c) (hs : step c o s = some s') : Inv c s' := by
  cases o with
  | reset =>
    cases hs
    refine ⟨List.nodup_nil, ?_, .inl rfl, .inl rfl, h.log⟩
    intro x hx; cases hx
  | add r => cases hs; exact h.add ho
  | refillAll => cases hs; exact h.refill hc
  | removeCurrent =>
    cases hs
    have h1 : Inv c { s with pref := s.pref.erase s.cur, cur := noReplica } :=
      ⟨h.nodup.erase _, fun y hy => h.peers y (List.mem_of_mem_erase hy), .inl rfl, h.prim, h.log⟩
    have h2 := h1.refill hc
    exact ⟨h2.nodup, h2.peers, h2.cur, h2.prim, h2.log⟩
  | stamp now b => cases hs; exact ⟨h.nodup, h.peers, h.cur, h.prim, h.log⟩
  | ask now b l =>
    cases hs
    obtain ⟨e1, e2, e3, e4⟩ := ask_rest (c := c) (now := now) (b := b) (l := l) (s := s)
    exact ⟨e1 ▸ h.nodup, e1 ▸ h.peers, e2 ▸ h.cur, e3 ▸ h.prim, e4 ▸ h.log⟩
  | update now rnd =>
    obtain ⟨x, hx, hu⟩ := update_spec hc h now rnd
    simp only [Source.step, hu] at hs
    cases hs
    refine ⟨next_nodup hc h, next_sub h, .inr (next_sub h x hx), h.prim, ?_⟩
    intro y hy
    rcases List.mem_append.1 hy with e | e
    · exact h.log y e
    · rw [List.mem_singleton.1 e]; exact next_sub h x hx
  | block =>
    simp only [Source.step, validBlock] at hs
    split at hs
    · cases hs
    · split at hs <;> cases hs
      · exact h
      · exact ⟨h.nodup, h.peers, h.cur, h.prim, h.log⟩
  | prePrepare p =>
    cases hs
    rcases updatePrimary_cases (c := c) (p := p) (s := s) with ⟨n, k, e⟩ | ⟨e, hp, _⟩
    · rw [e]; exact ⟨h.nodup, h.peers, h.cur, h.prim, h.log⟩
    · rw [e]; exact h.adopt hc hp

theorem Inv.init (c : Cfg) : Inv c Sel.init :=
  ⟨List.nodup_nil, (fun x hx => by cases hx), .inl rfl, .inl rfl, (fun x hx => by cases hx)⟩

theorem Inv.run {c : Cfg} (hc : c.Ok) {ops : List Op} {s s' : Sel} (h : Inv c s) (ho : ∀ o ∈ ops, o.Fair c)
    (hr : run c ops s = some s') : Inv c s' := by
  induction ops generalizing s with
  | nil => cases hr; exact h
  | cons o os ih =>
    simp only [Source.run] at hr
    split at hr
    · cases hr
    · rename_i s1 h1
      exact ih (h.step hc (ho o (by simp)) h1) (fun o' ho' => ho o' (by simp [ho'])) hr

/-- C55: for every history of calls and every value the random generator yields, the source is one of the
other replicas, and so was every source before. -/
theorem source_is_peer (c : Cfg) (hc : c.Ok) (ops : List Op) (s : Sel) (ho : ∀ o ∈ ops, o.Fair c)
    (hr : run c ops Sel.init = some s) :
    (s.cur = noReplica ∨ s.cur ∈ c.others) ∧ (∀ x ∈ s.log, x ∈ c.others) ∧ (∀ x ∈ s.pref, x ∈ c.others) := by
  have h := (Inv.init c).run hc ho hr
  exact ⟨h.cur, h.log, h.peers⟩

/-- C55: no assertion fails, whatever came before, except that of a valid block without a source. -/
theorem no_assertion (c : Cfg) (hc : c.Ok) (ops : List Op) (s : Sel) (ho : ∀ o ∈ ops, o.Fair c)
    (hr : run c ops Sel.init = some s) (o : Op) (hb : o = .block → s.cur ≠ noReplica) :
    ∃ s', step c o s = some s' := by
  have h := (Inv.init c).run hc ho hr
  cases o with
  | update now rnd =>
    obtain ⟨x, _, hu⟩ := update_spec hc h now rnd
    exact ⟨_, hu⟩
  | block =>
    have := hb rfl
    simp only [step, validBlock, if_neg this]
    split <;> exact ⟨_, rfl⟩
  | reset => exact ⟨_, rfl⟩
  | add r => exact ⟨_, rfl⟩
  | refillAll => exact ⟨_, rfl⟩
  | removeCurrent => exact ⟨_, rfl⟩
  | stamp now b => exact ⟨_, rfl⟩
  | ask now b l => exact ⟨_, rfl⟩
  | prePrepare p => exact ⟨_, rfl⟩

end Verif.Source
