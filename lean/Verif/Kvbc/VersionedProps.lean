import Verif.Kvbc.VersionedInv
set_option linter.unusedSimpArgs false
set_option linter.unusedVariables false
/-!
# C23, C24, C25 for the versioned category

Every history of block additions, genesis prunings and deletions of the last block.
-/
namespace Verif.Kvbc
open Verif.Bytes

structure Inv (c : VChain) (a : Abs) : Prop where
  wf : ∀ inp ∈ a.hist, inp.wf
  last : c.last = a.hist.length
  gen : c.genesis = a.genesis
  rng : (a.hist = [] ∧ a.genesis = 0) ∨ (1 ≤ a.genesis ∧ a.genesis ≤ a.hist.length)
  lt : c.last < 2 ^ 63
  blocks : ∀ b, c.blocks b = if c.genesis ≤ b ∧ 1 ≤ b then (a.hist[b - 1]?).map outOf else none
  keys : ∀ k, KInv (c.st k) (touchAt a.hist k) c.genesis

theorem inv_empty : Inv VChain.empty Abs.empty := by
  refine ⟨by simp [Abs.empty], rfl, rfl, Or.inl ⟨rfl, rfl⟩, by decide, ?_, ?_⟩
  · intro b
    simp [VChain.empty, Abs.empty]
  · intro k
    have ht : ∀ b, touchAt Abs.empty.hist k b = none := by
      intro b; simp [touchAt, Abs.empty]
    refine ⟨?_, ?_, ?_, ?_, ?_⟩
    · intro b _; rw [ht]; rfl
    · intro b v h; exact absurd h (Nat.not_lt_zero _)
    · intro a h; cases h
    · intro _ _; rfl
    · intro n h; cases h

theorem touchAt_le (h : List VInput) (k : Key) : ∀ b, touchAt h k b ≠ none → b ≤ h.length :=
  fun b hb => (touchAt_range hb).2

theorem inv_add {c : VChain} {a : Abs} (hi : Inv c a) {inp : VInput} (hw : inp.wf) (hl : c.last + 1 < 2 ^ 63) :
    Inv (c.addBlock inp) (a.step (.add inp)) := by
  have hlast := hi.last
  have hgen := hi.gen
  refine ⟨?_, ?_, ?_, ?_, hl, ?_, ?_⟩
  · intro i h
    rcases List.mem_append.1 h with h | h
    · exact hi.wf i h
    · simp at h; rw [h]; exact hw
  · simp [VChain.addBlock, Abs.step, hlast]
  · simp only [VChain.addBlock, Abs.step, hgen]
  · right
    simp only [Abs.step, List.length_append, List.length_singleton]
    rcases hi.rng with ⟨h1, h2⟩ | ⟨h1, h2⟩
    · rw [h2]; simp
    · rw [if_neg (by omega)]; omega
  · intro b
    have hG : (c.addBlock inp).genesis = if c.genesis = 0 then 1 else c.genesis := rfl
    have hB : (c.addBlock inp).blocks b = if b = c.last + 1 then some (add (c.last + 1) inp c.st).2 else c.blocks b := rfl
    generalize (c.addBlock inp).genesis = G at hG ⊢
    rw [hB, add_out, hi.blocks b, hlast]
    show _ = if G ≤ b ∧ 1 ≤ b then ((a.hist ++ [inp])[b - 1]?).map outOf else none
    by_cases e : b = a.hist.length + 1
    · subst e
      have hg : G ≤ a.hist.length + 1 := by
        rw [hG]
        rcases hi.rng with ⟨h1, h2⟩ | ⟨h1, h2⟩
        · rw [hgen, h2]; simp
        · split <;> omega
      rw [if_pos rfl, if_pos ⟨hg, by omega⟩]
      simp
    · rw [if_neg e]
      have hgg : (G ≤ b ∧ 1 ≤ b) ↔ (c.genesis ≤ b ∧ 1 ≤ b) := by
        rw [hG]; split <;> omega
      by_cases hc : c.genesis ≤ b ∧ 1 ≤ b
      · rw [if_pos hc, if_pos (hgg.2 hc)]
        by_cases h2 : b - 1 < a.hist.length
        · rw [List.getElem?_append_left h2]
        · rw [List.getElem?_eq_none (l := a.hist) (by omega),
            List.getElem?_eq_none (l := a.hist ++ [inp]) (by rw [List.length_append]; simp; omega)]
      · rw [if_neg hc, if_neg (fun h => hc (hgg.1 h))]
  · intro k
    simp only [VChain.addBlock, Abs.step]
    have hk : KInv (c.st k) (touchAt a.hist k) (if c.genesis = 0 then 1 else c.genesis) := by
      split
      · rename_i h0
        have := hi.keys k
        rw [h0] at this
        exact this.first (by simp [touchAt])
      · exact hi.keys k
    rw [add_key _ _ hw, hlast]
    have hTle := touchAt_le a.hist k
    cases ht : touch inp k with
    | none =>
      refine hk.congr (fun b => ?_)
      rw [touchAt_append]
      split
      · rename_i e
        rw [ht]
        cases h2 : touchAt a.hist k b with
        | none => rfl
        | some t => have := hTle b (by rw [h2]; simp); omega
      · rfl
    | some t =>
      obtain ⟨v, fl⟩ := t
      have hg : (if c.genesis = 0 then 1 else c.genesis) ≤ a.hist.length + 1 := by
        rcases hi.rng with ⟨h1, h2⟩ | ⟨h1, h2⟩
        · rw [hgen, h2]; simp
        · split <;> omega
      refine hk.write hTle hg (fun b hb => ?_) v fl ?_ (fun b hb => ?_)
      · rw [touchAt_append, if_neg (by omega)]
      · rw [touchAt_append, if_pos rfl, ht]
      · rw [touchAt_append, if_neg (by omega)]
        cases h2 : touchAt a.hist k b with
        | none => rfl
        | some t => have := hTle b (by rw [h2]; simp); omega

theorem inv_genesis_block {c : VChain} {a : Abs} (hi : Inv c a) (hne : c.genesis ≠ 0) :
    ∃ inp, a.hist[c.genesis - 1]? = some inp ∧ inp.wf ∧ c.blocks c.genesis = some (outOf inp) := by
  have hgen := hi.gen
  rcases hi.rng with ⟨h1, h2⟩ | ⟨h1, h2⟩
  · omega
  · have hlt : c.genesis - 1 < a.hist.length := by omega
    refine ⟨a.hist[c.genesis - 1], List.getElem?_eq_getElem hlt, hi.wf _ (List.getElem_mem hlt), ?_⟩
    rw [hi.blocks, if_pos ⟨Nat.le_refl _, by omega⟩, List.getElem?_eq_getElem hlt]
    rfl

theorem touchAt_get {h : List VInput} {k : Key} {b : Nat} {inp : VInput} (hb : b ≠ 0) (hh : h[b - 1]? = some inp) :
    touchAt h k b = touch inp k := by
  simp [touchAt, hb, hh]

/-- the state of one key after pruning -/
theorem prune_key {c c' : VChain} {a : Abs} (hi : Inv c a) (h : c.prune = some c') (k : Key) :
    (touchAt a.hist k c.genesis = none ∧ c'.st k = c.st k) ∨
    (∃ v fl, touchAt a.hist k c.genesis = some (v, fl) ∧
      pruneKey c.genesis fl (c.st k) (dropActive (c.st k) (c.st k)) = some (c'.st k)) := by
  simp only [VChain.prune] at h
  split at h
  · cases h
  · rename_i hg0
    split at h
    · cases h
    · obtain ⟨inp, h1, hw, h2⟩ := inv_genesis_block hi (by omega)
      rw [h2] at h
      simp only at h
      split at h
      · cases h
      · rename_i st hst
        cases h
        have := deleteGenesis_key _ _ (outOf_sorted inp hw) _ _ hst k
        rw [outOf_lookup inp hw] at this
        rw [touchAt_get (by omega) h1]
        cases ht : touch inp k with
        | none => rw [ht] at this; exact Or.inl ⟨rfl, this⟩
        | some t =>
          rw [ht] at this
          exact Or.inr ⟨t.1, t.2, rfl, this⟩

theorem prune_fields {c c' : VChain} (h : c.prune = some c') :
    1 ≤ c.genesis ∧ c.genesis ≠ c.last ∧ c'.genesis = c.genesis + 1 ∧ c'.last = c.last ∧
    c'.blocks = fun i => if i = c.genesis then none else c.blocks i := by
  simp only [VChain.prune] at h
  split at h
  · cases h
  · split at h
    · cases h
    · split at h
      · cases h
      · split at h
        · cases h
        · cases h
          exact ⟨by omega, by assumption, rfl, rfl, rfl⟩

theorem inv_prune {c c' : VChain} {a : Abs} (hi : Inv c a) (h : c.prune = some c') : Inv c' (a.step .prune) := by
  obtain ⟨f1, f2, f3, f4, f5⟩ := prune_fields h
  have hgen := hi.gen
  have hlast := hi.last
  have hrng : 1 ≤ a.genesis ∧ a.genesis ≤ a.hist.length := by
    rcases hi.rng with ⟨h1, h2⟩ | h2
    · omega
    · exact h2
  refine ⟨hi.wf, by rw [f4]; exact hlast, by rw [f3, hgen]; rfl, Or.inr ⟨?_, ?_⟩, by rw [f4]; exact hi.lt, ?_, ?_⟩
  · show 1 ≤ a.genesis + 1; omega
  · show a.genesis + 1 ≤ a.hist.length; omega
  · intro b
    rw [f5, f3]
    simp only [Abs.step]
    rw [hi.blocks b]
    by_cases e : b = c.genesis
    · rw [if_pos e, if_neg (by omega)]
    · rw [if_neg e]
      by_cases hc : c.genesis ≤ b ∧ 1 ≤ b
      · rw [if_pos hc, if_pos (by omega)]
      · rw [if_neg hc, if_neg (by omega)]
  · intro k
    rw [f3]
    rcases prune_key hi h k with ⟨h1, h2⟩ | ⟨v, fl, h1, h2⟩
    · rw [h2]; exact (hi.keys k).prune_untouched h1
    · exact ((hi.keys k).prune_touched (touchAt_le a.hist k) (by have := hi.lt; omega) h1
        (touchAt_not_deleted h1) h2).1

theorem deleteLast_fields {c c' : VChain} (h : c.deleteLast = some c') :
    c.last ≠ 0 ∧ c.last ≠ c.genesis ∧ c'.genesis = c.genesis ∧ c'.last = c.last - 1 ∧
    (c'.blocks = fun i => if i = c.last then none else c.blocks i) ∧
    ∃ out, c.blocks c.last = some out ∧ c'.st = deleteLastReachable c.last out c.st := by
  simp only [VChain.deleteLast] at h
  split at h
  · cases h
  · split at h
    · cases h
    · split at h
      · cases h
      · cases h
        exact ⟨by assumption, by assumption, rfl, rfl, rfl, _, by assumption, rfl⟩

theorem deleteLast_key {c c' : VChain} {a : Abs} (hi : Inv c a) (h : c.deleteLast = some c') (k : Key) :
    (touchAt a.hist k c.last = none ∧ c'.st k = c.st k) ∨
    (touchAt a.hist k c.last ≠ none ∧ c'.st k = unlinkKey c.last (c.st k) (c.st k)) := by
  obtain ⟨f1, f2, f3, f4, f5, out, f6, f7⟩ := deleteLast_fields h
  have hgen := hi.gen
  have hlast := hi.last
  have hlt : c.last - 1 < a.hist.length := by omega
  have hg : c.genesis ≤ c.last ∧ 1 ≤ c.last := by
    rcases hi.rng with ⟨h1, h2⟩ | h2
    · rw [h1] at hlast; simp at hlast; omega
    · omega
  rw [hi.blocks, if_pos hg, List.getElem?_eq_getElem hlt] at f6
  simp only [Option.map_some, Option.some.injEq] at f6
  have hw := hi.wf _ (List.getElem_mem hlt)
  rw [f7, deleteLastReachable_key _ _ (by rw [← f6]; exact outOf_sorted _ hw), ← f6, outOf_lookup _ hw,
    touchAt_get f1 (List.getElem?_eq_getElem hlt)]
  cases touch a.hist[c.last - 1] k with
  | none => exact Or.inl ⟨rfl, rfl⟩
  | some t => exact Or.inr ⟨by simp, rfl⟩

theorem inv_deleteLast {c c' : VChain} {a : Abs} (hi : Inv c a) (h : c.deleteLast = some c') :
    Inv c' (a.step .deleteLast) := by
  obtain ⟨f1, f2, f3, f4, f5, out, f6, f7⟩ := deleteLast_fields h
  have hgen := hi.gen
  have hlast := hi.last
  have hrng : 1 ≤ a.genesis ∧ a.genesis ≤ a.hist.length := by
    rcases hi.rng with ⟨h1, h2⟩ | h2
    · rw [h1] at hlast; simp at hlast; omega
    · exact h2
  refine ⟨fun i hm => hi.wf i (List.dropLast_subset _ hm), ?_, by rw [f3]; exact hgen, Or.inr ⟨?_, ?_⟩,
    by have := hi.lt; omega, ?_, ?_⟩
  · rw [f4]; simp only [Abs.step, List.length_dropLast]; omega
  · exact hrng.1
  · simp only [Abs.step, List.length_dropLast]; omega
  · intro b
    rw [f5, f3]
    simp only [Abs.step]
    rw [hi.blocks b, List.getElem?_dropLast]
    by_cases e : b = c.last
    · rw [if_pos e]
      split
      · rw [if_neg (by omega)]; rfl
      · rfl
    · rw [if_neg e]
      by_cases hc : c.genesis ≤ b ∧ 1 ≤ b
      · rw [if_pos hc, if_pos hc]
        by_cases h2 : b - 1 < a.hist.length - 1
        · rw [if_pos h2]
        · rw [if_neg h2, List.getElem?_eq_none (by omega)]
      · rw [if_neg hc, if_neg hc]
  · intro k
    rw [f3]
    simp only [Abs.step]
    have hb : ∀ b, b < c.last → touchAt a.hist.dropLast k b = touchAt a.hist k b := by
      intro b hb; rw [touchAt_dropLast, if_pos (by omega)]
    have hT' : ∀ b, c.last ≤ b → touchAt a.hist.dropLast k b = none := by
      intro b hb; rw [touchAt_dropLast, if_neg (by omega)]
    rcases deleteLast_key hi h k with ⟨h1, h2⟩ | ⟨h1, h2⟩
    · rw [h2]
      refine (hi.keys k).congr (fun b => ?_)
      by_cases hlt : b < c.last
      · exact hb b hlt
      · rw [hT' b (by omega)]
        cases h3 : touchAt a.hist k b with
        | none => rfl
        | some t =>
          have := touchAt_le a.hist k b (by rw [h3]; simp)
          have e : b = c.last := by omega
          rw [e, h1] at h3; cases h3
    · rw [h2]
      exact ((hi.keys k).unlink (by rw [hlast]; exact touchAt_le a.hist k) (by omega) hb hT').1

theorem inv_step {c c' : VChain} {a : Abs} (hi : Inv c a) {e : Ev} (hw : ∀ inp, e = .add inp → inp.wf)
    (h : c.step e = some c') : Inv c' (a.step e) := by
  cases e with
  | add inp =>
    simp only [VChain.step] at h
    split at h
    · cases h; exact inv_add hi (hw inp rfl) (by assumption)
    · cases h
  | prune => exact inv_prune hi h
  | deleteLast => exact inv_deleteLast hi h

theorem inv_run {c c' : VChain} {a : Abs} (hi : Inv c a) : ∀ {evs : List Ev}, AllAdds VInput.wf evs →
    c.run evs = some c' → Inv c' (a.run evs) := by
  intro evs
  induction evs generalizing c a with
  | nil => intro _ h; cases h; exact hi
  | cons e es ih =>
    intro hw h
    simp only [VChain.run] at h
    cases hs : c.step e with
    | none => rw [hs] at h; cases h
    | some c1 =>
      rw [hs] at h
      exact ih (inv_step hi (fun inp he => hw inp (by rw [he]; exact List.mem_cons_self)) hs)
        (fun inp hm => hw inp (List.mem_cons_of_mem _ hm)) h

/-! ### reads in terms of the invariant -/

theorem touch_op (inp : VInput) (k : Key) : opOf inp k = (touch inp k).map (fun t =>
    if t.1.deleted then Op.del else .put t.1.data (match inp.kv.lookup k with | some v => v.staleOnUpdate | none => false)) := by
  simp only [opOf, touch]
  cases inp.kv.lookup k with
  | some v => simp
  | none => by_cases h : k ∈ inp.deletes <;> simp [h]

/-- the user's operation against what the block left -/
theorem touch_cases (inp : VInput) (k : Key) :
    (touch inp k = none ∧ opOf inp k = none) ∨
    (∃ v fl, touch inp k = some (v, fl) ∧ v.deleted = true ∧ fl = ⟨true, false⟩ ∧ opOf inp k = some .del) ∨
    (∃ d st fl, touch inp k = some (⟨false, d⟩, fl) ∧ opOf inp k = some (.put d st) ∧
      (inp.disjoint → fl = ⟨false, st⟩) ∧ (k ∈ inp.deletes → fl = ⟨true, false⟩) ∧
      (k ∉ inp.deletes → fl = ⟨false, st⟩)) := by
  simp only [opOf, touch]
  cases h : inp.kv.lookup k with
  | some v =>
    refine Or.inr (Or.inr ⟨v.data, v.staleOnUpdate, _, rfl, rfl, ?_, ?_, ?_⟩)
    · intro hd
      have hm : k ∈ inp.kv.map (·.1) := List.mem_map.2 ⟨_, mem_of_lookup h, rfl⟩
      rw [if_neg (fun hk => hd k hk hm)]
    · intro hk; rw [if_pos hk]
    · intro hk; rw [if_neg hk]
  | none =>
    by_cases hk : k ∈ inp.deletes
    · exact Or.inr (Or.inl ⟨⟨true, []⟩, ⟨true, false⟩, by simp [hk], rfl, rfl, by simp [hk]⟩)
    · exact Or.inl ⟨by simp [hk], by simp [hk]⟩

theorem opAt_none_iff (h : List VInput) (k : Key) (b : Nat) : opAt h k b = none ↔ touchAt h k b = none := by
  simp only [opAt, touchAt]
  split
  · simp
  · cases h[b - 1]? with
    | none => simp
    | some inp =>
      simp only [Option.bind_some]
      rcases touch_cases inp k with ⟨h1, h2⟩ | ⟨v, fl, h1, _, _, h2⟩ | ⟨d, st, fl, h1, h2, _⟩
      · simp [h1, h2]
      · simp [h1, h2]
      · simp [h1, h2]

theorem specAt_eq (h : List VInput) (k : Key) (b : Nat) :
    specAt h k b = match (touchAt h k b).map (·.1) with
      | none => none
      | some v => if v.deleted then none else some (b, v.data) := by
  simp only [specAt, opAt, touchAt]
  by_cases hb : b = 0
  · simp [hb]
  · rw [if_neg hb, if_neg hb]
    cases h[b - 1]? with
    | none => simp
    | some inp =>
      simp only [Option.bind_some]
      rcases touch_cases inp k with ⟨h1, h2⟩ | ⟨v, fl, h1, h3, _, h2⟩ | ⟨d, st, fl, h1, h2, _⟩
      · simp [h1, h2]
      · simp [h1, h2, h3]
      · simp [h1, h2]

theorem newest_some {h : List VInput} {k : Key} : ∀ {n b : Nat} {op : Op}, newest h k n = some (b, op) →
    opAt h k b = some op ∧ b ≤ n ∧ ∀ b', b < b' → b' ≤ n → opAt h k b' = none
  | 0, _, _, h => by simp [newest] at h
  | n + 1, b, op, hn => by
    simp only [newest] at hn
    cases ho : opAt h k (n + 1) with
    | some op' =>
      simp only [ho, Option.some.injEq, Prod.mk.injEq] at hn
      obtain ⟨rfl, rfl⟩ := hn
      exact ⟨ho, Nat.le_refl _, fun b' h1 h2 => by omega⟩
    | none =>
      simp only [ho] at hn
      obtain ⟨h1, h2, h3⟩ := newest_some hn
      refine ⟨h1, by omega, fun b' h4 h5 => ?_⟩
      by_cases e : b' = n + 1
      · rw [e, ho]
      · exact h3 b' h4 (by omega)

theorem newest_none {h : List VInput} {k : Key} : ∀ {n : Nat}, newest h k n = none → ∀ b, b ≤ n → opAt h k b = none
  | 0, _, b, hb => by
    have : b = 0 := by omega
    subst this; simp [opAt]
  | n + 1, hn, b, hb => by
    simp only [newest] at hn
    cases ho : opAt h k (n + 1) with
    | some op' => simp [ho] at hn
    | none =>
      simp only [ho] at hn
      by_cases e : b = n + 1
      · rw [e, ho]
      · exact newest_none hn b (by omega)

/-- `getLatest` reads the newest stored version -/
theorem getLatest_eq {x : VState} {k : Key} {T : Nat → Option (DbValue × VFlags)} {g : Nat} (hi : KInv (x k) T g)
    {b : Nat} {d : DbValue} (hb : b < 2 ^ 63) (h : (x k).values b = some d)
    (hm : ∀ b', b < b' → (x k).values b' = none) :
    getLatest x k = if d.deleted then none else some (b, d.data) := by
  have hl := hi.latest_eq h hm
  have hde := decode_encode ⟨d.deleted, b⟩ hb
  simp only [getLatest, getLatestVersion, hl, Option.map_some, hde, get, h]
  cases d.deleted <;> simp

theorem getLatest_none {x : VState} {k : Key} {T : Nat → Option (DbValue × VFlags)} {g : Nat} (hi : KInv (x k) T g)
    (h : ∀ b, (x k).values b = none) : getLatest x k = none := by
  cases hl : (x k).latest with
  | none => simp [getLatest, getLatestVersion, hl]
  | some n =>
    obtain ⟨v, d, _, h1, _⟩ := hi.latSome n hl
    rw [h v] at h1; cases h1

/-- either nothing is stored, or there is a newest version, whose block is in the chain -/
theorem stored_cases {c : VChain} {a : Abs} (hi : Inv c a) (k : Key) :
    (∀ b, (c.st k).values b = none) ∨
    ∃ b d fl, (c.st k).values b = some d ∧ touchAt a.hist k b = some (d, fl) ∧ b ≤ a.hist.length ∧
      (∀ b', b < b' → (c.st k).values b' = none) := by
  have hk := hi.keys k
  cases hl : (c.st k).latest with
  | none => exact Or.inl (hk.latNone hl)
  | some n =>
    obtain ⟨b, d, _, h1, h2⟩ := hk.latSome n hl
    refine Or.inr ⟨b, d, ?_⟩
    have : ∃ fl, touchAt a.hist k b = some (d, fl) := by
      by_cases hb : b < c.genesis
      · obtain ⟨_, ⟨fl, h3, _⟩, _⟩ := hk.old b d hb h1
        exact ⟨fl, h3⟩
      · have := hk.live b (by omega)
        rw [h1] at this
        cases ht : touchAt a.hist k b with
        | none => rw [ht] at this; cases this
        | some t => rw [ht] at this; simp at this; exact ⟨t.2, by rw [this]⟩
    obtain ⟨fl, h3⟩ := this
    exact ⟨fl, h1, h3, touchAt_le a.hist k b (by rw [h3]; simp), h2⟩

/-! ### C23 -/

/-- **C23** A versioned read at a block that is not pruned returns exactly what that block put. -/
theorem get_exact {evs : List Ev} (hw : AllAdds VInput.wf evs) {c : VChain} (h : VChain.empty.run evs = some c)
    (k : Key) {b : Nat} (h1 : (Abs.empty.run evs).genesis ≤ b) :
    get c.st k b = specAt (Abs.empty.run evs).hist k b := by
  have hi := inv_run inv_empty hw h
  rw [specAt_eq, get, (hi.keys k).live b (by rw [hi.gen]; exact h1)]
  cases touchAt (Abs.empty.run evs).hist k b <;> rfl

/-- **C23** A versioned read at a pruned block returns nothing or what that block put. -/
theorem get_pruned {evs : List Ev} (hw : AllAdds VInput.wf evs) {c : VChain} (h : VChain.empty.run evs = some c)
    (k : Key) (b : Nat) : get c.st k b = none ∨ get c.st k b = specAt (Abs.empty.run evs).hist k b := by
  have hi := inv_run inv_empty hw h
  by_cases hb : b < c.genesis
  · cases hv : (c.st k).values b with
    | none => left; simp [get, hv]
    | some v =>
      obtain ⟨_, ⟨fl, h3, _⟩, _⟩ := (hi.keys k).old b v hb hv
      right
      rw [specAt_eq, h3, get, hv]; rfl
  · right
    exact get_exact hw h k (by rw [← hi.gen]; omega)

/-- **C23** A latest read is never wrong: it is what the newest block touching the key put, or nothing. -/
theorem latest_never_wrong {evs : List Ev} (hw : AllAdds VInput.wf evs) {c : VChain}
    (h : VChain.empty.run evs = some c) (k : Key) {b : Nat} {d : Bytes} (hr : getLatest c.st k = some (b, d)) :
    ∃ st, newest (Abs.empty.run evs).hist k (Abs.empty.run evs).hist.length = some (b, .put d st) := by
  have hi := inv_run inv_empty hw h
  have hk := hi.keys k
  rcases stored_cases hi k with hn | ⟨b', d', fl, h1, h2, h3, h4⟩
  · rw [getLatest_none hk hn] at hr; cases hr
  · have hlast := hi.last
    have hlt := hi.lt
    rw [getLatest_eq hk (by omega) h1 h4] at hr
    split at hr
    · cases hr
    · rename_i hd
      cases hr
      -- no newer block touches the key
      have hno : ∀ b'', b < b'' → touchAt (Abs.empty.run evs).hist k b'' = none := by
        intro b'' hb''
        by_cases hg : b'' < c.genesis
        · exact (hk.old b d' (by omega) h1).2.2 b'' hb'' hg
        · have := hk.live b'' (by omega)
          rw [h4 b'' hb''] at this
          cases ht : touchAt (Abs.empty.run evs).hist k b'' with
          | none => rfl
          | some t => rw [ht] at this; cases this
      cases hn : newest (Abs.empty.run evs).hist k (Abs.empty.run evs).hist.length with
      | none =>
        have := newest_none hn b h3
        rw [opAt_none_iff, h2] at this; cases this
      | some p =>
        obtain ⟨pb, op⟩ := p
        obtain ⟨n1, n2, n3⟩ := newest_some hn
        have hpb : pb = b := by
          rcases Nat.lt_trichotomy pb b with hx | hx | hx
          · have := n3 b hx h3
            rw [opAt_none_iff, h2] at this; cases this
          · exact hx
          · have := (opAt_none_iff _ _ _).2 (hno pb hx)
            rw [this] at n1; cases n1
        subst hpb
        have := specAt_eq (Abs.empty.run evs).hist k pb
        rw [h2] at this
        simp only [Option.map_some, hd, if_false, specAt, n1] at this
        cases op with
        | del => cases this
        | put d0 st =>
          simp only [Bool.false_eq_true, if_false, Option.some.injEq, Prod.mk.injEq, true_and] at this
          exact ⟨st, by rw [this]⟩

/-! ### completeness of latest reads -/

theorem done_step {c c' : VChain} {a : Abs} (hi : Inv c a) (hs : a.seen ≤ a.hist.length)
    (hd : ∀ k, KDone (c.st k) (touchAt a.hist k) c.genesis a.seen) {e : Ev}
    (hw : ∀ inp, e = .add inp → inp.wf) (hu : e = .deleteLast → a.seen < a.hist.length)
    (h : c.step e = some c') :
    (a.step e).seen ≤ (a.step e).hist.length ∧
    ∀ k, KDone (c'.st k) (touchAt (a.step e).hist k) c'.genesis (a.step e).seen := by
  cases e with
  | add inp =>
    simp only [VChain.step] at h
    split at h
    · cases h
      refine ⟨by simp [Abs.step]; omega, fun k p v fl hp ht h1 h2 h3 => ?_⟩
      have hrng : p ≤ a.hist.length := by
        simp only [VChain.addBlock] at hp
        rcases hi.rng with ⟨r1, r2⟩ | ⟨r1, r2⟩
        · rw [hi.gen, r2] at hp; simp at hp; omega
        · have := hi.gen; split at hp <;> omega
      simp only [Abs.step] at ht h3 ⊢
      rw [touchAt_append, if_neg (by omega)] at ht
      have hp' : p < c.genesis := by
        simp only [VChain.addBlock] at hp
        split at hp
        · have : p = 0 := by omega
          subst this; simp [touchAt] at ht
        · exact hp
      have := hd k p v fl hp' ht h1 h2 (fun b hb1 hb2 => by
        have := h3 b hb1 hb2
        rw [touchAt_append, if_neg (by omega)] at this
        exact this)
      simp only [VChain.addBlock]
      rw [add_key _ _ (hw inp rfl)]
      cases touch inp k with
      | none => exact this
      | some t =>
        simp only [KState.write, KState.putLatest, KState.putValue]
        rw [if_neg (by have := hi.last; omega)]
        exact this
    · cases h
  | prune =>
    refine ⟨Nat.le_refl _, fun k p v fl hp ht h1 h2 h3 => ?_⟩
    obtain ⟨f1, f2, f3, f4, f5⟩ := prune_fields h
    simp only [Abs.step] at ht h3
    rw [f3] at hp
    have hnone : ∀ b, p < b → touchAt a.hist k b = none := by
      intro b hb
      by_cases hl : b ≤ a.hist.length
      · exact h3 b hb hl
      · cases hx : touchAt a.hist k b with
        | none => rfl
        | some t => exact absurd (touchAt_le a.hist k b (by rw [hx]; simp)) hl
    rcases prune_key hi h k with ⟨g1, g2⟩ | ⟨w, wfl, g1, g2⟩
    · rw [g2]
      have hpg : p ≠ c.genesis := fun e => by rw [e, g1] at ht; cases ht
      exact hd k p v fl (by omega) ht h1 h2 (fun b hb _ => hnone b hb)
    · have := ((hi.keys k).prune_touched (touchAt_le a.hist k) (by have := hi.lt; have := hi.last; omega) g1
        (touchAt_not_deleted g1) g2).2
      by_cases e : p = c.genesis
      · subst e
        rw [g1] at ht
        cases ht
        exact this.2.2.1 h1 h2 hnone
      · have := hnone c.genesis (by omega)
        rw [g1] at this; cases this
  | deleteLast =>
    have hlt := hu rfl
    obtain ⟨f1, f2, f3, f4, f5, _⟩ := deleteLast_fields h
    refine ⟨by simp [Abs.step]; omega, fun k p v fl hp ht h1 h2 h3 => ?_⟩
    simp only [Abs.step] at ht h3
    rw [f3] at hp
    have hgl : c.genesis ≤ a.hist.length := by
      have := hi.gen
      rcases hi.rng with ⟨r1, r2⟩ | r2
      · omega
      · omega
    have hlast := hi.last
    rw [touchAt_dropLast, if_pos (by omega)] at ht
    have hv := hd k p v fl hp ht h1 h2 (fun b hb1 hb2 => by
      have := h3 b hb1 hb2
      rw [touchAt_dropLast, if_pos (by omega)] at this
      exact this)
    rcases deleteLast_key hi h k with ⟨g1, g2⟩ | ⟨g1, g2⟩
    · rw [g2]; exact hv
    · rw [g2]
      have : (unlinkKey c.last (c.st k) (c.st k)).values p = if p = c.last then none else (c.st k).values p := by
        simp only [unlinkKey]
        cases prevVersion (c.st k) c.last <;> rfl
      rw [this, if_neg (by omega)]
      exact hv

theorem done_run {c c' : VChain} {a : Abs} : ∀ {evs : List Ev}, Inv c a → a.seen ≤ a.hist.length →
    (∀ k, KDone (c.st k) (touchAt a.hist k) c.genesis a.seen) → AllAdds VInput.wf evs → UndoSafe a evs →
    c.run evs = some c' →
    (a.run evs).seen ≤ (a.run evs).hist.length ∧
      ∀ k, KDone (c'.st k) (touchAt (a.run evs).hist k) c'.genesis (a.run evs).seen := by
  intro evs
  induction evs generalizing c a with
  | nil => intro hi hs hd _ _ h; cases h; exact ⟨hs, hd⟩
  | cons e es ih =>
    intro hi hs hd hw hu h
    simp only [VChain.run] at h
    cases hst : c.step e with
    | none => rw [hst] at h; cases h
    | some c1 =>
      rw [hst] at h
      have hw1 : ∀ inp, e = .add inp → inp.wf := fun inp he => hw inp (by rw [he]; exact List.mem_cons_self)
      have hu1 : e = .deleteLast → a.seen < a.hist.length := by
        intro he; subst he; exact hu.1
      have hu2 : UndoSafe (a.step e) es := by
        cases e with
        | add _ => exact hu
        | prune => exact hu
        | deleteLast => exact hu.2
      have hd' := done_step hi hs hd hw1 hu1 hst
      exact ih (inv_step hi hw1 hst) hd'.1 hd'.2 (fun inp hm => hw inp (List.mem_cons_of_mem _ hm)) hu2 h

/-- **C23, C24** Latest reads, for every history of additions, prunings and deletions of blocks added since the last
pruning: the value of the newest block that touches the key, unless it deleted the key, or put it stale-on-update and
has been pruned.  Pruning therefore changes no other latest read. -/
theorem latest_exact {evs : List Ev} (hw : AllAdds VInput.wf evs) (hdj : AllAdds VInput.disjoint evs)
    (hu : UndoSafe Abs.empty evs) {c : VChain} (h : VChain.empty.run evs = some c) (k : Key) :
    getLatest c.st k = specLatest (Abs.empty.run evs).hist (Abs.empty.run evs).genesis k := by
  have hi := inv_run inv_empty hw h
  have hdone := (done_run inv_empty (Nat.le_refl _) (fun k p v fl hp => absurd hp (Nat.not_lt_zero _)) hw hu h)
  have hdjh : ∀ inp ∈ (Abs.empty.run evs).hist, inp.disjoint := by
    have aux : ∀ (evs : List Ev) (a : Abs), (∀ inp ∈ a.hist, inp.disjoint) → AllAdds VInput.disjoint evs →
        ∀ inp ∈ (a.run evs).hist, inp.disjoint := by
      intro evs
      induction evs with
      | nil => intro a ha _; exact ha
      | cons e es ih =>
        intro a ha hd
        apply ih (a.step e) _ (fun i hm => hd i (List.mem_cons_of_mem _ hm))
        cases e with
        | add inp =>
          intro i hm
          rcases List.mem_append.1 hm with hm | hm
          · exact ha i hm
          · simp at hm; rw [hm]; exact hd inp List.mem_cons_self
        | prune => exact ha
        | deleteLast => exact fun i hm => ha i (List.dropLast_subset _ hm)
    exact aux evs Abs.empty (by simp [Abs.empty]) hdj
  generalize Abs.empty.run evs = a at hi hdone hdjh
  have hk := hi.keys k
  have hlast := hi.last
  have hlt := hi.lt
  have hgen := hi.gen
  simp only [specLatest]
  cases hn : newest a.hist k a.hist.length with
  | none =>
    have hall : ∀ b, touchAt a.hist k b = none := by
      intro b
      by_cases hb : b ≤ a.hist.length
      · exact (opAt_none_iff _ _ _).1 (newest_none hn b hb)
      · cases hx : touchAt a.hist k b with
        | none => rfl
        | some t => exact absurd (touchAt_le a.hist k b (by rw [hx]; simp)) hb
    rcases stored_cases hi k with h1 | ⟨b, d, fl, _, h2, _⟩
    · simp only; exact getLatest_none hk h1
    · rw [hall b] at h2; cases h2
  | some p =>
    obtain ⟨b, op⟩ := p
    obtain ⟨n1, n2, n3⟩ := newest_some hn
    have hnone : ∀ b', b < b' → touchAt a.hist k b' = none := by
      intro b' hb'
      by_cases hl : b' ≤ a.hist.length
      · exact (opAt_none_iff _ _ _).1 (n3 b' hb' hl)
      · cases hx : touchAt a.hist k b' with
        | none => rfl
        | some t => exact absurd (touchAt_le a.hist k b' (by rw [hx]; simp)) hl
    -- nothing stored above b
    have hup : ∀ b', b < b' → (c.st k).values b' = none := by
      intro b' hb'
      by_cases hg : b' < c.genesis
      · cases hv : (c.st k).values b' with
        | none => rfl
        | some v =>
          obtain ⟨_, ⟨fl, h3, _⟩, _⟩ := hk.old b' v hg hv
          rw [hnone b' hb'] at h3; cases h3
      · rw [hk.live b' (by omega), hnone b' hb']; rfl
    have hb0 : b ≠ 0 := by
      intro e; subst e; simp [opAt] at n1
    obtain ⟨inp, hinp⟩ : ∃ inp, a.hist[b - 1]? = some inp :=
      ⟨_, List.getElem?_eq_getElem (show b - 1 < a.hist.length by omega)⟩
    have hmem : inp ∈ a.hist := List.mem_of_getElem? hinp
    have ho : opOf inp k = some op := by simpa [opAt, hb0, hinp] using n1
    have hta := touchAt_get (k := k) hb0 hinp
    -- nothing stored below b if b is pruned
    have hdown : b < c.genesis → (c.st k).values b = none → ∀ b', (c.st k).values b' = none := by
      intro hg hv b'
      rcases Nat.lt_trichotomy b' b with hx | hx | hx
      · cases hw2 : (c.st k).values b' with
        | none => rfl
        | some w =>
          have := (hk.old b' w (by omega) hw2).2.2 b hx hg
          rw [hta] at this
          have h5 := (opAt_none_iff a.hist k b).2 (by rw [hta]; exact this)
          rw [n1] at h5; cases h5
      · rw [hx]; exact hv
      · exact hup b' hx
    rcases touch_cases inp k with ⟨t1, t2⟩ | ⟨v, fl, t1, t2, t3, t4⟩ | ⟨d, st, fl, t1, t2, t3, t4⟩
    · rw [t2] at ho; cases ho
    · -- deleted
      rw [t4] at ho
      cases ho
      simp only
      by_cases hg : b < c.genesis
      · have hv : (c.st k).values b = none := by
          cases hw2 : (c.st k).values b with
          | none => rfl
          | some w =>
            obtain ⟨_, ⟨fl', h3, _, h5⟩, _⟩ := hk.old b w hg hw2
            rw [hta, t1] at h3; cases h3; rw [t3] at h5; cases h5
        exact getLatest_none hk (hdown hg hv)
      · have hv := hk.live b (by omega)
        rw [hta, t1] at hv
        rw [getLatest_eq hk (by omega) hv hup, t2]
        rfl
    · rw [t2] at ho
      cases ho
      simp only
      have hfl : fl = ⟨false, st⟩ := t3 (hdjh inp hmem)
      by_cases hg : b < c.genesis
      · cases st with
        | true =>
          rw [if_pos ⟨rfl, by omega⟩]
          have hv : (c.st k).values b = none := by
            cases hw2 : (c.st k).values b with
            | none => rfl
            | some w =>
              obtain ⟨_, ⟨fl', h3, h4, h5⟩, _⟩ := hk.old b w hg hw2
              rw [hta, t1] at h3; cases h3; rw [hfl] at h4; cases h4
          exact getLatest_none hk (hdown hg hv)
        | false =>
          rw [if_neg (by simp)]
          have hv := hdone.2 k b ⟨false, d⟩ fl hg (by rw [hta, t1]) (by rw [hfl]) (by rw [hfl])
            (fun b' h1 _ => hnone b' h1)
          rw [getLatest_eq hk (by omega) hv hup]
          rfl
      · rw [if_neg (by omega)]
        have hv := hk.live b (by omega)
        rw [hta, t1] at hv
        rw [getLatest_eq hk (by omega) hv hup]
        rfl

end Verif.Kvbc
