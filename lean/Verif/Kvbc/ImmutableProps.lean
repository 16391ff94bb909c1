import Verif.Kvbc.Immutable
set_option linter.unusedSimpArgs false
set_option linter.unusedVariables false
/-!
# C23–C25 for the immutable category
-/
namespace Verif.Kvbc
open Verif.Bytes

theorem iDelete_key (keys : List Key) (s : IState) (k : Key) : iDelete keys s k = if k ∈ keys then none else s k := by
  induction keys generalizing s with
  | nil => rfl
  | cons x xs ih =>
    show iDelete xs (fun k' => if k' = x then none else s k') k = _
    rw [ih]
    by_cases h : k ∈ xs
    · rw [if_pos h, if_pos (List.mem_cons_of_mem _ h)]
    · rw [if_neg h]
      by_cases e : k = x
      · rw [if_pos e, if_pos (by rw [e]; exact List.mem_cons_self)]
      · rw [if_neg e, if_neg (fun hm => (List.mem_cons.1 hm).elim e h)]

theorem iAdd_other {b : Nat} {inp : IInput} {s : IState} {k : Key} (h : k ∉ inp.map (·.1)) : (iAdd b inp s).1 k = s k := by
  induction inp generalizing s with
  | nil => rfl
  | cons x xs ih =>
    simp only [List.map_cons, List.mem_cons, not_or] at h
    show (iAdd b xs (fun k => if k = x.1 then some (b, x.2) else s k)).1 k = _
    rw [ih h.2, if_neg h.1]

theorem iAdd_mem {b : Nat} {inp : IInput} {s : IState} {k : Key} {d : Bytes} (hn : (inp.map (·.1)).Nodup)
    (h : (k, d) ∈ inp) : (iAdd b inp s).1 k = some (b, d) := by
  induction inp generalizing s with
  | nil => cases h
  | cons x xs ih =>
    rw [List.map_cons, List.nodup_cons] at hn
    show (iAdd b xs (fun k => if k = x.1 then some (b, x.2) else s k)).1 k = _
    rcases List.mem_cons.1 h with e | h
    · subst e
      rw [iAdd_other hn.1, if_pos rfl]
    · exact ih hn.2 h

structure IInv (c : IChain) (a : IAbs) : Prop where
  last : c.last = a.hist.length
  gen : c.genesis = a.genesis
  rng : (a.hist = [] ∧ a.genesis = 0) ∨ (1 ≤ a.genesis ∧ a.genesis ≤ a.hist.length)
  blocks : ∀ b, c.blocks b = if 1 ≤ b ∧ a.genesis ≤ b then (a.hist[b - 1]?).map (fun i => i.map (·.1)) else none
  st : ∀ k b d, c.st k = some (b, d) ↔ a.puts k b d

theorem iinv_empty : IInv IChain.empty IAbs.empty := by
  refine ⟨rfl, rfl, Or.inl ⟨rfl, rfl⟩, fun b => ?_, fun k b d => ?_⟩
  · show none = if 1 ≤ b ∧ 0 ≤ b then (([] : List IInput)[b - 1]?).map (fun i => i.map (·.1)) else none
    rw [List.getElem?_nil, Option.map_none, ite_self]
  · constructor
    · intro h; cases h
    · rintro ⟨_, _, inp, h, _⟩; cases h

theorem iinv_add {c : IChain} {a : IAbs} (hi : IInv c a) {inp : IInput} (hn : (inp.map (·.1)).Nodup)
    (hf : ∀ k ∈ inp.map (·.1), ∀ b d, ¬ a.puts k b d) : IInv (c.addBlock inp) (a.step (.add inp)) := by
  have hl := hi.last
  have hg := hi.gen
  have hrng := hi.rng
  have hgen : (c.addBlock inp).genesis = (a.step (.add inp)).genesis := by
    simp only [IChain.addBlock, IAbs.step, hg]
  have hG : (a.genesis = 0 → (a.step (.add inp)).genesis = 1 ∧ a.hist = []) ∧
      (a.genesis ≠ 0 → (a.step (.add inp)).genesis = a.genesis) := by
    refine ⟨fun e => ⟨by simp only [IAbs.step, e, if_true], ?_⟩, fun e => by simp only [IAbs.step]; rw [if_neg e]⟩
    rcases hrng with h | h
    · exact h.1
    · omega
  refine ⟨?_, hgen, ?_, ?_, ?_⟩
  · simp only [IChain.addBlock, IAbs.step, List.length_append, List.length_cons, List.length_nil, hl]
  · right
    simp only [IAbs.step, List.length_append, List.length_cons, List.length_nil]
    split <;> omega
  · intro b
    show (if b = c.last + 1 then some (iAdd (c.last + 1) inp c.st).2 else c.blocks b) =
      if 1 ≤ b ∧ (a.step (.add inp)).genesis ≤ b then ((a.hist ++ [inp])[b - 1]?).map (fun i => i.map (·.1)) else none
    generalize (a.step (.add inp)).genesis = G at hG
    have hGle : G ≤ a.hist.length + 1 := by
      by_cases e : a.genesis = 0
      · have := (hG.1 e).1; omega
      · have := hG.2 e; rcases hrng with h | h <;> omega
    by_cases e : b = c.last + 1
    · subst e
      rw [if_pos rfl, if_pos (by omega), Nat.add_sub_cancel, hl, List.getElem?_append_right (Nat.le_refl _)]
      simp [iAdd]
    · rw [if_neg e, hi.blocks]
      by_cases e2 : c.last + 1 < b
      · rw [List.getElem?_eq_none (by omega), List.getElem?_eq_none (by simp; omega)]
        simp only [Option.map_none, ite_self]
      · by_cases e3 : 1 ≤ b
        · rw [List.getElem?_append_left (by omega)]
          by_cases e4 : a.genesis = 0
          · have := (hG.1 e4).2
            rw [this] at hl; simp at hl; omega
          · rw [hG.2 e4]
        · rw [if_neg (by omega), if_neg (by omega)]
  · intro k b d
    have hputs : (a.step (.add inp)).puts k b d ↔ a.puts k b d ∨ (b = a.hist.length + 1 ∧ (k, d) ∈ inp) := by
      simp only [IAbs.puts, IAbs.step]
      constructor
      · rintro ⟨h1, h2, i, h3, h4⟩
        by_cases e : b = a.hist.length + 1
        · right
          subst e
          rw [Nat.add_sub_cancel, List.getElem?_append_right (Nat.le_refl _)] at h3
          simp at h3; subst h3; exact ⟨rfl, h4⟩
        · left
          have hlt : b - 1 < a.hist.length := by
            have : b - 1 < (a.hist ++ [inp]).length := by
              rcases Nat.lt_or_ge (b - 1) (a.hist ++ [inp]).length with h | h
              · exact h
              · rw [List.getElem?_eq_none h] at h3; cases h3
            simp at this; omega
          rw [List.getElem?_append_left hlt] at h3
          refine ⟨h1, ?_, i, h3, h4⟩
          split at h2 <;> omega
      · rintro (⟨h1, h2, i, h3, h4⟩ | ⟨h1, h2⟩)
        · have hlt : b - 1 < a.hist.length := by
            rcases Nat.lt_or_ge (b - 1) a.hist.length with h | h
            · exact h
            · rw [List.getElem?_eq_none h] at h3; cases h3
          refine ⟨h1, ?_, i, ?_, h4⟩
          · split <;> omega
          · rw [List.getElem?_append_left hlt]; exact h3
        · subst h1
          refine ⟨by omega, ?_, inp, ?_, h2⟩
          · split
            · omega
            · rcases hrng with h | h <;> omega
          · rw [Nat.add_sub_cancel, List.getElem?_append_right (Nat.le_refl _)]; simp
    rw [hputs]
    show (iAdd (c.last + 1) inp c.st).1 k = some (b, d) ↔ _
    by_cases hk : k ∈ inp.map (·.1)
    · obtain ⟨x, hx, e⟩ := List.mem_map.1 hk
      subst e
      rw [iAdd_mem hn (show (x.1, x.2) ∈ inp from hx)]
      constructor
      · intro h
        cases h
        exact Or.inr ⟨by rw [hl], hx⟩
      · rintro (h | ⟨h1, h2⟩)
        · exact absurd h (hf _ hk b d)
        · rw [← iAdd_mem (b := c.last + 1) (s := c.st) hn hx, iAdd_mem hn h2, h1, hl]
    · rw [iAdd_other hk, hi.st]
      constructor
      · exact Or.inl
      · rintro (h | ⟨_, h2⟩)
        · exact h
        · exact absurd (List.mem_map.2 ⟨_, h2, rfl⟩) hk

theorem iinv_prune {c c' : IChain} {a : IAbs} (hi : IInv c a) (h : c.prune = some c') : IInv c' (a.step .prune) := by
  have hl := hi.last
  have hg := hi.gen
  simp only [IChain.prune] at h
  split at h
  · cases h
  · split at h
    · cases h
    · split at h
      · cases h
      · rename_i h1 h2 keys hb
        simp only [Option.some.injEq] at h
        subst h
        have hr : 1 ≤ a.genesis ∧ a.genesis ≤ a.hist.length := by rcases hi.rng with h | h <;> omega
        refine ⟨hl, by simp only [IAbs.step, hg], Or.inr (by simp only [IAbs.step]; omega), ?_, ?_⟩
        · intro b
          show (if b = c.genesis then none else c.blocks b) = if 1 ≤ b ∧ a.genesis + 1 ≤ b then
            (a.hist[b - 1]?).map (fun i => i.map (·.1)) else none
          by_cases e : b = c.genesis
          · rw [if_pos e, if_neg (by omega)]
          · rw [if_neg e, hi.blocks]
            by_cases e2 : 1 ≤ b ∧ a.genesis ≤ b
            · rw [if_pos e2, if_pos (by omega)]
            · rw [if_neg e2, if_neg (by omega)]
        · intro k b d
          simp only [iDelete_key]
          rw [hi.blocks, hg, if_pos (by omega)] at hb
          cases hx : a.hist[a.genesis - 1]? with
          | none => rw [hx] at hb; cases hb
          | some inp =>
            rw [hx] at hb
            simp only [Option.map_some, Option.some.injEq] at hb
            subst hb
            constructor
            · intro h
              split at h
              · cases h
              · rename_i hk
                obtain ⟨p1, p2, i, p3, p4⟩ := (hi.st k b d).1 h
                refine ⟨p1, ?_, i, p3, p4⟩
                simp only [IAbs.step]
                rcases Nat.lt_or_ge a.genesis b with hb | hb
                · omega
                · have : b = a.genesis := by omega
                  subst this
                  rw [hx] at p3; cases p3
                  exact absurd (List.mem_map.2 ⟨_, p4, rfl⟩) hk
            · rintro ⟨p1, p2, i, p3, p4⟩
              simp only [IAbs.step] at p2 p3
              have hp : a.puts k b d := ⟨p1, by omega, i, p3, p4⟩
              have hst := (hi.st k b d).2 hp
              rw [if_neg]
              · exact hst
              · intro hk
                obtain ⟨y, hy, e⟩ := List.mem_map.1 hk
                have : a.puts k a.genesis y.2 := ⟨hr.1, Nat.le_refl _, inp, hx, by rw [← e]; exact hy⟩
                rw [(hi.st _ _ _).2 this] at hst
                simp only [Option.some.injEq, Prod.mk.injEq] at hst
                omega

theorem iinv_deleteLast {c c' : IChain} {a : IAbs} (hi : IInv c a) (h : c.deleteLast = some c') :
    IInv c' (a.step .deleteLast) := by
  have hl := hi.last
  have hg := hi.gen
  simp only [IChain.deleteLast] at h
  split at h
  · cases h
  · split at h
    · cases h
    · split at h
      · cases h
      · rename_i h1 h2 keys hb
        simp only [Option.some.injEq] at h
        subst h
        have hr : 1 ≤ a.genesis ∧ a.genesis ≤ a.hist.length := by
          rcases hi.rng with h | h
          · rw [h.1] at hl; simp at hl; omega
          · omega
        refine ⟨by simp only [IAbs.step, List.length_dropLast, hl], hg, Or.inr (by
          simp only [IAbs.step, List.length_dropLast]; omega), ?_, ?_⟩
        · intro b
          show (if b = c.last then none else c.blocks b) = if 1 ≤ b ∧ a.genesis ≤ b then
            (a.hist.dropLast[b - 1]?).map (fun i => i.map (·.1)) else none
          by_cases e : b = c.last
          · rw [if_pos e, List.getElem?_eq_none (by simp; omega), Option.map_none, ite_self]
          · rw [if_neg e, hi.blocks]
            by_cases e2 : 1 ≤ b ∧ a.genesis ≤ b
            · rw [if_pos e2, if_pos e2, List.getElem?_dropLast]
              by_cases e3 : b - 1 < a.hist.length - 1
              · rw [if_pos e3]
              · rw [if_neg e3, List.getElem?_eq_none (by omega)]
            · rw [if_neg e2, if_neg e2]
        · intro k b d
          simp only [iDelete_key]
          rw [hi.blocks, hl, if_pos (by omega)] at hb
          cases hx : a.hist[a.hist.length - 1]? with
          | none => rw [hx] at hb; cases hb
          | some inp =>
            rw [hx] at hb
            simp only [Option.map_some, Option.some.injEq] at hb
            subst hb
            constructor
            · intro h
              split at h
              · cases h
              · rename_i hk
                obtain ⟨p1, p2, i, p3, p4⟩ := (hi.st k b d).1 h
                refine ⟨p1, p2, i, ?_, p4⟩
                simp only [IAbs.step]
                have hlt : b - 1 < a.hist.length := by
                  rcases Nat.lt_or_ge (b - 1) a.hist.length with h | h
                  · exact h
                  · rw [List.getElem?_eq_none h] at p3; cases p3
                rw [List.getElem?_dropLast, if_pos]
                · exact p3
                · rcases Nat.lt_or_ge (b - 1) (a.hist.length - 1) with h | h
                  · exact h
                  · exfalso
                    have : b - 1 = a.hist.length - 1 := by omega
                    rw [this, hx] at p3; cases p3
                    exact hk (List.mem_map.2 ⟨_, p4, rfl⟩)
            · rintro ⟨p1, p2, i, p3, p4⟩
              simp only [IAbs.step, List.getElem?_dropLast] at p2 p3
              split at p3
              · rename_i hlt
                have hst := (hi.st k b d).2 ⟨p1, p2, i, p3, p4⟩
                rw [if_neg]
                · exact hst
                · intro hk
                  obtain ⟨y, hy, e⟩ := List.mem_map.1 hk
                  have : a.puts k a.hist.length y.2 := ⟨by omega, hr.2, inp, hx, by rw [← e]; exact hy⟩
                  rw [(hi.st _ _ _).2 this] at hst
                  simp only [Option.some.injEq, Prod.mk.injEq] at hst
                  omega
              · cases p3

theorem iinv_run {c c' : IChain} {a : IAbs} (hi : IInv c a) : ∀ {evs : List IEv}, WriteOnce a evs →
    c.run evs = some c' → IInv c' (a.run evs) := by
  intro evs
  induction evs generalizing c a with
  | nil => intro _ h; cases h; exact hi
  | cons e es ih =>
    intro hw h
    simp only [IChain.run] at h
    split at h
    · cases h
    · rename_i c1 hc1
      cases e with
      | add inp => cases hc1; exact ih (iinv_add hi hw.1 hw.2.1) hw.2.2 h
      | prune => exact ih (iinv_prune hi hc1) hw h
      | deleteLast => exact ih (iinv_deleteLast hi hc1) hw h

/-- **C23** A read returns exactly what an existing block put: the latest read and the read at that block. -/
theorem immutable_exact {evs : List IEv} (hw : WriteOnce IAbs.empty evs) {c : IChain} (h : IChain.empty.run evs = some c)
    (k : Key) (b : Nat) (d : Bytes) :
    (iGetLatest c.st k = some (b, d) ↔ (IAbs.empty.run evs).puts k b d) ∧
    (iGet c.st k b = some (b, d) ↔ (IAbs.empty.run evs).puts k b d) ∧
    (∀ b', b' ≠ b → iGet c.st k b ≠ some (b', d)) ∧
    (iGetLatestVersion c.st k = some ⟨false, b⟩ ↔ ∃ d, (IAbs.empty.run evs).puts k b d) := by
  have hi := iinv_run iinv_empty hw h
  have hg : ∀ x y, iGet c.st k x = some y ↔ c.st k = some y ∧ y.1 = x := by
    intro x y
    simp only [iGet, iGetLatest]
    cases c.st k with
    | none => simp
    | some v =>
      simp only
      by_cases e : v.1 ≠ x
      · rw [if_pos e]
        simp only [Option.some.injEq, reduceCtorEq, false_iff, not_and]
        intro h1 h2; rw [h1] at e; exact e h2
      · rw [if_neg e]
        simp only [Option.some.injEq]
        constructor
        · intro h; rw [← h]; exact ⟨rfl, Classical.not_not.1 e⟩
        · exact fun h => h.1
  refine ⟨hi.st k b d, ?_, ?_, ?_⟩
  · rw [hg, hi.st]; exact ⟨fun h => h.1, fun h => ⟨h, rfl⟩⟩
  · intro b' hne h2
    exact hne ((hg _ _).1 h2).2
  · simp only [iGetLatestVersion]
    constructor
    · intro h
      cases hv : c.st k with
      | none => rw [hv] at h; cases h
      | some v =>
        rw [hv] at h
        simp only [Option.map_some, Option.some.injEq, Tagged.mk.injEq, true_and] at h
        exact ⟨v.2, (hi.st _ _ _).1 (by rw [hv, ← h])⟩
    · rintro ⟨d', h⟩
      rw [(hi.st _ _ _).2 h]; rfl

/-- **C23** The batched read agrees with the single one. -/
theorem iMultiGet_eq (s : IState) (keys : List Key) (vs : List Nat) (h : keys.length = vs.length) :
    iMultiGet s keys vs = some ((keys.zip vs).map (fun kv => iGet s kv.1 kv.2)) := by
  rw [iMultiGet, if_pos h]
  congr 1
  apply List.map_congr_left
  intro x _
  simp only [iGet, iGetLatest]
  cases s x.1 with
  | none => rfl
  | some v =>
    simp only
    by_cases e : v.1 = x.2
    · rw [if_pos e, if_neg (fun h => h e)]
    · rw [if_neg e, if_pos e]

/-- **C24** Pruning removes exactly the keys the pruned block put, and changes no other read. -/
theorem immutable_prune {evs : List IEv} (hw : WriteOnce IAbs.empty evs) {c c' : IChain}
    (h : IChain.empty.run evs = some c) (hp : c.prune = some c') (k : Key) :
    ((∃ d, (IAbs.empty.run evs).puts k (IAbs.empty.run evs).genesis d) → iGetLatest c'.st k = none) ∧
    ((¬ ∃ d, (IAbs.empty.run evs).puts k (IAbs.empty.run evs).genesis d) → iGetLatest c'.st k = iGetLatest c.st k) := by
  have hi := iinv_run iinv_empty hw h
  have hi' := iinv_prune hi hp
  have hp1 : ∀ b d, (((IAbs.empty.run evs).step .prune).puts k b d ↔
      (IAbs.empty.run evs).puts k b d ∧ b ≠ (IAbs.empty.run evs).genesis) := by
    intro b d
    simp only [IAbs.puts, IAbs.step]
    constructor
    · rintro ⟨h1, h2, h3⟩; exact ⟨⟨h1, by omega, h3⟩, by omega⟩
    · rintro ⟨⟨h1, h2, h3⟩, h4⟩; exact ⟨h1, by omega, h3⟩
  simp only [iGetLatest]
  refine ⟨fun hc => ?_, fun hc => ?_⟩
  · obtain ⟨d, hd⟩ := hc
    cases hx : c'.st k with
    | none => rfl
    | some v =>
      obtain ⟨h1, h2⟩ := (hp1 v.1 v.2).1 ((hi'.st k v.1 v.2).1 hx)
      have e1 := (hi.st _ _ _).2 h1
      rw [(hi.st _ _ _).2 hd] at e1
      simp only [Option.some.injEq, Prod.mk.injEq] at e1
      exact absurd e1.1.symm h2
  · cases hx : c.st k with
    | none =>
      cases hy : c'.st k with
      | none => rfl
      | some v =>
        have := (hi.st _ _ _).2 ((hp1 v.1 v.2).1 ((hi'.st k v.1 v.2).1 hy)).1
        rw [hx] at this; cases this
    | some v =>
      have h1 := (hi.st k v.1 v.2).1 hx
      exact (hi'.st k v.1 v.2).2 ((hp1 _ _).2 ⟨h1, fun e => hc ⟨v.2, by rw [← e]; exact h1⟩⟩)

/-- **C25** Deleting the last block right after it was added gives back exactly the previous chain. -/
theorem immutable_undo {evs : List IEv} {inp : IInput} (hw : WriteOnce IAbs.empty (evs ++ [.add inp])) {c : IChain}
    (h : IChain.empty.run evs = some c) (hne : c.last ≠ 0) : (c.addBlock inp).deleteLast = some c := by
  have split : ∀ (es : List IEv) (a : IAbs), WriteOnce a (es ++ [.add inp]) →
      WriteOnce a es ∧ (inp.map (·.1)).Nodup ∧ ∀ k ∈ inp.map (·.1), ∀ b d, ¬ (a.run es).puts k b d := by
    intro es
    induction es with
    | nil => intro a hw; exact ⟨trivial, hw.1, hw.2.1⟩
    | cons e es ih =>
      intro a hw
      cases e with
      | add i => obtain ⟨h1, h2⟩ := ih _ hw.2.2; exact ⟨⟨hw.1, hw.2.1, h1⟩, h2⟩
      | prune => exact ih (a.step .prune) hw
      | deleteLast => exact ih (a.step .deleteLast) hw
  obtain ⟨hw1, hn, hf⟩ := split evs _ hw
  have hi := iinv_run iinv_empty hw1 h
  have hl := hi.last
  have hg := hi.gen
  have hr : 1 ≤ c.genesis ∧ c.genesis ≤ c.last := by
    rcases hi.rng with h | h
    · rw [h.1] at hl; simp at hl; omega
    · omega
  have hG : (c.addBlock inp).genesis = c.genesis := by simp only [IChain.addBlock]; rw [if_neg (by omega)]
  have hL : (c.addBlock inp).last = c.last + 1 := rfl
  have hB : (c.addBlock inp).blocks (c.last + 1) = some (inp.map (·.1)) := by
    simp only [IChain.addBlock, if_true, iAdd]
  simp only [IChain.deleteLast]
  rw [hL, hG, if_neg (by omega), if_neg (by omega), hB]
  simp only
  have hst : iDelete (inp.map (·.1)) (c.addBlock inp).st = c.st := by
    funext k
    rw [iDelete_key]
    by_cases hk : k ∈ inp.map (·.1)
    · rw [if_pos hk]
      cases hx : c.st k with
      | none => rfl
      | some v => exact absurd ((hi.st k v.1 v.2).1 hx) (hf k hk _ _)
    · rw [if_neg hk]; exact iAdd_other hk
  have hbl : (fun i => if i = c.last + 1 then none else (c.addBlock inp).blocks i) = c.blocks := by
    funext i
    by_cases e : i = c.last + 1
    · subst e
      rw [if_pos rfl, hi.blocks, List.getElem?_eq_none (by omega)]
      split <;> rfl
    · rw [if_neg e]
      simp only [IChain.addBlock]
      rw [if_neg e]
  rw [hst, hbl, Nat.add_sub_cancel]

/-! ### Concrete runs -/

def ievs : List IEv := [.add [([1], [10]), ([2], [20])], .add [([3], [30])], .add [], .prune, .add [([1], [11])]]

example : WriteOnce IAbs.empty ievs ∧ ∃ c, IChain.empty.run ievs = some c ∧ iGetLatest c.st [1] = some (4, [11]) ∧
    iGetLatest c.st [2] = none ∧ iGet c.st [3] 2 = some (2, [30]) := by
  refine ⟨?_, _, rfl, by decide +kernel⟩
  refine ⟨by decide, ?_, by decide, ?_, by decide, ?_, by decide, ?_, trivial⟩
  · intro k _ b d h
    obtain ⟨_, _, i, h, _⟩ := h
    simp [IAbs.empty] at h
  · rintro k hk b d ⟨h1, h2, i, h, h3⟩
    simp [IAbs.step, IAbs.empty] at h hk
    rw [List.getElem?_singleton] at h
    split at h
    · cases h; subst hk; simp at h3
    · cases h
  · intro k hk; cases hk
  · rintro k hk b d ⟨h1, h2, i, h, h3⟩
    simp [IAbs.step, IAbs.empty] at h hk h2
    obtain ⟨b, rfl⟩ : ∃ n, b = n + 2 := ⟨b - 2, by omega⟩
    subst hk
    simp at h
    rcases b with _ | _ | b
    · simp at h; subst h; simp at h3
    · simp at h; subst h; cases h3
    · simp at h

/-- **Finding (C24)** Nothing stops a caller from putting an immutable key again in a later block; pruning the first
block then removes the later value, although the block that put it is still there. -/
theorem immutable_rewrite_lost :
    ∃ c, IChain.empty.run [.add [([1], [10])], .add [([1], [11])], .prune] = some c ∧ iGetLatest c.st [1] = none ∧
      (IAbs.empty.run [.add [([1], [10])], .add [([1], [11])], .prune]).puts [1] 2 [11] := by
  refine ⟨_, rfl, by decide +kernel, by decide, by decide, _, rfl, by decide⟩

end Verif.Kvbc
