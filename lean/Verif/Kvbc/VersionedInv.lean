import Verif.Kvbc.VersionedLemmas
set_option linter.unusedSimpArgs false
set_option linter.unusedVariables false
/-! The invariant of the versioned category in a blockchain, for every history. -/
namespace Verif.Kvbc
open Verif.Bytes

/-- what block `b` of the history left for `k` -/
def touchAt (h : List VInput) (k : Key) (b : Nat) : Option (DbValue × VFlags) :=
  if b = 0 then none else (h[b - 1]?).bind (fun inp => touch inp k)

theorem touchAt_range {h : List VInput} {k : Key} {b : Nat} (hb : touchAt h k b ≠ none) : 1 ≤ b ∧ b ≤ h.length := by
  simp only [touchAt] at hb
  split at hb
  · exact absurd rfl hb
  · have : b - 1 < h.length := by
      by_cases hl : b - 1 < h.length
      · exact hl
      · rw [List.getElem?_eq_none (by omega)] at hb
        exact absurd rfl hb
    omega

theorem touchAt_append (h : List VInput) (inp : VInput) (k : Key) (b : Nat) :
    touchAt (h ++ [inp]) k b = if b = h.length + 1 then touch inp k else touchAt h k b := by
  simp only [touchAt]
  by_cases h0 : b = 0
  · simp [h0]
  · rw [if_neg h0, if_neg h0]
    by_cases h1 : b = h.length + 1
    · subst h1; simp
    · rw [if_neg h1]
      by_cases h2 : b - 1 < h.length
      · rw [List.getElem?_append_left h2]
      · rw [List.getElem?_eq_none (by rw [List.length_append]; simp; omega), List.getElem?_eq_none (by omega)]

theorem touchAt_dropLast (h : List VInput) (k : Key) (b : Nat) :
    touchAt h.dropLast k b = if b < h.length then touchAt h k b else none := by
  simp only [touchAt]
  by_cases h0 : b = 0
  · simp [h0]
  · rw [if_neg h0, if_neg h0, List.getElem?_dropLast]
    by_cases h1 : b < h.length
    · rw [if_pos (by omega), if_pos h1]
    · rw [if_neg (by omega), if_neg h1]; rfl

theorem touch_not_deleted {inp : VInput} {k : Key} {v : DbValue} {fl : VFlags} (h : touch inp k = some (v, fl))
    (hd : fl.deleted = false) : v.deleted = false := by
  simp only [touch] at h
  split at h
  · cases h; rfl
  · split at h
    · cases h; cases hd
    · cases h

theorem touchAt_not_deleted {h : List VInput} {k : Key} {b : Nat} {v : DbValue} {fl : VFlags}
    (ht : touchAt h k b = some (v, fl)) (hd : fl.deleted = false) : v.deleted = false := by
  simp only [touchAt] at ht
  split at ht
  · cases ht
  · cases hi : h[b - 1]? with
    | none => rw [hi] at ht; cases ht
    | some inp => rw [hi] at ht; exact touch_not_deleted ht hd

/-- the entries of one key, given what each block left for it -/
structure KInv (x : KState) (T : Nat → Option (DbValue × VFlags)) (g : Nat) : Prop where
  live : ∀ b, g ≤ b → x.values b = (T b).map (·.1)
  old : ∀ b v, b < g → x.values b = some v →
    x.active = some b ∧ (∃ fl, T b = some (v, fl) ∧ fl.staleOnUpdate = false ∧ fl.deleted = false) ∧
    ∀ b', b < b' → b' < g → T b' = none
  act : ∀ a, x.active = some a → a < g ∧ x.values a ≠ none
  latNone : x.latest = none → ∀ b, x.values b = none
  latSome : ∀ n, x.latest = some n → ∃ v d, n = Tagged.encode ⟨d.deleted, v⟩ ∧ x.values v = some d ∧
    ∀ b, v < b → x.values b = none

/-- completeness for pruned blocks, in histories that never delete a block seen by a pruning -/
def KDone (x : KState) (T : Nat → Option (DbValue × VFlags)) (g seen : Nat) : Prop :=
  ∀ p v fl, p < g → T p = some (v, fl) → fl.staleOnUpdate = false → fl.deleted = false →
    (∀ b, p < b → b ≤ seen → T b = none) → x.values p = some v

theorem KInv.write {x : KState} {T T' : Nat → Option (DbValue × VFlags)} {g last : Nat} (hi : KInv x T g)
    (hT : ∀ b, T b ≠ none → b ≤ last) (hg : g ≤ last + 1)
    (hb : ∀ b, b ≤ last → T' b = T b) (v : DbValue) (fl : VFlags)
    (hn : T' (last + 1) = some (v, fl)) (hT' : ∀ b, last + 1 < b → T' b = none) : KInv (x.write (last + 1) v) T' g := by
  have hx : ∀ b, last < b → x.values b = none := by
    intro b hb
    by_cases h : g ≤ b
    · rw [hi.live b h]
      cases hTb : T b with
      | none => rfl
      | some t => have := hT b (by rw [hTb]; simp); omega
    · omega
  refine ⟨?_, ?_, ?_, ?_, ?_⟩
  · intro b h
    simp only [KState.write, KState.putLatest, KState.putValue]
    by_cases h1 : b = last + 1
    · subst h1; simp [hn]
    · rw [if_neg h1]
      by_cases h2 : b ≤ last
      · rw [hb b h2]; exact hi.live b h
      · rw [hx b (by omega), hT' b (by omega)]; rfl
  · intro b w h h1
    simp only [KState.write, KState.putLatest, KState.putValue] at h1 ⊢
    rw [if_neg (by omega)] at h1
    obtain ⟨a1, ⟨fl', a2, a3⟩, a4⟩ := hi.old b w h h1
    refine ⟨a1, ⟨fl', by rw [hb b (by omega)]; exact a2, a3⟩, fun b' h2 h3 => ?_⟩
    rw [hb b' (by omega)]
    exact a4 b' h2 h3
  · intro a ha
    simp only [KState.write, KState.putLatest, KState.putValue] at ha ⊢
    have := hi.act a ha
    refine ⟨this.1, ?_⟩
    rw [if_neg (by omega)]
    exact this.2
  · intro h
    simp [KState.write, KState.putLatest, KState.putValue] at h
  · intro n h
    simp only [KState.write, KState.putLatest, KState.putValue, Option.some.injEq] at h ⊢
    refine ⟨last + 1, v, h.symm, by simp, fun b hb => ?_⟩
    rw [if_neg (by omega)]
    exact hx b (by omega)

theorem KInv.congr {x : KState} {T T' : Nat → Option (DbValue × VFlags)} {g : Nat} (hi : KInv x T g)
    (h : ∀ b, T' b = T b) : KInv x T' g := by
  have : T' = T := funext h
  rw [this]; exact hi

/-- growing the genesis from 0 to 1 at the first block -/
theorem KInv.first {x : KState} {T : Nat → Option (DbValue × VFlags)} (hi : KInv x T 0) (h0 : T 0 = none) :
    KInv x T 1 := by
  refine ⟨fun b h => hi.live b (by omega), ?_, ?_, hi.latNone, hi.latSome⟩
  · intro b v h h1
    have : b = 0 := by omega
    subst this
    rw [hi.live 0 (by omega), h0] at h1
    cases h1
  · intro a ha
    have := (hi.act a ha).1
    omega

/-- the value at the newest version -/
theorem KInv.latest_eq {x : KState} {T : Nat → Option (DbValue × VFlags)} {g : Nat} (hi : KInv x T g)
    {b : Nat} {d : DbValue} (h : x.values b = some d) (hm : ∀ b', b < b' → x.values b' = none) :
    x.latest = some (Tagged.encode ⟨d.deleted, b⟩) := by
  cases hl : x.latest with
  | none => rw [hi.latNone hl b] at h; cases h
  | some n =>
    obtain ⟨v, d', e, h1, h2⟩ := hi.latSome n hl
    have hv : v = b := by
      rcases Nat.lt_trichotomy v b with h3 | h3 | h3
      · rw [h2 b h3] at h; cases h
      · exact h3
      · rw [hm v h3] at h1; cases h1
    subst hv
    rw [h] at h1
    cases h1
    rw [e]

/-- pruning a key that the genesis block does not touch -/
theorem KInv.prune_untouched {x : KState} {T : Nat → Option (DbValue × VFlags)} {g : Nat} (hi : KInv x T g)
    (h : T g = none) : KInv x T (g + 1) := by
  refine ⟨fun b hb => hi.live b (by omega), ?_, ?_, hi.latNone, hi.latSome⟩
  · intro b v hb hv
    by_cases e : b = g
    · subst e
      rw [hi.live b (Nat.le_refl _), h] at hv; cases hv
    · obtain ⟨a1, a2, a3⟩ := hi.old b v (by omega) hv
      refine ⟨a1, a2, fun b' h1 h2 => ?_⟩
      by_cases e' : b' = g
      · rw [e', h]
      · exact a3 b' h1 (by omega)
  · intro a ha
    have := hi.act a ha
    exact ⟨by omega, this.2⟩

theorem dropActive_values {x : KState} {T : Nat → Option (DbValue × VFlags)} {g : Nat} (hi : KInv x T g) (b : Nat) :
    (dropActive x x).values b = if b < g then none else x.values b := by
  simp only [dropActive]
  cases ha : x.active with
  | some a =>
    have := hi.act a ha
    simp only [KState.delActive, KState.delValue]
    by_cases e : b = a
    · subst e; simp [this.1]
    · rw [if_neg e]
      by_cases hb : b < g
      · rw [if_pos hb]
        cases hv : x.values b with
        | none => rfl
        | some v =>
          have := (hi.old b v hb hv).1
          rw [ha] at this; cases this; exact absurd rfl e
      · rw [if_neg hb]
  | none =>
    by_cases hb : b < g
    · rw [if_pos hb]
      show x.values b = none
      cases hv : x.values b with
      | none => rfl
      | some v =>
        have := (hi.old b v hb hv).1
        rw [ha] at this; cases this
    · rw [if_neg hb]

theorem dropActive_active (x : KState) : (dropActive x x).active = none := by
  simp only [dropActive]
  cases h : x.active <;> simp [KState.delActive, h]

theorem dropActive_latest (x : KState) : (dropActive x x).latest = x.latest := by
  simp only [dropActive]
  cases h : x.active <;> simp [KState.delActive, KState.delValue]

theorem KInv.prune_touched {x y : KState} {T : Nat → Option (DbValue × VFlags)} {g last : Nat} (hi : KInv x T g)
    (hT : ∀ b, T b ≠ none → b ≤ last) (hlast : last < 2 ^ 63) {v : DbValue} {fl : VFlags} (h : T g = some (v, fl))
    (hd : fl.deleted = false → v.deleted = false)
    (hp : pruneKey g fl x (dropActive x x) = some y) :
    KInv y T (g + 1) ∧
    (∀ b, b < g → y.values b = none) ∧ (∀ b, g < b → y.values b = x.values b) ∧
    (fl.staleOnUpdate = false → fl.deleted = false → (∀ b', g < b' → T b' = none) → y.values g = some v) ∧
    (¬ (fl.staleOnUpdate = false ∧ fl.deleted = false ∧ ∀ b', g < b' → T b' = none) → y.values g = none) := by
  have hxg : x.values g = some v := by rw [hi.live g (Nat.le_refl _), h]; rfl
  -- the newest version
  have hex : ∃ m d, x.latest = some (Tagged.encode ⟨d.deleted, m⟩) ∧ x.values m = some d ∧
      (∀ b, m < b → x.values b = none) ∧ g ≤ m ∧ m ≤ last := by
    cases hl : x.latest with
    | none => rw [hi.latNone hl g] at hxg; cases hxg
    | some n =>
      obtain ⟨m, d, e, h1, h2⟩ := hi.latSome n hl
      have hgm : g ≤ m := by
        rcases Nat.lt_or_ge m g with h3 | h3
        · rw [h2 g h3] at hxg; cases hxg
        · exact h3
      refine ⟨m, d, by rw [e], h1, h2, hgm, hT m ?_⟩
      have := hi.live m hgm
      rw [h1] at this
      intro hn; rw [hn] at this; cases this
  obtain ⟨m, d, hl, hm, hmax, hgm, hml⟩ := hex
  have hdec : x.latest.map Tagged.decode = some ⟨d.deleted, m⟩ := by
    rw [hl, Option.map_some, decode_encode _ (show m < 2 ^ 63 by omega)]
  have hdv := dropActive_values hi
  have hda := dropActive_active x
  have hdl := dropActive_latest x
  have hTnone : (∀ b', g < b' → T b' = none) ↔ m = g := by
    constructor
    · intro hh
      rcases Nat.lt_or_ge g m with h3 | h3
      · have := hi.live m hgm
        rw [hh m h3, hm] at this; cases this
      · omega
    · intro e b' hb'
      have := hi.live b' (by omega)
      rw [hmax b' (by omega)] at this
      cases ht : T b' with
      | none => rfl
      | some t => rw [ht] at this; cases this
  have key : (y.values = fun b => if b < g then none else if b = g then
        (if fl.staleOnUpdate = false ∧ fl.deleted = false ∧ m = g then some v else none) else x.values b) ∧
      y.active = (if fl.staleOnUpdate = false ∧ fl.deleted = false ∧ m = g then some g else none) ∧
      y.latest = (if m = g ∧ ¬ (fl.staleOnUpdate = false ∧ fl.deleted = false) then none else x.latest) := by
    simp only [pruneKey, hdec] at hp
    split at hp
    · rename_i hst
      simp only [Option.some.injEq] at hp
      subst hp
      split
      · rename_i hmg
        simp only [KState.delLatest, KState.delValue, hst, Bool.true_eq_false, false_and, if_false, hmg,
          not_false_eq_true, and_self, if_true]
        refine ⟨?_, hda, trivial⟩
        funext b
        rw [hdv b]
        by_cases e : b = g <;> simp [e]
      · rename_i hmg
        simp only [KState.delLatest, KState.delValue, hst, Bool.true_eq_false, false_and, if_false, hmg]
        refine ⟨?_, hda, hdl⟩
        funext b
        rw [hdv b]
        by_cases e : b = g <;> simp [e]
    · rename_i hst
      have hst' : fl.staleOnUpdate = false := by simpa using hst
      split at hp
      · rename_i hc
        simp only [Option.some.injEq] at hp
        subst hp
        simp only [KState.delLatest, KState.delValue, hst', hc.1, hc.2, Bool.true_eq_false, and_false, false_and,
          if_false, not_false_eq_true, and_self, if_true]
        refine ⟨?_, hda, trivial⟩
        funext b
        rw [hdv b]
        by_cases e : b = g <;> simp [e]
      · rename_i hc
        split at hp
        · rename_i hgt
          simp only [Option.some.injEq] at hp
          subst hp
          have hne : ¬ m = g := by have : m > g := hgt; omega
          simp only [KState.delValue, hne, and_false, if_false, false_and]
          refine ⟨?_, hda, hdl⟩
          funext b
          rw [hdv b]
          by_cases e : b = g <;> simp [e]
        · rename_i hgt
          simp only [Option.some.injEq] at hp
          subst hp
          have hmg : m = g := by have : ¬ m > g := hgt; omega
          have hdel : fl.deleted = false := by
            cases hf : fl.deleted with
            | false => rfl
            | true => exact absurd ⟨hf, hmg⟩ hc
          simp only [KState.putActive, hst', hdel, hmg, and_self, if_true, not_true_eq_false, and_false, if_false]
          refine ⟨?_, trivial, hdl⟩
          funext b
          rw [hdv b]
          by_cases e : b = g
          · subst e; simp [hxg]
          · simp [e]
  obtain ⟨kv, ka, kl⟩ := key
  refine ⟨⟨?_, ?_, ?_, ?_, ?_⟩, ?_⟩
  · intro b hb
    rw [kv]
    have h1 : ¬ b < g := by omega
    have h2 : ¬ b = g := by omega
    simp only [h1, h2, if_false]
    exact hi.live b (by omega)
  · intro b w hb hw
    rw [kv] at hw
    simp only at hw
    split at hw
    · cases hw
    · have e : b = g := by omega
      subst e
      simp only [if_true] at hw
      split at hw
      · rename_i hc
        cases hw
        refine ⟨by rw [ka, if_pos hc], ⟨fl, h, hc.1, hc.2.1⟩, fun b' h1 h2 => by omega⟩
      · cases hw
  · intro a ha
    rw [ka] at ha
    split at ha
    · rename_i hc
      cases ha
      refine ⟨Nat.lt_succ_self _, ?_⟩
      rw [kv]
      simp [hc]
    · cases ha
  · intro hn b
    rw [kl] at hn
    split at hn
    · rename_i hc
      rw [kv]
      simp only
      split
      · rfl
      · split
        · rw [if_neg (fun hh => hc.2 ⟨hh.1, hh.2.1⟩)]
        · exact hmax b (by omega)
    · rw [hl] at hn; cases hn
  · intro n hn
    rw [kl] at hn
    split at hn
    · cases hn
    · rename_i hc
      rw [hl] at hn
      cases hn
      refine ⟨m, d, rfl, ?_, ?_⟩
      · rw [kv]
        simp only
        rw [if_neg (by omega)]
        by_cases e : m = g
        · have hpl : fl.staleOnUpdate = false ∧ fl.deleted = false := Decidable.byContradiction (fun hh => hc ⟨e, hh⟩)
          rw [if_pos e, if_pos ⟨hpl.1, hpl.2, e⟩]
          rw [e, hxg] at hm
          exact hm
        · rw [if_neg e]; exact hm
      · intro b hb
        rw [kv]
        simp only
        rw [if_neg (by omega), if_neg (by omega)]
        exact hmax b hb
  · refine ⟨fun b hb => by rw [kv]; simp [hb], fun b hb => ?_, fun h1 h2 h3 => ?_, fun hc => ?_⟩
    · rw [kv]
      simp only
      rw [if_neg (by omega), if_neg (by omega)]
    · rw [kv]
      simp [h1, h2, hTnone.1 h3]
    · rw [kv]
      simp only
      rw [if_neg (by omega), if_pos trivial, if_neg (fun hh => hc ⟨hh.1, hh.2.1, hTnone.2 hh.2.2⟩)]

/-- deleting the last block, one key it touches -/
theorem KInv.unlink {x : KState} {T T' : Nat → Option (DbValue × VFlags)} {g last : Nat} (hi : KInv x T g)
    (hT : ∀ b, T b ≠ none → b ≤ last) (hg : g < last) (hb : ∀ b, b < last → T' b = T b)
    (hT' : ∀ b, last ≤ b → T' b = none) : KInv (unlinkKey last x x) T' g ∧
    ∀ b, (unlinkKey last x x).values b = if b < last then x.values b else none := by
  have hx : ∀ b, last < b → x.values b = none := by
    intro b hb
    rw [hi.live b (by omega)]
    cases hTb : T b with
    | none => rfl
    | some t => have := hT b (by rw [hTb]; simp); omega
  have kv : ∀ b, (unlinkKey last x x).values b = if b < last then x.values b else none := by
    intro b
    have : (unlinkKey last x x).values b = if b = last then none else x.values b := by
      simp only [unlinkKey]
      cases prevVersion x last <;> rfl
    rw [this]
    by_cases e : b = last
    · subst e; simp
    · rw [if_neg e]
      by_cases hlt : b < last
      · rw [if_pos hlt]
      · rw [if_neg hlt]; exact hx b (by omega)
  have ka : (unlinkKey last x x).active = x.active := by
    simp only [unlinkKey]
    cases prevVersion x last <;> rfl
  refine ⟨⟨?_, ?_, ?_, ?_, ?_⟩, kv⟩
  · intro b h
    rw [kv b]
    by_cases hlt : b < last
    · rw [if_pos hlt, hb b hlt]; exact hi.live b h
    · rw [if_neg hlt, hT' b (by omega)]; rfl
  · intro b v h hv
    rw [kv b, if_pos (by omega)] at hv
    obtain ⟨a1, ⟨fl, a2, a3⟩, a4⟩ := hi.old b v h hv
    refine ⟨by rw [ka]; exact a1, ⟨fl, by rw [hb b (by omega)]; exact a2, a3⟩, fun b' h1 h2 => ?_⟩
    rw [hb b' (by omega)]
    exact a4 b' h1 h2
  · intro a ha
    rw [ka] at ha
    have := hi.act a ha
    refine ⟨this.1, ?_⟩
    rw [kv a, if_pos (by omega)]
    exact this.2
  · intro hn b
    rw [kv b]
    split
    · rename_i hlt
      cases hp : prevVersion x last with
      | some p =>
        have : (unlinkKey last x x).latest = some (Tagged.encode ⟨p.2.deleted, p.1⟩) := by
          simp [unlinkKey, hp, KState.delValue, KState.putLatest]
        rw [this] at hn; cases hn
      | none => exact prevVersion_none hp b hlt
    · rfl
  · intro n hn
    cases hp : prevVersion x last with
    | some p =>
      have e : (unlinkKey last x x).latest = some (Tagged.encode ⟨p.2.deleted, p.1⟩) := by
        simp [unlinkKey, hp, KState.delValue, KState.putLatest]
      rw [e] at hn
      cases hn
      have := prevVersion_some (v := p.1) (d := p.2) hp
      refine ⟨p.1, p.2, rfl, by rw [kv, if_pos this.1]; exact this.2.1, fun b h => ?_⟩
      rw [kv]
      split
      · rename_i hlt; exact this.2.2 b h hlt
      · rfl
    | none =>
      have e : (unlinkKey last x x).latest = none := by
        simp [unlinkKey, hp, KState.delValue, KState.delLatest]
      rw [e] at hn; cases hn

end Verif.Kvbc
