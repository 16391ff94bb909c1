import Verif.V4.Run

/-!
# The stale keys of a block
-/
set_option linter.unusedSimpArgs false
set_option linter.unusedVariables false
namespace Verif.V4
open Verif.Bytes Spec

namespace Spec

/-- The stale keys of block `i + 1` for one category, from the history alone: the keys it deleted, the keys it wrote
whose value is not the latest any more, and those that are stale from the start. -/
def staleKeys (hb : List Block) (i : Nat) (cat : Str) (inp : CatInput) : List Str :=
  let old (k : Str) : Bool := decide ((latest hb cat k).map (·.ver) ≠ some (i + 1))
  match inp with
  | .merkle kv dels => (kv.map (·.1)).filter old ++ dels
  | .versioned kv dels => (kv.filter fun e => old e.1 || e.2.stale).map (·.1) ++ dels
  | .immutable kv => kv.map (·.1)

end Spec

section
variable {H : Nat → Block → Digest}

theorem filterAuxM_ok {α : Type} {f : α → R Bool} {g : α → Bool} : ∀ (l acc : List α), (∀ a ∈ l, f a = .ok (g a)) →
    List.filterAuxM f l acc = .ok ((l.filter g).reverse ++ acc) := by
  intro l
  induction l with
  | nil => intro acc _; rfl
  | cons a l ih =>
    intro acc h
    unfold List.filterAuxM
    rw [h a (List.mem_cons_self ..)]
    show List.filterAuxM f l (cond (g a) (a :: acc) acc) = _
    rw [ih _ fun b hb => h b (List.mem_cons_of_mem _ hb)]
    cases hg : g a with
    | true => rw [List.filter_cons_of_pos hg]; simp
    | false => rw [List.filter_cons_of_neg (by rw [hg]; simp)]; rfl

theorem filterM_ok {α : Type} {f : α → R Bool} {g : α → Bool} {l : List α} (h : ∀ a ∈ l, f a = .ok (g a)) :
    l.filterM f = .ok (l.filter g) := by
  unfold List.filterM
  rw [filterAuxM_ok l [] h]
  show Except.ok _ = _
  simp

/-- the latest entry of a key a block wrote is not older than the block -/
theorem latestAt_ge {hb : List Block} {cat key : Str} {i : Nat} {b : Block} (hb' : hb[i]? = some b)
    (ht : touch b.updates cat key ≠ none) : ∀ (n : Nat), i < n → ∀ e, latestAt hb cat key n = some e → i + 1 ≤ e.ver := by
  intro n
  induction n with
  | zero => intro h; omega
  | succ n ih =>
    intro hlt e he
    rw [latestAt] at he
    by_cases hin : i = n
    · subst hin
      rw [hb'] at he
      dsimp only at he
      cases ht' : touch b.updates cat key with
      | none => exact absurd ht' ht
      | some x =>
        rw [ht'] at he
        cases x with
        | none => cases he
        | some y => cases he; exact Nat.le_refl _
    · cases hn : hb[n]? with
      | none => rw [hn] at he; exact ih (by omega) e he
      | some b2 =>
        rw [hn] at he
        dsimp only at he
        cases ht' : touch b2.updates cat key with
        | none => rw [ht'] at he; exact ih (by omega) e he
        | some x =>
          rw [ht'] at he
          cases x with
          | none => cases he
          | some y =>
            cases he
            show i + 1 ≤ n + 1
            omega

/-- whether the latest version is past the block is a function of the history -/
theorem gone_eq {hb : List Block} {s : Sys} (h : Inv H hb s) {i : Nat} {b : Block} (hi : s.p.genesis ≤ i + 1)
    (hb' : hb[i]? = some b) {cat key : Str} {t : CatType} {p : UInt8} (hc : s.d.cats.get cat = some (t, p))
    (ht : touch b.updates cat key ≠ none) :
    goneAfter s cat (i + 1) key = .ok (decide ((latest hb cat key).map (·.ver) ≠ some (i + 1))) := by
  have hv := h.reads.version cat t p key hc
  have hlt := getElem?_lt hb'
  unfold goneAfter
  unfold latest at hv ⊢
  cases hl : latestAt hb cat key hb.length with
  | none =>
    rw [hl] at hv
    dsimp only at hv
    rw [hv]
    show Except.ok true = _
    simp
  | some e =>
    rw [hl] at hv
    dsimp only at hv
    have hge := latestAt_ge hb' ht hb.length hlt e hl
    rcases hv with hv | ⟨_, h2, _⟩
    · rw [hv]
      show Except.ok (decide (i + 1 < e.ver)) = _
      congr 1
      show _ = decide (some e.ver ≠ some (i + 1))
      by_cases he : e.ver = i + 1
      · rw [he]; simp
      · have : i + 1 < e.ver := by omega
        simp [he, this]
    · omega

/-- **C37, stale keys.**  The stale keys of a kept block are a function of the history: replicas with the same
history report the same ones, whatever their compactions did. -/
theorem v4_stale {o : Bool} {hb : List Block} {s : Sys} (hr : Reach H o hb s) {i : Nat} {b : Block}
    (hi : s.p.genesis ≤ i + 1) (hb' : hb[i]? = some b) :
    getBlockStaleKeys s (i + 1) = .ok (b.updates.map fun e => (e.1, Spec.staleKeys hb i e.1 e.2)) := by
  have h := hr.runInv.inv
  unfold getBlockStaleKeys getBlockUpdates
  rw [h.blocks.kept i b hi hb']
  show b.updates.mapM _ = _
  have hu := h.hist.1 b (List.mem_of_getElem? hb')
  have hkn := h.hist.2 b (List.mem_of_getElem? hb')
  have key : ∀ e ∈ b.updates, staleKeysOf s e.1 (i + 1) e.2 = .ok (Spec.staleKeys hb i e.1 e.2) := by
    intro e he
    obtain ⟨cat, inp⟩ := e
    obtain ⟨⟨t, p⟩, hc⟩ := Option.isSome_iff_exists.1 (hkn cat inp he)
    have hl : lookup b.updates cat = some inp := mem_lookup hu.nodup he
    have htouch : ∀ k, touch b.updates cat k = touchIn inp k := by
      intro k
      rw [touch_eq, hl]
      rfl
    cases inp with
    | immutable kv => rfl
    | merkle kv dels =>
      have hk : ∀ k ∈ kv.map (·.1), touch b.updates cat k ≠ none := by
        intro k hk
        rw [htouch]
        unfold touchIn
        dsimp only
        split
        · simp
        · cases hlk : lookup kv k with
          | none => exact absurd hk (lookup_none hlk)
          | some v => simp
      unfold staleKeysOf
      dsimp only
      rw [filterM_ok (l := kv.map (·.1)) (g := fun k => decide ((latest hb cat k).map (·.ver) ≠ some (i + 1)))
        (fun k hk' => gone_eq h hi hb' hc (hk k hk'))]
      rfl
    | versioned kv dels =>
      have hk : ∀ e ∈ kv, touch b.updates cat e.1 ≠ none := by
        intro e he'
        rw [htouch]
        unfold touchIn
        dsimp only
        split
        · simp
        · cases hlk : lookup kv e.1 with
          | none => exact absurd (List.mem_map.2 ⟨e, he', rfl⟩) (lookup_none hlk)
          | some v => simp
      unfold staleKeysOf
      dsimp only
      rw [filterM_ok (l := kv) (g := fun e => decide ((latest hb cat e.1).map (·.ver) ≠ some (i + 1)) || e.2.stale)
        (fun e he' => by rw [gone_eq h hi hb' hc (hk e he')]; rfl)]
      rfl
  generalize b.updates = us at key
  clear hb' hu hkn
  induction us with
  | nil => rfl
  | cons e us ih =>
    rw [List.mapM_cons, key e (List.mem_cons_self ..), ih fun x hx => key x (List.mem_cons_of_mem _ hx)]
    rfl

end
end Verif.V4
