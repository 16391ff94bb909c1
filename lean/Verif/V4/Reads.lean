import Verif.V4.Inv

/-!
# A state with the invariant reads as the specification says; the category prefixes are distinct
-/
set_option linter.unusedSimpArgs false
set_option linter.unusedVariables false
namespace Verif.V4
open Verif.Bytes Spec

section
variable {H : Nat → Block → Digest}

theorem getElem?_lt {α : Type} {l : List α} {i : Nat} {a : α} (h : l[i]? = some a) : i < l.length := by
  rcases Nat.lt_or_ge i l.length with h1 | h1
  · exact h1
  · rw [List.getElem?_eq_none h1] at h; cases h

theorem encE_ver' (t : CatType) (e : Entry) (h : e.ver < 2 ^ 64) :
    unbe64 ((encE t e).drop ((encE t e).length - 8)) = e.ver := encE_ver t e h

/-- what a block that touched a key of a category returns for it -/
theorem get_touch {cats : Cats} {u : Updates} (hu : UpdOk cats u) {cat key : Str} {t : CatType} {p : UInt8}
    (hc : cats.get cat = some (t, p)) {v : Str} {st : Bool} (h : touch u cat key = some (some (v, st))) (id : Nat) :
    (lookup u cat).bind (valueFrom id key) = some ⟨t, id, v⟩ := by
  rw [touch_eq] at h
  cases hl : lookup u cat with
  | none => rw [hl] at h; cases h
  | some i =>
    rw [hl] at h
    have ht := hu.typed _ _ _ _ (lookup_some_mem hl) hc
    subst ht
    show valueFrom id key i = _
    have h : touchIn i key = some (some (v, st)) := h
    cases i with
    | merkle kv d =>
      unfold touchIn at h
      dsimp only at h
      split at h
      · cases h
      · cases hk : lookup kv key with
        | none => rw [hk] at h; cases h
        | some x => rw [hk] at h; cases h; unfold valueFrom; dsimp only; rw [hk]; rfl
    | versioned kv d =>
      unfold touchIn at h
      dsimp only at h
      split at h
      · cases h
      · cases hk : lookup kv key with
        | none => rw [hk] at h; cases h
        | some x => rw [hk] at h; cases h; unfold valueFrom; dsimp only; rw [hk]; rfl
    | immutable kv =>
      unfold touchIn at h
      dsimp only at h
      cases hk : lookup kv key with
      | none => rw [hk] at h; cases h
      | some x => rw [hk] at h; cases h; unfold valueFrom; dsimp only; rw [hk]; rfl

theorem Inv.get {hb : List Block} {s : Sys} (h : Inv H hb s) {i : Nat} {b : Block} (cat key : Str)
    (hi : s.p.genesis ≤ i + 1) (hb' : hb[i]? = some b) :
    V4.get s cat key (i + 1) = (lookup b.updates cat).bind (valueFrom (i + 1) key) := by
  unfold V4.get getBlockUpdates
  rw [h.blocks.kept i b hi hb']
  show (match lookup b.updates cat with
    | none => none
    | some i' => valueFrom (i + 1) key i') = _
  cases lookup b.updates cat <;> rfl

/-- **Reads**: an immutable value of a pruned block may be gone with the block even when the entry is still there. -/
theorem Inv.reads {hb : List Block} {s : Sys} (h : Inv H hb s) : Reads hb s.p.genesis s := by
  have hlast := h.last
  have hsize := h.size
  refine ⟨h.last, rfl, ?_, ?_, ?_, ?_, ?_, ?_, ?_, ?_⟩
  · intro hne
    have : 0 < hb.length := List.length_pos_iff.2 hne
    exact h.gen.range this
  · intro i h1 h2
    unfold hasBlock
    rw [if_neg (by omega)]
    by_cases hg : i < s.p.genesis
    · rw [if_pos hg]
      symm
      simp
      exact hg
    · rw [if_neg hg]
      have hlt : i - 1 < hb.length := by omega
      have hk := h.blocks.kept (i - 1) _ (by omega) (List.getElem?_eq_getElem hlt)
      have e : i - 1 + 1 = i := by omega
      rw [e] at hk
      rw [hk]
      symm
      simp
      omega
  · intro i b hi hb'
    unfold getBlockUpdates
    rw [h.blocks.kept i b hi hb']
    rfl
  · intro i b hi hb'
    unfold getBlockData
    have := getElem?_lt hb'
    rw [if_neg (by omega)]
    exact h.blocks.kept i b hi hb'
  · intro i b hi hb'
    unfold parentDigest
    have := getElem?_lt hb'
    rw [if_neg (by omega), if_neg (by omega), h.blocks.kept i b hi hb']
  · intro i b cat key hi hb'
    exact h.get cat key hi hb'
  · intro cat t p key hc
    have hk := h.kv cat t p hc key
    have hgv : getLatestVersion s cat key =
        .ok ((s.d.kv (famOf t) (p :: key)).map fun v => unbe64 (v.drop (v.length - 8))) := by
      unfold getLatestVersion
      rw [hc]
    show (match latestAt hb cat key hb.length with
      | none => _
      | some e => _)
    cases hl : latestAt hb cat key hb.length with
    | none =>
      rw [hl] at hk
      dsimp only at hk ⊢
      rw [hgv, hk]
      rfl
    | some e =>
      rw [hl] at hk
      dsimp only at hk ⊢
      obtain ⟨_, hle, _⟩ := latestAt_ver hl
      rcases hk with hk | ⟨h1, h2, hk⟩
      · left
        rw [hgv, hk]
        show Except.ok (some (unbe64 ((encE t e).drop ((encE t e).length - 8)))) = _
        rw [encE_ver t e (by omega)]
      · right
        refine ⟨h1, h2, ?_⟩
        rw [hgv, hk]
        rfl
  · intro cat t p key hc
    have hk := h.kv cat t p hc key
    show (match latestAt hb cat key hb.length with
      | none => _
      | some e => _)
    cases hl : latestAt hb cat key hb.length with
    | none =>
      rw [hl] at hk
      dsimp only at hk ⊢
      unfold getLatest
      rw [hc]
      cases t with
      | merkle =>
        dsimp only
        have hk : s.d.kv .latest (p :: key) = none := hk
        rw [hk]; rfl
      | versioned =>
        dsimp only
        have hk : s.d.kv .latest (p :: key) = none := hk
        rw [hk]; rfl
      | immutable =>
        dsimp only
        have hk : s.d.kv .immut (p :: key) = none := hk
        rw [hk]
    | some e =>
      rw [hl] at hk
      dsimp only at hk ⊢
      obtain ⟨hver1, hle, b, hbv, htouch⟩ := latestAt_ver hl
      have hv := encE_ver t e (by omega)
      unfold getLatest
      rw [hc]
      cases t with
      | merkle =>
        dsimp only
        have hd : (encE .merkle e).take ((encE .merkle e).length - 9) = e.data := encVal_data _ _ _
        rcases hk with hk | ⟨h1, h2, hk⟩
        · left
          have hk : s.d.kv .latest (p :: key) = some (encE .merkle e) := hk
          rw [hk]
          show Except.ok (some (Value.mk _ _ _)) = _
          rw [hv, hd]
        · right
          have hk : s.d.kv .latest (p :: key) = none := hk
          refine ⟨h1, h2, ?_⟩
          rw [hk]; rfl
      | versioned =>
        dsimp only
        have hd : (encE .versioned e).take ((encE .versioned e).length - 9) = e.data := encVal_data _ _ _
        rcases hk with hk | ⟨h1, h2, hk⟩
        · left
          have hk : s.d.kv .latest (p :: key) = some (encE .versioned e) := hk
          rw [hk]
          show Except.ok (some (Value.mk _ _ _)) = _
          rw [hv, hd]
        · right
          have hk : s.d.kv .latest (p :: key) = none := hk
          refine ⟨h1, h2, ?_⟩
          rw [hk]; rfl
      | immutable =>
        dsimp only
        have hst := latestAt_immut h.hist hc hl
        rcases hk with hk | ⟨h1, h2, hk⟩
        · have hk : s.d.kv .immut (p :: key) = some (encE .immutable e) := hk
          rw [hk]
          dsimp only
          rw [hv]
          have eq : e.ver - 1 + 1 = e.ver := by omega
          have hgt := get_touch (h.hist.1 b (List.mem_of_getElem? hbv)) hc htouch e.ver
          by_cases hg : s.p.genesis ≤ e.ver
          · left
            have := h.get cat key (i := e.ver - 1) (b := b) (by omega) hbv
            rw [eq] at this
            rw [this, hgt]
          · -- the block may be gone, or be left over
            unfold V4.get getBlockUpdates
            cases hgb : s.d.blocks.get e.ver with
            | none => exact Or.inr ⟨hst, by omega, rfl⟩
            | some b' =>
              left
              have := h.blocks.leaked (e.ver - 1) b' (by rw [eq]; exact hgb)
              rw [hbv] at this
              cases this
              show Except.ok (match lookup b.updates cat with
                | none => none
                | some i => valueFrom e.ver key i) = _
              cases hlk : lookup b.updates cat with
              | none => rw [hlk] at hgt; cases hgt
              | some i => rw [hlk] at hgt; dsimp only; rw [← hgt]; rfl
        · right
          have hk : s.d.kv .immut (p :: key) = none := hk
          refine ⟨h1, h2, ?_⟩
          rw [hk]

/-! ## Categories -/

/-- the prefixes in use are `0x22, 0x23, …` in order of registration -/
def Prefixes (c : Cats) : Prop :=
  c.length ≤ 100 ∧ (c.map (·.1)).Nodup ∧ ∀ i e, c[i]? = some e → e.2.2 = UInt8.ofNat (0x22 + i)

theorem Cats.get_mem {c : Cats} {id : Str} {x : CatType × UInt8} (h : c.get id = some x) : (id, x) ∈ c :=
  lookup_some_mem (l := c) h

theorem Prefixes.catsOk {c : Cats} (h : Prefixes c) : CatsOk c := by
  obtain ⟨hl, hn, hp⟩ := h
  intro a a' t t' p h1 h2
  have m1 := Cats.get_mem h1
  have m2 := Cats.get_mem h2
  obtain ⟨i, hi⟩ := List.getElem?_of_mem m1
  obtain ⟨j, hj⟩ := List.getElem?_of_mem m2
  have p1 := hp i _ hi
  have p2 := hp j _ hj
  have li := getElem?_lt hi
  have lj := getElem?_lt hj
  dsimp only at p1 p2
  have e : (0x22 + i) % 256 = (0x22 + j) % 256 := by
    have := congrArg UInt8.toNat (p1.symm.trans p2)
    simpa using this
  have : i = j := by omega
  subst this
  rw [hi] at hj
  cases hj
  rfl

theorem Prefixes.addNew {c c' : Cats} (h : Prefixes c) {id : Str} {t : CatType} (ha : c.addNew id t = .ok c') :
    Prefixes c' ∧ c' = c ++ [(id, t, UInt8.ofNat (0x22 + c.length))] := by
  unfold Cats.addNew at ha
  by_cases h1 : (c.get id).isSome
  · rw [if_pos h1] at ha; cases ha
  · rw [if_neg h1] at ha
    dsimp only at ha
    split at ha
    · cases ha
    · split at ha
      · cases ha
      · rename_i h3
        cases ha
        have e : 0x21 + (c.length + 1) = 0x22 + c.length := by omega
        rw [e]
        refine ⟨⟨by simp; omega, ?_, ?_⟩, rfl⟩
        · rw [List.map_append, List.nodup_append]
          refine ⟨h.2.1, by simp, ?_⟩
          intro a ha b hb hab
          simp at hb
          subst hb
          subst hab
          obtain ⟨e', he', hk⟩ := List.mem_map.1 ha
          apply h1
          unfold Cats.get
          rw [Option.isSome_map]
          rw [List.find?_isSome]
          exact ⟨e', he', by simpa using hk⟩
        · intro i e' hi
          by_cases hlt : i < c.length
          · rw [List.getElem?_append_left hlt] at hi
            exact h.2.2 i e' hi
          · have := getElem?_lt hi
            have : i = c.length := by simp at this; omega
            subst this
            rw [List.getElem?_append_right (Nat.le_refl _), Nat.sub_self] at hi
            cases hi
            rfl

theorem Prefixes.addAll {c c' : Cats} (h : Prefixes c) {ts : List (Str × CatType)} (ha : c.addAll ts = .ok c') :
    Prefixes c' := by
  induction ts generalizing c with
  | nil => cases ha; exact h
  | cons e ts ih =>
    obtain ⟨id, t⟩ := e
    unfold Cats.addAll at ha
    by_cases h1 : (c.get id).isSome
    · rw [if_pos h1] at ha
      exact ih h ha
    · rw [if_neg h1] at ha
      cases hn : c.addNew id t with
      | error e => rw [hn] at ha; cases ha
      | ok c1 =>
        rw [hn] at ha
        exact ih (h.addNew hn).1 ha

theorem Prefixes.nil : Prefixes [] := ⟨by simp, by simp, by intro i e h; simp at h⟩

/-- categories given at the creation of a blockchain have distinct prefixes -/
theorem Prefixes.init {c : Cats} {types : Option (List (Str × CatType))} (h : Cats.init [] types = .ok c) :
    Prefixes c := by
  unfold Cats.init at h
  cases types with
  | none => cases h
  | some ts => exact Prefixes.nil.addAll h

end
end Verif.V4
