import Verif.Trs.EgTables
set_option linter.unusedVariables false
set_option linter.unusedSimpArgs false
/-!
# Event groups: `findGlobalEventGroupId` and `readEventGroups` (C32)

kvbc/src/kvbc_app_filter/kvbc_app_filter.cpp:371-446, 448-519.  The functions read the tables many times; in the model all reads
of one call see one snapshot, except the three that `readEventGroups` makes first, which are parameters (see
`EgExamples.reader_race_aborts`).  64-bit counters do not wrap.
-/
namespace Verif.Trs

/-- `FindGlobalEgIdResult` (kvbc_app_filter.h:58-68) -/
structure Found where
  global : Nat
  isPublic : Bool
  priv : Nat
  pub : Nat
deriving DecidableEq

inductive Res (α : Type) where
  | ok (a : α)
  /-- failed assertion -/
  | abort
  /-- exception -/
  | throw
deriving DecidableEq

/-- binary search in the private event groups (kvbc_app_filter.cpp:394-418), `fuel` bounding the iterations; the result is the
cursor: private id, global id, external id -/
def search (S : Snap) (ext : Nat) : Nat → Nat → Nat → Nat × Nat × Nat → Res (Nat × Nat × Nat)
  | 0, _, _, _ => .throw
  | fuel + 1, ws, we, cur =>
    if ws ≠ 0 ∧ ws ≤ we then
      let size := we - ws + 1
      let c := ws + size / 2
      match S.tag isPriv c with
      | none => .throw
      | some (g, x) =>
        if x = ext ∨ size = 1 then .ok (c, g, x)
        else if ext > x then search S ext fuel (c + 1) we (c, g, x)
        else search S ext fuel ws (c - 1) (c, g, x)
    else .ok cur

/-- `findGlobalEventGroupId` (kvbc_app_filter.cpp:371-446) -/
def find (S : Snap) (ext : Nat) : Res Found :=
  if S.oldestExt = 0 ∨ ¬ S.oldestExt ≤ ext ∨ ¬ ext ≤ S.newestExt then .abort
  else
    let pubS := S.oldest isPub
    let pubE := S.newest isPub
    let privS := S.oldest isPriv
    let privE := S.newest isPriv
    if privS = 0 ∧ privE = 0 then match S.tag isPub ext with
      | none => .throw
      | some (g, _) => .ok ⟨g, true, privE, ext⟩
    else if pubS = 0 ∧ pubE = 0 then match S.tag isPriv ext with
      | none => .throw
      | some (g, _) => .ok ⟨g, false, ext, pubE⟩
    else match search S ext (privE + 2) privS privE (0, 0, 0) with
      | .abort => .abort
      | .throw => .throw
      | .ok (c, g, x) =>
        if x = ext then .ok ⟨g, false, c, ext - c⟩
        else if privS = 0 ∧ privE = 0 then .abort
        else
          let (c, x) := if privS = 0 then (privE, privE + pubS - 1) else (c, x)
          if ext < x then
            let i := (x - c) - (x - ext - 1)
            match S.tag isPub i with
            | none => .throw
            | some (g, _) => .ok ⟨g, true, c - 1, i⟩
          else if ¬ x < ext then .abort
          else
            let i := (x - c) + (ext - x)
            match S.tag isPub i with
            | none => .throw
            | some (g, _) => .ok ⟨g, true, c, i⟩

/-! ## Correctness of the search -/

/-- the private event group `c`, not pruned -/
def PrivAt (S : Snap) (c g x : Nat) : Prop := nth isPriv S.G c = some g ∧ S.pruned < g ∧ x = cnt isRel S.G g

theorem tag_priv {S : Snap} {c : Nat} (h1 : S.oldest isPriv ≠ 0) (h2 : S.oldest isPriv ≤ c) (h3 : c ≤ S.newest isPriv) :
    ∃ g x, S.tag isPriv c = some (g, x) ∧ PrivAt S c g x := by
  rcases oldest_cases S isPriv with ⟨a1, a2⟩ | ⟨a1, a2⟩
  · obtain ⟨g, hg⟩ := nth_some (p := isPriv) (G := S.G) (i := c) (by omega) h3
    obtain ⟨g1, g2⟩ := nth_iff.1 hg
    have hp : S.pruned < g := by
      apply Classical.byContradiction
      intro hn
      have := cnt_mono isPriv S.G (show g ≤ S.pruned by omega)
      omega
    exact ⟨g, _, by rw [Snap.tag, hg]; dsimp only; rw [if_pos hp], hg, hp, rfl⟩
  · exact absurd a2 h1

theorem privAt_mono {S : Snap} {c c' g g' x x' : Nat} (h : PrivAt S c g x) (h' : PrivAt S c' g' x') (hc : c < c') : x < x' := by
  obtain ⟨a1, _, rfl⟩ := h
  obtain ⟨b1, _, rfl⟩ := h'
  obtain ⟨a2, a3⟩ := nth_iff.1 a1
  obtain ⟨b2, b3⟩ := nth_iff.1 b1
  have hg : g < g' := by
    apply Classical.byContradiction
    intro hn
    have := cnt_mono isPriv S.G (show g' ≤ g by omega)
    omega
  exact cnt_lt_of_at (at_rel.2 (Or.inr b2)) hg

/-- what the search establishes about the cursor -/
def CurOk (S : Snap) (ext c g x : Nat) : Prop :=
  PrivAt S c g x ∧ (x = ext ∨
    (x < ext ∧ ∀ c' g' x', PrivAt S c' g' x' → c < c' → ext < x') ∨
    (ext < x ∧ ∀ c' g' x', PrivAt S c' g' x' → c' < c → x' < ext))

theorem search_ok {S : Snap} {ext : Nat} (h0 : S.oldest isPriv ≠ 0) : ∀ (fuel ws we c g x : Nat),
    we + 2 ≤ fuel + ws → S.oldest isPriv ≤ ws → we ≤ S.newest isPriv →
    (∀ c' g' x', PrivAt S c' g' x' → c' < ws → x' < ext) → (∀ c' g' x', PrivAt S c' g' x' → we < c' → ext < x') →
    (ws ≤ we ∨ CurOk S ext c g x) → ws ≤ we + 1 →
    ∃ c' g' x', search S ext fuel ws we (c, g, x) = .ok (c', g', x') ∧ CurOk S ext c' g' x' := by
  intro fuel
  induction fuel with
  | zero => intro ws we c g x hf h1 h2 h3 h4 h5 h6; omega
  | succ fuel ih =>
    intro ws we c g x hf h1 h2 h3 h4 h5 h6
    rw [search]
    by_cases hw : ws ≤ we
    · rw [if_pos ⟨by omega, hw⟩]
      dsimp only
      have hc1 : ws ≤ ws + (we - ws + 1) / 2 := Nat.le_add_right _ _
      have hc2 : ws + (we - ws + 1) / 2 ≤ we := by omega
      obtain ⟨g', x', ht, hp⟩ := tag_priv (c := ws + (we - ws + 1) / 2) h0 (by omega) (by omega)
      generalize hcc : ws + (we - ws + 1) / 2 = c' at *
      rw [ht]
      dsimp only
      by_cases he : x' = ext ∨ we - ws + 1 = 1
      · rw [if_pos he]
        refine ⟨c', g', x', rfl, hp, ?_⟩
        by_cases hx : x' = ext
        · exact Or.inl hx
        · have hs : we = ws := by omega
          have hcw : c' = ws := by omega
          rcases Nat.lt_or_gt_of_ne hx with hx | hx
          · exact Or.inr (Or.inl ⟨hx, fun c2 g2 x2 q1 q2 => h4 c2 g2 x2 q1 (by omega)⟩)
          · exact Or.inr (Or.inr ⟨hx, fun c2 g2 x2 q1 q2 => h3 c2 g2 x2 q1 (by omega)⟩)
      · rw [if_neg he]
        have hx : x' ≠ ext := fun h => he (Or.inl h)
        by_cases hgt : ext > x'
        · rw [if_pos hgt]
          apply ih (c' + 1) we c' g' x' (by omega) (by omega) h2
          · intro c2 g2 x2 q1 q2
            by_cases hc : c2 = c'
            · subst hc
              have := hp.1.symm.trans q1.1
              cases this
              rw [q1.2.2, ← hp.2.2]; exact hgt
            · exact Nat.lt_trans (privAt_mono q1 hp (by omega)) hgt
          · exact h4
          · by_cases hle : c' + 1 ≤ we
            · exact Or.inl hle
            · exact Or.inr ⟨hp, Or.inr (Or.inl ⟨hgt, fun c2 g2 x2 q1 q2 => h4 c2 g2 x2 q1 (by omega)⟩)⟩
          · omega
        · rw [if_neg hgt]
          have hlt : ext < x' := by omega
          have hcw : ws < c' := by omega
          apply ih ws (c' - 1) c' g' x' (by omega) h1 (by omega) h3
          · intro c2 g2 x2 q1 q2
            by_cases hc : c2 = c'
            · subst hc
              have := hp.1.symm.trans q1.1
              cases this
              rw [q1.2.2, ← hp.2.2]; exact hlt
            · exact Nat.lt_trans hlt (privAt_mono hp q1 (by omega))
          · exact Or.inl (by omega)
          · omega
    · rw [if_neg (by omega)]
      rcases h5 with h5 | h5
      · exact absurd h5 hw
      · exact ⟨c, g, x, rfl, h5⟩

/-- **C32.** `findGlobalEventGroupId` finds the client's event group `ext`: its global id, whether it is public, and how many of the
client's private and public event groups there are up to it. -/
theorem find_correct {S : Snap} {ext : Nat} (h0 : S.oldestExt ≠ 0) (h1 : S.oldestExt ≤ ext) (h2 : ext ≤ S.newestExt) :
    ∃ h, extGlobal S.G ext = some h ∧ S.pruned < h ∧ ∃ b : Bool, (b = true ↔ At isPub S.G h) ∧
      find S ext = .ok ⟨h, b, cnt isPriv S.G h, cnt isPub S.G h⟩ := by
  have hold : cnt isRel S.G S.pruned < S.newestExt ∧ S.oldestExt = cnt isRel S.G S.pruned + 1 := by
    rcases oldestExt_spec S with h | h
    · exact h
    · exact absurd h.2 h0
  obtain ⟨h, hh⟩ := nth_some (p := isRel) (G := S.G) (i := ext) (by omega) (by rw [← newestExt_spec]; exact h2)
  obtain ⟨ha, hc⟩ := nth_iff.1 hh
  have hp : S.pruned < h := by
    apply Classical.byContradiction
    intro hn
    have := cnt_mono isRel S.G (show h ≤ S.pruned by omega)
    omega
  have hcr := cnt_rel S.G h
  have hpubn : cnt isPub S.G h ≤ S.newest isPub := cnt_le_all _ _ _
  have hprivn : cnt isPriv S.G h ≤ S.newest isPriv := cnt_le_all _ _ _
  -- a public `h` is found under its number
  have tagPub : At isPub S.G h → ∀ i, i = cnt isPub S.G h → S.tag isPub i = some (h, cnt isRel S.G h) := by
    intro hb i hi
    rw [Snap.tag, nth_iff.2 ⟨hb, hi.symm⟩]
    dsimp only
    rw [if_pos hp]
  have tagPriv : At isPriv S.G h → ∀ i, i = cnt isPriv S.G h → S.tag isPriv i = some (h, cnt isRel S.G h) := by
    intro hb i hi
    rw [Snap.tag, nth_iff.2 ⟨hb, hi.symm⟩]
    dsimp only
    rw [if_pos hp]
  refine ⟨h, hh, hp, ?_⟩
  rw [find, if_neg (by omega)]
  dsimp only
  by_cases hnp : S.oldest isPriv = 0 ∧ S.newest isPriv = 0
  · rw [if_pos hnp]
    have hb : At isPub S.G h := by
      rcases at_rel.1 ha with hb | hb
      · exact hb
      · have := cnt_at hb; omega
    rw [tagPub hb ext (by omega)]
    exact ⟨true, ⟨fun _ => hb, fun _ => rfl⟩, by rw [show cnt isPriv S.G h = S.newest isPriv by omega, show cnt isPub S.G h = ext by omega]⟩
  · rw [if_neg hnp]
    by_cases hnu : S.oldest isPub = 0 ∧ S.newest isPub = 0
    · rw [if_pos hnu]
      have hb : At isPriv S.G h := by
        rcases at_rel.1 ha with hb | hb
        · have := cnt_at hb; omega
        · exact hb
      rw [tagPriv hb ext (by omega)]
      exact ⟨false, ⟨fun hx => (by cases hx), fun hx => (not_both hx hb).elim⟩, by
        rw [show cnt isPub S.G h = S.newest isPub by omega, show cnt isPriv S.G h = ext by omega]⟩
    · rw [if_neg hnu]
      by_cases hps : S.oldest isPriv = 0
      · -- all private event groups are pruned
        have hsr : search S ext (S.newest isPriv + 2) (S.oldest isPriv) (S.newest isPriv) (0, 0, 0) = .ok (0, 0, 0) := by
          rw [search, hps, if_neg (by omega)]
        rw [hsr]
        dsimp only
        rw [if_neg (by omega), if_neg hnp, if_pos hps]
        dsimp only
        have hpe : cnt isPriv S.G S.pruned = S.newest isPriv := by
          rcases oldest_cases S isPriv with ⟨_, a2⟩ | ⟨a1, _⟩
          · omega
          · exact a1
        have hcp : cnt isPriv S.G h = S.newest isPriv := by
          have := cnt_mono isPriv S.G (Nat.le_of_lt hp)
          omega
        have hpub : cnt isPub S.G S.pruned < S.newest isPub ∧ S.oldest isPub = cnt isPub S.G S.pruned + 1 := by
          rcases oldest_cases S isPub with a | ⟨a1, _⟩
          · exact a
          · have := cnt_rel S.G S.pruned
            have := cnt_mono isPub S.G (Nat.le_of_lt hp)
            omega
        have hb : At isPub S.G h := by
          rcases at_rel.1 ha with hb | hb
          · exact hb
          · have := cnt_lt_of_at hb hp; omega
        have hrp := cnt_rel S.G S.pruned
        rw [if_neg (by omega), if_neg (by omega), tagPub hb _ (by omega)]
        exact ⟨true, ⟨fun _ => hb, fun _ => rfl⟩, by
          dsimp only
          rw [hcp]
          congr 2
          omega⟩
      · have hpo : S.oldest isPriv = cnt isPriv S.G S.pruned + 1 ∧ cnt isPriv S.G S.pruned < S.newest isPriv := by
          rcases oldest_cases S isPriv with ⟨a1, a2⟩ | ⟨_, a2⟩
          · exact ⟨a2, a1⟩
          · exact absurd a2 hps
        -- stored private event groups lie in the window
        have hwin : ∀ c' g' x', PrivAt S c' g' x' → S.oldest isPriv ≤ c' ∧ c' ≤ S.newest isPriv := by
          intro c' g' x' ⟨q1, q2, _⟩
          obtain ⟨q3, q4⟩ := nth_iff.1 q1
          have := cnt_lt_of_at q3 q2
          have := (nth_range q1).2.1
          exact ⟨by omega, this⟩
        obtain ⟨c, g, x, hs, hcur, hcase⟩ := search_ok (S := S) (ext := ext) hps (S.newest isPriv + 2) (S.oldest isPriv) (S.newest isPriv) 0 0 0
          (by omega) (Nat.le_refl _) (Nat.le_refl _) (fun c' g' x' q1 q2 => by have := (hwin c' g' x' q1).1; omega)
          (fun c' g' x' q1 q2 => by have := (hwin c' g' x' q1).2; omega) (Or.inl (by omega)) (by omega)
        rw [hs]
        dsimp only
        obtain ⟨c1, c2, c3⟩ := hcur
        obtain ⟨c4, c5⟩ := nth_iff.1 c1
        have hgr := cnt_rel S.G g
        by_cases hx : x = ext
        · rw [if_pos hx]
          have : g = h := at_unique (at_rel.2 (Or.inr c4)) ha (by rw [← c3, hx, hc])
          subst this
          exact ⟨false, ⟨fun hx => (by cases hx), fun hx => (not_both hx c4).elim⟩, by
            rw [c5]; congr 2; omega⟩
        · rw [if_neg hx, if_neg hnp, if_neg hps]
          dsimp only
          -- `h` is not private
          have hb : At isPub S.G h := by
            rcases at_rel.1 ha with hb | hb
            · exact hb
            · have hpv : PrivAt S (cnt isPriv S.G h) h ext := ⟨nth_iff.2 ⟨hb, rfl⟩, hp, hc.symm⟩
              have hcur : PrivAt S c g x := ⟨c1, c2, c3⟩
              rcases hcase with hq | ⟨q1, q2⟩ | ⟨q1, q2⟩
              · exact absurd hq hx
              · rcases Nat.lt_trichotomy c (cnt isPriv S.G h) with r | r | r
                · have := q2 _ _ _ hpv r; omega
                · have := c1; rw [r, hpv.1] at this; cases this; omega
                · have := privAt_mono hpv hcur r; omega
              · rcases Nat.lt_trichotomy c (cnt isPriv S.G h) with r | r | r
                · have := privAt_mono hcur hpv r; omega
                · have := c1; rw [r, hpv.1] at this; cases this; omega
                · have := q2 _ _ _ hpv r; omega
          rcases hcase with hq | ⟨q1, q2⟩ | ⟨q1, q2⟩
          · exact absurd hq hx
          · -- cursor before `h`
            have hgh : g < h := by
              apply Classical.byContradiction
              intro hn
              have := cnt_mono isRel S.G (show h ≤ g by omega)
              omega
            have hpc : cnt isPriv S.G h = c := by
              have m1 := cnt_mono isPriv S.G (Nat.le_of_lt hgh)
              apply Classical.byContradiction
              intro hn
              obtain ⟨g', e1, e2, e3⟩ := exists_at (p := isPriv) (G := S.G) (i := c + 1) (b := h) (by omega) (by omega)
              have e4 : g < g' := by
                apply Classical.byContradiction
                intro hn
                have := cnt_mono isPriv S.G (show g' ≤ g by omega)
                omega
              have := q2 (c + 1) g' (cnt isRel S.G g') ⟨nth_iff.2 ⟨e2, e3⟩, by omega, rfl⟩ (by omega)
              have := cnt_mono isRel S.G e1
              omega
            rw [if_neg (by omega), if_neg (by omega), tagPub hb _ (by omega)]
            exact ⟨true, ⟨fun _ => hb, fun _ => rfl⟩, by
              dsimp only
              rw [hpc]; congr 2; omega⟩
          · -- cursor after `h`
            have hgh : h < g := by
              apply Classical.byContradiction
              intro hn
              have := cnt_mono isRel S.G (show g ≤ h by omega)
              omega
            have hcge : 1 ≤ c := (nth_range c1).1
            have hpc : cnt isPriv S.G h = c - 1 := by
              have m1 := cnt_lt_of_at c4 hgh
              apply Classical.byContradiction
              intro hn
              obtain ⟨g', e1, e2, e3⟩ := exists_at (p := isPriv) (G := S.G) (i := c - 1) (b := g) (by omega) (by omega)
              have e4 : h < g' := by
                apply Classical.byContradiction
                intro hn
                have := cnt_mono isPriv S.G (show g' ≤ h by omega)
                omega
              have := q2 (c - 1) g' (cnt isRel S.G g') ⟨nth_iff.2 ⟨e2, e3⟩, by omega, rfl⟩ (by omega)
              have := cnt_mono isRel S.G (Nat.le_of_lt e4)
              omega
            rw [if_pos (by omega), tagPub hb _ (by omega)]
            exact ⟨true, ⟨fun _ => hb, fun _ => rfl⟩, by
              dsimp only
              rw [hpc]; congr 2; omega⟩

/-! ## Reading a range -/

/-- `getEventGroup` succeeds (kvbc_app_filter.cpp:636-667) -/
def Snap.stored (S : Snap) (g : Nat) : Bool := S.pruned < g && g ≤ S.G.length

/-- the next event group of one kind: not beyond `newest`, which was read before (kvbc_app_filter.cpp:492-504) -/
def nextOf (S : Snap) (p : Kind → Bool) (newest i : Nat) : Res (Option (Nat × Nat)) :=
  if i > newest then .ok none
  else match S.tag p i with
    | none => .throw
    | some v => .ok (some v)

/-- state of the loop of `readEventGroups`; `none` = `numeric_limits<uint64_t>::max()` -/
structure RdSt where
  ext : Nat
  global : Nat
  prevPub : Bool
  nextPvt : Nat
  nextPub : Nat
  pvt : Option (Nat × Nat)
  pub : Option (Nat × Nat)

/-- the loop (kvbc_app_filter.cpp:478-518): the event groups passed on (external and global id), and the last ids read -/
def readLoop (S : Snap) (nPub nPriv nExt : Nat) : Nat → RdSt → Res (List (Nat × Nat) × (Nat × Nat))
  | 0, _ => .throw
  | fuel + 1, r =>
    if ¬ r.ext ≤ nExt then .ok ([], (r.ext, r.global))
    else if S.stored r.global = false then .throw
    else if r.ext = nExt then .ok ([(r.ext, r.global)], (r.ext, r.global))
    else
      match (if r.prevPub then nextOf S isPub nPub r.nextPub else .ok r.pub),
            (if r.prevPub then .ok r.pvt else nextOf S isPriv nPriv r.nextPvt) with
      | .ok pub, .ok pvt =>
        let rest : Res (List (Nat × Nat) × (Nat × Nat)) := match pvt, pub with
          | none, none => .ok ([], (r.ext, r.global))
          | some (g, x), none =>
            if r.ext + 1 ≠ x then .abort
            else readLoop S nPub nPriv nExt fuel ⟨r.ext + 1, g, false, r.nextPvt + 1, r.nextPub, pvt, pub⟩
          | none, some (g, _) => readLoop S nPub nPriv nExt fuel ⟨r.ext + 1, g, true, r.nextPvt, r.nextPub + 1, pvt, pub⟩
          | some (g, x), some (g', _) =>
            if g < g' then
              if r.ext + 1 ≠ x then .abort
              else readLoop S nPub nPriv nExt fuel ⟨r.ext + 1, g, false, r.nextPvt + 1, r.nextPub, pvt, pub⟩
            else readLoop S nPub nPriv nExt fuel ⟨r.ext + 1, g', true, r.nextPvt, r.nextPub + 1, pvt, pub⟩
        match rest with
        | .ok (l, last) => .ok ((r.ext, r.global) :: l, last)
        | .abort => .abort
        | .throw => .throw
      | .abort, _ => .abort
      | _, .abort => .abort
      | _, _ => .throw

/-- `readEventGroups` (kvbc_app_filter.cpp:448-519); `nPub`, `nPriv`: the counters read first -/
def readEG (S : Snap) (nPub nPriv start : Nat) : Res (List (Nat × Nat) × (Nat × Nat)) :=
  if start = 0 then .abort
  else if S.oldestExt = 0 then .throw
  else if start < S.oldestExt ∨ start > S.newestExt then .throw
  else match find S start with
    | .abort => .abort
    | .throw => .throw
    | .ok f => readLoop S nPub nPriv S.newestExt (S.newestExt + 2 - start)
        ⟨start, f.global, f.isPublic, f.priv + 1, f.pub + 1, S.tag isPriv (f.priv + 1), S.tag isPub (f.pub + 1)⟩

theorem next_kind {G : List Kind} {p q : Kind → Bool} (hr : ∀ n, cnt isRel G n = cnt p G n + cnt q G n)
    (hp : ∀ g, At p G g → At isRel G g) {e g a : Nat} (hg : extGlobal G e = some g) (ha : nth p G (cnt p G g + 1) = some a)
    (hb : ∀ b, nth q G (cnt q G g + 1) = some b → a < b) : extGlobal G (e + 1) = some a ∧ g < a ∧ cnt q G a = cnt q G g := by
  obtain ⟨h1, h2⟩ := nth_iff.1 hg
  obtain ⟨h3, h4⟩ := nth_iff.1 ha
  have hga : g < a := by
    apply Classical.byContradiction
    intro hn
    have := cnt_mono p G (show a ≤ g by omega)
    omega
  have hq : cnt q G a = cnt q G g := by
    have m := cnt_mono q G (Nat.le_of_lt hga)
    apply Classical.byContradiction
    intro hn
    obtain ⟨b, b1, b2, b3⟩ := exists_at (p := q) (G := G) (i := cnt q G g + 1) (b := a) (by omega) (by omega)
    have := hb b (nth_iff.2 ⟨b2, b3⟩)
    omega
  refine ⟨nth_iff.2 ⟨hp a h3, ?_⟩, hga, hq⟩
  have := hr a
  have := hr g
  omega

theorem no_next {G : List Kind} {e g : Nat} (hg : extGlobal G e = some g) (h1 : nth isPriv G (cnt isPriv G g + 1) = none)
    (h2 : nth isPub G (cnt isPub G g + 1) = none) : e = cnt isRel G G.length := by
  obtain ⟨h3, h4⟩ := nth_iff.1 hg
  have a1 : cnt isPriv G G.length < cnt isPriv G g + 1 := by rcases nth_none h1 with h | h; · omega
                                                             · exact h
  have a2 : cnt isPub G G.length < cnt isPub G g + 1 := by rcases nth_none h2 with h | h; · omega
                                                           · exact h
  have b1 := cnt_le_all isPriv G g
  have b2 := cnt_le_all isPub G g
  have c1 := cnt_rel G g
  have c2 := cnt_rel G G.length
  omega

/-- the table entry after an event group that is stored -/
theorem tag_next {S : Snap} {p : Kind → Bool} {g : Nat} (hp : S.pruned < g) :
    S.tag p (cnt p S.G g + 1) = (nth p S.G (cnt p S.G g + 1)).map (fun h => (h, cnt isRel S.G h)) := by
  rw [Snap.tag]
  cases hn : nth p S.G (cnt p S.G g + 1) with
  | none => rfl
  | some h =>
    obtain ⟨h1, h2⟩ := nth_iff.1 hn
    have : g < h := by
      apply Classical.byContradiction
      intro hx
      have := cnt_mono p S.G (show h ≤ g by omega)
      omega
    dsimp only
    rw [if_pos (by omega)]
    rfl

theorem nextOf_eq {S : Snap} {p : Kind → Bool} {g : Nat} (hp : S.pruned < g) :
    nextOf S p (S.newest p) (cnt p S.G g + 1) = .ok ((nth p S.G (cnt p S.G g + 1)).map (fun h => (h, cnt isRel S.G h))) := by
  rw [nextOf]
  split
  · rename_i h
    cases hn : nth p S.G (cnt p S.G g + 1) with
    | none => rfl
    | some x =>
      have := (nth_range hn).2.1
      rw [Snap.newest] at h
      omega
  · rename_i h
    rw [tag_next hp]
    obtain ⟨x, hx⟩ := nth_some (p := p) (G := S.G) (i := cnt p S.G g + 1) (by omega) (by rw [Snap.newest] at h; omega)
    rw [hx]
    rfl

theorem readLoop_correct {S : Snap} : ∀ (fuel : Nat) (r : RdSt), S.newestExt + 1 ≤ fuel + r.ext → r.ext ≤ S.newestExt →
    extGlobal S.G r.ext = some r.global → S.pruned < r.global → r.nextPvt = cnt isPriv S.G r.global + 1 →
    r.nextPub = cnt isPub S.G r.global + 1 →
    (r.prevPub = true → r.pvt = (nth isPriv S.G r.nextPvt).map (fun h => (h, cnt isRel S.G h))) →
    (r.prevPub = false → r.pub = (nth isPub S.G r.nextPub).map (fun h => (h, cnt isRel S.G h))) →
    ∃ l g, readLoop S (S.newest isPub) (S.newest isPriv) S.newestExt fuel r = .ok (l, (S.newestExt, g)) ∧
      l.map (·.1) = List.range' r.ext (S.newestExt + 1 - r.ext) ∧ (∀ x ∈ l, extGlobal S.G x.1 = some x.2) ∧
      extGlobal S.G S.newestExt = some g := by
  intro fuel
  induction fuel with
  | zero => intro r hf he; omega
  | succ fuel ih =>
    intro r hf he hg hp h1 h2 h3 h4
    rw [readLoop, if_neg (by omega)]
    have hst : S.stored r.global = true := by
      obtain ⟨a, _⟩ := nth_iff.1 hg
      rw [Snap.stored]
      simp [hp, at_le a]
    rw [if_neg (by rw [hst]; decide)]
    by_cases heq : r.ext = S.newestExt
    · rw [if_pos heq]
      refine ⟨[(r.ext, r.global)], r.global, by rw [heq], ?_, ?_, by rw [← heq]; exact hg⟩
      · rw [← heq, show r.ext + 1 - r.ext = 1 by omega]; rfl
      · intro x hx
        rw [List.mem_singleton.1 hx]; exact hg
    · rw [if_neg heq]
      have e1 : (if r.prevPub = true then nextOf S isPub (S.newest isPub) r.nextPub else .ok r.pub) =
          .ok ((nth isPub S.G r.nextPub).map (fun h => (h, cnt isRel S.G h))) := by
        cases hb : r.prevPub with
        | true => rw [if_pos rfl, h2, nextOf_eq hp]
        | false => rw [if_neg (by decide), h4 hb]
      have e2 : (if r.prevPub = true then .ok r.pvt else nextOf S isPriv (S.newest isPriv) r.nextPvt) =
          .ok ((nth isPriv S.G r.nextPvt).map (fun h => (h, cnt isRel S.G h))) := by
        cases hb : r.prevPub with
        | true => rw [if_pos rfl, h3 hb]
        | false => rw [if_neg (by decide), h1, nextOf_eq hp]
      rw [e1, e2]
      dsimp only
      have hrel' : ∀ n, cnt isRel S.G n = cnt isPriv S.G n + cnt isPub S.G n := fun n => by rw [cnt_rel]; omega
      -- what remains once the next event group is known
      have fin : ∀ (r' : RdSt), r'.ext = r.ext + 1 → extGlobal S.G (r.ext + 1) = some r'.global → S.pruned < r'.global →
          r'.nextPvt = cnt isPriv S.G r'.global + 1 → r'.nextPub = cnt isPub S.G r'.global + 1 →
          (r'.prevPub = true → r'.pvt = (nth isPriv S.G r'.nextPvt).map (fun h => (h, cnt isRel S.G h))) →
          (r'.prevPub = false → r'.pub = (nth isPub S.G r'.nextPub).map (fun h => (h, cnt isRel S.G h))) →
          ∃ l g, (match readLoop S (S.newest isPub) (S.newest isPriv) S.newestExt fuel r' with
            | .ok (l, last) => Res.ok ((r.ext, r.global) :: l, last)
            | .abort => .abort
            | .throw => .throw) = .ok (l, (S.newestExt, g)) ∧
          l.map (·.1) = List.range' r.ext (S.newestExt + 1 - r.ext) ∧ (∀ x ∈ l, extGlobal S.G x.1 = some x.2) ∧
          extGlobal S.G S.newestExt = some g := by
        intro r' q0 q1 q2 q3 q4 q5 q6
        obtain ⟨l, g, k1, k2, k3, k4⟩ := ih r' (by omega) (by omega) (by rw [q0]; exact q1) q2 q3 q4 q5 q6
        refine ⟨(r.ext, r.global) :: l, g, by rw [k1], ?_, ?_, k4⟩
        · rw [List.map_cons, k2, q0, show S.newestExt + 1 - r.ext = (S.newestExt + 1 - (r.ext + 1)) + 1 by omega, List.range'_succ]
        · intro x hx
          rcases List.mem_cons.1 hx with hx | hx
          · subst hx; exact hg
          · exact k3 x hx
      have pvtCase : ∀ a, nth isPriv S.G r.nextPvt = some a → (∀ b, nth isPub S.G r.nextPub = some b → a < b) →
          r.ext + 1 = cnt isRel S.G a ∧ extGlobal S.G (r.ext + 1) = some a ∧ S.pruned < a ∧
          r.nextPvt + 1 = cnt isPriv S.G a + 1 ∧ r.nextPub = cnt isPub S.G a + 1 := by
        intro a ha hb
        rw [h1] at ha
        rw [h2] at hb
        obtain ⟨k1, k2, k3⟩ := next_kind hrel' (fun g h => at_rel.2 (Or.inr h)) hg ha hb
        obtain ⟨k4, k5⟩ := nth_iff.1 ha
        exact ⟨(nth_iff.1 k1).2.symm, k1, by omega, by omega, by omega⟩
      have pubCase : ∀ b, nth isPub S.G r.nextPub = some b → (∀ a, nth isPriv S.G r.nextPvt = some a → b < a) →
          extGlobal S.G (r.ext + 1) = some b ∧ S.pruned < b ∧
          r.nextPvt = cnt isPriv S.G b + 1 ∧ r.nextPub + 1 = cnt isPub S.G b + 1 := by
        intro a ha hb
        rw [h2] at ha
        rw [h1] at hb
        obtain ⟨k1, k2, k3⟩ := next_kind (cnt_rel S.G) (fun g h => at_rel.2 (Or.inl h)) hg ha hb
        obtain ⟨k4, k5⟩ := nth_iff.1 ha
        exact ⟨k1, by omega, by omega, by omega⟩
      cases hpv : nth isPriv S.G r.nextPvt with
      | none =>
        cases hpb : nth isPub S.G r.nextPub with
        | none =>
          have := no_next hg (by rw [← h1]; exact hpv) (by rw [← h2]; exact hpb)
          rw [← newestExt_spec] at this
          exact absurd this heq
        | some b =>
          obtain ⟨q1, q2, q3, q4⟩ := pubCase b hpb (fun a ha => by rw [hpv] at ha; cases ha)
          exact fin ⟨r.ext + 1, b, true, r.nextPvt, r.nextPub + 1, none, some (b, _)⟩ rfl q1 q2 q3 q4
            (fun _ => by dsimp only; rw [hpv]; rfl) (fun h => by cases h)
      | some a =>
        cases hpb : nth isPub S.G r.nextPub with
        | none =>
          obtain ⟨q0, q1, q2, q3, q4⟩ := pvtCase a hpv (fun b hb => by rw [hpb] at hb; cases hb)
          simp only [Option.map_some, Option.map_none]
          rw [if_neg (by omega)]
          exact fin ⟨r.ext + 1, a, false, r.nextPvt + 1, r.nextPub, some (a, _), none⟩ rfl q1 q2 q3 q4 (fun h => by cases h)
            (fun _ => by dsimp only; rw [hpb]; rfl)
        | some b =>
          simp only [Option.map_some]
          by_cases hab : a < b
          · rw [if_pos hab]
            obtain ⟨q0, q1, q2, q3, q4⟩ := pvtCase a hpv (fun b' hb => by rw [hpb] at hb; cases hb; exact hab)
            rw [if_neg (by omega)]
            exact fin ⟨r.ext + 1, a, false, r.nextPvt + 1, r.nextPub, some (a, _), some (b, _)⟩ rfl q1 q2 q3 q4 (fun h => by cases h)
              (fun _ => by dsimp only; rw [hpb]; rfl)
          · rw [if_neg hab]
            have hne : a ≠ b := fun h => not_both (h ▸ (nth_iff.1 hpb).1) (nth_iff.1 hpv).1
            obtain ⟨q1, q2, q3, q4⟩ := pubCase b hpb (fun a' ha => by rw [hpv] at ha; cases ha; omega)
            exact fin ⟨r.ext + 1, b, true, r.nextPvt, r.nextPub + 1, some (a, _), some (b, _)⟩ rfl q1 q2 q3 q4
              (fun _ => by dsimp only; rw [hpv]; rfl) (fun h => by cases h)

/-- **C32.** On unchanging storage, `readEventGroups` passes on the client's event groups from the requested one to the newest, in
order, without gap or repetition, each with its own external id, and fails no assertion; it remembers the ids of the last one. -/
theorem readEG_correct {S : Snap} {start : Nat} (h0 : S.oldestExt ≠ 0) (h1 : S.oldestExt ≤ start) (h2 : start ≤ S.newestExt) :
    ∃ l g, readEG S (S.newest isPub) (S.newest isPriv) start = .ok (l, (S.newestExt, g)) ∧
      l.map (·.1) = List.range' start (S.newestExt + 1 - start) ∧ (∀ x ∈ l, extGlobal S.G x.1 = some x.2) ∧
      extGlobal S.G S.newestExt = some g := by
  obtain ⟨h, k1, k2, b, k3, k4⟩ := find_correct h0 h1 h2
  rw [readEG, if_neg (by omega), if_neg h0, if_neg (by omega), k4]
  dsimp only
  refine readLoop_correct _ _ (by dsimp only; omega) h2 k1 k2 rfl rfl ?_ ?_
  · intro _; exact tag_next k2
  · intro _; exact tag_next k2

end Verif.Trs
