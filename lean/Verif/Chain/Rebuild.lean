import Verif.Chain.Model
import Verif.Kvbc.MerkleSim
import Verif.Kvbc.ImmutableProps
set_option linter.unusedVariables false
set_option linter.unusedSimpArgs false
/-!
# C26: the updates of a block can be read back from the database

Per category: adding other blocks, pruning older blocks and deleting later ones leaves the values of a block alone.
-/
namespace Verif.Chain
open Verif.Bytes Verif.Kvbc

/-- the categories hold the same values for block `b` -/
def Same (b : Nat) : CState → CState → Prop
  | .merkle s, .merkle s' => ∀ h, s.values h b = s'.values h b
  | .versioned s, .versioned s' => ∀ k, (s k).values b = (s' k).values b
  | .immutable s, .immutable s' => ∀ k, iGet s k b = iGet s' k b
  | _, _ => False

theorem Same.refl (b : Nat) (s : CState) : Same b s s := by
  cases s <;> exact fun _ => rfl

theorem mapM_congr {α β : Type} {f g : α → Option β} (h : ∀ x, f x = g x) (l : List α) : l.mapM f = l.mapM g := by
  rw [show f = g from funext h]

theorem rebuild_same {H : MHash} {b : Nat} {s s' : CState} (h : Same b s s') (o : COutput) :
    catRebuild H b o s = catRebuild H b o s' := by
  cases s with
  | merkle s =>
    cases s' with
    | merkle s' =>
      cases o with
      | merkle o =>
        simp only [catRebuild]
        rw [mapM_congr (f := mKey H s b) (g := mKey H s' b)]
        intro x
        simp only [mKey, MState.get]
        rw [show s.values (H.h x.1) b = s'.values (H.h x.1) b from h _]
      | versioned _ _ => rfl
      | immutable _ _ => rfl
    | versioned _ => exact h.elim
    | immutable _ => exact h.elim
  | versioned s =>
    cases s' with
    | versioned s' =>
      cases o with
      | versioned o r =>
        simp only [catRebuild]
        rw [mapM_congr (f := vKey s b) (g := vKey s' b)]
        intro x
        simp only [vKey, Kvbc.get]
        rw [show (s x.1).values b = (s' x.1).values b from h _]
      | merkle _ => rfl
      | immutable _ _ => rfl
    | merkle _ => exact h.elim
    | immutable _ => exact h.elim
  | immutable s =>
    cases s' with
    | immutable s' =>
      cases o with
      | immutable o r =>
        simp only [catRebuild]
        rw [mapM_congr (f := iKey s b) (g := iKey s' b)]
        intro x
        simp only [iKey]
        rw [show iGet s x.1 b = iGet s' x.1 b from h _]
      | merkle _ => rfl
      | versioned _ _ => rfl
    | merkle _ => exact h.elim
    | versioned _ => exact h.elim

/-- nothing is recorded as "still active in a pruned block" for the blocks from `g` on -/
def CState.Bound (g : Nat) : CState → Prop
  | .merkle s => ∀ h v, s.active h = some v → v < g
  | .versioned s => ∀ k v, (s k).active = some v → v < g
  | .immutable _ => True

theorem Bound.mono {g g' : Nat} (h : g ≤ g') {s : CState} (hs : s.Bound g) : s.Bound g' := by
  cases s with
  | merkle s => exact fun k v e => Nat.lt_of_lt_of_le (hs k v e) h
  | versioned s => exact fun k v e => Nat.lt_of_lt_of_le (hs k v e) h
  | immutable s => trivial

/-- the block does not put a key that an immutable category already holds -/
def CInput.Fresh : CInput → CState → Prop
  | .immutable kv _, .immutable s => ∀ x ∈ kv, s x.1 = none
  | _, _ => True

/-! ### adding a block -/

theorem foldl_addDelete_active (b : Nat) (ds : List Key) (acc : VState × VOut) (k : Key) :
    ((ds.foldl (addDelete b) acc).1 k).active = (acc.1 k).active ∧
    ∀ b', b' ≠ b → ((ds.foldl (addDelete b) acc).1 k).values b' = (acc.1 k).values b' := by
  induction ds generalizing acc with
  | nil => exact ⟨rfl, fun _ _ => rfl⟩
  | cons d ds ih =>
    rw [List.foldl_cons]
    obtain ⟨h1, h2⟩ := ih (addDelete b acc d)
    have e : ((addDelete b acc d).1 k).active = (acc.1 k).active ∧
        ∀ b', b' ≠ b → ((addDelete b acc d).1 k).values b' = (acc.1 k).values b' := by
      simp only [addDelete, upd]
      split
      · exact ⟨rfl, fun b' hb => by simp only [KState.putValue, KState.putLatest]; rw [if_neg hb]⟩
      · exact ⟨rfl, fun _ _ => rfl⟩
    exact ⟨h1.trans e.1, fun b' hb => (h2 b' hb).trans (e.2 b' hb)⟩

theorem foldl_addUpdate_active (b : Nat) (ds : List (Key × ValueWithFlags)) (acc : VState × VOut) (k : Key) :
    ((ds.foldl (addUpdate b) acc).1 k).active = (acc.1 k).active ∧
    ∀ b', b' ≠ b → ((ds.foldl (addUpdate b) acc).1 k).values b' = (acc.1 k).values b' := by
  induction ds generalizing acc with
  | nil => exact ⟨rfl, fun _ _ => rfl⟩
  | cons d ds ih =>
    rw [List.foldl_cons]
    obtain ⟨h1, h2⟩ := ih (addUpdate b acc d)
    have e : ((addUpdate b acc d).1 k).active = (acc.1 k).active ∧
        ∀ b', b' ≠ b → ((addUpdate b acc d).1 k).values b' = (acc.1 k).values b' := by
      simp only [addUpdate, upd]
      split
      · exact ⟨rfl, fun b' hb => by simp only [KState.putValue, KState.putLatest]; rw [if_neg hb]⟩
      · exact ⟨rfl, fun _ _ => rfl⟩
    exact ⟨h1.trans e.1, fun b' hb => (h2 b' hb).trans (e.2 b' hb)⟩

theorem vadd_other (b : Nat) (i : VInput) (s : VState) (k : Key) :
    ((Kvbc.add b i s).1 k).active = (s k).active ∧ ∀ b', b' ≠ b → ((Kvbc.add b i s).1 k).values b' = (s k).values b' := by
  obtain ⟨h1, h2⟩ := foldl_addUpdate_active b i.kv (i.deletes.foldl (addDelete b) (s, [])) k
  obtain ⟨h3, h4⟩ := foldl_addDelete_active b i.deletes (s, []) k
  exact ⟨h1.trans h3, fun b' hb => (h2 b' hb).trans (h4 b' hb)⟩

theorem foldl_inv {σ β : Type} (P : σ → Prop) (f : σ → β → σ) (hf : ∀ s x, P s → P (f s x)) :
    ∀ (l : List β) (s : σ), P s → P (l.foldl f s)
  | [], _, h => h
  | x :: l, s, h => foldl_inv P f hf l (f s x) (hf s x h)

theorem foldlM_inv {σ β : Type} (P : σ → Prop) (f : σ → β → Option σ) (hf : ∀ s x r, P s → f s x = some r → P r) :
    ∀ (l : List β) (s r : σ), P s → l.foldlM f s = some r → P r
  | [], s, r, h, e => by cases e; exact h
  | x :: l, s, r, h, e => by
    rw [List.foldlM_cons] at e
    cases e1 : f s x with
    | none => rw [e1] at e; cases e
    | some s1 => rw [e1] at e; exact foldlM_inv P f hf l s1 r (hf s x s1 h e1) e

/-- what adding block `b` leaves alone in a block-Merkle category -/
def MKeep (b : Nat) (s s' : MState) : Prop := s'.active = s.active ∧ ∀ h b', b' ≠ b → s'.values h b' = s.values h b'

theorem putKeys_other' (H : MHash) (b : Nat) (i : MInput) (s : MState) : MKeep b s (putKeys H b i s) := by
  rw [putKeys]
  refine foldl_inv (MKeep b s) _ ?_ _ _ (foldl_inv (MKeep b s) _ ?_ _ _ ⟨rfl, fun _ _ _ => rfl⟩)
  · intro t k ⟨h1, h2⟩
    refine ⟨h1, fun h b' hb => ?_⟩
    simp only [putDeleted, MState.setLatest, MState.putValue]
    rw [if_neg (fun e => hb e.2)]
    exact h2 h b' hb
  · intro t k ⟨h1, h2⟩
    refine ⟨h1, fun h b' hb => ?_⟩
    simp only [putAdded, MState.setLatest, MState.putValue]
    rw [if_neg (fun e => hb e.2)]
    exact h2 h b' hb

theorem madd_some {H : MHash} {b : Nat} {i : MInput} {s s' : MState} {o : MOutput} (h : s.add H b i = some (s', o)) :
    s'.values = (putKeys H b i s).values ∧ s'.active = (putKeys H b i s).active ∧ o.keys = inputToOutput i := by
  simp only [MState.add] at h
  split at h
  · cases h
  · split at h
    · cases h
    · cases h; exact ⟨rfl, rfl, rfl⟩

theorem iAdd_key (b : Nat) (kv : List (Key × Bytes)) : ∀ (s : IState) (k : Key),
    (iAdd b kv s).1 k = s k ∨ (k ∈ kv.map (·.1) ∧ ∃ v, (iAdd b kv s).1 k = some (b, v)) := by
  induction kv with
  | nil => intro s k; exact Or.inl rfl
  | cons x xs ih =>
    intro s k
    have e : (iAdd b (x :: xs) s).1 = (iAdd b xs (fun k => if k = x.1 then some (b, x.2) else s k)).1 := rfl
    rw [e]
    rcases ih (fun k => if k = x.1 then some (b, x.2) else s k) k with h | ⟨h1, h2⟩
    · rw [h]
      by_cases hk : k = x.1
      · rw [if_pos hk]; exact Or.inr ⟨by rw [hk]; exact List.mem_map.2 ⟨x, List.mem_cons_self, rfl⟩, _, rfl⟩
      · rw [if_neg hk]; exact Or.inl rfl
    · exact Or.inr ⟨by rw [List.map_cons]; exact List.mem_cons_of_mem _ h1, h2⟩

theorem iAdd_get (b : Nat) (kv : List (Key × Bytes)) (hn : (kv.map (·.1)).Nodup) : ∀ (s : IState) (k : Key) (v : Bytes),
    (k, v) ∈ kv → (iAdd b kv s).1 k = some (b, v) := by
  induction kv with
  | nil => intro s k v h; cases h
  | cons x xs ih =>
    intro s k v h
    rw [List.map_cons, List.nodup_cons] at hn
    have e : (iAdd b (x :: xs) s).1 = (iAdd b xs (fun k => if k = x.1 then some (b, x.2) else s k)).1 := rfl
    rw [e]
    rcases List.mem_cons.1 h with h | h
    · rcases iAdd_key b xs (fun k => if k = x.1 then some (b, x.2) else s k) k with h' | ⟨h', _⟩
      · rw [h', ← h]; simp
      · rw [← h] at hn; exact absurd h' hn.1
    · exact ih hn.2 _ k v h

theorem add_same {H : MHash} {b b' : Nat} {i : CInput} {s s' : CState} {o : COutput} (hb : b' ≠ b) (hf : i.Fresh s)
    (h : catAdd H b i s = some (s', o)) : Same b' s s' := by
  cases i with
  | merkle i =>
    cases s with
    | merkle s =>
      simp only [catAdd, Option.map_eq_some_iff] at h
      obtain ⟨⟨t, o'⟩, h1, h2⟩ := h
      cases h2
      obtain ⟨e1, _, _⟩ := madd_some h1
      intro h
      rw [e1, (putKeys_other' H b i s).2 h b' hb]
    | versioned _ => cases h
    | immutable _ => cases h
  | versioned i r =>
    cases s with
    | versioned s =>
      cases h
      intro k
      exact ((vadd_other b i s k).2 b' hb).symm
    | merkle _ => cases h
    | immutable _ => cases h
  | immutable kv r =>
    cases s with
    | immutable s =>
      cases h
      intro k
      rcases iAdd_key b (kv.map (fun x => (x.1, x.2.1))) s k with e | ⟨hk, v, e⟩
      · simp only [iGet, iGetLatest]; rw [e]
      · have : s k = none := by
          rw [List.map_map] at hk
          obtain ⟨x, hx, rfl⟩ := List.mem_map.1 hk
          exact hf x hx
        simp only [iGet, iGetLatest]
        rw [e, this]
        simp only
        rw [if_pos (fun e => hb e.symm)]
    | merkle _ => cases h
    | versioned _ => cases h

theorem add_bound {H : MHash} {b g : Nat} {i : CInput} {s s' : CState} {o : COutput} (hs : s.Bound g)
    (h : catAdd H b i s = some (s', o)) : s'.Bound g := by
  cases i with
  | merkle i =>
    cases s with
    | merkle s =>
      simp only [catAdd, Option.map_eq_some_iff] at h
      obtain ⟨⟨t, o'⟩, h1, h2⟩ := h
      cases h2
      obtain ⟨_, e1, _⟩ := madd_some h1
      intro h v hv
      rw [e1, (putKeys_other' H b i s).1] at hv
      exact hs h v hv
    | versioned _ => cases h
    | immutable _ => cases h
  | versioned i r =>
    cases s with
    | versioned s =>
      cases h
      intro k v hv
      rw [(vadd_other b i s k).1] at hv
      exact hs k v hv
    | merkle _ => cases h
    | immutable _ => cases h
  | immutable kv r =>
    cases s with
    | immutable s => cases h; trivial
    | merkle _ => cases h
    | versioned _ => cases h

/-! ### pruning -/

/-- the keys of an immutable block are still those put by block `b` -/
theorem rebuild_own {H : MHash} {b : Nat} {keys : List (Key × List Bytes)} {r : Option (List (Bytes × Bytes))} {s : IState}
    {i : CInput} (h : catRebuild H b (.immutable keys r) (.immutable s) = some i) :
    ∀ k ∈ keys.map (·.1), ∃ v, s k = some (b, v) := by
  simp only [catRebuild, Option.map_eq_some_iff] at h
  obtain ⟨l, h1, -⟩ := h
  intro k hk
  obtain ⟨x, hx, rfl⟩ := List.mem_map.1 hk
  clear hk
  induction keys generalizing l with
  | nil => cases hx
  | cons y ys ih =>
    rw [List.mapM_cons] at h1
    cases e1 : iKey s b y with
    | none => rw [e1] at h1; cases h1
    | some z =>
      rw [e1] at h1
      cases e2 : ys.mapM (iKey s b) with
      | none => rw [e2] at h1; cases h1
      | some zs =>
        rcases List.mem_cons.1 hx with e | hx
        · subst e
          simp only [iKey, Option.map_eq_some_iff, iGet, iGetLatest] at e1
          obtain ⟨a, e1, _⟩ := e1
          cases e3 : s x.1 with
          | none => rw [e3] at e1; cases e1
          | some v =>
            rw [e3] at e1
            simp only at e1
            split at e1
            · cases e1
            · rename_i hv
              exact ⟨v.2, by rw [← Classical.not_not.1 hv]⟩
        · exact ih zs e2 hx

theorem iDelete_key (keys : List Key) : ∀ (s : IState) (k : Key), iDelete keys s k = if k ∈ keys then none else s k := by
  induction keys with
  | nil => intro s k; simp [iDelete]
  | cons x xs ih =>
    intro s k
    have e : iDelete (x :: xs) s = iDelete xs (fun k' => if k' = x then none else s k') := rfl
    rw [e, ih]
    by_cases h1 : k = x
    · simp [h1]
    · simp [h1]

theorem iDelete_same {b b' : Nat} (hb : b' ≠ b) {keys : List Key} {s : IState} (ho : ∀ k ∈ keys, ∃ v, s k = some (b, v)) :
    ∀ k, iGet s k b' = iGet (iDelete keys s) k b' := by
  intro k
  simp only [iGet, iGetLatest]
  rw [iDelete_key]
  by_cases hk : k ∈ keys
  · obtain ⟨v, hv⟩ := ho k hk
    rw [if_pos hk, hv]
    simp only
    rw [if_pos (fun e => hb e.symm)]
  · rw [if_neg hk]

/-- pruning block `g` keeps the values of later blocks and the bound -/
def VKeep (g : Nat) (s s' : VState) : Prop :=
  (∀ k b, g < b → (s' k).values b = (s k).values b) ∧ ∀ k v, (s' k).active = some v → v < g + 1

theorem vprune_keep {g : Nat} {out : VOut} {s s' : VState} (hs : ∀ k v, (s k).active = some v → v < g)
    (h : deleteGenesis g out s = some s') : VKeep g s s' := by
  simp only [deleteGenesis] at h
  refine foldlM_inv (VKeep g s) _ ?_ _ _ _ (foldl_inv (VKeep g s) _ ?_ _ _
    ⟨fun _ _ _ => rfl, fun k v e => Nat.lt_succ_of_lt (hs k v e)⟩) h
  · intro acc x r ⟨h1, h2⟩ hr
    simp only [Option.map_eq_some_iff] at hr
    obtain ⟨y, hy, rfl⟩ := hr
    have key : (∀ b, g < b → y.values b = (acc x.1).values b) ∧ ∀ v, y.active = some v → v < g + 1 := by
      have dv : ∀ (z : KState) b, g < b → (z.delValue g).values b = z.values b := by
        intro z b hb
        simp only [KState.delValue]
        rw [if_neg (by omega)]
      simp only [pruneKey] at hy
      split at hy
      · cases hy
      · split at hy
        · cases hy
          split
          · exact ⟨fun b hb => dv _ b hb, h2 x.1⟩
          · exact ⟨fun b hb => dv _ b hb, h2 x.1⟩
        · split at hy
          · cases hy
            exact ⟨fun b hb => dv _ b hb, h2 x.1⟩
          · split at hy
            · cases hy
              exact ⟨fun b hb => dv _ b hb, h2 x.1⟩
            · cases hy
              refine ⟨fun b hb => rfl, fun v hv => ?_⟩
              simp only [KState.putActive, Option.some.injEq] at hv
              omega
    refine ⟨fun k b hb => ?_, fun k v hv => ?_⟩
    · simp only [upd]
      split
      · rename_i e; rw [e]; rw [key.1 b hb]; exact h1 x.1 b hb
      · exact h1 k b hb
    · simp only [upd] at hv
      split at hv
      · exact key.2 v hv
      · exact h2 k v hv
  · intro acc x ⟨h1, h2⟩
    refine ⟨fun k b hb => ?_, fun k v hv => ?_⟩
    · simp only [upd]
      split
      · rename_i e
        subst e
        simp only [dropActive]
        cases e : (s x.1).active with
        | none => exact h1 x.1 b hb
        | some a =>
          simp only [KState.delActive, KState.delValue]
          have := hs x.1 a e
          rw [if_neg (by omega)]
          exact h1 x.1 b hb
      · exact h1 k b hb
    · simp only [upd] at hv
      split at hv
      · rename_i e
        subst e
        simp only [dropActive] at hv
        cases e : (s x.1).active with
        | none => rw [e] at hv; exact h2 x.1 v hv
        | some a => rw [e] at hv; simp only [KState.delActive] at hv; cases hv
      · exact h2 k v hv

theorem deleteInactive_keep {H : MHash} {b : Nat} {s : MState} (keys : List Key) (acc r : MState × List KHash)
    (h : keys.foldlM (deleteInactive H b s) acc = some r) : MKeep b acc.1 r.1 := by
  refine foldlM_inv (fun r => MKeep b acc.1 r.1) _ ?_ keys acc r ⟨rfl, fun _ _ _ => rfl⟩ h
  intro t x r ⟨h1, h2⟩ hr
  obtain ⟨_, _, h3, _, _, h4, _⟩ := deleteInactive_some hr
  exact ⟨h3.trans h1, fun h b' hb => (h4 h b' (Or.inr hb)).trans (h2 h b' hb)⟩

theorem mprune_keep {H : MHash} {g : Nat} {out : MOutput} {s s' : MState} (hs : ∀ h v, s.active h = some v → v < g)
    (h : s.deleteGenesis H g out = some s') :
    (∀ h b, g < b → s'.values h b = s.values h b) ∧ ∀ h v, s'.active h = some v → v < g + 1 := by
  obtain ⟨acc, adds, rems, acc1, act, r, h1, h2, h3, t, t', _, _, e⟩ := deleteGenesis_phases h
  obtain ⟨i1, _, i3, _⟩ := rewriteAll_fields h1
  obtain ⟨d1, d2, _⟩ := dropOverwritten_fields (findActive ((out.keys.map (·.1)).map H.h) s) s
  obtain ⟨k1, k2⟩ := deleteInactive_keep _ _ _ h2
  have v1 : ∀ h b, g < b → acc1.values h b = s.values h b := by
    intro h b hb
    rw [k2 h b (by omega)]
    show acc.values h b = _
    rw [i1, d1, if_neg]
    intro hm
    have := hs h b (mem_findActive.1 hm).2
    omega
  have a1 : ∀ h v, acc1.active h = some v → v < g + 1 := by
    intro h v hv
    rw [k1] at hv
    have hv : acc.active h = some v := hv
    rw [i3, d2] at hv
    split at hv
    · cases hv
    · exact Nat.lt_succ_of_lt (hs h v hv)
  subst e
  rcases h3 with ⟨_, e⟩ | ⟨_, v, _, e⟩
  · subst e; exact ⟨v1, a1⟩
  · subst e
    obtain ⟨s1, s2, _⟩ := setActive_fold g act acc1
    refine ⟨fun h b hb => ?_, fun h v hv => ?_⟩
    · show (act.foldl (fun acc h => acc.setActive h (some g)) acc1).values h b = _
      rw [s2]; exact v1 h b hb
    · have hv : (act.foldl (fun acc h => acc.setActive h (some g)) acc1).active h = some v := hv
      rw [s1] at hv
      split at hv
      · injection hv with hv; omega
      · exact a1 h v hv

theorem prune_same {H : MHash} {g : Nat} {o : COutput} {s s' : CState} {i : CInput} (hs : s.Bound g)
    (hr : catRebuild H g o s = some i) (h : catPrune H g o s = some s') :
    (∀ b, g < b → Same b s s') ∧ s'.Bound (g + 1) := by
  cases o with
  | merkle o =>
    cases s with
    | merkle s =>
      simp only [catPrune, Option.map_eq_some_iff] at h
      obtain ⟨t, h1, rfl⟩ := h
      obtain ⟨k1, k2⟩ := mprune_keep hs h1
      exact ⟨fun b hb h => (k1 h b hb).symm, k2⟩
    | versioned _ => cases h
    | immutable _ => cases h
  | versioned o r =>
    cases s with
    | versioned s =>
      simp only [catPrune, Option.map_eq_some_iff] at h
      obtain ⟨t, h1, rfl⟩ := h
      obtain ⟨k1, k2⟩ := vprune_keep hs h1
      exact ⟨fun b hb k => (k1 k b hb).symm, k2⟩
    | merkle _ => cases h
    | immutable _ => cases h
  | immutable o r =>
    cases s with
    | immutable s =>
      cases h
      exact ⟨fun b hb => iDelete_same (by omega) (rebuild_own hr), trivial⟩
    | merkle _ => cases h
    | versioned _ => cases h

/-! ### deleting the last block -/

theorem vundo_keep (b : Nat) (out : VOut) (s : VState) :
    ∀ k, ((deleteLastReachable b out s k).active = (s k).active) ∧
      ∀ b', b' ≠ b → (deleteLastReachable b out s k).values b' = (s k).values b' := by
  refine foldl_inv (fun t : VState => ∀ k, (t k).active = (s k).active ∧ ∀ b', b' ≠ b → (t k).values b' = (s k).values b')
    _ ?_ out s (fun k => ⟨rfl, fun _ _ => rfl⟩)
  intro t x ht k
  simp only [upd]
  split
  · rename_i e
    subst e
    simp only [unlinkKey]
    cases prevVersion (s x.1) b with
    | none =>
      refine ⟨(ht x.1).1, fun b' hb => ?_⟩
      simp only [KState.delValue, KState.delLatest]
      rw [if_neg hb]; exact (ht x.1).2 b' hb
    | some p =>
      refine ⟨(ht x.1).1, fun b' hb => ?_⟩
      simp only [KState.delValue, KState.putLatest]
      rw [if_neg hb]; exact (ht x.1).2 b' hb
  · exact ht k

theorem undo_same {H : MHash} {b g : Nat} {o : COutput} {s s' : CState} {i : CInput} (hs : s.Bound g)
    (hr : catRebuild H b o s = some i) (h : catUndo H b o s = some s') :
    (∀ b', b' ≠ b → Same b' s s') ∧ s'.Bound g := by
  cases o with
  | merkle o =>
    cases s with
    | merkle s =>
      cases h
      have key : MKeep b s ((o.keys.map (·.1)).foldl (unlinkM H b s) s) := by
        refine foldl_inv (MKeep b s) _ ?_ _ _ ⟨rfl, fun _ _ _ => rfl⟩
        intro t x ⟨h1, h2⟩
        obtain ⟨u1, _, _, u2⟩ := unlinkM_other H b s t x
        refine ⟨u1.trans h1, fun h b' hb => ?_⟩
        rw [u2, if_neg (fun e => hb e.2)]; exact h2 h b' hb
      refine ⟨fun b' hb h => (key.2 h b' hb).symm, fun h v hv => ?_⟩
      have hv : ((o.keys.map (·.1)).foldl (unlinkM H b s) s).active h = some v := hv
      rw [key.1] at hv
      exact hs h v hv
    | versioned _ => cases h
    | immutable _ => cases h
  | versioned o r =>
    cases s with
    | versioned s =>
      cases h
      refine ⟨fun b' hb k => ((vundo_keep b o s k).2 b' hb).symm, fun k v hv => ?_⟩
      rw [(vundo_keep b o s k).1] at hv
      exact hs k v hv
    | merkle _ => cases h
    | immutable _ => cases h
  | immutable o r =>
    cases s with
    | immutable s =>
      cases h
      exact ⟨fun b' hb => iDelete_same hb (rebuild_own hr), trivial⟩
    | merkle _ => cases h
    | versioned _ => cases h

/-! ### reading back the block just added -/

theorem sorted_mem_ext {α : Type} {l l' : List (Key × α)} (h : Sorted l) (h' : Sorted l') (e : ∀ x, x ∈ l ↔ x ∈ l') :
    l = l' := by
  refine sorted_ext h h' (fun k => ?_)
  cases a : l.lookup k with
  | some v => exact (lookup_of_mem_nodup (sorted_nodup h') ((e _).1 (mem_of_lookup a))).symm
  | none =>
    cases b : l'.lookup k with
    | none => rfl
    | some v =>
      have := lookup_of_mem_nodup (sorted_nodup h) ((e _).2 (mem_of_lookup b))
      rw [a] at this; cases this

/-- strictly ascending keys -/
def Asc (l : List Key) : Prop := l.Pairwise (fun a b => keyLt a b = true)

theorem asc_mem_ext {l l' : List Key} (h : Asc l) (h' : Asc l') (e : ∀ x, x ∈ l ↔ x ∈ l') : l = l' := by
  have s : ∀ {l : List Key}, Asc l → Sorted (l.map (fun k => (k, ()))) := by
    intro l h
    rw [Sorted, List.pairwise_map]
    exact h
  have := sorted_mem_ext (s h) (s h') (fun x => by
    simp only [List.mem_map]
    constructor
    · rintro ⟨a, ha, rfl⟩; exact ⟨a, (e a).1 ha, rfl⟩
    · rintro ⟨a, ha, rfl⟩; exact ⟨a, (e a).2 ha, rfl⟩)
  have := congrArg (List.map Prod.fst) this
  simpa [List.map_map, Function.comp_def] using this

/-- how the reconstruction splits one key of the update info -/
def splitKey {β γ : Type} (kv : List (Key × β)) (x : Key × γ) : Sum Key (Key × β) :=
  match kv.lookup x.1 with
  | some v => .inr (x.1, v)
  | none => .inl x.1

theorem mem_rights {α β : Type} {l : List (Sum α β)} {b : β} : b ∈ rights l ↔ Sum.inr b ∈ l := by
  induction l with
  | nil => simp [rights]
  | cons x xs ih => cases x <;> simp [rights, ih]

theorem mem_lefts {α β : Type} {l : List (Sum α β)} {a : α} : a ∈ lefts l ↔ Sum.inl a ∈ l := by
  induction l with
  | nil => simp [lefts]
  | cons x xs ih => cases x <;> simp [lefts, ih]

theorem split_inr {β γ : Type} {kv : List (Key × β)} {x : Key × γ} {y : Key × β} (h : splitKey kv x = .inr y) :
    y.1 = x.1 ∧ kv.lookup x.1 = some y.2 := by
  rw [splitKey] at h
  split at h
  · rename_i v e; cases h; exact ⟨rfl, e⟩
  · cases h

theorem split_inl {β γ : Type} {kv : List (Key × β)} {x : Key × γ} {y : Key} (h : splitKey kv x = .inl y) :
    y = x.1 ∧ kv.lookup x.1 = none := by
  rw [splitKey] at h
  split at h
  · cases h
  · rename_i e; cases h; exact ⟨rfl, e⟩

theorem rights_sorted {β γ : Type} (kv : List (Key × β)) : ∀ {out : List (Key × γ)}, Sorted out →
    Sorted (rights (out.map (splitKey kv)))
  | [], _ => List.Pairwise.nil
  | x :: xs, h => by
    have h' := List.pairwise_cons.1 h
    rw [List.map_cons]
    cases e : splitKey kv x with
    | inl k => exact rights_sorted kv h'.2
    | inr y =>
      refine List.pairwise_cons.2 ⟨?_, rights_sorted kv h'.2⟩
      intro z hz
      rw [mem_rights] at hz
      obtain ⟨w, hw, ew⟩ := List.mem_map.1 hz
      rw [(split_inr e).1, (split_inr ew).1]
      exact h'.1 w hw

theorem lefts_sorted {β γ : Type} (kv : List (Key × β)) : ∀ {out : List (Key × γ)}, Sorted out →
    Asc (lefts (out.map (splitKey kv)))
  | [], _ => List.Pairwise.nil
  | x :: xs, h => by
    have h' := List.pairwise_cons.1 h
    rw [List.map_cons]
    cases e : splitKey kv x with
    | inr y => exact lefts_sorted kv h'.2
    | inl k =>
      refine List.pairwise_cons.2 ⟨?_, lefts_sorted kv h'.2⟩
      intro z hz
      rw [mem_lefts] at hz
      obtain ⟨w, hw, ew⟩ := List.mem_map.1 hz
      rw [(split_inl e).1, (split_inl ew).1]
      exact h'.1 w hw

/-- an update info that names exactly the put and deleted keys splits into the puts and the deletes -/
theorem split_exact {β γ : Type} {kv : List (Key × β)} {ds : List Key} {out : List (Key × γ)} (hk : Sorted kv) (hd : Asc ds)
    (hdis : ∀ k ∈ ds, k ∉ kv.map (·.1)) (ho : Sorted out)
    (hm : ∀ k, k ∈ out.map (·.1) ↔ k ∈ kv.map (·.1) ∨ k ∈ ds) :
    rights (out.map (splitKey kv)) = kv ∧ lefts (out.map (splitKey kv)) = ds := by
  constructor
  · refine sorted_mem_ext (rights_sorted kv ho) hk (fun x => ?_)
    rw [mem_rights, List.mem_map]
    constructor
    · rintro ⟨y, _, e⟩
      obtain ⟨e1, e2⟩ := split_inr e
      have := mem_of_lookup e2
      rw [← e1] at this
      exact this
    · intro hx
      have hl := lookup_of_mem_nodup (sorted_nodup hk) (show (x.1, x.2) ∈ kv from hx)
      obtain ⟨y, hy, e⟩ := List.mem_map.1 ((hm x.1).2 (Or.inl (List.mem_map.2 ⟨x, hx, rfl⟩)))
      refine ⟨y, hy, ?_⟩
      rw [splitKey, e, hl]
  · refine asc_mem_ext (lefts_sorted kv ho) hd (fun k => ?_)
    rw [mem_lefts, List.mem_map]
    constructor
    · rintro ⟨y, hy, e⟩
      obtain ⟨e1, e2⟩ := split_inl e
      subst e1
      rcases (hm y.1).1 (List.mem_map.2 ⟨y, hy, rfl⟩) with h | h
      · exact absurd e2 (mem_keys_iff_lookup.1 h)
      · exact h
    · intro hx
      have hl : kv.lookup k = none := lookup_none_of_not_mem (hdis k hx)
      obtain ⟨y, hy, e⟩ := List.mem_map.1 ((hm k).2 (Or.inr hx))
      refine ⟨y, hy, ?_⟩
      rw [splitKey, e, hl]

theorem mapM_some {α β : Type} {f : α → Option β} {g : α → β} : ∀ {l : List α}, (∀ x ∈ l, f x = some (g x)) →
    l.mapM f = some (l.map g)
  | [], _ => rfl
  | x :: xs, h => by
    rw [List.mapM_cons, h x List.mem_cons_self, mapM_some (fun y hy => h y (List.mem_cons_of_mem _ hy))]
    rfl

/-- updates whose block can be read back: maps are maps, the deleted keys are in order and not also put, and (block-Merkle)
the keys of the block have different hashes -/
def CInput.Proper (H : MHash) : CInput → Prop
  | .merkle i => Sorted i.kv ∧ Asc i.deletes ∧ (∀ k ∈ i.deletes, k ∉ i.kv.map (·.1)) ∧
      InjOn H (fun k => k ∈ i.kv.map (·.1) ∨ k ∈ i.deletes)
  | .versioned i _ => Sorted i.kv ∧ Asc i.deletes ∧ (∀ k ∈ i.deletes, k ∉ i.kv.map (·.1))
  | .immutable kv _ => Sorted kv

theorem outOf_keys (i : VInput) : ∀ k, k ∈ (outOf i).map (·.1) ↔ k ∈ i.kv.map (·.1) ∨ k ∈ i.deletes := by
  intro k
  obtain ⟨h1, h2⟩ := foldl_emplace (fun k : Key => k) (fun _ => (⟨true, false⟩ : VFlags)) i.deletes [] List.Pairwise.nil
  obtain ⟨h3, h4⟩ := foldl_emplace (fun x : Key × ValueWithFlags => x.1) (fun x => (⟨false, x.2.staleOnUpdate⟩ : VFlags)) i.kv _ h1
  rw [outOf, h4 k, h2 k]
  simp [or_comm]

theorem vrebuild_add {b : Nat} {i : VInput} (hk : Sorted i.kv) (hd : Asc i.deletes)
    (hdis : ∀ k ∈ i.deletes, k ∉ i.kv.map (·.1)) (s : VState) :
    (Kvbc.add b i s).2.mapM (vKey (Kvbc.add b i s).1 b) = some ((outOf i).map (splitKey i.kv)) := by
  rw [add_out]
  have hw : i.wf := sorted_nodup hk
  refine mapM_some (fun x hx => ?_)
  have hl : (outOf i).lookup x.1 = some x.2 := lookup_of_mem_nodup (sorted_nodup (outOf_sorted i hw)) hx
  rw [outOf_lookup i hw] at hl
  simp only [vKey, Kvbc.get, add_key b i hw, splitKey]
  rw [touch] at hl ⊢
  cases e : i.kv.lookup x.1 with
  | some v =>
    rw [e] at hl
    have hnd : x.1 ∉ i.deletes := fun h => hdis _ h (mem_keys_iff_lookup.2 (by rw [e]; simp))
    simp only [hnd, if_false, Option.map_some, Option.some.injEq] at hl
    rw [← hl]
    simp [KState.write, KState.putValue, hnd]
  | none =>
    rw [e] at hl
    simp only at hl
    split at hl
    · simp only [Option.map_some, Option.some.injEq] at hl
      rw [← hl]; simp
    · cases hl

theorem foldl_emplace_lookup {α β : Type} (f : β → Key) (v : α) (l : List β) : ∀ (o : List (Key × α)), Sorted o → ∀ k,
    (l.foldl (fun o x => emplace (f x) v o) o).lookup k = if k ∈ l.map f then (o.lookup k).or (some v) else o.lookup k := by
  induction l with
  | nil => intro o _ k; simp
  | cons x xs ih =>
    intro o ho k
    rw [List.foldl_cons, ih _ (emplace_sorted _ _ _ ho), emplace_lookup _ _ _ _ ho]
    by_cases h1 : k = f x
    · subst h1
      simp only [if_true, List.map_cons, List.mem_cons, true_or]
      split
      · cases o.lookup (f x) <;> rfl
      · rfl
    · simp [h1]

theorem inputToOutput_lookup (i : MInput) (hdis : ∀ k ∈ i.deletes, k ∉ i.kv.map (·.1)) (k : Key) :
    (inputToOutput i).lookup k = if k ∈ i.deletes then some true else if k ∈ i.kv.map (·.1) then some false else none := by
  have h1 := (foldl_emplace (fun x : Key × Bytes => x.1) (fun _ => false) i.kv [] List.Pairwise.nil).1
  have := foldl_emplace_lookup (fun k : Key => k) true i.deletes _ h1 k
  rw [show (inputToOutput i) = i.deletes.foldl (fun o x => emplace x true o) (i.kv.foldl (fun o x => emplace x.1 false o) [])
    from rfl, this, foldl_emplace_lookup (fun x : Key × Bytes => x.1) false i.kv [] List.Pairwise.nil]
  by_cases hd : k ∈ i.deletes
  · have := hdis k hd
    simp [hd, this]
  · simp [hd]

theorem mrebuild_add {H : MHash} {b : Nat} {i : MInput} (hk : Sorted i.kv) (hd : Asc i.deletes)
    (hdis : ∀ k ∈ i.deletes, k ∉ i.kv.map (·.1)) (hj : InjOn H (fun k => k ∈ i.kv.map (·.1) ∨ k ∈ i.deletes))
    {s s' : MState} {o : MOutput} (h : s.add H b i = some (s', o)) :
    o.keys.mapM (mKey H s' b) = some ((inputToOutput i).map (splitKey i.kv)) := by
  obtain ⟨e1, _, e2⟩ := madd_some h
  rw [e2]
  refine mapM_some (fun x hx => ?_)
  have hl : (inputToOutput i).lookup x.1 = some x.2 :=
    lookup_of_mem_nodup (sorted_nodup (inputToOutput_spec i).1) hx
  have hU : x.1 ∈ i.kv.map (·.1) ∨ x.1 ∈ i.deletes :=
    ((inputToOutput_spec i).2 x.1).1 (List.mem_map.2 ⟨x, hx, rfl⟩)
  rw [inputToOutput_lookup i hdis] at hl
  have hp := putKeys_key hj b (inp := i) (sorted_nodup hk)
    ⟨fun y hy => Or.inl (List.mem_map.2 ⟨y, hy, rfl⟩), fun d hd => Or.inr hd⟩ s hU
  rw [eff_touch] at hp
  simp only [mKey, MState.get, splitKey]
  have hv : s'.values (H.h x.1) b = (proj H (putKeys H b i s) x.1).values b := by rw [e1]; rfl
  rw [hv, hp]
  by_cases hd' : x.1 ∈ i.deletes
  · rw [if_pos hd', Option.some.injEq] at hl
    rw [← hl, lookup_none_of_not_mem (hdis _ hd')]
    rfl
  · rw [if_neg hd'] at hl ⊢
    have hm := hU.resolve_right hd'
    rw [if_pos hm, Option.some.injEq] at hl
    cases e : i.kv.lookup x.1 with
    | none => exact absurd e (mem_keys_iff_lookup.1 hm)
    | some v =>
      rw [← hl]
      simp [KState.write, KState.putValue]

theorem rebuild_add {H : MHash} {b : Nat} {i : CInput} {s s' : CState} {o : COutput} (hp : i.Proper H)
    (h : catAdd H b i s = some (s', o)) : catRebuild H b o s' = some i := by
  cases i with
  | merkle i =>
    cases s with
    | merkle s =>
      simp only [catAdd, Option.map_eq_some_iff] at h
      obtain ⟨⟨t, o'⟩, h1, h2⟩ := h
      cases h2
      obtain ⟨p1, p2, p3, p4⟩ := hp
      simp only [catRebuild]
      rw [mrebuild_add p1 p2 p3 p4 h1]
      obtain ⟨q1, q2⟩ := split_exact p1 p2 p3 (inputToOutput_spec i).1 (inputToOutput_spec i).2
      simp only [Option.map_some]
      rw [q1, q2]
    | versioned _ => cases h
    | immutable _ => cases h
  | versioned i r =>
    cases s with
    | versioned s =>
      cases h
      obtain ⟨p1, p2, p3⟩ := hp
      simp only [catRebuild]
      rw [vrebuild_add p1 p2 p3]
      obtain ⟨q1, q2⟩ := split_exact p1 p2 p3 (outOf_sorted i (sorted_nodup p1)) (outOf_keys i)
      simp only [Option.map_some]
      rw [q1, q2]
      cases r <;> rfl
    | merkle _ => cases h
    | immutable _ => cases h
  | immutable kv r =>
    cases s with
    | immutable s =>
      cases h
      simp only [catRebuild]
      rw [mapM_some (g := fun x => (x.1, (((kv.lookup x.1).getD default).1, x.2)))]
      · simp only [Option.map_some, List.map_map]
        have : kv.map ((fun x : Key × List Bytes => (x.1, (((kv.lookup x.1).getD default).1, x.2))) ∘ fun x => (x.1, x.2.2)) = kv := by
          have : ∀ x ∈ kv, ((fun x : Key × List Bytes => (x.1, (((kv.lookup x.1).getD default).1, x.2))) ∘ fun x => (x.1, x.2.2)) x = x := by
            intro x hx
            have hl := lookup_of_mem_nodup (sorted_nodup hp) (show (x.1, x.2) ∈ kv from hx)
            simp only [Function.comp_def]
            rw [hl]; rfl
          rw [List.map_congr_left this, List.map_id']
        rw [this]
        cases r <;> rfl
      · intro x hx
        obtain ⟨y, hy, rfl⟩ := List.mem_map.1 hx
        have hl := lookup_of_mem_nodup (sorted_nodup hp) (show (y.1, y.2) ∈ kv from hy)
        have hn : ((kv.map (fun x => (x.1, x.2.1))).map (·.1)).Nodup := by
          rw [List.map_map]; exact sorted_nodup hp
        have hg := iAdd_get b (kv.map (fun x => (x.1, x.2.1))) hn s y.1 y.2.1 (List.mem_map.2 ⟨y, hy, rfl⟩)
        simp only [iKey, iGet, iGetLatest, hg, hl]
        simp
    | merkle _ => cases h
    | versioned _ => cases h

end Verif.Chain
