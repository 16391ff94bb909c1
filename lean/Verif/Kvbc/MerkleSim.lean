import Verif.Kvbc.MerkleKeys
set_option linter.unusedSimpArgs false
set_option linter.unusedVariables false
/-!
# The block-Merkle category simulates the versioned category, key by key
-/
namespace Verif.Kvbc
open Verif.Bytes

/-- everything `deleteGenesis` does, field by field -/
structure Pruned (H : MHash) (U : Key → Prop) (b : Nat) (out : MOutput) (s s' : MState) : Prop where
  lat : ∀ k ∈ out.keys.map (·.1), ∃ t, (s.latest k).map Tagged.decode = some t ∧ b ≤ t.version
  key : ∀ k, U k → proj H s' k = if k ∈ out.keys.map (·.1) then
      (if isActive b s k then (dropActive (proj H s k) (proj H s k)).putActive b
       else pruneM b (s.latest k) (dropActive (proj H s k) (proj H s k))) else proj H s k
  vals : ∀ h b', s'.values h b' =
      if (b' = b ∧ ∃ k ∈ out.keys.map (fun x : Key × Bool => x.1), h = H.h k ∧ isActive b s k = false) ∨
        (h ∈ (out.keys.map (fun x : Key × Bool => x.1)).map H.h ∧ s.active h = some b') then none else s.values h b'
  act : ∀ h, s'.active h = if h ∈ ((out.keys.map (·.1)).filter (isActive b s)).map H.h then some b
      else if h ∈ (out.keys.map (·.1)).map H.h then none else s.active h

theorem pruneM_active {b : Nat} {s : MState} {k : Key} (h : isActive b s k = true) (x : KState) :
    pruneM b (s.latest k) x = x := by
  simp only [isActive] at h
  simp only [pruneM]
  cases ht : (s.latest k).map Tagged.decode with
  | none => rfl
  | some t =>
    rw [ht] at h
    simp only [Bool.and_eq_true, decide_eq_true_eq, Bool.not_eq_true'] at h
    simp only [h.1, if_true, h.2, Bool.false_eq_true, if_false]

theorem pruneM_fields (b : Nat) (l : Option Nat) (x : KState) : (pruneM b l x).active = x.active := by
  simp only [pruneM]
  split
  · rfl
  · split
    · split <;> rfl
    · rfl

/-- unfolding of `deleteGenesis` into its phases -/
theorem deleteGenesis_phases {H : MHash} {b : Nat} {out : MOutput} {s s' : MState} (h : s.deleteGenesis H b out = some s') :
    ∃ acc adds rems acc1 act r, 
      rewriteAll H s (findActive ((out.keys.map (·.1)).map H.h) s)
        ((findActive ((out.keys.map (·.1)).map H.h) s).map (·.2)).eraseDups
        (dropOverwritten (findActive ((out.keys.map (·.1)).map H.h) s) s, [], []) = some (acc, adds, rems) ∧
      (out.keys.map (·.1)).foldlM (deleteInactive H b s) (acc, []) = some (acc1, act) ∧
      ((act.isEmpty = true ∧ r = (acc1, adds, rems ++ [b])) ∨
       (act.isEmpty = false ∧ ∃ v, prunedRoot H s b act = some v ∧
        r = ((act.foldl (fun acc h => acc.setActive h (some b)) acc1).setPruned b (some act), adds ++ [(b, v)], rems))) ∧
      ∃ t t', s.tree.update r.2.1 r.2.2 = some t ∧ s.tree.deleteStale out.version t = some t' ∧
        s' = { r.1 with tree := t' } := by
  simp only [MState.deleteGenesis] at h
  split at h
  · cases h
  · rename_i acc adds rems h1
    split at h
    · cases h
    · rename_i acc1 act h2
      split at h
      · cases h
      · rename_i acc2 adds2 rems2 h3
        split at h
        · cases h
        · rename_i t h4
          simp only [Option.map_eq_some_iff] at h
          obtain ⟨t', h5, h6⟩ := h
          refine ⟨acc, adds, rems, acc1, act, (acc2, adds2, rems2), h1, h2, ?_, t, t', h4, h5, h6.symm⟩
          split at h3
          · rename_i he
            cases h3
            exact Or.inl ⟨he, rfl⟩
          · rename_i he
            simp only [Option.map_eq_some_iff] at h3
            obtain ⟨v, h7, h8⟩ := h3
            exact Or.inr ⟨by simpa using he, v, h7, h8.symm⟩

theorem deleteGenesis_pruned {H : MHash} {U : Key → Prop} (hU : InjOn H U) {b : Nat} {out : MOutput} {s s' : MState}
    (hs : Sorted out.keys) (hin : ∀ k ∈ out.keys.map (·.1), U k) (h : s.deleteGenesis H b out = some s') :
    Pruned H U b out s s' := by
  obtain ⟨acc, adds, rems, acc1, act, r, h1, h2, h3, t, t', h4, h5, h6⟩ := deleteGenesis_phases h
  obtain ⟨w1, w2, w3, w4⟩ := rewriteAll_fields h1
  obtain ⟨d1, d2, d3, d4, d5⟩ := dropOverwritten_fields (findActive ((out.keys.map (·.1)).map H.h) s) s
  obtain ⟨i1, i2, i3, i4, i5, i6, i7⟩ := deleteInactive_fold hU (sorted_nodup hs) hin h2
  simp only [List.nil_append] at i2
  -- final state, in both cases
  have hvals : s'.values = acc1.values := by
    rw [h6]
    rcases h3 with ⟨_, e⟩ | ⟨_, v, _, e⟩
    · rw [e]
    · rw [e]; exact (setActive_fold b act acc1).2.1
  have hlat : s'.latest = acc1.latest := by
    rw [h6]
    rcases h3 with ⟨_, e⟩ | ⟨_, v, _, e⟩
    · rw [e]
    · rw [e]; exact (setActive_fold b act acc1).2.2.1
  have hact : ∀ h, s'.active h = if h ∈ act then some b else acc1.active h := by
    intro h
    rw [h6]
    rcases h3 with ⟨he, e⟩ | ⟨_, v, _, e⟩
    · rw [e]
      have : act = [] := List.isEmpty_iff.1 he
      rw [this]; simp
    · rw [e]; exact (setActive_fold b act acc1).1 h
  have hmem : ∀ k, U k → (H.h k ∈ act ↔ k ∈ out.keys.map (·.1) ∧ isActive b s k = true) := by
    intro k hk
    rw [i2, List.mem_map]
    constructor
    · rintro ⟨k', hm, e⟩
      rw [List.mem_filter] at hm
      rw [← hU _ _ (hin k' hm.1) hk e]
      exact hm
    · intro hm
      exact ⟨k, List.mem_filter.2 hm, rfl⟩
  have hmem2 : ∀ k, U k → (H.h k ∈ (out.keys.map (·.1)).map H.h ↔ k ∈ out.keys.map (·.1)) := by
    intro k hk
    constructor
    · intro hm
      obtain ⟨k', hm, e⟩ := List.mem_map.1 hm
      rw [← hU _ _ (hin k' hm) hk e]
      exact hm
    · intro hm
      exact List.mem_map.2 ⟨k, hm, rfl⟩
  have hpacc : ∀ k, proj H acc k = proj H (dropOverwritten (findActive ((out.keys.map (·.1)).map H.h) s) s) k := by
    intro k; simp only [proj, w1, w2, w3]
  refine ⟨i1, ?_, ?_, ?_⟩
  · intro k hk
    have e1 : proj H s' k = { proj H acc1 k with active := if H.h k ∈ act then some b else acc1.active (H.h k) } := by
      simp only [proj, hvals, hlat, hact]
    rw [e1]
    have e2 := i7 k hk
    rw [hpacc k, dropOverwritten_key] at e2
    simp only [hmem2 k hk] at e2
    by_cases hm : k ∈ out.keys.map (·.1)
    · rw [if_pos hm, if_pos hm] at e2
      rw [if_pos hm]
      by_cases ha : isActive b s k = true
      · rw [if_pos ((hmem k hk).2 ⟨hm, ha⟩), if_pos ha, e2, pruneM_active ha]
        rfl
      · rw [if_neg (fun h => ha ((hmem k hk).1 h).2), if_neg ha, ← e2]
        rfl
    · rw [if_neg hm, if_neg hm] at e2
      rw [if_neg hm, if_neg (fun h => hm ((hmem k hk).1 h).1), ← e2]
      rfl
  · intro h b'
    rw [hvals, i6, w1, d1]
    simp only [mem_findActive]
    by_cases c1 : b' = b ∧ ∃ k ∈ out.keys.map (·.1), h = H.h k ∧ isActive b s k = false
    · rw [if_pos c1, if_pos (Or.inl c1)]
    · rw [if_neg c1]
      by_cases c2 : h ∈ (out.keys.map (·.1)).map H.h ∧ s.active h = some b'
      · rw [if_pos c2, if_pos (Or.inr c2)]
      · rw [if_neg c2, if_neg (fun h => h.elim c1 c2)]
  · intro h
    rw [hact, i2, i3, w3, d2]
    simp only [mem_findActive_fst]
    by_cases c1 : h ∈ ((out.keys.map (·.1)).filter (isActive b s)).map H.h
    · rw [if_pos c1, if_pos c1]
    · rw [if_neg c1, if_neg c1]
      by_cases c2 : h ∈ (out.keys.map (·.1)).map H.h
      · rw [if_pos c2]
        by_cases c3 : s.active h = none
        · rw [if_neg (fun h => h.2 c3)]; exact c3
        · rw [if_pos ⟨c2, c3⟩]
      · rw [if_neg c2, if_neg (fun h => c2 h.1)]

/-! ### deleteLastReachableBlock -/
theorem prevVersion_proj (H : MHash) (s : MState) (k : Key) (b : Nat) :
    s.prevVersion (H.h k) b = prevVersion (proj H s k) b := by
  induction b with
  | zero => rfl
  | succ b ih =>
    simp only [MState.prevVersion, prevVersion]
    show (match s.values (H.h k) b with | some v => some (b, v) | none => s.prevVersion (H.h k) b) =
      (match s.values (H.h k) b with | some v => some (b, v) | none => prevVersion (proj H s k) b)
    rw [ih]

theorem unlinkM_key {H : MHash} {U : Key → Prop} (hU : InjOn H U) (b : Nat) (s acc : MState) {k k' : Key} (hk : U k)
    (hk' : U k') : proj H (unlinkM H b s acc k) k' =
      if k' = k then unlinkKey b (proj H s k) (proj H acc k) else proj H acc k' := by
  by_cases e : k' = k
  · subst e
    rw [if_pos rfl]
    simp only [unlinkM, unlinkKey, prevVersion_proj]
    cases prevVersion (proj H s k') b with
    | none =>
      simp only [proj, MState.setLatest, MState.delValue, KState.delLatest, KState.delValue, true_and, if_true]
    | some x =>
      simp only [proj, MState.setLatest, MState.delValue, KState.putLatest, KState.delValue, true_and, if_true]
  · rw [if_neg e]
    have hne : H.h k' ≠ H.h k := fun h => e (hU _ _ hk' hk h)
    simp only [unlinkM]
    cases s.prevVersion (H.h k) b with
    | none => simp only [proj, MState.setLatest, MState.delValue, e, hne, false_and, if_false]
    | some x => simp only [proj, MState.setLatest, MState.delValue, e, hne, false_and, if_false]

theorem unlinkM_other (H : MHash) (b : Nat) (s acc : MState) (k : Key) :
    (unlinkM H b s acc k).active = acc.active ∧ (unlinkM H b s acc k).pruned = acc.pruned ∧
    (unlinkM H b s acc k).tree = acc.tree ∧
    ∀ h b', (unlinkM H b s acc k).values h b' = if h = H.h k ∧ b' = b then none else acc.values h b' := by
  simp only [unlinkM]
  cases s.prevVersion (H.h k) b with
  | none => exact ⟨rfl, rfl, rfl, fun _ _ => rfl⟩
  | some x => exact ⟨rfl, rfl, rfl, fun _ _ => rfl⟩

theorem unlinkM_fold {H : MHash} {U : Key → Prop} (hU : InjOn H U) (b : Nat) (s : MState) :
    ∀ (keys : List Key) (acc : MState), keys.Nodup → (∀ k ∈ keys, U k) →
    (keys.foldl (unlinkM H b s) acc).active = acc.active ∧ (keys.foldl (unlinkM H b s) acc).pruned = acc.pruned ∧
    (∀ h b', (keys.foldl (unlinkM H b s) acc).values h b' =
      if b' = b ∧ h ∈ keys.map H.h then none else acc.values h b') ∧
    ∀ k, U k → proj H (keys.foldl (unlinkM H b s) acc) k =
      if k ∈ keys then unlinkKey b (proj H s k) (proj H acc k) else proj H acc k := by
  intro keys
  induction keys with
  | nil => intro acc _ _; exact ⟨rfl, rfl, fun h b' => by simp, fun k _ => by simp⟩
  | cons x xs ih =>
    intro acc hn hin
    rw [List.nodup_cons] at hn
    simp only [List.foldl_cons]
    obtain ⟨i1, i2, i3, i4⟩ := ih (unlinkM H b s acc x) hn.2 (fun k hk => hin k (List.mem_cons_of_mem _ hk))
    obtain ⟨j1, j2, j3, j4⟩ := unlinkM_other H b s acc x
    refine ⟨i1.trans j1, i2.trans j2, ?_, ?_⟩
    · intro h b'
      rw [i3, j4]
      simp only [List.map_cons, List.mem_cons]
      by_cases c1 : b' = b ∧ h ∈ xs.map H.h
      · rw [if_pos c1, if_pos ⟨c1.1, Or.inr c1.2⟩]
      · rw [if_neg c1]
        by_cases c2 : h = H.h x ∧ b' = b
        · rw [if_pos c2, if_pos ⟨c2.2, Or.inl c2.1⟩]
        · rw [if_neg c2, if_neg]
          rintro ⟨e, h1 | h1⟩
          · exact c2 ⟨h1, e⟩
          · exact c1 ⟨e, h1⟩
    · intro k hk
      rw [i4 k hk, unlinkM_key hU b s acc (hin x List.mem_cons_self) hk]
      by_cases e : k = x
      · subst e
        rw [if_neg hn.1, if_pos rfl, if_pos List.mem_cons_self]
      · rw [if_neg e]
        by_cases hm : k ∈ xs
        · rw [if_pos hm, if_pos (List.mem_cons_of_mem _ hm)]
        · rw [if_neg hm, if_neg (fun h => (List.mem_cons.1 h).elim e hm)]

/-! ### the simulation -/

/-- the blocks of both chains name the same keys -/
def BlockRel (U : Key → Prop) : Option (Option MOutput) → Option VOut → Prop
  | none, none => True
  | some none, some out => out = []
  | some (some o), some out => Sorted o.keys ∧ (∀ k ∈ o.keys.map (·.1), U k) ∧
      ∀ k, k ∈ o.keys.map (·.1) ↔ k ∈ out.map (·.1)
  | _, _ => False

structure Sim (H : MHash) (U : Key → Prop) (m : MChain) (c : VChain) : Prop where
  keys : ∀ k, U k → proj H m.st k = c.st k
  blocks : ∀ b, BlockRel U (m.blocks b) (c.blocks b)
  genesis : m.genesis = c.genesis
  last : m.last = c.last

theorem sim_empty (H : MHash) (U : Key → Prop) : Sim H U MChain.empty VChain.empty :=
  ⟨fun _ _ => rfl, fun _ => trivial, rfl, rfl⟩

theorem sim_add {H : MHash} {U : Key → Prop} (hU : InjOn H U) {m m' : MChain} {c : VChain} (hs : Sim H U m c)
    {inp : Option MInput} (hw : ∀ i, inp = some i → i.wf) (hin : ∀ i, inp = some i → i.within U)
    (h : m.addBlock H inp = some m') : Sim H U m' (c.addBlock (effO inp)) := by
  cases inp with
  | none =>
    simp only [MChain.addBlock, Option.some.injEq] at h
    subst h
    refine ⟨fun k hk => ?_, fun b => ?_, ?_, ?_⟩
    · simp only [VChain.addBlock]
      rw [add_key _ (effO none) List.nodup_nil]
      exact hs.keys k hk
    · simp only [VChain.addBlock, add_out, hs.last]
      by_cases e : b = c.last + 1
      · rw [if_pos e, if_pos e]; rfl
      · rw [if_neg e, if_neg e]; exact hs.blocks b
    · simp only [VChain.addBlock, hs.genesis]
    · simp only [VChain.addBlock, hs.last]
  | some i =>
    simp only [MChain.addBlock, Option.map_eq_some_iff] at h
    obtain ⟨r, hr, e⟩ := h
    simp only [MState.add] at hr
    split at hr
    · cases hr
    · rename_i t ht
      split at hr
      · cases hr
      · rename_i mm hmm
        simp only [Option.some.injEq] at hr
        subst hr
        subst e
        refine ⟨fun k hk => ?_, fun b => ?_, ?_, ?_⟩
        · simp only [VChain.addBlock]
          rw [show effO (some i) = i.eff from rfl, add_key _ _ (eff_wf (hw i rfl))]
          have := putKeys_key hU (m.last + 1) (hw i rfl) (hin i rfl) m.st hk
          rw [hs.last] at this
          have e2 : proj H { putKeys H (m.last + 1) i m.st with tree := t } k = proj H (putKeys H (c.last + 1) i m.st) k := by
            rw [hs.last]; rfl
          rw [← hs.keys k hk]
          refine e2.trans (this.trans ?_)
          cases touch i.eff k <;> rfl
        · simp only [VChain.addBlock, add_out, hs.last]
          by_cases e : b = c.last + 1
          · rw [if_pos e, if_pos e]
            refine ⟨(inputToOutput_spec i).1, ?_, ?_⟩
            · intro k hk
              rcases ((inputToOutput_spec i).2 k).1 hk with h1 | h1
              · obtain ⟨x, hx, e⟩ := List.mem_map.1 h1
                rw [← e]; exact (hin i rfl).1 x hx
              · exact (hin i rfl).2 k h1
            · intro k
              simp only
              rw [out_touch, mem_keys_iff_lookup, effO, outOf_lookup _ (eff_wf (hw i rfl))]
              cases touch i.eff k <;> simp
          · rw [if_neg e, if_neg e]; exact hs.blocks b
        · simp only [VChain.addBlock, hs.genesis]
        · simp only [VChain.addBlock, hs.last]

theorem blockRel_some {U : Key → Prop} {o : Option MOutput} {v : Option VOut} (h : BlockRel U (some o) v) :
    ∃ out, v = some out := by
  cases o with
  | none => cases v with
    | none => exact h.elim
    | some out => exact ⟨out, rfl⟩
  | some o => cases v with
    | none => exact h.elim
    | some out => exact ⟨out, rfl⟩

theorem isActive_proj {H : MHash} {s : MState} {k : Key} {x : KState} (hx : proj H s k = x) (b : Nat) :
    isActive b s k = match x.latest.map Tagged.decode with
      | some t => decide (b = t.version) && !t.deleted | none => false := by
  rw [← hx]; rfl

/-- the deletion rule of this category agrees with that of the versioned one -/
theorem pruneRule {x acc : KState} {T : Nat → Option (DbValue × VFlags)} {g last : Nat} (hi : KInv x T g)
    (hl : last < 2 ^ 63) (hT : ∀ b, last < b → x.values b = none) {v : DbValue} {fl : VFlags}
    (ht : T g = some (v, fl)) (hfl : fl = ⟨v.deleted, false⟩) {t : Tagged} (hlat : x.latest.map Tagged.decode = some t)
    (hle : g ≤ t.version) :
    pruneKey g fl x acc = some (if (decide (g = t.version) && !t.deleted) = true then acc.putActive g
      else pruneM g x.latest acc) := by
  cases hxl : x.latest with
  | none => rw [hxl] at hlat; cases hlat
  | some n =>
    obtain ⟨w, d, e1, e2, e3⟩ := hi.latSome n hxl
    have hwl : w ≤ last := by
      rcases Nat.lt_or_ge last w with h3 | h3
      · rw [hT w h3] at e2; cases e2
      · exact h3
    rw [hxl, Option.map_some, Option.some.injEq, e1, decode_encode _ (by show w < _; omega)] at hlat
    subst hlat
    simp only at hle
    have hdec : (some n).map Tagged.decode = some (⟨d.deleted, w⟩ : Tagged) := by
      rw [e1, Option.map_some, decode_encode _ (by show w < _; omega)]
    simp only [pruneKey, pruneM, hxl, hdec, hfl, Bool.false_eq_true, if_false]
    by_cases e : g = w
    · have : d = v := by
        have := hi.live g (Nat.le_refl _)
        rw [ht, e, e2] at this
        simpa using this
      subst this
      subst e
      by_cases hd : d.deleted = true
      · simp [hd, KState.delLatest, KState.delValue]
      · simp [hd]
    · have h1 : ¬ w = g := fun h => e h.symm
      have h2 : w > g := by omega
      simp [e, h1, h2]

theorem sim_prune {H : MHash} {U : Key → Prop} (hU : InjOn H U) {m m' : MChain} {c : VChain} {a : Abs} (hi : Inv c a)
    (hh : ∀ inp ∈ a.hist, ∃ i, inp = effO i) (hs : Sim H U m c) (h : m.prune H = some m') :
    ∃ c', c.prune = some c' ∧ Sim H U m' c' := by
  have hgen := hi.gen
  have hlast := hi.last
  simp only [MChain.prune] at h
  split at h
  · cases h
  · rename_i hg
    split at h
    · cases h
    · rename_i hne
      split at h
      · cases h
      · rename_i out hb
        simp only [Option.map_eq_some_iff] at h
        obtain ⟨st, hst, e⟩ := h
        rw [hs.genesis] at hb hg hne hst
        rw [hs.last] at hne
        have hrng : 1 ≤ a.genesis ∧ a.genesis ≤ a.hist.length := by
          rcases hi.rng with ⟨h1, h2⟩ | h2
          · omega
          · exact h2
        obtain ⟨inp, g1, g2, g3⟩ := inv_genesis_block hi (by omega)
        have hp : ∃ c', c.prune = some c' := by
          cases hcp : c.prune with
          | some c' => exact ⟨c', rfl⟩
          | none =>
            exfalso
            -- no_abort for this state
            simp only [VChain.prune] at hcp
            rw [if_neg (by omega), if_neg hne, g3] at hcp
            simp only at hcp
            have : ∃ s', deleteGenesis c.genesis (outOf inp) c.st = some s' := by
              apply foldlM_upd_some
              intro kf hkf hnone
              have hl := lookup_of_mem_nodup (sorted_nodup (outOf_sorted inp g2)) hkf
              rw [outOf_lookup inp g2] at hl
              have hv := (hi.keys kf.1).live c.genesis (Nat.le_refl _)
              rw [touchAt_get (by omega) g1, (hi.keys kf.1).latNone hnone] at hv
              cases ht : touch inp kf.1 with
              | none => rw [ht] at hl; cases hl
              | some t => rw [ht] at hv; cases hv
            obtain ⟨s', hs'⟩ := this
            rw [hs'] at hcp; cases hcp
        obtain ⟨c', hc'⟩ := hp
        refine ⟨c', hc', ?_⟩
        obtain ⟨f1, f2, f3, f4, f5⟩ := prune_fields hc'
        subst e
        refine ⟨?_, ?_, ?_, ?_⟩
        · intro k hk
          simp only
          have hbr := hs.blocks c.genesis
          rw [hb, g3] at hbr
          cases out with
          | none =>
            simp only [Option.some.injEq] at hst
            subst hst
            rcases prune_key hi hc' k with ⟨p1, p2⟩ | ⟨v, fl, p1, p2⟩
            · rw [p2]; exact hs.keys k hk
            · exfalso
              rw [touchAt_get (by omega) g1] at p1
              have : outOf inp = [] := hbr
              have hl := outOf_lookup inp g2 k
              rw [this, p1] at hl; cases hl
          | some o =>
            simp only at hst
            obtain ⟨b1, b2, b3⟩ := hbr
            have hp := deleteGenesis_pruned hU b1 b2 hst
            rw [hp.key k hk]
            have hmem : k ∈ o.keys.map (·.1) ↔ touch inp k ≠ none := by
              rw [b3 k, mem_keys_iff_lookup, outOf_lookup inp g2]
              cases touch inp k <;> simp
            rcases prune_key hi hc' k with ⟨p1, p2⟩ | ⟨v, fl, p1, p2⟩
            · rw [touchAt_get (by omega) g1] at p1
              rw [if_neg (fun h => (hmem.1 h) p1), p2]
              exact hs.keys k hk
            · have hT : touch inp k ≠ none := by
                rw [touchAt_get (by omega) g1] at p1; rw [p1]; simp
              have hm := hmem.2 hT
              rw [if_pos hm]
              obtain ⟨t, t1, t2⟩ := hp.lat k hm
              have hkk := hs.keys k hk
              have hl : m.st.latest k = (c.st k).latest := by rw [← hkk]; rfl
              rw [hl] at t1
              have hfl : fl = ⟨v.deleted, false⟩ := by
                obtain ⟨i, hi'⟩ := hh inp (List.mem_of_getElem? g1)
                rw [touchAt_get (by omega) g1, hi'] at p1
                cases i with
                | none => cases p1
                | some i =>
                  simp only [effO] at p1
                  rw [eff_touch] at p1
                  split at p1
                  · cases p1; rfl
                  · simp only [Option.map_eq_some_iff] at p1
                    obtain ⟨_, _, e⟩ := p1
                    cases e; rfl
              have := pruneRule (acc := dropActive (c.st k) (c.st k)) (hi.keys k) hi.lt (stored_le hi k) p1 hfl t1 t2
              rw [p2, Option.some.injEq] at this
              rw [this, hkk]
              have hia := isActive_proj hkk c.genesis
              rw [t1] at hia
              simp only at hia
              rw [hia, hl]
        · intro b
          simp only
          rw [f5, hs.genesis]
          by_cases e : b = c.genesis
          · simp only [e, if_true]; trivial
          · simp only [e, if_false]; exact hs.blocks b
        · rw [f3]; simp only [hs.genesis]
        · rw [f4]; exact hs.last

theorem sim_deleteLast {H : MHash} {U : Key → Prop} (hU : InjOn H U) {m m' : MChain} {c : VChain} {a : Abs} (hi : Inv c a)
    (hs : Sim H U m c) (h : m.deleteLast H = some m') : ∃ c', c.deleteLast = some c' ∧ Sim H U m' c' := by
  simp only [MChain.deleteLast] at h
  split at h
  · cases h
  · rename_i h0
    split at h
    · cases h
    · rename_i hne
      split at h
      · cases h
      · rename_i out hb
        simp only [Option.some.injEq] at h
        rw [hs.last] at hb h0 hne
        rw [hs.genesis] at hne
        have hbr := hs.blocks c.last
        rw [hb] at hbr
        obtain ⟨vo, hvo⟩ := blockRel_some hbr
        have hc' : c.deleteLast = some
            { st := deleteLastReachable c.last vo c.st
              blocks := fun i => if i = c.last then none else c.blocks i
              genesis := c.genesis
              last := c.last - 1 } := by
          simp only [VChain.deleteLast]
          rw [if_neg h0, if_neg hne, hvo]
        refine ⟨_, hc', ?_⟩
        subst h
        refine ⟨?_, ?_, hs.genesis, by simp only [hs.last]⟩
        · intro k hk
          simp only
          have hsort : Sorted vo := by
            rw [hi.blocks] at hvo
            split at hvo
            · cases hx : a.hist[c.last - 1]? with
              | none => rw [hx] at hvo; cases hvo
              | some inp =>
                rw [hx] at hvo
                cases hvo
                exact outOf_sorted _ (hi.wf _ (List.mem_of_getElem? hx))
            · cases hvo
          rw [deleteLastReachable_key _ _ hsort]
          rw [hvo] at hbr
          cases out with
          | none =>
            have : vo = [] := hbr
            rw [this]
            exact hs.keys k hk
          | some o =>
            obtain ⟨b1, b2, b3⟩ := hbr
            have := (unlinkM_fold hU c.last m.st (o.keys.map (·.1)) m.st (sorted_nodup b1) b2).2.2.2 k hk
            have e1 : proj H (m.st.deleteLast H m.last o) k =
                proj H ((o.keys.map (·.1)).foldl (unlinkM H c.last m.st) m.st) k := by
              rw [hs.last]; rfl
            rw [e1, this, hs.keys k hk]
            by_cases hm : k ∈ o.keys.map (·.1)
            · rw [if_pos hm]
              have := mem_keys_iff_lookup.1 ((b3 k).1 hm)
              cases hl : vo.lookup k with
              | none => exact absurd hl this
              | some _ => rfl
            · rw [if_neg hm]
              cases hl : vo.lookup k with
              | none => rfl
              | some _ => exact absurd ((b3 k).2 (mem_keys_iff_lookup.2 (by rw [hl]; simp))) hm
        · intro b
          simp only [hs.last]
          by_cases e : b = c.last
          · simp only [e, if_true]; trivial
          · simp only [e, if_false]; exact hs.blocks b

theorem hist_eff : ∀ (evs : List MEv) (a : Abs), (∀ inp ∈ a.hist, ∃ i, inp = effO i) →
    ∀ inp ∈ (a.run (evs.map MEv.eff)).hist, ∃ i, inp = effO i := by
  intro evs
  induction evs with
  | nil => intro a h; exact h
  | cons e es ih =>
    intro a h
    refine ih _ ?_
    cases e with
    | add i =>
      intro inp hm
      rcases List.mem_append.1 hm with hm | hm
      · exact h inp hm
      · exact ⟨i, List.mem_singleton.1 hm⟩
    | prune => exact h
    | deleteLast => exact fun inp hm => h inp (List.dropLast_subset _ hm)

theorem sim_run {H : MHash} {U : Key → Prop} (hU : InjOn H U) : ∀ {evs : List MEv} {m m' : MChain} {c : VChain} {a : Abs},
    Inv c a → (∀ inp ∈ a.hist, ∃ i, inp = effO i) → Sim H U m c → MAllAdds MInput.wf evs →
    MAllAdds (MInput.within U) evs → m.run H evs = some m' →
    ∃ c', c.run (evs.map MEv.eff) = some c' ∧ Sim H U m' c' := by
  intro evs
  induction evs with
  | nil => intro m m' c a _ _ hs _ _ h; cases h; exact ⟨c, rfl, hs⟩
  | cons e es ih =>
    intro m m' c a hi hh hs hw hin h
    simp only [MChain.run] at h
    split at h
    · cases h
    · rename_i m1 h1
      have hstep : ∃ c1, c.step e.eff = some c1 ∧ Sim H U m1 c1 := by
        cases e with
        | add i =>
          simp only [MChain.step] at h1
          split at h1
          · rename_i hlt
            refine ⟨c.addBlock (effO i), ?_, sim_add hU hs ?_ ?_ h1⟩
            · simp only [MEv.eff, VChain.step, ← hs.last, if_pos hlt]
            · intro j e; subst e; exact hw j List.mem_cons_self
            · intro j e; subst e; exact hin j List.mem_cons_self
          · cases h1
        | prune => exact sim_prune hU hi hh hs h1
        | deleteLast => exact sim_deleteLast hU hi hs h1
      obtain ⟨c1, hc1, hs1⟩ := hstep
      have hwf : ∀ inp, e.eff = .add inp → inp.wf := by
        intro inp he
        cases e with
        | add i =>
          cases he
          exact effO_wf (fun j e => hw j (by rw [e]; exact List.mem_cons_self))
        | prune => cases he
        | deleteLast => cases he
      obtain ⟨c', h2, h3⟩ := ih (inv_step hi hwf hc1) (hist_eff [e] a hh) hs1
        (fun i hm => hw i (List.mem_cons_of_mem _ hm)) (fun i hm => hin i (List.mem_cons_of_mem _ hm)) h
      exact ⟨c', by simp only [List.map_cons, VChain.run, hc1]; exact h2, h3⟩

end Verif.Kvbc
