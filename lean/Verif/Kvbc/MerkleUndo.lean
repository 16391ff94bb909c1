import Verif.Kvbc.MerkleProps
set_option linter.unusedSimpArgs false
set_option linter.unusedVariables false
/-!
# C25 for the block-Merkle category: deleting the last block undoes its addition
-/
namespace Verif.Kvbc
open Verif.Bytes

theorem putAdded_fold (H : MHash) (b : Nat) (l : List (Key × Bytes)) (s : MState) :
    (∀ h b', h ∉ l.map (fun x => H.h x.1) → (l.foldl (putAdded H b) s).values h b' = s.values h b') ∧
    (∀ k, k ∉ l.map (·.1) → (l.foldl (putAdded H b) s).latest k = s.latest k) ∧
    (l.foldl (putAdded H b) s).active = s.active ∧ (l.foldl (putAdded H b) s).pruned = s.pruned ∧
    (l.foldl (putAdded H b) s).tree = s.tree := by
  induction l generalizing s with
  | nil => exact ⟨fun _ _ _ => rfl, fun _ _ => rfl, rfl, rfl, rfl⟩
  | cons x xs ih =>
    obtain ⟨i1, i2, i3, i4, i5⟩ := ih (putAdded H b s x)
    refine ⟨?_, ?_, i3, i4, i5⟩
    · intro h b' hn
      simp only [List.map_cons, List.mem_cons, not_or] at hn
      rw [List.foldl_cons, i1 h b' hn.2]
      simp only [putAdded, MState.setLatest, MState.putValue]
      rw [if_neg (fun e => hn.1 e.1)]
    · intro k hn
      simp only [List.map_cons, List.mem_cons, not_or] at hn
      rw [List.foldl_cons, i2 k hn.2]
      simp only [putAdded, MState.setLatest, MState.putValue]
      rw [if_neg hn.1]

theorem putDeleted_fold (H : MHash) (b : Nat) (l : List Key) (s : MState) :
    (∀ h b', h ∉ l.map H.h → (l.foldl (putDeleted H b) s).values h b' = s.values h b') ∧
    (∀ k, k ∉ l → (l.foldl (putDeleted H b) s).latest k = s.latest k) ∧
    (l.foldl (putDeleted H b) s).active = s.active ∧ (l.foldl (putDeleted H b) s).pruned = s.pruned ∧
    (l.foldl (putDeleted H b) s).tree = s.tree := by
  induction l generalizing s with
  | nil => exact ⟨fun _ _ _ => rfl, fun _ _ => rfl, rfl, rfl, rfl⟩
  | cons x xs ih =>
    obtain ⟨i1, i2, i3, i4, i5⟩ := ih (putDeleted H b s x)
    refine ⟨?_, ?_, i3, i4, i5⟩
    · intro h b' hn
      simp only [List.map_cons, List.mem_cons, not_or] at hn
      rw [List.foldl_cons, i1 h b' hn.2]
      simp only [putDeleted, MState.setLatest, MState.putValue]
      rw [if_neg (fun e => hn.1 e.1)]
    · intro k hn
      simp only [List.mem_cons, not_or] at hn
      rw [List.foldl_cons, i2 k hn.2]
      simp only [putDeleted, MState.setLatest, MState.putValue]
      rw [if_neg hn.1]

theorem putKeys_other (H : MHash) (b : Nat) (inp : MInput) (s : MState) :
    (∀ h b', h ∉ ((inputToOutput inp).map (·.1)).map H.h → (putKeys H b inp s).values h b' = s.values h b') ∧
    (∀ k, k ∉ (inputToOutput inp).map (·.1) → (putKeys H b inp s).latest k = s.latest k) ∧
    (putKeys H b inp s).active = s.active ∧ (putKeys H b inp s).pruned = s.pruned ∧
    (putKeys H b inp s).tree = s.tree := by
  obtain ⟨a1, a2, a3, a4, a5⟩ := putAdded_fold H b inp.kv s
  obtain ⟨d1, d2, d3, d4, d5⟩ := putDeleted_fold H b inp.deletes (inp.kv.foldl (putAdded H b) s)
  refine ⟨?_, ?_, d3.trans a3, d4.trans a4, d5.trans a5⟩
  · intro h b' hn
    have hk : ∀ k, k ∈ inp.kv.map (·.1) ∨ k ∈ inp.deletes → h ≠ H.h k := fun k hk e => hn (by
      rw [e]; exact List.mem_map.2 ⟨k, ((inputToOutput_spec inp).2 k).2 hk, rfl⟩)
    rw [putKeys, d1 h b' (fun hm => by
      obtain ⟨k, h1, h2⟩ := List.mem_map.1 hm; exact hk k (Or.inr h1) h2.symm), a1 h b' (fun hm => by
      obtain ⟨x, h1, h2⟩ := List.mem_map.1 hm
      exact hk x.1 (Or.inl (List.mem_map.2 ⟨x, h1, rfl⟩)) h2.symm)]
  · intro k hn
    rw [(inputToOutput_spec inp).2, not_or] at hn
    rw [putKeys, d2 k hn.2, a2 k hn.1]

theorem unlinkM_latest (H : MHash) (b : Nat) (s : MState) : ∀ (keys : List Key) (acc : MState) (k : Key), k ∉ keys →
    (keys.foldl (unlinkM H b s) acc).latest k = acc.latest k := by
  intro keys
  induction keys with
  | nil => intro acc k _; rfl
  | cons x xs ih =>
    intro acc k hn
    rw [List.mem_cons, not_or] at hn
    rw [List.foldl_cons, ih _ _ hn.2]
    simp only [unlinkM]
    cases s.prevVersion (H.h x) b with
    | none => simp only [MState.delValue, MState.setLatest]; rw [if_neg hn.1]
    | some y => simp only [MState.delValue, MState.setLatest]; rw [if_neg hn.1]

/-- values are stored only under hashes of used keys -/
def OnlyU (H : MHash) (U : Key → Prop) (s : MState) : Prop := ∀ h b, s.values h b ≠ none → ∃ k, U k ∧ h = H.h k

theorem addBlock_inv {H : MHash} {m m' : MChain} {i : MInput} (h : m.addBlock H (some i) = some m') :
    ∃ t r, m.st.tree.update [(m.last + 1, hashNewBlock H i)] [] = some t ∧ t.roots t.latest = some r ∧
      m' = { st := { putKeys H (m.last + 1) i m.st with tree := t }
             blocks := fun j => if j = m.last + 1 then
                some (some { keys := inputToOutput i, rootHash := H.tree r, version := t.latest }) else m.blocks j
             genesis := if m.genesis = 0 then 1 else m.genesis
             last := m.last + 1 } := by
  simp only [MChain.addBlock, MState.add] at h
  cases ht : m.st.tree.update [(m.last + 1, hashNewBlock H i)] [] with
  | none => rw [ht] at h; cases h
  | some t =>
    rw [ht] at h
    simp only at h
    cases hr : t.roots t.latest with
    | none => rw [hr] at h; cases h
    | some r =>
      rw [hr] at h
      simp only [Option.map_some, Option.some.injEq] at h
      exact ⟨t, r, rfl, hr, h.symm⟩

theorem onlyU_step {H : MHash} {U : Key → Prop} (hU : InjOn H U) {m m' : MChain} {c : VChain} {a : Abs} (hi : Inv c a)
    (hs : Sim H U m c) (ho : OnlyU H U m.st) {e : MEv} (hin : ∀ i, e = .add (some i) → i.within U)
    (h : m.step H e = some m') : OnlyU H U m'.st := by
  cases e with
  | add inp =>
    simp only [MChain.step] at h
    split at h
    · cases inp with
      | none => simp only [MChain.addBlock, Option.some.injEq] at h; subst h; exact ho
      | some i =>
        obtain ⟨t, r, _, _, e⟩ := addBlock_inv h
        subst e
        intro x b hx
        by_cases hm : x ∈ ((inputToOutput i).map (·.1)).map H.h
        · obtain ⟨k, h1, h2⟩ := List.mem_map.1 hm
          refine ⟨k, ?_, h2.symm⟩
          rw [(inputToOutput_spec i).2] at h1
          rcases h1 with h1 | h1
          · obtain ⟨y, hy, e⟩ := List.mem_map.1 h1
            rw [← e]; exact (hin i rfl).1 y hy
          · exact (hin i rfl).2 k h1
        · simp only at hx
          rw [(putKeys_other H _ i m.st).1 x b hm] at hx
          exact ho x b hx
    · cases h
  | prune =>
    simp only [MChain.step, MChain.prune] at h
    split at h
    · cases h
    · split at h
      · cases h
      · split at h
        · cases h
        · rename_i out hb
          have hbr := hs.blocks m.genesis
          rw [hb] at hbr
          obtain ⟨vo, hvo⟩ := blockRel_some hbr
          rw [hvo] at hbr
          cases out with
          | none => simp only [Option.map_some, Option.some.injEq] at h; subst h; exact ho
          | some o =>
            simp only at h
            cases hd : m.st.deleteGenesis H m.genesis o with
            | none => rw [hd] at h; cases h
            | some s' =>
              rw [hd] at h
              simp only [Option.map_some, Option.some.injEq] at h
              subst h
              intro x b hx
              have hp := deleteGenesis_pruned hU hbr.1 hbr.2.1 hd
              simp only at hx
              rw [hp.vals] at hx
              split at hx
              · exact absurd rfl hx
              · exact ho x b hx
  | deleteLast =>
    simp only [MChain.step, MChain.deleteLast] at h
    split at h
    · cases h
    · split at h
      · cases h
      · split at h
        · cases h
        · rename_i out hb
          have hbr := hs.blocks m.last
          rw [hb] at hbr
          obtain ⟨vo, hvo⟩ := blockRel_some hbr
          rw [hvo] at hbr
          simp only [Option.some.injEq] at h
          subst h
          cases out with
          | none => exact ho
          | some o =>
            intro x b hx
            have := (unlinkM_fold hU m.last m.st (o.keys.map (·.1)) m.st (sorted_nodup hbr.1) hbr.2.1).2.2.1 x b
            simp only [MState.deleteLast] at hx
            rw [this] at hx
            split at hx
            · exact absurd rfl hx
            · exact ho x b hx

theorem onlyU_run {H : MHash} {U : Key → Prop} (hU : InjOn H U) : ∀ {evs : List MEv} {m m' : MChain} {c : VChain} {a : Abs},
    Inv c a → (∀ inp ∈ a.hist, ∃ i, inp = effO i) → Sim H U m c → OnlyU H U m.st → MAllAdds MInput.wf evs →
    MAllAdds (MInput.within U) evs → m.run H evs = some m' → OnlyU H U m'.st := by
  intro evs
  induction evs with
  | nil => intro m m' c a _ _ hs ho _ _ h; cases h; exact ho
  | cons e es ih =>
    intro m m' c a hi hh hs ho hw hin h
    simp only [MChain.run] at h
    split at h
    · cases h
    · rename_i m1 hm1
      have h1 : m.run H [e] = some m1 := by simp only [MChain.run, hm1]
      have hw1 : MAllAdds MInput.wf [e] := fun inp hm => hw inp (by
        rw [List.mem_singleton] at hm; rw [← hm]; exact List.mem_cons_self)
      have hin1 : MAllAdds (MInput.within U) [e] := fun inp hm => hin inp (by
        rw [List.mem_singleton] at hm; rw [← hm]; exact List.mem_cons_self)
      obtain ⟨c1, hc1, hs1⟩ := sim_run hU hi hh hs hw1 hin1 h1
      have hi1 := inv_run hi (allAdds_eff hw1) hc1
      exact ih hi1 (hist_eff [e] a hh) hs1
        (onlyU_step hU hi hs ho (fun i e1 => hin i (by rw [← e1]; exact List.mem_cons_self)) hm1)
        (fun inp hm => hw inp (List.mem_cons_of_mem _ hm)) (fun inp hm => hin inp (List.mem_cons_of_mem _ hm)) h

/-- the stored tree agrees on every version that exists (up to the latest one) -/
def TreeDb.same (t t' : TreeDb) : Prop :=
  t'.latest = t.latest ∧ t'.lastDeleted = t.lastDeleted ∧
  ∀ v ≤ t.latest, t'.roots v = t.roots v ∧ t'.stale v = t.stale v

/-- **C25** Adding a block and deleting it again gives back every stored value, latest version, pruning record, block,
block id and tree version.  For every reachable chain with at least one block and every update. -/
theorem merkle_undo {H : MHash} {U : Key → Prop} (hU : InjOn H U) {evs : List MEv} (hw : MAllAdds MInput.wf evs)
    (hin : MAllAdds (MInput.within U) evs) {m m1 : MChain} (h : MChain.empty.run H evs = some m) (hne : m.last ≠ 0)
    {inp : Option MInput} (hiw : ∀ i, inp = some i → i.wf) (hii : ∀ i, inp = some i → i.within U)
    (ha : m.step H (.add inp) = some m1) :
    ∃ m2, m1.step H .deleteLast = some m2 ∧ m2.st.values = m.st.values ∧ m2.st.latest = m.st.latest ∧
      m2.st.active = m.st.active ∧ m2.st.pruned = m.st.pruned ∧ m.st.tree.same m2.st.tree ∧
      m2.blocks = m.blocks ∧ m2.genesis = m.genesis ∧ m2.last = m.last := by
  obtain ⟨c, hc, hs⟩ := merkle_sim hU hw hin h
  have hi := inv_run inv_empty (allAdds_eff hw) hc
  have hou := onlyU_run hU inv_empty (fun inp h => by cases h) (sim_empty H U) (fun _ _ h => absurd rfl h) hw hin h
  have hun := undo (allAdds_eff hw) hc (by rw [← hs.last]; exact hne) (effO_wf hiw)
  simp only [MChain.step] at ha
  have hbound : m.last + 1 < 2 ^ 63 := Classical.byContradiction (fun hn => by rw [if_neg hn] at ha; cases ha)
  rw [if_pos hbound] at ha
  have hs1 := sim_add hU hs hiw hii ha
  have hi1 := inv_run hi (evs := [.add (effO inp)]) (c' := c.addBlock (effO inp)) (fun x hx => by
      rw [List.mem_singleton] at hx; cases hx; exact effO_wf hiw) (by
      simp only [VChain.run, VChain.step]; rw [if_pos (by rw [← hs.last]; exact hbound)])
  have hgl : 1 ≤ m.genesis ∧ m.genesis ≤ m.last := by
    have hlast := hi.last
    have hgen := hi.gen
    rw [hs.genesis, hs.last]
    rw [hs.last] at hne
    rcases hi.rng with ⟨h1, h2⟩ | ⟨h1, h2⟩
    · rw [h1] at hlast; simp at hlast; omega
    · omega
  have hblk : m.blocks (m.last + 1) = none := by
    have := hs.blocks (m.last + 1)
    have hn : c.blocks (m.last + 1) = none := by
      have hlast := hi.last
      rw [hi.blocks, hs.last, List.getElem?_eq_none (by omega)]
      split <;> rfl
    rw [hn] at this
    cases hx : m.blocks (m.last + 1) with
    | none => rfl
    | some o => rw [hx] at this; cases o <;> exact this.elim
  have hg0 : ¬ m.genesis = 0 := by omega
  cases inp with
  | none =>
    simp only [MChain.addBlock, Option.some.injEq] at ha
    subst ha
    refine ⟨{ st := m.st, blocks := m.blocks, genesis := m.genesis, last := m.last }, ?_, rfl, rfl, rfl, rfl,
      ⟨rfl, rfl, fun _ _ => ⟨rfl, rfl⟩⟩, rfl, rfl, rfl⟩
    simp only [MChain.step, MChain.deleteLast]
    rw [if_neg (by omega), if_neg (by rw [if_neg hg0]; omega)]
    simp only [if_true, hg0, if_false, Nat.add_sub_cancel]
    have hf : (fun i => if i = m.last + 1 then none else if i = m.last + 1 then some none else m.blocks i) = m.blocks := by
      funext j
      by_cases e : j = m.last + 1
      · rw [if_pos e, e, hblk]
      · rw [if_neg e, if_neg e]
    rw [hf]
  | some i =>
    obtain ⟨t, r, ht, hr, e⟩ := addBlock_inv ha
    subst e
    simp only [hg0, if_false] at hs1
    have hdl : ({ st := { putKeys H (m.last + 1) i m.st with tree := t }
                  blocks := fun j => if j = m.last + 1 then
                    some (some { keys := inputToOutput i, rootHash := H.tree r, version := t.latest }) else m.blocks j
                  genesis := m.genesis
                  last := m.last + 1 } : MChain).deleteLast H = some
        { st := ({ putKeys H (m.last + 1) i m.st with tree := t } : MState).deleteLast H (m.last + 1)
            { keys := inputToOutput i, rootHash := H.tree r, version := t.latest }
          blocks := m.blocks, genesis := m.genesis, last := m.last } := by
      simp only [MChain.deleteLast]
      rw [if_neg (by omega), if_neg (by omega)]
      simp only [if_true, Nat.add_sub_cancel, Option.some.injEq, MChain.mk.injEq, true_and, and_true]
      funext j
      by_cases e : j = m.last + 1
      · rw [if_pos e, e, hblk]
      · rw [if_neg e, if_neg e]
    obtain ⟨c2, hc2, hs2⟩ := sim_deleteLast hU hi1 hs1 hdl
    rw [hun] at hc2
    cases hc2
    have hkeys : ∀ k, U k → proj H (({ putKeys H (m.last + 1) i m.st with tree := t } : MState).deleteLast H (m.last + 1)
        { keys := inputToOutput i, rootHash := H.tree r, version := t.latest }) k = proj H m.st k :=
      fun k hk => by rw [hs.keys k hk]; exact hs2.keys k hk
    have hko : ∀ k ∈ (inputToOutput i).map (·.1), U k := by
      intro k hk
      rw [(inputToOutput_spec i).2] at hk
      rcases hk with h1 | h1
      · obtain ⟨y, hy, e⟩ := List.mem_map.1 h1
        rw [← e]; exact (hii i rfl).1 y hy
      · exact (hii i rfl).2 k h1
    obtain ⟨p1, p2, p3, p4, p5⟩ := putKeys_other H (m.last + 1) i m.st
    obtain ⟨f1, f2, f3, _⟩ := unlinkM_fold hU (m.last + 1) ({ putKeys H (m.last + 1) i m.st with tree := t } : MState)
      ((inputToOutput i).map (·.1)) ({ putKeys H (m.last + 1) i m.st with tree := t } : MState)
      (sorted_nodup (inputToOutput_spec i).1) hko
    refine ⟨{ st := ({ putKeys H (m.last + 1) i m.st with tree := t } : MState).deleteLast H (m.last + 1)
                { keys := inputToOutput i, rootHash := H.tree r, version := t.latest }
              blocks := m.blocks, genesis := m.genesis, last := m.last },
      by simp only [MChain.step, hg0, if_false]; exact hdl, ?_, ?_, ?_, ?_, ?_, rfl, rfl, rfl⟩
    · funext x b
      by_cases hx : ∃ k, U k ∧ x = H.h k
      · obtain ⟨k, hk, e⟩ := hx
        subst e
        exact congrFun (congrArg KState.values (hkeys k hk)) b
      · have h1 : m.st.values x b = none := by
          cases hv : m.st.values x b with
          | none => rfl
          | some v => exact absurd (hou x b (by rw [hv]; simp)) hx
        have h2 : x ∉ ((inputToOutput i).map (·.1)).map H.h := by
          intro hm
          obtain ⟨k, k1, k2⟩ := List.mem_map.1 hm
          exact hx ⟨k, hko k k1, k2.symm⟩
        simp only [MState.deleteLast]
        rw [f3, if_neg (fun hh => h2 hh.2)]
        exact p1 x b h2
    · funext k
      by_cases hk : U k
      · exact congrArg KState.latest (hkeys k hk)
      · have hnk : k ∉ (inputToOutput i).map (·.1) := fun hm => hk (hko k hm)
        simp only [MState.deleteLast]
        rw [unlinkM_latest _ _ _ _ _ _ hnk]
        exact p2 k hnk
    · simp only [MState.deleteLast]; rw [f1]; exact p3
    · simp only [MState.deleteLast]; rw [f2]; exact p4
    · simp only [MState.deleteLast]
      have htu := ht
      simp only [TreeDb.update] at htu
      cases hroot : m.st.tree.root with
      | none => rw [hroot] at htu; cases htu
      | some mm =>
        rw [hroot] at htu
        simp only [Option.some.injEq] at htu
        subst htu
        refine ⟨by simp only [TreeDb.remove, Nat.add_sub_cancel], rfl, ?_⟩
        intro v hv
        simp only [TreeDb.remove]
        have : v ≠ m.st.tree.latest + 1 := by omega
        exact ⟨by rw [if_neg this, if_neg this], by rw [if_neg this, if_neg this]⟩

end Verif.Kvbc
