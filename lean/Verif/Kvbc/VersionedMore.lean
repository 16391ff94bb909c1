import Verif.Kvbc.VersionedProps
set_option linter.unusedSimpArgs false
set_option linter.unusedVariables false
/-!
# C24 (pruning), C25 (undo), batch reads and absence of aborts for the versioned category
-/
namespace Verif.Kvbc
open Verif.Bytes

/-- values stored at or above the genesis decide a latest read -/
theorem getLatest_of_values {s s' : VState} {k : Key} {T T' : Nat → Option (DbValue × VFlags)} {g g' last : Nat}
    (hi : KInv (s k) T g) (hi' : KInv (s' k) T' g') (hl : last < 2 ^ 63) (hT : ∀ b, last < b → (s k).values b = none)
    {b : Nat} (hb : (s k).values b ≠ none) (hup : ∀ b', b ≤ b' → (s' k).values b' = (s k).values b') :
    getLatest s' k = getLatest s k := by
  cases hlat : (s k).latest with
  | none => exact absurd (hi.latNone hlat b) hb
  | some n =>
    obtain ⟨m, d, _, h1, h2⟩ := hi.latSome n hlat
    have hm : m ≤ last := by
      rcases Nat.lt_or_ge last m with h3 | h3
      · rw [hT m h3] at h1; cases h1
      · exact h3
    have hbm : b ≤ m := by
      rcases Nat.lt_or_ge m b with h3 | h3
      · exact absurd (h2 b h3) hb
      · exact h3
    rw [getLatest_eq hi (by omega) h1 h2, getLatest_eq hi' (b := m) (d := d) (by omega) (by rw [hup m hbm]; exact h1)
      (fun b' hb' => by rw [hup b' (by omega)]; exact h2 b' hb')]

theorem stored_le {c : VChain} {a : Abs} (hi : Inv c a) (k : Key) : ∀ b, c.last < b → (c.st k).values b = none := by
  intro b hb
  have hlast := hi.last
  have hgen := hi.gen
  have hg : c.genesis ≤ b := by
    rcases hi.rng with ⟨h1, h2⟩ | ⟨h1, h2⟩ <;> omega
  rw [(hi.keys k).live b hg]
  cases ht : touchAt a.hist k b with
  | none => rfl
  | some t => have := touchAt_le a.hist k b (by rw [ht]; simp); omega

/-- **C24** Pruning the genesis block changes no latest read, except for keys whose newest block is the pruned one
and which that block marked stale-on-update or deleted; those read as absent afterwards.  For every history. -/
theorem prune_preserves_latest {evs : List Ev} (hw : AllAdds VInput.wf evs) {c c' : VChain}
    (h : VChain.empty.run evs = some c) (hp : c.prune = some c') (k : Key) :
    getLatest c'.st k = getLatest c.st k ∨
    (getLatest c'.st k = none ∧ ∃ op, newest (Abs.empty.run evs).hist k (Abs.empty.run evs).hist.length
        = some (c.genesis, op) ∧
      (op = .del ∨ (∃ d, op = .put d true) ∨
       ∃ inp, (Abs.empty.run evs).hist[c.genesis - 1]? = some inp ∧ k ∈ inp.deletes)) := by
  have hi := inv_run inv_empty hw h
  have hi' := inv_prune hi hp
  generalize Abs.empty.run evs = a at hi hi'
  have hk := hi.keys k
  have hk' := hi'.keys k
  have hlast := hi.last
  have hgen := hi.gen
  obtain ⟨f1, f2, f3, f4, f5⟩ := prune_fields hp
  rcases prune_key hi hp k with ⟨g1, g2⟩ | ⟨v, fl, g1, g2⟩
  · left
    simp only [getLatest, getLatestVersion, get, g2]
  · obtain ⟨_, p1, p2, p3, p4⟩ := hk.prune_touched (touchAt_le a.hist k) (by have := hi.lt; omega) g1
      (touchAt_not_deleted g1) g2
    have hvg : (c.st k).values c.genesis = some v := by rw [hk.live _ (Nat.le_refl _), g1]; rfl
    by_cases hc : fl.staleOnUpdate = false ∧ fl.deleted = false ∧ ∀ b', c.genesis < b' → touchAt a.hist k b' = none
    · left
      refine getLatest_of_values hk hk' hi.lt (stored_le hi k) (b := c.genesis) (by rw [hvg]; simp) (fun b' hb' => ?_)
      by_cases e : b' = c.genesis
      · rw [e, p3 hc.1 hc.2.1 hc.2.2, hvg]
      · exact p2 b' (by omega)
    · by_cases hn : ∀ b', c.genesis < b' → touchAt a.hist k b' = none
      · right
        have hall : ∀ b, (c'.st k).values b = none := by
          intro b
          rcases Nat.lt_trichotomy b c.genesis with hx | hx | hx
          · exact p1 b hx
          · rw [hx]; exact p4 hc
          · rw [p2 b hx, hk.live b (by omega), hn b hx]; rfl
        refine ⟨getLatest_none hk' hall, ?_⟩
        obtain ⟨inp, hinp, _, _⟩ := inv_genesis_block hi (by omega)
        have hta := touchAt_get (k := k) (by omega) hinp
        have ht : touch inp k = some (v, fl) := by rw [← hta]; exact g1
        cases hnew : newest a.hist k a.hist.length with
        | none =>
          have := newest_none hnew c.genesis (by rcases hi.rng with ⟨h1, h2⟩ | ⟨h1, h2⟩ <;> omega)
          rw [opAt_none_iff, g1] at this; cases this
        | some p =>
          obtain ⟨b, op⟩ := p
          obtain ⟨n1, n2, n3⟩ := newest_some hnew
          have hb : b = c.genesis := by
            rcases Nat.lt_trichotomy b c.genesis with hx | hx | hx
            · have := n3 c.genesis hx (by rcases hi.rng with ⟨h1, h2⟩ | ⟨h1, h2⟩ <;> omega)
              rw [opAt_none_iff, g1] at this; cases this
            · exact hx
            · have := (opAt_none_iff _ _ _).2 (hn b hx)
              rw [this] at n1; cases n1
          subst hb
          refine ⟨op, rfl, ?_⟩
          have ho : opOf inp k = some op := by
            have h0 : ¬ c.genesis = 0 := by omega
            simpa [opAt, h0, hinp] using n1
          rcases touch_cases inp k with ⟨t1, t2⟩ | ⟨w, fl', t1, t2, t3, t4⟩ | ⟨d, st, fl', t1, t2, t3, t4, t5⟩
          · rw [t1] at ht; cases ht
          · rw [t4] at ho; cases ho; exact Or.inl rfl
          · rw [t2] at ho; cases ho
            rw [t1] at ht; cases ht
            by_cases hd : k ∈ inp.deletes
            · exact Or.inr (Or.inr ⟨inp, hinp, hd⟩)
            · have := t5 hd
              right; left
              cases st with
              | true => exact ⟨d, rfl⟩
              | false => exact absurd ⟨by rw [this], by rw [this], hn⟩ hc
      · left
        obtain ⟨b, hb⟩ := Classical.not_forall.1 hn
        obtain ⟨hb1, hb2⟩ := Classical.not_imp.1 hb
        have hvb : (c.st k).values b ≠ none := by
          rw [hk.live b (by omega)]
          cases ht : touchAt a.hist k b with
          | none => exact absurd ht hb2
          | some t => simp
        exact getLatest_of_values hk hk' hi.lt (stored_le hi k) hvb (fun b' hb' => p2 b' (by omega))

/-- **C24** Pruning changes no versioned read at a block that stays in the chain. -/
theorem prune_preserves_get {evs : List Ev} (hw : AllAdds VInput.wf evs) {c c' : VChain}
    (h : VChain.empty.run evs = some c) (hp : c.prune = some c') (k : Key) {b : Nat} (hb : c'.genesis ≤ b) :
    get c'.st k b = get c.st k b := by
  have hi := inv_run inv_empty hw h
  have hi' := inv_prune hi hp
  obtain ⟨f1, f2, f3, f4, f5⟩ := prune_fields hp
  simp only [get]
  rw [(hi.keys k).live b (by omega), (hi'.keys k).live b hb]
  rfl

theorem prevVersion_write (x : KState) (v : DbValue) (n : Nat) : ∀ b, b ≤ n →
    prevVersion (x.write n v) b = prevVersion x b
  | 0, _ => rfl
  | b + 1, h => by
    have h1 : (x.write n v).values b = x.values b := by
      simp only [KState.write, KState.putLatest, KState.putValue]
      rw [if_neg (by omega)]
    simp only [prevVersion, h1]
    rw [prevVersion_write x v n b (by omega)]

theorem unlink_write {x : KState} {T : Nat → Option (DbValue × VFlags)} {g last : Nat} (hi : KInv x T g)
    (hx : ∀ b, last < b → x.values b = none) (v : DbValue) :
    unlinkKey (last + 1) (x.write (last + 1) v) (x.write (last + 1) v) = x := by
  have hv : (fun b' => if b' = last + 1 then none else if b' = last + 1 then some v else x.values b') = x.values := by
    funext b'
    by_cases e : b' = last + 1
    · subst e; simp [hx _ (Nat.lt_succ_self _)]
    · simp [e]
  simp only [unlinkKey]
  rw [prevVersion_write x v (last + 1) (last + 1) (Nat.le_refl _)]
  cases hp : prevVersion x (last + 1) with
  | some p =>
    obtain ⟨m, d⟩ := p
    obtain ⟨q1, q2, q3⟩ := prevVersion_some hp
    have hl := hi.latest_eq q2 (fun b' hb' => by
      by_cases hle : b' < last + 1
      · exact q3 b' hb' hle
      · exact hx b' (by omega))
    simp only [KState.delValue, KState.putLatest, KState.write, KState.putValue]
    rw [hv, ← hl]
  | none =>
    have hl : x.latest = none := by
      cases hlat : x.latest with
      | none => rfl
      | some n =>
        obtain ⟨m, d, _, h1, _⟩ := hi.latSome n hlat
        by_cases hle : m < last + 1
        · rw [prevVersion_none hp m hle] at h1; cases h1
        · rw [hx m (by omega)] at h1; cases h1
    simp only [KState.delValue, KState.delLatest, KState.putLatest, KState.write, KState.putValue]
    rw [hv, ← hl]

/-- **C25** Deleting the last block right after it was added gives back exactly the previous chain: every stored
value, latest version, pruning record, block and block id.  For every reachable chain with at least one block and
every update. -/
theorem undo {evs : List Ev} (hw : AllAdds VInput.wf evs) {c : VChain} (h : VChain.empty.run evs = some c)
    (hne : c.last ≠ 0) {inp : VInput} (hin : inp.wf) : (c.addBlock inp).deleteLast = some c := by
  have hi := inv_run inv_empty hw h
  generalize Abs.empty.run evs = a at hi
  have hlast := hi.last
  have hgen := hi.gen
  have hg : 1 ≤ c.genesis ∧ c.genesis ≤ c.last := by
    rcases hi.rng with ⟨h1, h2⟩ | ⟨h1, h2⟩
    · rw [h1] at hlast; simp at hlast; omega
    · omega
  have hG : (c.addBlock inp).genesis = c.genesis := by
    simp only [VChain.addBlock]; rw [if_neg (by omega)]
  have hL : (c.addBlock inp).last = c.last + 1 := rfl
  have hB : (c.addBlock inp).blocks (c.last + 1) = some (outOf inp) := by
    simp only [VChain.addBlock, if_true, add_out]
  simp only [VChain.deleteLast]
  rw [hL, hG, if_neg (by omega), if_neg (by omega), hB]
  simp only
  have hst : deleteLastReachable (c.last + 1) (outOf inp) (c.addBlock inp).st = c.st := by
    funext k
    rw [deleteLastReachable_key _ _ (outOf_sorted inp hin), outOf_lookup inp hin]
    have hadd : (c.addBlock inp).st k = match touch inp k with
        | some (v, _) => (c.st k).write (c.last + 1) v
        | none => c.st k := add_key _ _ hin _ _
    rw [hadd]
    cases touch inp k with
    | none => rfl
    | some t =>
      simp only [Option.map_some]
      exact unlink_write (hi.keys k) (stored_le hi k) t.1
  have hbl : (fun i => if i = c.last + 1 then none else (c.addBlock inp).blocks i) = c.blocks := by
    funext i
    by_cases e : i = c.last + 1
    · subst e
      rw [if_pos rfl, hi.blocks, List.getElem?_eq_none (by omega)]
      split <;> rfl
    · rw [if_neg e]
      simp only [VChain.addBlock]
      rw [if_neg e]
  rw [hst, hbl, Nat.add_sub_cancel]

/-- **C23** In every reachable chain the operations fail only for the documented reasons: pruning needs at least two
blocks, deleting the last block too.  No assertion of the category fails. -/
theorem no_abort {evs : List Ev} (hw : AllAdds VInput.wf evs) {c : VChain} (h : VChain.empty.run evs = some c) :
    (c.prune = none ↔ ¬ (1 ≤ c.genesis ∧ c.genesis < c.last)) ∧
    (c.deleteLast = none ↔ ¬ (1 ≤ c.genesis ∧ c.genesis < c.last)) := by
  have hi := inv_run inv_empty hw h
  generalize Abs.empty.run evs = a at hi
  have hlast := hi.last
  have hgen := hi.gen
  have hg : (c.last = 0 ∧ c.genesis = 0) ∨ (1 ≤ c.genesis ∧ c.genesis ≤ c.last) := by
    rcases hi.rng with ⟨h1, h2⟩ | ⟨h1, h2⟩
    · left; rw [h1] at hlast; simp at hlast; omega
    · right; omega
  constructor
  · constructor
    · intro hp hc
      simp only [VChain.prune] at hp
      rw [if_neg (by omega), if_neg (by omega)] at hp
      obtain ⟨inp, h1, hwf, h2⟩ := inv_genesis_block hi (by omega)
      rw [h2] at hp
      simp only at hp
      have : ∃ s', deleteGenesis c.genesis (outOf inp) c.st = some s' := by
        apply foldlM_upd_some
        intro kf hkf hnone
        have hl := lookup_of_mem_nodup (sorted_nodup (outOf_sorted inp hwf)) hkf
        rw [outOf_lookup inp hwf] at hl
        have hv := (hi.keys kf.1).live c.genesis (Nat.le_refl _)
        rw [touchAt_get (by omega) h1, (hi.keys kf.1).latNone hnone] at hv
        cases ht : touch inp kf.1 with
        | none => rw [ht] at hl; cases hl
        | some t => rw [ht] at hv; cases hv
      obtain ⟨s', hs'⟩ := this
      rw [hs'] at hp; cases hp
    · intro hc
      simp only [VChain.prune]
      rcases hg with ⟨h1, h2⟩ | ⟨h1, h2⟩
      · rw [if_pos (by omega)]
      · rw [if_neg (by omega), if_pos (by omega)]
  · constructor
    · intro hp hc
      simp only [VChain.deleteLast] at hp
      rw [if_neg (by omega), if_neg (by omega), hi.blocks, if_pos (by omega),
        List.getElem?_eq_getElem (show c.last - 1 < a.hist.length by omega)] at hp
      cases hp
    · intro hc
      simp only [VChain.deleteLast]
      rcases hg with ⟨h1, h2⟩ | ⟨h1, h2⟩
      · rw [if_pos h1]
      · rw [if_neg (by omega), if_pos (by omega)]

/-! ### batch reads -/

/-- **C23** `multiGet` is `get` on every key. -/
theorem multiGet_eq (s : VState) (ks : List Key) (vs : List Nat) (h : ks.length = vs.length) :
    multiGet s ks vs = some ((ks.zip vs).map (fun kv => get s kv.1 kv.2)) := by
  simp only [multiGet, h, if_true]
  congr 1
  apply List.map_congr_left
  intro kv _
  simp only [get]
  cases (s kv.1).values kv.2 with
  | none => rfl
  | some v => cases hd : v.deleted <;> simp [hd]

theorem mergeRetrieved_eq (s : VState) : ∀ ks : List Key,
    mergeRetrieved (ks.map (getLatestVersion s))
      (((ks.zip (ks.map (getLatestVersion s))).filterMap foundKey).map (fun kv => get s kv.1 kv.2)) = some (ks.map (getLatest s))
  | [] => rfl
  | k :: ks => by
    have ih := mergeRetrieved_eq s ks
    simp only [List.map_cons, List.zip_cons_cons, List.filterMap_cons, foundKey]
    cases hv : getLatestVersion s k with
    | none =>
      simp only [mergeRetrieved]
      rw [ih]
      simp [getLatest, hv]
    | some t =>
      cases hd : t.deleted with
      | true =>
        simp only [mergeRetrieved, hd, Bool.not_true, Bool.false_eq_true, if_false, if_true]
        rw [ih]
        simp [getLatest, hv, hd]
      | false =>
        simp only [mergeRetrieved, hd, Bool.not_false, if_true, List.map_cons, Bool.false_eq_true, if_false]
        rw [ih]
        simp [getLatest, hv, hd]

theorem filterMap_all {α β : Type} (f : α → Option β) : ∀ l : List α, (l.filterMap f).length = l.length →
    ∀ x ∈ l, ∃ y, f x = some y
  | [], _, x, h => by simp at h
  | a :: l, hl, x, h => by
    rw [List.filterMap_cons] at hl
    cases hf : f a with
    | none =>
      rw [hf] at hl
      simp only [List.length_cons] at hl
      have := List.length_filterMap_le f l
      omega
    | some y =>
      rw [hf] at hl
      simp only [List.length_cons] at hl
      rcases List.mem_cons.1 h with e | e
      · rw [e]; exact ⟨y, hf⟩
      · exact filterMap_all f l (by omega) x e

theorem found_all (s : VState) : ∀ ks : List Key,
    (∀ k ∈ ks, ∃ t, getLatestVersion s k = some t ∧ t.deleted = false) →
    ((ks.zip (ks.map (getLatestVersion s))).filterMap foundKey).map (fun kv => get s kv.1 kv.2) = ks.map (getLatest s)
  | [], _ => rfl
  | k :: ks, h => by
    have ih := found_all s ks (fun x hx => h x (List.mem_cons_of_mem _ hx))
    obtain ⟨t, h1, h2⟩ := h k List.mem_cons_self
    simp only [List.map_cons, List.zip_cons_cons, List.filterMap_cons, foundKey, h1, h2, Bool.not_false, if_true]
    rw [ih]
    simp [getLatest, h1, h2]

/-- **C23** `multiGetLatest` is `getLatest` on every key; it never reads outside its vectors. -/
theorem multiGetLatest_eq (s : VState) (ks : List Key) : multiGetLatest s ks = some (ks.map (getLatest s)) := by
  have hver : multiGetLatestVersion s ks = ks.map (getLatestVersion s) := rfl
  have hz : ∀ l : List (Key × Nat), ((l.map (·.1)).zip (l.map (·.2))).map (fun kv => get s kv.1 kv.2) =
      l.map (fun kv => get s kv.1 kv.2) := by
    intro l
    induction l with
    | nil => rfl
    | cons x xs ih => simp only [List.map_cons, List.zip_cons_cons, ih]
  simp only [multiGetLatest, hver]
  rw [multiGet_eq s _ _ (by simp), hz]
  split
  · rename_i hlen
    have hzl : (ks.zip (ks.map (getLatestVersion s))).length = ks.length := by simp
    have hall := filterMap_all _ _ (by rw [hlen]; exact hzl.symm)
    rw [found_all s ks]
    intro k hk
    have hm : (k, getLatestVersion s k) ∈ ks.zip (ks.map (getLatestVersion s)) := by
      clear hall hzl hlen hver hz
      induction ks with
      | nil => simp at hk
      | cons x xs ih =>
        simp only [List.map_cons, List.zip_cons_cons]
        rcases List.mem_cons.1 hk with e | e
        · rw [e]; exact List.mem_cons_self
        · exact List.mem_cons_of_mem _ (ih e)
    obtain ⟨y, hy⟩ := hall _ hm
    simp only [foundKey] at hy
    cases hv : getLatestVersion s k with
    | none => rw [hv] at hy; cases hy
    | some t =>
      rw [hv] at hy
      refine ⟨t, rfl, ?_⟩
      cases hd : t.deleted with
      | false => rfl
      | true => simp [hd] at hy
  · simp only
    exact mergeRetrieved_eq s ks

end Verif.Kvbc
