import Verif.Smt.Props
/-!
# C21: what the root hash binds, and what it does not
-/
set_option linter.unusedVariables false
set_option linter.unusedSimpArgs false
namespace Verif.Smt

theorem memf {α} {p : α → Bool} {l : List α} {x : α} (h : x ∈ l.filter p) : x ∈ l := (List.mem_filter.1 h).1

theorem getD_lt (l : List Bool) (d : Bool) {i : Nat} (h : i < l.length) : l.getD i d = l[i] := by
  simp [List.getD, h]

/-- same key hashes, in the same order -/
def SameKeys (l l' : List (Hash × Hash)) : Prop := l.map (·.1) = l'.map (·.1)

theorem SameKeys.filter {l l' : List (Hash × Hash)} (f : Hash → Bool) (h : SameKeys l l') :
    SameKeys (l.filter (fun x => f x.1)) (l'.filter (fun x => f x.1)) := by
  unfold SameKeys at *
  have e : ∀ m : List (Hash × Hash), (m.filter (fun x => f x.1)).map (·.1) = (m.map (·.1)).filter f := by
    intro m; rw [List.filter_map]; rfl
  rw [e, e, h]

theorem Collision.mono {hs : Hasher} {i i' j j'} (h1 : ∀ x ∈ i, x ∈ j) (h2 : ∀ x ∈ i', x ∈ j') (h : Collision hs i i') : Collision hs j j' := by
  obtain ⟨p, a, p', b, c⟩ := h
  exact ⟨p, h1 p a, p', h2 p' b, c⟩

theorem agree_split {l l' : List (Hash × Hash)} (d : Nat) (hk : SameKeys l l')
    (h1 : l.filter (fun x => keyBit d x == false) = l'.filter (fun x => keyBit d x == false)) (h2 : l.filter (keyBit d) = l'.filter (keyBit d)) : l = l' := by
  induction l generalizing l' with
  | nil =>
    cases l' with
    | nil => rfl
    | cons y l' => simp [SameKeys] at hk
  | cons x l ih =>
    cases l' with
    | nil => simp [SameKeys] at hk
    | cons y l' =>
      unfold SameKeys at hk
      rw [List.map_cons, List.map_cons] at hk
      injection hk with e1 e2
      have hb : keyBit d x = keyBit d y := by unfold keyBit; rw [e1]
      cases hx : keyBit d x with
      | false =>
        have hy : keyBit d y = false := hb ▸ hx
        rw [List.filter_cons_of_pos (by rw [hx]; rfl), List.filter_cons_of_pos (by rw [hy]; rfl)] at h1
        rw [List.filter_cons_of_neg (by rw [hx]; simp), List.filter_cons_of_neg (by rw [hy]; simp)] at h2
        injection h1 with f1 f2
        rw [f1, ih e2 f2 h2]
      | true =>
        have hy : keyBit d y = true := hb ▸ hx
        rw [List.filter_cons_of_neg (by rw [hx]; simp), List.filter_cons_of_neg (by rw [hy]; simp)] at h1
        rw [List.filter_cons_of_pos hx, List.filter_cons_of_pos hy] at h2
        injection h2 with f1 f2
        rw [f1, ih e2 h1 f2]

theorem subHash_binds (hs : Hasher) : ∀ (n d : Nat) (l l' : List (Hash × Hash)), SameKeys l l' → (∀ x ∈ l, ∀ y ∈ l, x.1 = y.1 → x = y) →
    (∀ x ∈ l, x.1.length = d + n) → (∀ x ∈ l, ∀ y ∈ l, x.1.take d = y.1.take d) → l.Nodup →
    subHash hs n d l = subHash hs n d l' → l = l' ∨ Collision hs (subInputs hs n d l) (subInputs hs n d l')
  | n, d, [], l', hk, _, _, _, _, _ => by
    cases l' with
    | nil => exact Or.inl rfl
    | cons y l' => simp [SameKeys] at hk
  | n, d, [x], l', hk, _, _, _, _, e => by
    match l', hk with
    | [], hk => simp [SameKeys] at hk
    | [y], hk =>
      left
      have e1 : x.2 = y.2 := by unfold subHash at e; exact e
      have e2 : x.1 = y.1 := by simpa [SameKeys] using hk
      rw [Prod.ext e2 e1]
    | _ :: _ :: _, hk => simp [SameKeys] at hk
  | 0, d, x :: y :: l, l', hk, hu, hlen, hpre, hnd, e => by
    exfalso
    have h1 := hlen x (by simp)
    have h2 := hlen y (by simp)
    have h3 := hpre x (by simp) y (by simp)
    rw [List.take_of_length_le (by omega), List.take_of_length_le (by omega)] at h3
    have := hu x (by simp) y (by simp) h3
    rw [this] at hnd; simp at hnd
  | n + 1, d, x :: y :: l, l', hk, hu, hlen, hpre, hnd, e => by
    match l', hk with
    | [], hk => simp [SameKeys] at hk
    | [_], hk => simp [SameKeys] at hk
    | x' :: y' :: l', hk =>
      rw [subHash_many hs n d (by simp), subHash_many hs n d (by simp)] at e
      have i1 : subInputs hs (n + 1) d (x :: y :: l) = (subHash hs n (d + 1) ((x :: y :: l).filter (fun x => keyBit d x == false)), subHash hs n (d + 1) ((x :: y :: l).filter (keyBit d))) ::
        (subInputs hs n (d + 1) ((x :: y :: l).filter (fun x => keyBit d x == false)) ++ subInputs hs n (d + 1) ((x :: y :: l).filter (keyBit d))) := rfl
      have i2 : subInputs hs (n + 1) d (x' :: y' :: l') = (subHash hs n (d + 1) ((x' :: y' :: l').filter (fun x => keyBit d x == false)), subHash hs n (d + 1) ((x' :: y' :: l').filter (keyBit d))) ::
        (subInputs hs n (d + 1) ((x' :: y' :: l').filter (fun x => keyBit d x == false)) ++ subInputs hs n (d + 1) ((x' :: y' :: l').filter (keyBit d))) := rfl
      rw [i1, i2]
      generalize hL : x :: y :: l = L at *
      generalize hL' : x' :: y' :: l' = L' at *
      by_cases hp : subHash hs n (d + 1) (L.filter (fun x => keyBit d x == false)) = subHash hs n (d + 1) (L'.filter (fun x => keyBit d x == false)) ∧
          subHash hs n (d + 1) (L.filter (keyBit d)) = subHash hs n (d + 1) (L'.filter (keyBit d))
      · have hk1 : SameKeys (L.filter (fun x => keyBit d x == false)) (L'.filter (fun x => keyBit d x == false)) := hk.filter (fun h => h.getD d false == false)
        have hk2 : SameKeys (L.filter (keyBit d)) (L'.filter (keyBit d)) := hk.filter (fun h => h.getD d false)
        have hext : ∀ x ∈ L, ∀ y ∈ L, keyBit d x = keyBit d y → x.1.take (d + 1) = y.1.take (d + 1) := by
          intro x hx y hy hb
          have e1 := hpre x hx y hy
          have l1 := hlen x hx
          have l2 := hlen y hy
          unfold keyBit at hb
          rw [getD_lt _ _ (by omega), getD_lt _ _ (by omega)] at hb
          rw [List.take_succ_eq_append_getElem (by omega), List.take_succ_eq_append_getElem (by omega), e1, hb]
        have r1 := subHash_binds hs n (d + 1) _ _ hk1 (fun x hx y hy => hu x (memf hx) y (memf hy))
          (fun x hx => by have := hlen x (memf hx); omega)
          (fun x hx y hy => hext x (memf hx) y (memf hy) (by
            have a := (List.mem_filter.1 hx).2
            have b := (List.mem_filter.1 hy).2
            rw [beq_iff_eq] at a b
            rw [a, b])) (hnd.sublist List.filter_sublist) hp.1
        have r2 := subHash_binds hs n (d + 1) _ _ hk2 (fun x hx y hy => hu x (memf hx) y (memf hy))
          (fun x hx => by have := hlen x (memf hx); omega)
          (fun x hx y hy => hext x (memf hx) y (memf hy) (by
            rw [(List.mem_filter.1 hx).2, (List.mem_filter.1 hy).2])) (hnd.sublist List.filter_sublist) hp.2
        rcases r1 with r1 | r1
        · rcases r2 with r2 | r2
          · exact Or.inl (agree_split d hk r1 r2)
          · exact Or.inr (r2.mono (fun z hz => List.mem_cons_of_mem _ (List.mem_append_right _ hz)) (fun z hz => List.mem_cons_of_mem _ (List.mem_append_right _ hz)))
        · exact Or.inr (r1.mono (fun z hz => List.mem_cons_of_mem _ (List.mem_append_left _ hz)) (fun z hz => List.mem_cons_of_mem _ (List.mem_append_left _ hz)))
      · refine Or.inr ⟨_, List.mem_cons_self .., _, List.mem_cons_self .., fun hc => hp ?_, e⟩
        exact ⟨congrArg Prod.fst hc, congrArg Prod.snd hc⟩

theorem rootSpec_binds (hs : Hasher) (l l' : List (Hash × Hash)) (hk : SameKeys l l') (hu : (l.map (·.1)).Nodup)
    (hlen : ∀ x ∈ l, x.1.length = 256) (e : rootSpec hs l = rootSpec hs l') : l = l' ∨ Collision hs (rootInputs hs l) (rootInputs hs l') := by
  by_cases hl : l = []
  · subst hl
    cases l' with
    | nil => exact Or.inl rfl
    | cons y l' => simp [SameKeys] at hk
  have hl' : l' ≠ [] := by
    rintro rfl
    cases l with
    | nil => exact hl rfl
    | cons y l' => simp [SameKeys] at hk
  unfold rootSpec at e
  rw [if_neg hl, if_neg hl'] at e
  unfold rootInputs
  rw [if_neg hl, if_neg hl']
  have hnd : l.Nodup := by
    unfold List.Nodup at hu ⊢
    rw [List.pairwise_map] at hu
    exact hu.imp (fun h e => h (by rw [e]))
  have hinj : ∀ x ∈ l, ∀ y ∈ l, x.1 = y.1 → x = y := fun x hx y hy h => Verif.ListU.inj_of_nodup_map hu hx hy h
  by_cases hp : subHash hs 255 1 (l.filter (fun x => keyBit 0 x == false)) = subHash hs 255 1 (l'.filter (fun x => keyBit 0 x == false)) ∧
      subHash hs 255 1 (l.filter (keyBit 0)) = subHash hs 255 1 (l'.filter (keyBit 0))
  · have hext : ∀ x ∈ l, ∀ y ∈ l, keyBit 0 x = keyBit 0 y → x.1.take 1 = y.1.take 1 := by
      intro x hx y hy hb
      have l1 := hlen x hx
      have l2 := hlen y hy
      unfold keyBit at hb
      rw [getD_lt _ _ (by omega), getD_lt _ _ (by omega)] at hb
      rw [List.take_succ_eq_append_getElem (by omega), List.take_succ_eq_append_getElem (by omega), hb]; rfl
    have r1 := subHash_binds hs 255 1 _ _ (hk.filter (fun h => h.getD 0 false == false)) (fun x hx y hy => hinj x (memf hx) y (memf hy))
      (fun x hx => by have := hlen x (memf hx); omega)
      (fun x hx y hy => hext x (memf hx) y (memf hy) (by
        have a : (keyBit 0 x == false) = true := (List.mem_filter.1 hx).2
        have b : (keyBit 0 y == false) = true := (List.mem_filter.1 hy).2
        rw [beq_iff_eq] at a b
        rw [a, b])) (hnd.sublist List.filter_sublist) hp.1
    have r2 := subHash_binds hs 255 1 _ _ (hk.filter (fun h => h.getD 0 false)) (fun x hx y hy => hinj x (memf hx) y (memf hy))
      (fun x hx => by have := hlen x (memf hx); omega)
      (fun x hx y hy => hext x (memf hx) y (memf hy) (by
        have a : keyBit 0 x = true := (List.mem_filter.1 hx).2
        have b : keyBit 0 y = true := (List.mem_filter.1 hy).2
        rw [a, b])) (hnd.sublist List.filter_sublist) hp.2
    rcases r1 with r1 | r1
    · rcases r2 with r2 | r2
      · exact Or.inl (agree_split 0 hk r1 r2)
      · exact Or.inr (r2.mono (fun z hz => List.mem_cons_of_mem _ (List.mem_append_right _ hz)) (fun z hz => List.mem_cons_of_mem _ (List.mem_append_right _ hz)))
    · exact Or.inr (r1.mono (fun z hz => List.mem_cons_of_mem _ (List.mem_append_left _ hz)) (fun z hz => List.mem_cons_of_mem _ (List.mem_append_left _ hz)))
  · refine Or.inr ⟨_, List.mem_cons_self .., _, List.mem_cons_self .., fun hc => hp ?_, e⟩
    exact ⟨congrArg Prod.fst hc, congrArg Prod.snd hc⟩

/-- **C21**, the part that holds: when two histories end with the same set of keys and equal root hashes, every key has
values of equal hash, or the computation of the two roots shows a collision of the hash function.
Missing for the full property: the set of keys itself is not bound, see `root_does_not_bind_key` and
`root_does_not_bind_presence`. -/
theorem root_binds_values_partial (hs : Hasher) (evs evs' : List Ev) (hd : DistinctHashes hs (keysOf (updates evs)))
    (hd' : DistinctHashes hs (keysOf (updates evs'))) (he : Effective (updates evs)) (he' : Effective (updates evs')) {db db'}
    (hr : run hs Db.empty evs = some db) (hr' : run hs Db.empty evs' = some db')
    (m m' : Contents) (hm : m = contentsAt (updates evs) (updates evs).length) (hm' : m' = contentsAt (updates evs') (updates evs').length)
    (hkeys : ∀ k, (m k).isSome = (m' k).isSome) (hroot : db.rootHash hs = db'.rootHash hs) {ks} (hks : Enumerates ks m) :
    (∀ k v v', m k = some v → m' k = some v' → hs.hash v = hs.hash v') ∨
      Collision hs (rootInputs hs (pairs hs m ks)) (rootInputs hs (pairs hs m' ks)) := by
  obtain ⟨d1, e1, g1⟩ := root_is_contents hs evs hd he
  obtain ⟨d2, e2, g2⟩ := root_is_contents hs evs' hd' he'
  rw [hr] at e1; rw [hr'] at e2
  have x1 : db = d1 := by simpa using e1
  have x2 : db' = d2 := by simpa using e2
  subst x1 x2
  rw [← hm] at g1
  rw [← hm'] at g2
  have hks' : Enumerates ks m' := ⟨hks.1, fun k => by rw [hks.2, hkeys]⟩
  rw [g1 ks hks, g2 ks hks'] at hroot
  have hroot' : rootSpec hs (pairs hs m ks) = rootSpec hs (pairs hs m' ks) := by simpa using hroot
  have hku : ∀ k ∈ ks, k ∈ keysOf (updates evs) := fun k hk => by
    obtain ⟨v, hv⟩ := Option.isSome_iff_exists.1 ((hks.2 k).1 hk)
    rw [hm] at hv
    exact contentsAt_key hv
  rcases rootSpec_binds hs _ _ (by unfold SameKeys pairs; rw [List.map_map, List.map_map]; rfl) (by
      unfold pairs; rw [List.map_map]; unfold List.Nodup; rw [List.pairwise_map]
      refine List.Pairwise.imp_of_mem ?_ hks.1
      intro a b ha hb hne e
      exact hne (hd a (hku a ha) b (hku b hb) e)) (by
      intro x hx
      obtain ⟨k, _, rfl⟩ := List.mem_map.1 hx
      exact hs.hash_len k) hroot' with h | h
  · left
    intro k v v' h1 h2
    have hk : k ∈ ks := (hks.2 k).2 (by rw [h1]; rfl)
    have : (fun k => (hs.hash k, hs.hash ((m k).getD []))) k = (fun k => (hs.hash k, hs.hash ((m' k).getD []))) k := by
      have := List.map_inj_left.1 h k hk; exact this
    have := congrArg Prod.snd this
    simp only [h1, h2, Option.getD_some] at this
    exact this
  · exact Or.inr h

/-- **C21 fails** (1): whatever the hash function, two different keys whose hashes start with the same bit give the same
root hash for the same value: the leaf's hash is the value's hash alone (tree.cpp:163-178, internal_node.cpp:398-404). -/
theorem root_does_not_bind_key (hs : Hasher) (k k' v : Bytes) (hb : (hs.hash k).getD 0 false = (hs.hash k').getD 0 false) :
    ∃ db db', run hs Db.empty [.upd ⟨[(k, v)], []⟩] = some db ∧ run hs Db.empty [.upd ⟨[(k', v)], []⟩] = some db' ∧
      db.rootHash hs = db'.rootHash hs := by
  have go : ∀ k : Bytes, ∃ db, run hs Db.empty [.upd ⟨[(k, v)], []⟩] = some db ∧ db.rootHash hs = some (rootSpec hs [(hs.hash k, hs.hash v)]) := by
    intro k
    obtain ⟨db, h1, h2⟩ := root_is_contents hs [.upd ⟨[(k, v)], []⟩]
      (by intro a ha b hb _; simp [updates, keysOf] at ha hb; rw [ha, hb])
      (by
        intro i u hu
        cases i with
        | zero =>
          have : (⟨[(k, v)], []⟩ : Upd) = u := by simpa [updates] using hu
          subst this
          exact ⟨by simp [Upd.ok], Or.inl (by simp)⟩
        | succ i => simp [updates] at hu)
    refine ⟨db, h1, ?_⟩
    have hc : contentsAt (updates [.upd ⟨[(k, v)], []⟩]) (updates [.upd ⟨[(k, v)], []⟩]).length = fun x => if k = x then some v else none := by
      funext x
      show applyUpd (fun _ => none) ⟨[(k, v)], []⟩ x = _
      unfold applyUpd
      by_cases hx : k = x
      · simp [hx]
      · simp [hx]
    rw [hc] at h2
    have := h2 [k] ⟨by simp, fun x => by
      rw [List.mem_singleton]
      by_cases hx : k = x
      · simp [hx]
      · simp [hx]; exact fun e => hx e.symm⟩
    rw [this]
    simp [pairs]
  obtain ⟨db, a1, a2⟩ := go k
  obtain ⟨db', b1, b2⟩ := go k'
  refine ⟨db, db', a1, b1, ?_⟩
  rw [a2, b2]
  unfold rootSpec
  simp only [List.cons_ne_nil, reduceCtorEq, if_false]
  cases hx : (hs.hash k).getD 0 false with
  | false =>
    have hy := hb ▸ hx
    simp only [List.filter, keyBit, hx, hy]; simp [subHash]
  | true =>
    have hy := hb ▸ hx
    simp only [List.filter, keyBit, hx, hy]; simp [subHash]

/-- **C21 fails** (2): a key with the empty value is not distinguished from an absent key (its leaf hash is the
placeholder, base_types.h:235). -/
theorem root_does_not_bind_presence (hs : Hasher) (k k' v : Bytes) (hb : (hs.hash k).getD 0 false = false) (hb' : (hs.hash k').getD 0 false = true) :
    ∃ db db', run hs Db.empty [.upd ⟨[(k, v)], []⟩] = some db ∧ run hs Db.empty [.upd ⟨[(k, v), (k', [])], []⟩] = some db' ∧
      db.rootHash hs = db'.rootHash hs := by
  have hne : hs.hash k ≠ hs.hash k' := by intro e; rw [e, hb'] at hb; simp at hb
  have hkk : k ≠ k' := by rintro rfl; exact hne rfl
  obtain ⟨db, h1, h2⟩ := root_is_contents hs [.upd ⟨[(k, v)], []⟩]
    (by intro a ha b hb _; simp [updates, keysOf] at ha hb; rw [ha, hb])
    (by
      intro i u hu
      cases i with
      | zero =>
        have : (⟨[(k, v)], []⟩ : Upd) = u := by simpa [updates] using hu
        subst this
        exact ⟨by simp [Upd.ok], Or.inl (by simp)⟩
      | succ i => simp [updates] at hu)
  obtain ⟨db', h3, h4⟩ := root_is_contents hs [.upd ⟨[(k, v), (k', [])], []⟩]
    (by
      intro a ha b hb he
      simp [updates, keysOf] at ha hb
      rcases ha with rfl | rfl <;> rcases hb with rfl | rfl
      · rfl
      · exact absurd he hne
      · exact absurd he.symm hne
      · rfl)
    (by
      intro i u hu
      cases i with
      | zero =>
        have : (⟨[(k, v), (k', [])], []⟩ : Upd) = u := by simpa [updates] using hu
        subst this
        exact ⟨by simp [Upd.ok, hkk], Or.inl (by simp)⟩
      | succ i => simp [updates] at hu)
  refine ⟨db, db', h1, h3, ?_⟩
  have hc : contentsAt (updates [.upd ⟨[(k, v)], []⟩]) (updates [.upd ⟨[(k, v)], []⟩]).length = fun x => if k = x then some v else none := by
    funext x
    show applyUpd (fun _ => none) ⟨[(k, v)], []⟩ x = _
    unfold applyUpd
    by_cases hx : k = x
    · simp [hx]
    · simp [hx]
  have hc' : contentsAt (updates [.upd ⟨[(k, v), (k', [])], []⟩]) (updates [.upd ⟨[(k, v), (k', [])], []⟩]).length = fun x => if k = x then some v else if k' = x then some [] else none := by
    funext x
    show applyUpd (fun _ => none) ⟨[(k, v), (k', [])], []⟩ x = _
    unfold applyUpd
    by_cases hx : k = x
    · simp [hx]
    · by_cases hx' : k' = x
      · simp [hx, hx']
      · simp [hx, hx']
  rw [hc] at h2
  rw [hc'] at h4
  rw [h2 [k] ⟨by simp, fun x => by
      rw [List.mem_singleton]
      by_cases hx : k = x
      · simp [hx]
      · simp [hx]; exact fun e => hx e.symm⟩,
    h4 [k, k'] ⟨by simp [hkk], fun x => by
      rw [List.mem_cons, List.mem_singleton]
      by_cases hx : k = x
      · simp [hx]
      · by_cases hx' : k' = x
        · simp [hx, hx']
        · simp [hx, hx']; exact ⟨fun e => hx e.symm, fun e => hx' e.symm⟩⟩]
  simp only [pairs, List.map_cons, List.map_nil, if_true, hkk, if_false, Option.getD_some]
  unfold rootSpec
  simp only [List.cons_ne_nil, reduceCtorEq, if_false]
  simp only [List.filter, keyBit, hb, hb']
  simp [subHash, Hasher.placeholder]

end Verif.Smt
