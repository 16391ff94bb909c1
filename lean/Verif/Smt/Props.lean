import Verif.Smt.Hist
/-!
# C20, C21, C22: properties of the stored sparse Merkle tree over histories
-/
set_option linter.unusedVariables false
set_option linter.unusedSimpArgs false
namespace Verif.Smt

/-- `ks` lists the keys that are present, each once -/
def Enumerates (ks : List Bytes) (m : Contents) : Prop := ks.Nodup ∧ ∀ k, k ∈ ks ↔ (m k).isSome

/-- the (key hash, value hash) pairs of some keys -/
def pairs (hs : Hasher) (m : Contents) (ks : List Bytes) : List (Hash × Hash) := ks.map (fun k => (hs.hash k, hs.hash ((m k).getD [])))

theorem DInv.lists {hs db us D ts x ks} (h : DInv hs db us D ts) (hx : x ≤ us.length) (hd : DistinctHashes hs (keysOf us))
    (he : Enumerates ks (contentsAt us x)) : Lists (pairs hs (contentsAt us x) ks) (ts x) := by
  have hk : ∀ k ∈ ks, k ∈ keysOf us := fun k hk => by
    obtain ⟨v, hv⟩ := Option.isSome_iff_exists.1 ((he.2 k).1 hk)
    exact contentsAt_key hv
  refine ⟨?_, fun y => ?_⟩
  · unfold pairs List.Nodup
    rw [List.pairwise_map]
    refine List.Pairwise.imp_of_mem ?_ he.1
    intro a b ha hb hne e
    exact hne (hd a (hk a ha) b (hk b hb) (congrArg Prod.fst e))
  · unfold pairs
    rw [List.mem_map]
    constructor
    · rintro ⟨k, hm, rfl⟩
      obtain ⟨v, hv⟩ := Option.isSome_iff_exists.1 ((he.2 k).1 hm)
      obtain ⟨o, h1, h2⟩ := h.complete x hx k v hv
      obtain ⟨k', v', g1, g2, g3, _⟩ := h.leaf x hx o h1
      have : k' = k := hd k' (contentsAt_key g1) k (contentsAt_key hv) (g2.symm.trans h2)
      subst this
      rw [hv] at g1
      have e : v = v' := by simpa using g1
      subst e
      exact ⟨o, h1, by rw [g2, g3, hv]; rfl⟩
    · rintro ⟨o, h1, rfl⟩
      obtain ⟨k, v, g1, g2, g3, _⟩ := h.leaf x hx o h1
      exact ⟨k, (he.2 k).2 (by rw [g1]; rfl), by rw [g2, g3, g1]; rfl⟩

theorem DInv.rootHash {hs db us D ts ks} (h : DInv hs db us D ts) (hd : DistinctHashes hs (keysOf us))
    (he : Enumerates ks (contentsAt us us.length)) : db.rootHash hs = some (rootSpec hs (pairs hs (contentsAt us us.length) ks)) := by
  have hl := h.lists (Nat.le_refl _) hd he
  have hh := (h.rwf us.length (Nat.le_refl _)).hash_eq hl
  obtain ⟨root, hroot, hrep⟩ : ∃ root, db.latestRoot = some root ∧ GRep db.internal 64 [] root (ts us.length) := by
    unfold Db.latestRoot
    rw [h.latest]
    by_cases he : us.length = 0
    · rw [if_pos he, he, h.t0]; exact ⟨_, rfl, GRep_empty _⟩
    · rw [if_neg he]
      exact h.intact us.length (by omega) (Nat.le_refl _) (fun w hw => (h.dle w hw).2)
  rw [GRep_succ] at hrep
  unfold Db.rootHash
  rw [hroot, ← hh]
  show some (getHash hs root 0) = _
  have ht : root 0 = (ts us.length).tag := hrep.tag
  rw [getHash_of ht]

/-- **C20**: no update of a history aborts, and the root hash is the specified hash of the resulting contents, whatever
the order of the listing. -/
theorem root_is_contents (hs : Hasher) (evs : List Ev) (hd : DistinctHashes hs (keysOf (updates evs))) (he : Effective (updates evs)) :
    ∃ db, run hs Db.empty evs = some db ∧ ∀ ks, Enumerates ks (contentsAt (updates evs) (updates evs).length) →
      db.rootHash hs = some (rootSpec hs (pairs hs (contentsAt (updates evs) (updates evs).length) ks)) := by
  obtain ⟨db, D, ts, h1, h2, _⟩ := run_inv hs evs hd he
  exact ⟨db, h1, fun ks hk => h2.rootHash hd hk⟩

theorem exists_nodup : ∀ l : List Bytes, ∃ l' : List Bytes, l'.Nodup ∧ ∀ x, x ∈ l' ↔ x ∈ l
  | [] => ⟨[], by simp, by simp⟩
  | a :: l => by
    obtain ⟨l', h1, h2⟩ := exists_nodup l
    by_cases ha : a ∈ l'
    · refine ⟨l', h1, fun x => ?_⟩
      rw [List.mem_cons, h2]
      exact ⟨Or.inr, fun h => h.elim (fun e => by rw [e, ← h2]; exact ha) id⟩
    · exact ⟨a :: l', List.nodup_cons.2 ⟨ha, h1⟩, fun x => by rw [List.mem_cons, List.mem_cons, h2]⟩

theorem exists_enum (us : List Upd) (x : Nat) : ∃ ks, Enumerates ks (contentsAt us x) := by
  obtain ⟨ks, h1, h2⟩ := exists_nodup ((keysOf us).filter (fun k => (contentsAt us x k).isSome))
  refine ⟨ks, h1, fun k => ?_⟩
  rw [h2, List.mem_filter]
  constructor
  · exact fun h => h.2
  · intro h
    obtain ⟨v, hv⟩ := Option.isSome_iff_exists.1 h
    exact ⟨contentsAt_key hv, h⟩

/-- **C20** (history independence): two histories that end with the same contents end with the same root hash. -/
theorem root_history_independent (hs : Hasher) (evs evs' : List Ev) (hd : DistinctHashes hs (keysOf (updates evs)))
    (hd' : DistinctHashes hs (keysOf (updates evs'))) (he : Effective (updates evs)) (he' : Effective (updates evs')) {db db'}
    (hr : run hs Db.empty evs = some db) (hr' : run hs Db.empty evs' = some db')
    (hc : contentsAt (updates evs) (updates evs).length = contentsAt (updates evs') (updates evs').length) :
    db.rootHash hs = db'.rootHash hs := by
  obtain ⟨d1, e1, g1⟩ := root_is_contents hs evs hd he
  obtain ⟨d2, e2, g2⟩ := root_is_contents hs evs' hd' he'
  rw [hr] at e1; rw [hr'] at e2
  have x1 : db = d1 := by simpa using e1
  have x2 : db' = d2 := by simpa using e2
  subst x1 x2
  obtain ⟨ks, hk⟩ := exists_enum (updates evs) (updates evs).length
  rw [g1 ks hk, g2 ks (hc ▸ hk), hc]

/-! ## C22 -/

theorem DInv.read {hs db us D ts x key} (h : DInv hs db us D ts) (hx1 : 1 ≤ x) (hx : x ≤ us.length) (hD : ∀ w ∈ D, w ≤ x)
    (hd : DistinctHashes hs (key :: keysOf us)) : db.read hs x key = contentsAt us x key := by
  obtain ⟨root, r1, r2⟩ := h.intact x hx1 hx hD
  have hlen := hs.hash_len key
  have hne : hs.hash key ≠ [] := by intro e; rw [e] at hlen; simp at hlen
  unfold Db.read
  rw [r1]
  simp only [Option.bind_some]
  have hspec := readNode_spec (d := 0) (key := hs.hash key) hlen (by omega) (h.rwf x hx).notLeaf r2
  rw [show nibs (hs.hash key) 0 = [] from rfl, Nat.mul_zero, List.drop_zero] at hspec
  rw [hspec]
  cases hf : (findN (hs.hash key) (ts x)).filter (fun o => decide (o.key.hash = hs.hash key)) with
  | none =>
    simp only [Option.bind_none]
    cases hc : contentsAt us x key with
    | none => rfl
    | some v =>
      obtain ⟨o, h1, h2⟩ := h.complete x hx key v hc
      have := (findN_iff (h.rwf x hx) hne h2).2 h1
      rw [this] at hf
      simp [h2] at hf
  | some o =>
    simp only [Option.bind_some]
    rw [Option.filter_eq_some_iff] at hf
    have ho : o.key.hash = hs.hash key := by simpa using hf.2
    obtain ⟨k', v', g1, g2, g3, g4⟩ := h.leaf x hx o ((findN_iff (h.rwf x hx) hne ho).1 hf.1)
    have : k' = key := hd k' (List.mem_cons_of_mem _ (contentsAt_key g1)) key (List.mem_cons_self ..) (g2.symm.trans ho)
    subst this
    rw [g4 hD, g1]

/-- **C22** (reading old versions): after any history of updates and prunes, every version `x` not below a pruned version
still answers for every key what the contents were after `x` updates. -/
theorem old_versions_readable (hs : Hasher) (evs : List Ev) (key : Bytes) (hd : DistinctHashes hs (key :: keysOf (updates evs)))
    (he : Effective (updates evs)) {db} (hr : run hs Db.empty evs = some db) {x} (hx1 : 1 ≤ x) (hx : x ≤ (updates evs).length)
    (hp : ∀ w ∈ prunes evs, w ≤ x) : db.read hs x key = contentsAt (updates evs) x key := by
  obtain ⟨d1, D, ts, e1, h2, h3, _⟩ := run_inv hs evs
    (fun k hk k' hk' => hd k (List.mem_cons_of_mem _ hk) k' (List.mem_cons_of_mem _ hk')) he
  rw [hr] at e1
  have x1 : db = d1 := by simpa using e1
  subst x1
  exact h2.read hx1 hx (fun w hw => hp w (h3 w hw)) hd

/-- **C22** (nothing of an earlier version is modified): an update leaves every stored node and leaf value of an earlier
version as it was; in particular whatever is stored stays stored. -/
theorem update_keeps_old (hs : Hasher) (evs : List Ev) (u : Upd) (hd : DistinctHashes hs (keysOf (updates evs ++ [u])))
    (he : Effective (updates evs ++ [u])) {db} (hr : run hs Db.empty evs = some db) :
    ∃ db', db.update hs u.puts u.dels = some db' ∧ (∀ v q c, db.internal v q = some c → db'.internal v q = some c) ∧
      (∀ lk b, db.leaves lk = some b → db'.leaves lk = some b) ∧
      (∀ v q, v ≤ (updates evs).length → db'.internal v q = db.internal v q) := by
  obtain ⟨e1, e2, e3⟩ := he.init
  obtain ⟨d1, D, ts, r1, h2, h3, _⟩ := run_inv hs evs (fun k hk k' hk' => hd k (keysOf_append_left hk) k' (keysOf_append_left hk')) e1
  rw [hr] at r1
  have x1 : db = d1 := by simpa using r1
  subst x1
  obtain ⟨db', t', g1, _, g3, g4⟩ := h2.upd hd e2 e3
  refine ⟨db', g1, fun v q c hc => ?_, fun lk b hb => ?_, fun v q hv => g3 v q hv⟩
  · rw [g3 v q (h2.nodes v q (by rw [hc]; simp)).2.1]; exact hc
  · rw [g4 lk (h2.lnodes lk (by rw [hb]; simp)).2.1]; exact hb

theorem DInv.reach_iff {hs db us D ts x} (h : DInv hs db us D ts) (hx1 : 1 ≤ x) (hx : x ≤ us.length) (hD : ∀ w ∈ D, w ≤ x) (u q) :
    Reach db x u q ↔ K (ts x) u q := by
  obtain ⟨root, r1, r2⟩ := h.intact x hx1 hx hD
  obtain ⟨i1, i2⟩ := h.int x hx1 hx
  constructor
  · exact fun hr => hr.K r1 r2 i1 i2
  · intro hk
    have : Reach db x (ts x).ver [] := by rw [i2]; exact .root
    exact r2.reach q this (by rw [i2]; exact r1) hk

/-- **C22** (what is reported stale): the list of internal nodes stored as stale with version `w` is exactly the nodes
needed by version `w - 1` and not by version `w`. -/
theorem stale_exact (hs : Hasher) (us : List Upd) (hd : DistinctHashes hs (keysOf us)) (he : Effective us) :
    ∃ db, run hs Db.empty (us.map Ev.upd) = some db ∧ ∀ w, 2 ≤ w → w ≤ us.length →
      ∃ ns ls, db.stale w = some (ns, ls) ∧ ∀ u q, (u, q) ∈ ns ↔ Reach db (w - 1) u q ∧ ¬ Reach db w u q := by
  have hu : updates (us.map Ev.upd) = us := by
    unfold updates; rw [List.filterMap_map]; exact List.filterMap_some
  have hp : prunes (us.map Ev.upd) = [] := by
    unfold prunes; rw [List.filterMap_map, List.filterMap_eq_nil_iff]; intro a _; rfl
  have := run_inv hs (us.map Ev.upd)
  rw [hu, hp] at this
  obtain ⟨db, D, ts, r1, h2, h3, _⟩ := this hd he
  have hD : D = [] := List.eq_nil_iff_forall_not_mem.2 (fun w hw => by simpa using h3 w hw)
  subst hD
  refine ⟨db, r1, fun w hw1 hw2 => ?_⟩
  obtain ⟨ns, ls, g1, g2, g3⟩ := h2.stale w (by omega) hw2 (by simp)
  refine ⟨ns, ls, g1, fun u q => ?_⟩
  rw [g2, h2.reach_iff (x := w - 1) (by omega) (by omega) (by simp), h2.reach_iff (x := w) (by omega) hw2 (by simp)]
  exact Iff.rfl

/-- the leaf key is a child of some node reachable at a version -/
def LeafReach (db : Db) (x : Ver) (lk : LeafKey) : Prop :=
  ∃ u q c i l, Reach db x u q ∧ db.internal u q = some c ∧ c i = some (.leaf l) ∧ l.key = lk

theorem GRep.leafReach {db : Db} {x : Ver} : ∀ {n q c t} (p : List Bool) {o : LeafChild}, GRep db.internal n q c t → Reach db x t.ver q → db.internal t.ver q = some c →
    atT t p = .leaf o → LeafReach db x o.key
  | 0, q, c, t, p, o, h, _, _, _ => absurd h GRep_zero
  | n + 1, q, c, t, p, o, h, hr, hc, hp => by
    rw [GRep_succ] at h
    by_cases h4 : p.length ≤ 4
    · have := (h.at p h4).1
      rw [hp] at this
      exact ⟨t.ver, q, c, _, o, hr, hc, this, rfl⟩
    · have hs : (p.take 4).length = 4 := by rw [List.length_take]; omega
      have hpp : p = p.take 4 ++ p.drop 4 := (List.take_append_drop 4 p).symm
      rw [hpp, atT_append] at hp
      have hi : (atT t (p.take 4)).isInt = true := by
        cases hh : (atT t (p.take 4)).isInt with
        | true => rfl
        | false =>
          cases hd : p.drop 4 with
          | nil => have := congrArg List.length hd; rw [List.length_drop] at this; simp at this; omega
          | cons b r => rw [hd, atT_nonint hh] at hp; simp at hp
      have hat := h.at (p.take 4) (by omega)
      rw [List.nil_append] at hat
      obtain ⟨_, c', h1, h2⟩ := Link_iff.1 (hat.2 hs hi)
      obtain ⟨hh, htag⟩ : ∃ hh, c (nibbleToIndex (val (p.take 4))) = some (.internal hh (atT t (p.take 4)).ver) := by
        rw [nibbleIndex_val hs, hat.1]
        cases he : atT t (p.take 4) with
        | int hh _ _ _ => exact ⟨hh, rfl⟩
        | empty => rw [he] at hi; simp [T.isInt] at hi
        | leaf _ => rw [he] at hi; simp [T.isInt] at hi
      exact GRep.leafReach (p.drop 4) h2 (Reach.step hr hc (val_lt hs) htag) h1 hp

/-- **C22** (no garbage): when every version up to `x0` has been pruned after it was written, and none above, then every
stored internal node and every stored leaf value is needed by a version that is still readable. -/
theorem prune_leaves_no_garbage (hs : Hasher) (evs : List Ev) (hd : DistinctHashes hs (keysOf (updates evs))) (he : Effective (updates evs))
    {db} (hr : run hs Db.empty evs = some db) {x0} (hx1 : 1 ≤ x0) (hx0 : x0 ≤ (updates evs).length) (hp : ∀ w ∈ prunes evs, w ≤ x0)
    (hall : ∀ w, 2 ≤ w → w ≤ x0 → ∃ a b, evs = a ++ .prune w :: b ∧ w ≤ (updates a).length) :
    (∀ u q c, db.internal u q = some c → ∃ y, x0 ≤ y ∧ y ≤ (updates evs).length ∧ Reach db y u q) ∧
    (∀ lk b, db.leaves lk = some b → ∃ y, x0 ≤ y ∧ y ≤ (updates evs).length ∧ LeafReach db y lk) := by
  obtain ⟨d1, D, ts, e1, h2, h3, h4⟩ := run_inv hs evs hd he
  rw [hr] at e1
  have x1 : db = d1 := by simpa using e1
  subst x1
  have hin : ∀ w, 2 ≤ w → w ≤ x0 → w ∈ D := by
    intro w hw1 hw2
    obtain ⟨a, b, e, hl⟩ := hall w hw1 hw2
    exact h4 a w b e (by omega) hl
  constructor
  · intro u q c hc
    obtain ⟨n1, n2, n3, n4⟩ := h2.nodes u q (by rw [hc]; simp)
    have step : ∀ n, u + n ≤ x0 → K (ts (u + n)) u q := by
      intro n
      induction n with
      | zero => intro _; exact n3
      | succ n ih =>
        intro hle
        have hk := ih (Nat.le_trans (Nat.le_succ _) hle)
        by_cases hk' : K (ts (u + (n + 1))) u q
        · exact hk'
        · exact absurd ⟨hk, hk'⟩ (n4 (u + (n + 1)) (hin _ (Nat.succ_le_succ (Nat.le_trans n1 (Nat.le_add_right _ _))) hle))
    rcases Nat.le_total u x0 with hle | hle
    · obtain ⟨n, rfl⟩ : ∃ n, x0 = u + n := ⟨x0 - u, (Nat.add_sub_cancel' hle).symm⟩
      exact ⟨u + n, Nat.le_refl _, hx0, (h2.reach_iff hx1 hx0 (fun w hw => hp w (h3 w hw)) u q).2 (step n (Nat.le_refl _))⟩
    · exact ⟨u, hle, n2, (h2.reach_iff n1 n2 (fun w hw => Nat.le_trans (hp w (h3 w hw)) hle) u q).2 n3⟩
  · intro lk b hb
    obtain ⟨n1, n2, n3, n4⟩ := h2.lnodes lk (by rw [hb]; simp)
    have step : ∀ n, lk.version + n ≤ x0 → LK (ts (lk.version + n)) lk := by
      intro n
      induction n with
      | zero => intro _; exact n3
      | succ n ih =>
        intro hle
        have hk := ih (Nat.le_trans (Nat.le_succ _) hle)
        by_cases hk' : LK (ts (lk.version + (n + 1))) lk
        · exact hk'
        · exact absurd ⟨hk, hk'⟩ (n4 (lk.version + (n + 1)) (hin _ (Nat.succ_le_succ (Nat.le_trans n1 (Nat.le_add_right _ _))) hle))
    have fin : ∀ y, 1 ≤ y → y ≤ (updates evs).length → x0 ≤ y → LK (ts y) lk → LeafReach db y lk := by
      intro y hy1 hy2 hy3 hk
      obtain ⟨root, r1, r2⟩ := h2.intact y hy1 hy2 (fun w hw => Nat.le_trans (hp w (h3 w hw)) hy3)
      obtain ⟨i1, i2⟩ := h2.int y hy1 hy2
      obtain ⟨o, ⟨p, ho⟩, rfl⟩ := hk
      have : Reach db y (ts y).ver [] := by rw [i2]; exact .root
      exact r2.leafReach p this (by rw [i2]; exact r1) ho
    rcases Nat.le_total lk.version x0 with hle | hle
    · refine ⟨x0, Nat.le_refl _, hx0, fin x0 hx1 hx0 (Nat.le_refl _) ?_⟩
      have := step (x0 - lk.version) (Nat.le_of_eq (Nat.add_sub_cancel' hle))
      rw [Nat.add_sub_cancel' hle] at this; exact this
    · exact ⟨lk.version, hle, n2, fin lk.version n1 n2 hle n3⟩

end Verif.Smt
