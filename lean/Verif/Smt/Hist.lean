import Verif.Smt.Store
import Verif.Util.ListLemmas
/-!
# Histories of updates and prunes
-/
set_option linter.unusedVariables false
set_option linter.unusedSimpArgs false
namespace Verif.Smt

theorem contentsAt_append_le {us : List Upd} {u x} (h : x ≤ us.length) : contentsAt (us ++ [u]) x = contentsAt us x := by
  unfold contentsAt; rw [List.take_append_of_le_length h]

theorem contentsAt_succ {us : List Upd} {u} : contentsAt (us ++ [u]) (us.length + 1) = applyUpd (contentsAt us us.length) u := by
  unfold contentsAt
  rw [List.take_of_length_le (by simp), List.take_of_length_le (Nat.le_refl _), List.foldl_append]; rfl

theorem mem_keysOf {us : List Upd} {k} : k ∈ keysOf us ↔ ∃ u ∈ us, (∃ kv ∈ u.puts, kv.1 = k) ∨ k ∈ u.dels := by
  unfold keysOf
  rw [List.mem_flatMap]
  simp only [List.mem_append, List.mem_map]

theorem applyUpd_some {m : Contents} {u : Upd} {k val} (h : applyUpd m u k = some val) :
    (∃ kv ∈ u.puts, kv.1 = k ∧ kv.2 = val) ∨ ((∀ kv ∈ u.puts, kv.1 ≠ k) ∧ k ∉ u.dels ∧ m k = some val) := by
  unfold applyUpd at h
  split at h
  · rename_i kv hf
    have := List.find?_some hf
    exact Or.inl ⟨kv, List.mem_of_find?_eq_some hf, by simpa using this, by simpa using h⟩
  · rename_i hf
    rw [List.find?_eq_none] at hf
    split at h
    · simp at h
    · rename_i hd
      exact Or.inr ⟨fun kv hm => by simpa using hf kv hm, hd, h⟩

theorem applyUpd_put {m : Contents} {u : Upd} (ho : u.ok) {kv} (hm : kv ∈ u.puts) : applyUpd m u kv.1 = some kv.2 := by
  unfold applyUpd
  cases hf : u.puts.find? (fun x => x.1 == kv.1) with
  | none => rw [List.find?_eq_none] at hf; exact absurd (by simp) (hf kv hm)
  | some kv' =>
    have h1 := List.mem_of_find?_eq_some hf
    have h2 := List.find?_some hf
    have : kv' = kv := Verif.ListU.inj_of_nodup_map ho h1 hm (by simpa using h2)
    rw [this]

theorem applyUpd_keep {m : Contents} {u : Upd} {k} (h1 : ∀ kv ∈ u.puts, kv.1 ≠ k) (h2 : k ∉ u.dels) : applyUpd m u k = m k := by
  unfold applyUpd
  have : u.puts.find? (fun x => x.1 == k) = none := by
    rw [List.find?_eq_none]; intro x hx; simpa using h1 x hx
  rw [this]; simp only [if_neg h2]

theorem contentsAt_key : ∀ {us : List Upd} {x k val}, contentsAt us x k = some val → k ∈ keysOf us := by
  intro us
  unfold contentsAt
  intro x
  have gen : ∀ (l : List Upd) (m : Contents) k val, l.foldl applyUpd m k = some val → (∃ u ∈ l, ∃ kv ∈ u.puts, kv.1 = k) ∨ m k = some val := by
    intro l
    induction l with
    | nil => intro m k val h; exact Or.inr h
    | cons u l ih =>
      intro m k val h
      rcases ih (applyUpd m u) k val h with ⟨u', h1, h2⟩ | h1
      · exact Or.inl ⟨u', List.mem_cons_of_mem _ h1, h2⟩
      · rcases applyUpd_some h1 with ⟨kv, h2, h3, _⟩ | ⟨_, _, h2⟩
        · exact Or.inl ⟨u, List.mem_cons_self .., kv, h2, h3⟩
        · exact Or.inr h2
  intro k val h
  rcases gen _ _ _ _ h with ⟨u, h1, h2⟩ | h1
  · exact mem_keysOf.2 ⟨u, List.mem_of_mem_take h1, Or.inl h2⟩
  · simp at h1

/-- node (resp. leaf) keys that became stale with version `w` -/
def StaleAt (ts : Nat → T) (w : Nat) (u : Nat) (q : Path) : Prop := K (ts (w - 1)) u q ∧ ¬ K (ts w) u q
def StaleLeafAt (ts : Nat → T) (w : Nat) (lk : LeafKey) : Prop := LK (ts (w - 1)) lk ∧ ¬ LK (ts w) lk

/-- invariant of the stored tree: `us` the updates so far, `D` the versions pruned, `ts x` the tree of version `x` -/
structure DInv (hs : Hasher) (db : Db) (us : List Upd) (D : List Nat) (ts : Nat → T) : Prop where
  t0 : ts 0 = .empty
  rwf : ∀ x, x ≤ us.length → RWF hs (ts x)
  vb : ∀ x, x ≤ us.length → VB x (ts x)
  int : ∀ x, 1 ≤ x → x ≤ us.length → (ts x).isInt = true ∧ (ts x).ver = x
  latest : db.latest = if us.length = 0 then none else some us.length
  kpers : ∀ y, 1 ≤ y → y ≤ us.length → ∀ u q, K (ts y) u q → u ≠ y → K (ts (y - 1)) u q
  lpers : ∀ y, 1 ≤ y → y ≤ us.length → ∀ lk, LK (ts y) lk → lk.version ≠ y → LK (ts (y - 1)) lk
  dle : ∀ w ∈ D, 1 ≤ w ∧ w ≤ us.length
  nodes : ∀ u q, db.internal u q ≠ none → 1 ≤ u ∧ u ≤ us.length ∧ K (ts u) u q ∧ ∀ w ∈ D, ¬ StaleAt ts w u q
  lnodes : ∀ lk, db.leaves lk ≠ none → 1 ≤ lk.version ∧ lk.version ≤ us.length ∧ LK (ts lk.version) lk ∧ ∀ w ∈ D, ¬ StaleLeafAt ts w lk
  intact : ∀ x, 1 ≤ x → x ≤ us.length → (∀ w ∈ D, w ≤ x) → ∃ root, db.internal x [] = some root ∧ GRep db.internal 64 [] root (ts x)
  stale : ∀ w, 1 ≤ w → w ≤ us.length → w ∉ D → ∃ ns ls, db.stale w = some (ns, ls) ∧ (∀ u q, (u, q) ∈ ns ↔ StaleAt ts w u q) ∧
    ∀ lk, lk ∈ ls ↔ StaleLeafAt ts w lk
  staleN : ∀ w, (w = 0 ∨ us.length < w ∨ w ∈ D) → db.stale w = none
  leaf : ∀ x, x ≤ us.length → ∀ o, InT o (ts x) → ∃ key val, contentsAt us x key = some val ∧ o.key.hash = hs.hash key ∧
    o.hash = hs.hash val ∧ ((∀ w ∈ D, w ≤ x) → db.leaves o.key = some val)
  complete : ∀ x, x ≤ us.length → ∀ key val, contentsAt us x key = some val → ∃ o, InT o (ts x) ∧ o.key.hash = hs.hash key

theorem GRep_empty (get) : GRep get 64 [] emptyNode .empty := by
  rw [GRep_succ]
  exact Rep.of_empty (fun _ _ _ => rfl)

theorem DInv.init (hs : Hasher) : DInv hs Db.empty [] [] (fun _ => .empty) where
  t0 := rfl
  rwf := fun _ _ => Or.inl rfl
  vb := fun _ _ => trivial
  int := fun x h1 h2 => by simp at h2; omega
  latest := rfl
  kpers := fun y h1 h2 => by simp at h2; omega
  lpers := fun y h1 h2 => by simp at h2; omega
  dle := by simp
  nodes := fun u q h => absurd rfl h
  lnodes := fun u h => absurd rfl h
  intact := fun x h1 h2 => by simp at h2; omega
  stale := fun x h1 h2 => by simp at h2; omega
  staleN := fun _ _ => rfl
  leaf := fun x _ o h => absurd h InT_empty
  complete := fun x _ key val h => by simp [contentsAt] at h

/-- a node that is in a later tree was in every tree since its version -/
theorem DInv.pers {hs db us D ts} (h : DInv hs db us D ts) : ∀ (n : Nat) {x u q}, x + n ≤ us.length → K (ts (x + n)) u q → u ≤ x → K (ts x) u q
  | 0, x, u, q, _, hk, _ => hk
  | n + 1, x, u, q, hx, hk, hu => by
    have := h.kpers (x + (n + 1)) (by omega) hx u q hk (Nat.ne_of_lt (Nat.lt_of_le_of_lt hu (by omega)))
    exact h.pers n (by omega) this hu

theorem DInv.lperss {hs db us D ts} (h : DInv hs db us D ts) : ∀ (n : Nat) {x lk}, x + n ≤ us.length → LK (ts (x + n)) lk → lk.version ≤ x → LK (ts x) lk
  | 0, x, lk, _, hk, _ => hk
  | n + 1, x, lk, hx, hk, hu => by
    have := h.lpers (x + (n + 1)) (by omega) hx lk hk (Nat.ne_of_lt (Nat.lt_of_le_of_lt hu (by omega)))
    exact h.lperss n (by omega) this hu

/-- what is stale at `w` is in no tree from `w` on -/
theorem DInv.stale_not {hs db us D ts} (h : DInv hs db us D ts) {w x u q} (hw : 1 ≤ w) (hwx : w ≤ x) (hx : x ≤ us.length) (hs' : StaleAt ts w u q) : ¬ K (ts x) u q := by
  intro hk
  have hv := (hs'.1.ver (h.vb (w - 1) (by omega))).2
  obtain ⟨n, rfl⟩ : ∃ n, x = w + n := ⟨x - w, by omega⟩
  exact hs'.2 (h.pers n hx hk (Nat.le_trans hv (by omega)))

theorem DInv.staleLeaf_not {hs db us D ts} (h : DInv hs db us D ts) {w x lk} (hw : 1 ≤ w) (hwx : w ≤ x) (hx : x ≤ us.length) (hs' : StaleLeafAt ts w lk) : ¬ LK (ts x) lk := by
  intro hk
  obtain ⟨o, ho, rfl⟩ := hs'.1
  have hv := ((h.vb (w - 1) (by omega)).leafver ho).2
  obtain ⟨n, rfl⟩ : ∃ n, x = w + n := ⟨x - w, by omega⟩
  exact hs'.2 (h.lperss n hx hk (Nat.le_trans hv (by omega)))

theorem DInv.prune {hs db us D ts} (h : DInv hs db us D ts) (w : Nat) :
    ∃ D', DInv hs (db.deleteStale w) us D' ts ∧ D' = if 1 ≤ w ∧ w ≤ us.length ∧ w ∉ D then w :: D else D := by
  by_cases hw : 1 ≤ w ∧ w ≤ us.length ∧ w ∉ D
  · obtain ⟨h1, h2, h3⟩ := hw
    obtain ⟨ns, ls, e, hn, hl⟩ := h.stale w h1 h2 h3
    refine ⟨w :: D, ?_, by rw [if_pos ⟨h1, h2, h3⟩]⟩
    have ed : db.deleteStale w = { db with
        internal := fun u p => if (u, p) ∈ ns then none else db.internal u p
        leaves := fun k => if k ∈ ls then none else db.leaves k
        stale := fun u => if u = w then none else db.stale u } := by
      unfold Db.deleteStale; rw [e]
    rw [ed]
    refine ⟨h.t0, h.rwf, h.vb, h.int, h.latest, h.kpers, h.lpers, ?_, ?_, ?_, ?_, ?_, ?_, ?_, h.complete⟩
    · intro x hx
      rcases List.mem_cons.1 hx with rfl | hx
      · exact ⟨h1, h2⟩
      · exact h.dle x hx
    · intro u q hne
      have hne' : (if (u, q) ∈ ns then none else db.internal u q) ≠ none := hne
      by_cases hm : (u, q) ∈ ns
      · rw [if_pos hm] at hne'; exact absurd rfl hne'
      · rw [if_neg hm] at hne'
        obtain ⟨a, b, c, d⟩ := h.nodes u q hne'
        refine ⟨a, b, c, fun x hx => ?_⟩
        rcases List.mem_cons.1 hx with rfl | hx
        · exact fun hc => hm ((hn u q).2 hc)
        · exact d x hx
    · intro lk hne
      have hne' : (if lk ∈ ls then none else db.leaves lk) ≠ none := hne
      by_cases hm : lk ∈ ls
      · rw [if_pos hm] at hne'; exact absurd rfl hne'
      · rw [if_neg hm] at hne'
        obtain ⟨a, b, c, d⟩ := h.lnodes lk hne'
        refine ⟨a, b, c, fun x hx => ?_⟩
        rcases List.mem_cons.1 hx with rfl | hx
        · exact fun hc => hm ((hl lk).2 hc)
        · exact d x hx
    · intro x hx1 hx2 hD
      obtain ⟨root, r1, r2⟩ := h.intact x hx1 hx2 (fun y hy => hD y (List.mem_cons_of_mem _ hy))
      have hwx := hD w (List.mem_cons_self ..)
      have hkeep : ∀ u q, K (ts x) u q → (if (u, q) ∈ ns then none else db.internal u q) = db.internal u q := by
        intro u q hk
        rw [if_neg (fun hm => h.stale_not h1 hwx hx2 ((hn u q).1 hm) hk)]
      refine ⟨root, ?_, ?_⟩
      · show (if (x, ([] : Path)) ∈ ns then none else db.internal x []) = _
        rw [hkeep x [] (K.nil.2 (h.int x hx1 hx2))]; exact r1
      · exact r2.congr (fun u r _ hk => hkeep u _ hk)
    · intro x hx1 hx2 hx3
      rw [List.mem_cons, not_or] at hx3
      obtain ⟨ns', ls', g1, g2⟩ := h.stale x hx1 hx2 hx3.2
      refine ⟨ns', ls', ?_, g2⟩
      show (if x = w then none else db.stale x) = _
      rw [if_neg hx3.1]; exact g1
    · intro x hx
      show (if x = w then none else db.stale x) = _
      by_cases hxw : x = w
      · rw [if_pos hxw]
      · rw [if_neg hxw]
        refine h.staleN x (hx.imp id (Or.imp id (fun hm => ?_)))
        rcases List.mem_cons.1 hm with e | e
        · exact absurd e hxw
        · exact e
    · intro x hx o ho
      obtain ⟨key, val, g1, g2, g3, g4⟩ := h.leaf x hx o ho
      refine ⟨key, val, g1, g2, g3, fun hD => ?_⟩
      show (if o.key ∈ ls then none else db.leaves o.key) = _
      rw [if_neg (fun hm => h.staleLeaf_not h1 (hD w (List.mem_cons_self ..)) hx ((hl _).1 hm) ⟨o, ho, rfl⟩)]
      exact g4 (fun y hy => hD y (List.mem_cons_of_mem _ hy))
  · refine ⟨D, ?_, by rw [if_neg hw]⟩
    have : db.stale w = none := by
      apply h.staleN
      by_cases a : w = 0
      · exact Or.inl a
      · by_cases b : us.length < w
        · exact Or.inr (Or.inl b)
        · refine Or.inr (Or.inr ?_)
          by_cases c : w ∈ D
          · exact c
          · exact absurd ⟨Nat.one_le_iff_ne_zero.2 a, Nat.le_of_not_lt b, c⟩ hw
    unfold Db.deleteStale; rw [this]; exact h

/-- the cache at the start of a batch -/
theorem BInv.start {hs db us D ts root} (h : DInv hs db us D ts) (hr : GRep db.internal 64 [] root (ts us.length)) :
    BInv hs (Cache.new root db.internal) (ts us.length) (ts us.length) [] ∧ (Cache.new root db.internal).version = us.length + 1 := by
  have hv : (ts us.length).ver = us.length := by
    by_cases he : us.length = 0
    · rw [he, h.t0]; rfl
    · exact (h.int us.length (by omega) (Nat.le_refl _)).2
  have hver : (Cache.new root db.internal).version = us.length + 1 := by
    show nodeVersion root + 1 = _
    rw [nodeVersion_tag (t := ts us.length) ?_, hv]
    rw [GRep_succ] at hr; exact hr.tag
  have hvb := h.vb us.length (Nat.le_refl _)
  refine ⟨⟨hr, h.rwf us.length (Nat.le_refl _), ?_, ?_, fun u q hk _ => hk, fun q hq => absurd rfl hq, ?_, fun lk hk _ => hk, ?_, ?_, Or.inl ⟨rfl, rfl⟩⟩, hver⟩
  · rw [hver]; exact hvb.mono (Nat.le_succ _)
  · rw [hver]; exact Nat.succ_le_succ (Nat.zero_le _)
  · intro u q; simp [Cache.new]
  · intro o ho he
    rw [hver] at he
    have := (hvb.leafver ho).2
    rw [he] at this; exact absurd this (Nat.not_succ_le_self _)
  · intro lk; simp [Cache.new]

theorem nodup_hash {hs : Hasher} {us : List Upd} (hd : DistinctHashes hs (keysOf us)) {u : Upd} (hu : u ∈ us) (ho : u.ok) :
    (u.puts.map (fun kv => hs.hash kv.1)).Nodup := by
  have : u.puts.map (fun kv => hs.hash kv.1) = (u.puts.map (·.1)).map hs.hash := by rw [List.map_map]; rfl
  rw [this]
  unfold List.Nodup
  rw [List.pairwise_map]
  refine List.Pairwise.imp_of_mem ?_ ho
  intro a b ha hb hne he
  exact hne (hd a (mem_keysOf.2 ⟨u, hu, Or.inl (by simpa using ha)⟩) b (mem_keysOf.2 ⟨u, hu, Or.inl (by simpa using hb)⟩) he)

theorem find_leaf {hs : Hasher} {v : Ver} {puts : List (Bytes × Bytes)} (hn : (puts.map (fun kv => hs.hash kv.1)).Nodup) {kv} (hm : kv ∈ puts) :
    (puts.map (fun kv => ((⟨hs.hash kv.1, v⟩ : LeafKey), kv.2))).reverse.find? (fun x => x.1 = ⟨hs.hash kv.1, v⟩) = some (⟨hs.hash kv.1, v⟩, kv.2) := by
  cases hf : (puts.map (fun kv => ((⟨hs.hash kv.1, v⟩ : LeafKey), kv.2))).reverse.find? (fun x => x.1 = ⟨hs.hash kv.1, v⟩) with
  | none =>
    rw [List.find?_eq_none] at hf
    exact absurd (by simp) (hf (⟨hs.hash kv.1, v⟩, kv.2) (by rw [List.mem_reverse]; exact List.mem_map.2 ⟨kv, hm, rfl⟩))
  | some y =>
    have h1 := List.mem_of_find?_eq_some hf
    have h2 := List.find?_some hf
    rw [List.mem_reverse] at h1
    obtain ⟨kv', hm', rfl⟩ := List.mem_map.1 h1
    have : hs.hash kv'.1 = hs.hash kv.1 := by simpa using h2
    have e : kv' = kv := Verif.ListU.inj_of_nodup_map hn hm' hm this
    rw [e]

theorem DInv.upd {hs db us D ts u} (h : DInv hs db us D ts) (hd : DistinctHashes hs (keysOf (us ++ [u]))) (hok : u.ok)
    (heff : u.effective (contentsAt us us.length)) :
    ∃ db' t', db.update hs u.puts u.dels = some db' ∧ DInv hs db' (us ++ [u]) D (fun x => if x = us.length + 1 then t' else ts x) ∧
      (∀ x q, x ≤ us.length → db'.internal x q = db.internal x q) ∧ ∀ lk, lk.version ≤ us.length → db'.leaves lk = db.leaves lk := by
  have hmemu : u ∈ us ++ [u] := List.mem_append_right _ (List.mem_singleton_self u)
  have hkd : ∀ {k}, k ∈ u.dels → k ∈ keysOf (us ++ [u]) := fun hk => mem_keysOf.2 ⟨u, hmemu, Or.inr hk⟩
  have hkp : ∀ {kv}, kv ∈ u.puts → kv.1 ∈ keysOf (us ++ [u]) := fun hk => mem_keysOf.2 ⟨u, hmemu, Or.inl ⟨_, hk, rfl⟩⟩
  have hkc : ∀ {k x val}, contentsAt us x k = some val → k ∈ keysOf (us ++ [u]) := fun hk => by
    obtain ⟨u', h1, h2⟩ := mem_keysOf.1 (contentsAt_key hk)
    exact mem_keysOf.2 ⟨u', List.mem_append_left _ h1, h2⟩
  have hnd := nodup_hash hd hmemu hok
  obtain ⟨root, hroot, hrep⟩ : ∃ root, db.latestRoot = some root ∧ GRep db.internal 64 [] root (ts us.length) := by
    unfold Db.latestRoot
    rw [h.latest]
    by_cases he : us.length = 0
    · rw [if_pos he, he, h.t0]; exact ⟨_, rfl, GRep_empty _⟩
    · rw [if_neg he]
      exact h.intact us.length (by omega) (Nat.le_refl _) (fun w hw => (h.dle w hw).2)
  obtain ⟨b0, hv0⟩ := BInv.start h hrep
  have hvb0 : VB ((Cache.new root db.internal).version - 1) (ts us.length) := by rw [hv0]; exact h.vb us.length (Nat.le_refl _)
  obtain ⟨k1, t1, d1, d2, d3, d4, d5, d6, d7⟩ := deletes_spec hs _ u.dels _ _ b0 hvb0
  obtain ⟨k2, t2, ins, p1, p2, p3, p4, p5, p6⟩ := puts_spec hs _ u.puts k1 t1 [] d2 (by rw [d3]; exact hvb0) hnd (by simp)
  rw [d3, hv0] at p3
  rw [d3, hv0] at p5
  have hdb : k2.db = db.internal := p4.trans d4
  have hnr : k2.nodes [] ≠ none := by
    apply p6
    rcases heff with hp | ⟨k, hk1, hk2⟩
    · exact Or.inl hp
    · right
      apply d6
      obtain ⟨val, hval⟩ := Option.isSome_iff_exists.1 hk2
      obtain ⟨o, ho1, ho2⟩ := h.complete us.length (Nat.le_refl _) k val hval
      exact ⟨k, hk1, o, ho1, ho2⟩
  have hch : t2.isInt = true ∧ t2.ver = us.length + 1 := by
    rcases p2.changed with ⟨_, e⟩ | ⟨_, e1, e2⟩
    · rw [e] at hnr; exact absurd rfl hnr
    · rw [p3] at e2; exact ⟨e1, e2⟩
  let b : Batch := { version := k2.version, internal := k2.nodes, leaves := u.puts.map (fun kv => (⟨hs.hash kv.1, k2.version⟩, kv.2)), staleInternal := k2.staleInternal, staleLeaf := k2.staleLeaf }
  have hupd : db.update hs u.puts u.dels = some (db.write b) := by
    unfold Db.update treeUpdate
    rw [hroot]
    simp only [Option.bind_some]
    rw [d1]
    simp only [Option.bind_some]
    rw [p1]; rfl
  have hbv : b.version = us.length + 1 := p3
  have hnone : ∀ q, db.internal (us.length + 1) q = none := by
    intro q
    cases e : db.internal (us.length + 1) q with
    | none => rfl
    | some c =>
      have := (h.nodes (us.length + 1) q (by rw [e]; simp)).2.1
      exact absurd this (Nat.not_succ_le_self _)
  have hint1 : ∀ q, (db.write b).internal (us.length + 1) q = k2.nodes q := by
    intro q
    show (if us.length + 1 = b.version then (match b.internal q with | some n => some n | none => db.internal (us.length + 1) q) else db.internal (us.length + 1) q) = _
    rw [if_pos hbv.symm, hnone]
    show (match k2.nodes q with | some n => some n | none => none) = _
    cases k2.nodes q <;> rfl
  have hint2 : ∀ u' q, u' ≠ us.length + 1 → (db.write b).internal u' q = db.internal u' q := by
    intro u' q hne
    show (if u' = b.version then _ else db.internal u' q) = _
    rw [if_neg (by rw [hbv]; exact hne)]
  have hts : ∀ x, x ≤ us.length → (if x = us.length + 1 then t2 else ts x) = ts x := fun x hx => by rw [if_neg (by omega)]
  have hlast : (if us.length + 1 = us.length + 1 then t2 else ts (us.length + 1)) = t2 := if_pos rfl
  have hlen : (us ++ [u]).length = us.length + 1 := by simp
  have hcache := p2.cache
  have hrep2 := p2.rep
  have hvb2 := p2.vb
  have hk0 := p2.k0
  have hl0 := p2.l0
  have hst := p2.stale
  have hsl := p2.sleaf
  rw [p3] at hcache hvb2 hk0 hl0
  have hleafold : ∀ lk : LeafKey, lk.version ≠ us.length + 1 → (db.write b).leaves lk = db.leaves lk := by
    intro lk hne
    show (match b.leaves.reverse.find? (fun x => x.1 = lk) with | some x => some x.2 | none => db.leaves lk) = _
    have : b.leaves.reverse.find? (fun x => x.1 = lk) = none := by
      rw [List.find?_eq_none]
      intro x hx
      rw [List.mem_reverse] at hx
      obtain ⟨kv, _, rfl⟩ := List.mem_map.1 hx
      simp only [decide_eq_true_eq]
      rintro rfl
      exact hne hbv
    rw [this]
  have hleafnew : ∀ kv ∈ u.puts, (db.write b).leaves ⟨hs.hash kv.1, us.length + 1⟩ = some kv.2 := by
    intro kv hkv
    show (match b.leaves.reverse.find? (fun x => x.1 = ⟨hs.hash kv.1, us.length + 1⟩) with | some x => some x.2 | none => db.leaves _) = _
    have e : b.leaves = u.puts.map (fun kv => (⟨hs.hash kv.1, us.length + 1⟩, kv.2)) := by
      show u.puts.map (fun kv => ((⟨hs.hash kv.1, k2.version⟩ : LeafKey), kv.2)) = _
      rw [p3]
    rw [e, find_leaf hnd hkv]
  refine ⟨db.write b, t2, hupd, ?_, fun x q hx => hint2 x q (Nat.ne_of_lt (Nat.lt_succ_of_le hx)), fun lk hx => hleafold lk (Nat.ne_of_lt (Nat.lt_succ_of_le hx))⟩
  refine ⟨?_, ?_, ?_, ?_, ?_, ?_, ?_, ?_, ?_, ?_, ?_, ?_, ?_, ?_, ?_⟩
  · show (if 0 = us.length + 1 then t2 else ts 0) = _
    rw [hts 0 (by omega)]; exact h.t0
  · intro x hx
    rw [hlen] at hx
    by_cases hxv : x = us.length + 1
    · subst hxv; simp only [if_pos]; exact p2.rwf
    · simp only [if_neg hxv]; exact h.rwf x (by omega)
  · intro x hx
    rw [hlen] at hx
    by_cases hxv : x = us.length + 1
    · subst hxv; simp only [if_pos]; exact hvb2
    · simp only [if_neg hxv]; exact h.vb x (by omega)
  · intro x hx1 hx
    rw [hlen] at hx
    by_cases hxv : x = us.length + 1
    · subst hxv; simp only [if_pos]; exact hch
    · simp only [if_neg hxv]; exact h.int x hx1 (by omega)
  · show some b.version = _
    rw [hlen, if_neg (by omega), hbv]
  · intro y hy1 hy u' q hk hu
    rw [hlen] at hy
    simp only [if_neg (show ¬ y - 1 = us.length + 1 by omega)]
    by_cases hyv : y = us.length + 1
    · subst hyv; simp only [if_pos] at hk; exact hk0 u' q hk hu
    · simp only [if_neg hyv] at hk; exact h.kpers y hy1 (by omega) u' q hk hu
  · intro y hy1 hy lk hk hu
    rw [hlen] at hy
    simp only [if_neg (show ¬ y - 1 = us.length + 1 by omega)]
    by_cases hyv : y = us.length + 1
    · subst hyv; simp only [if_pos] at hk; exact hl0 lk hk hu
    · simp only [if_neg hyv] at hk; exact h.lpers y hy1 (by omega) lk hk hu
  · intro w hw
    have := h.dle w hw
    rw [hlen]; exact ⟨this.1, Nat.le_succ_of_le this.2⟩
  · intro u' q hne
    have hsD : ∀ w ∈ D, ∀ u' q, StaleAt (fun x => if x = us.length + 1 then t2 else ts x) w u' q ↔ StaleAt ts w u' q := by
      intro w hw u' q
      have := h.dle w hw
      unfold StaleAt
      simp only [if_neg (show ¬ w - 1 = us.length + 1 by omega), if_neg (show ¬ w = us.length + 1 by omega)]
    rw [hlen]
    by_cases huv : u' = us.length + 1
    · subst huv
      rw [hint1] at hne
      simp only [if_pos]
      refine ⟨Nat.succ_le_succ (Nat.zero_le _), Nat.le_refl _, hcache q hne, fun w hw hsw => ?_⟩
      rw [hsD w hw] at hsw
      have h1 := h.dle w hw
      have h2 := (hsw.1.ver (h.vb (w - 1) (by omega))).2
      exact absurd (Nat.le_trans h2 (show w - 1 ≤ us.length by omega)) (Nat.not_succ_le_self _)
    · rw [hint2 u' q huv] at hne
      obtain ⟨a, b', c, d⟩ := h.nodes u' q hne
      simp only [if_neg huv]
      exact ⟨a, Nat.le_succ_of_le b', c, fun w hw hsw => d w hw ((hsD w hw u' q).1 hsw)⟩
  · intro lk hne
    have hsD : ∀ w ∈ D, ∀ lk, StaleLeafAt (fun x => if x = us.length + 1 then t2 else ts x) w lk ↔ StaleLeafAt ts w lk := by
      intro w hw lk
      have := h.dle w hw
      unfold StaleLeafAt
      simp only [if_neg (show ¬ w - 1 = us.length + 1 by omega), if_neg (show ¬ w = us.length + 1 by omega)]
    rw [hlen]
    by_cases huv : lk.version = us.length + 1
    · have hk : LK t2 lk := by
        by_cases hm : ∃ kv ∈ u.puts, hs.hash kv.1 = lk.hash
        · obtain ⟨kv, hkv, e⟩ := hm
          refine ⟨leafOf hs (us.length + 1) kv, (p5 _).2 (Or.inl ⟨kv, hkv, rfl⟩), ?_⟩
          show (⟨hs.hash kv.1, us.length + 1⟩ : LeafKey) = lk
          rw [e, ← huv]
        · exfalso
          have : b.leaves.reverse.find? (fun x => x.1 = lk) = none := by
            rw [List.find?_eq_none]
            intro x hx
            rw [List.mem_reverse] at hx
            obtain ⟨kv, hkv, rfl⟩ := List.mem_map.1 hx
            simp only [decide_eq_true_eq]
            intro e
            exact hm ⟨kv, hkv, congrArg LeafKey.hash e⟩
          have hl : (db.write b).leaves lk = db.leaves lk := by
            show (match b.leaves.reverse.find? (fun x => x.1 = lk) with | some x => some x.2 | none => db.leaves lk) = _
            rw [this]
          rw [hl] at hne
          have := (h.lnodes lk hne).2.1
          rw [huv] at this; exact absurd this (Nat.not_succ_le_self _)
      rw [huv]; simp only [if_pos]
      refine ⟨Nat.succ_le_succ (Nat.zero_le _), Nat.le_refl _, hk, fun w hw hsw => ?_⟩
      rw [hsD w hw] at hsw
      have h1 := h.dle w hw
      obtain ⟨o, ho, e⟩ := hsw.1
      have h2 := ((h.vb (w - 1) (by omega)).leafver ho).2
      rw [e, huv] at h2
      exact absurd (Nat.le_trans h2 (show w - 1 ≤ us.length by omega)) (Nat.not_succ_le_self _)
    · rw [hleafold lk huv] at hne
      obtain ⟨a, b', c, d⟩ := h.lnodes lk hne
      simp only [if_neg huv]
      exact ⟨a, Nat.le_succ_of_le b', c, fun w hw hsw => d w hw ((hsD w hw lk).1 hsw)⟩
  · intro x hx1 hx hD
    rw [hlen] at hx
    by_cases hxv : x = us.length + 1
    · subst hxv
      simp only [if_pos]
      obtain ⟨root', hroot'⟩ := Option.ne_none_iff_exists'.1 hnr
      refine ⟨root', (hint1 []).trans hroot', ?_⟩
      have hgr : k2.getRoot = root' := by unfold Cache.getRoot; rw [hroot']; rfl
      rw [hgr] at hrep2
      refine hrep2.congr (fun u' r hr hk => ?_)
      rw [List.nil_append]
      unfold Cache.get
      by_cases huv : u' = us.length + 1
      · subst huv
        rw [hint1, hdb, hnone]
        cases k2.nodes r <;> rfl
      · rw [hint2 _ _ huv, hdb]
        cases hn : k2.nodes r with
        | none => rfl
        | some n => exact absurd (hk.unique (hcache r (by rw [hn]; simp))) huv
    · simp only [if_neg hxv]
      obtain ⟨root', r1, r2⟩ := h.intact x hx1 (by omega) hD
      refine ⟨root', (hint2 x [] hxv).trans r1, r2.congr (fun u' r _ hk => ?_)⟩
      have := (hk.ver (h.vb x (by omega))).2
      exact hint2 _ _ (Nat.ne_of_lt (Nat.lt_of_le_of_lt this (by omega)))
  · intro w hw1 hw hD
    rw [hlen] at hw
    have hwm : ¬ w - 1 = us.length + 1 := by omega
    by_cases hwv : w = us.length + 1
    · subst hwv
      refine ⟨k2.staleInternal, k2.staleLeaf, ?_, ?_, ?_⟩
      · show (if us.length + 1 = b.version then some (b.staleInternal, b.staleLeaf) else _) = _
        rw [if_pos hbv.symm]
      · intro u' q
        unfold StaleAt; simp only [if_neg hwm, if_pos]
        exact hst u' q
      · intro lk
        unfold StaleLeafAt; simp only [if_neg hwm, if_pos]
        exact hsl lk
    · obtain ⟨ns, ls, g1, g2, g3⟩ := h.stale w hw1 (by omega) hD
      refine ⟨ns, ls, ?_, ?_, ?_⟩
      · show (if w = b.version then some (b.staleInternal, b.staleLeaf) else db.stale w) = _
        rw [if_neg (by rw [hbv]; exact hwv)]; exact g1
      · intro u' q
        unfold StaleAt; simp only [if_neg hwm, if_neg hwv]
        exact g2 u' q
      · intro lk
        unfold StaleLeafAt; simp only [if_neg hwm, if_neg hwv]
        exact g3 lk
  · intro w hw
    rw [hlen] at hw
    show (if w = b.version then some (b.staleInternal, b.staleLeaf) else db.stale w) = _
    have : ¬ w = us.length + 1 := by
      rcases hw with rfl | hw | hw
      · exact (by omega)
      · exact Nat.ne_of_gt hw
      · have := (h.dle w hw).2; exact Nat.ne_of_lt (Nat.lt_succ_of_le this)
    rw [if_neg (by rw [hbv]; exact this)]
    exact h.staleN w (hw.imp id (Or.imp (fun h => Nat.lt_of_succ_lt h) id))
  · intro x hx o ho
    rw [hlen] at hx
    by_cases hxv : x = us.length + 1
    · subst hxv
      simp only [if_pos] at ho
      rw [contentsAt_succ]
      rcases (p5 o).1 ho with ⟨kv, hkv, rfl⟩ | ⟨h1, h2⟩
      · exact ⟨kv.1, kv.2, applyUpd_put hok hkv, rfl, rfl, fun _ => hleafnew kv hkv⟩
      · obtain ⟨h3, h4⟩ := (d5 o).1 h1
        obtain ⟨key, val, g1, g2, g3, g4⟩ := h.leaf us.length (Nat.le_refl _) o h3
        refine ⟨key, val, ?_, g2, g3, fun hD => ?_⟩
        · rw [applyUpd_keep ?_ ?_]; exact g1
          · intro kv hkv e
            subst e
            exact h2 (List.mem_map.2 ⟨kv, hkv, g2.symm⟩)
          · intro hk
            exact h4 (List.mem_map.2 ⟨key, hk, g2.symm⟩)
        · have := ((h.vb us.length (Nat.le_refl _)).leafver h3).2
          rw [hleafold _ (Nat.ne_of_lt (Nat.lt_succ_of_le this))]
          exact g4 (fun w hw => (h.dle w hw).2)
    · simp only [if_neg hxv] at ho
      have hx' : x ≤ us.length := by omega
      obtain ⟨key, val, g1, g2, g3, g4⟩ := h.leaf x hx' o ho
      refine ⟨key, val, by rw [contentsAt_append_le hx']; exact g1, g2, g3, fun hD => ?_⟩
      have := ((h.vb x hx').leafver ho).2
      rw [hleafold _ (Nat.ne_of_lt (Nat.lt_succ_of_le (Nat.le_trans this hx')))]
      exact g4 hD
  · intro x hx key val hc
    rw [hlen] at hx
    by_cases hxv : x = us.length + 1
    · subst hxv
      simp only [if_pos]
      rw [contentsAt_succ] at hc
      rcases applyUpd_some hc with ⟨kv, hkv, rfl, rfl⟩ | ⟨h1, h2, h3⟩
      · exact ⟨leafOf hs (us.length + 1) kv, (p5 _).2 (Or.inl ⟨kv, hkv, rfl⟩), rfl⟩
      · obtain ⟨o, ho1, ho2⟩ := h.complete us.length (Nat.le_refl _) key val h3
        refine ⟨o, (p5 o).2 (Or.inr ⟨(d5 o).2 ⟨ho1, ?_⟩, ?_⟩), ho2⟩
        · intro hm
          obtain ⟨k', hk', e⟩ := List.mem_map.1 hm
          exact h2 (hd k' (hkd hk') key (hkc h3) (e.trans ho2) ▸ hk')
        · intro hm
          obtain ⟨kv, hkv, e⟩ := List.mem_map.1 hm
          exact h1 kv hkv (hd kv.1 (hkp hkv) key (hkc h3) (e.trans ho2))
    · simp only [if_neg hxv]
      have hx' : x ≤ us.length := by omega
      rw [contentsAt_append_le hx'] at hc
      exact h.complete x hx' key val hc

theorem updates_append (a b : List Ev) : updates (a ++ b) = updates a ++ updates b := List.filterMap_append
theorem prunes_append (a b : List Ev) : prunes (a ++ b) = prunes a ++ prunes b := List.filterMap_append

theorem keysOf_append_left {us vs : List Upd} {k} (h : k ∈ keysOf us) : k ∈ keysOf (us ++ vs) := by
  obtain ⟨u, h1, h2⟩ := mem_keysOf.1 h
  exact mem_keysOf.2 ⟨u, List.mem_append_left _ h1, h2⟩

theorem Effective.init {us : List Upd} {u} (h : Effective (us ++ [u])) : Effective us ∧ u.ok ∧ u.effective (contentsAt us us.length) := by
  refine ⟨fun i u' hi => ?_, ?_⟩
  · have hlt : i < us.length := by
      rcases Nat.lt_or_ge i us.length with h | h
      · exact h
      · rw [List.getElem?_eq_none h] at hi; simp at hi
    have := h i u' (by rw [List.getElem?_append_left hlt]; exact hi)
    rw [contentsAt_append_le (Nat.le_of_lt hlt)] at this; exact this
  · have := h us.length u (by simp)
    rw [contentsAt_append_le (Nat.le_refl _)] at this; exact this

/-- the invariant holds after every history -/
theorem run_inv (hs : Hasher) (evs : List Ev) : DistinctHashes hs (keysOf (updates evs)) → Effective (updates evs) →
    ∃ db D ts, run hs Db.empty evs = some db ∧ DInv hs db (updates evs) D ts ∧ (∀ w ∈ D, w ∈ prunes evs) ∧
      ∀ a w b, evs = a ++ .prune w :: b → 1 ≤ w → w ≤ (updates a).length → w ∈ D := by
  suffices ∀ (r : List Ev), DistinctHashes hs (keysOf (updates r.reverse)) → Effective (updates r.reverse) →
      ∃ db D ts, run hs Db.empty r.reverse = some db ∧ DInv hs db (updates r.reverse) D ts ∧ (∀ w ∈ D, w ∈ prunes r.reverse) ∧
      ∀ a w b, r.reverse = a ++ .prune w :: b → 1 ≤ w → w ≤ (updates a).length → w ∈ D by
    have := this evs.reverse
    rw [List.reverse_reverse] at this; exact this
  intro r
  induction r with
  | nil => intro _ _; exact ⟨Db.empty, [], _, rfl, DInv.init hs, by simp, by intro a w b h; simp at h⟩
  | cons e r ih =>
    rw [List.reverse_cons]
    intro h1 h2
    have hrun : ∀ {db db'}, run hs Db.empty r.reverse = some db → runEv hs db e = some db' → run hs Db.empty (r.reverse ++ [e]) = some db' := by
      intro db db' e1 e2
      unfold run at e1 ⊢
      rw [List.foldlM_append, e1]
      simp only [Option.bind_eq_bind, Option.bind_some, List.foldlM_cons, List.foldlM_nil]
      rw [e2]; rfl
    have hsplit : ∀ {a w b}, r.reverse ++ [e] = a ++ Ev.prune w :: b → (a = r.reverse ∧ e = .prune w) ∨ ∃ b', r.reverse = a ++ .prune w :: b' := by
      intro a w b he
      rcases List.eq_nil_or_concat b with rfl | ⟨b', x, rfl⟩
      · left
        have := List.append_inj' he rfl
        exact ⟨this.1.symm, by simpa using this.2⟩
      · right
        rw [List.concat_eq_append, ← List.cons_append, ← List.append_assoc] at he
        exact ⟨b', (List.append_inj' he rfl).1⟩
    cases e with
    | upd u =>
      have hu : updates (r.reverse ++ [.upd u]) = updates r.reverse ++ [u] := by rw [updates_append]; rfl
      have hp : prunes (r.reverse ++ [.upd u]) = prunes r.reverse := by rw [prunes_append]; exact List.append_nil _
      rw [hu] at h1 h2 ⊢
      obtain ⟨e1, e2, e3⟩ := h2.init
      obtain ⟨db, D, ts, a1, a2, a3, a4⟩ := ih (fun k hk k' hk' => h1 k (keysOf_append_left hk) k' (keysOf_append_left hk')) e1
      obtain ⟨db', t', b1, b2, _⟩ := a2.upd h1 e2 e3
      refine ⟨db', D, _, hrun a1 b1, b2, by rw [hp]; exact a3, ?_⟩
      intro a w b he hw1 hw2
      rcases hsplit he with ⟨_, hc⟩ | ⟨b', hb⟩
      · simp at hc
      · exact a4 a w b' hb hw1 hw2
    | prune w =>
      have hu : updates (r.reverse ++ [.prune w]) = updates r.reverse := by rw [updates_append]; exact List.append_nil _
      have hp : prunes (r.reverse ++ [.prune w]) = prunes r.reverse ++ [w] := by rw [prunes_append]; rfl
      rw [hu] at h1 h2 ⊢
      obtain ⟨db, D, ts, a1, a2, a3, a4⟩ := ih h1 h2
      obtain ⟨D', b1, b2⟩ := a2.prune w
      refine ⟨_, D', ts, hrun a1 rfl, b1, ?_, ?_⟩
      · rw [hp]
        intro x hx
        rw [b2] at hx
        split at hx
        · rcases List.mem_cons.1 hx with rfl | hx
          · exact List.mem_append_right _ (List.mem_singleton_self _)
          · exact List.mem_append_left _ (a3 x hx)
        · exact List.mem_append_left _ (a3 x hx)
      · intro a x b he hx1 hx2
        rcases hsplit he with ⟨ha, hc⟩ | ⟨b', hb⟩
        · have : w = x := by simpa using hc
          subst this
          rw [ha] at hx2
          rw [b2]
          by_cases hm : w ∈ D
          · rw [if_neg (fun hc => hc.2.2 hm)]; exact hm
          · rw [if_pos ⟨hx1, hx2, hm⟩]; exact List.mem_cons_self ..
        · have := a4 a x b' hb hx1 hx2
          rw [b2]; split
          · exact List.mem_cons_of_mem _ this
          · exact this

end Verif.Smt
