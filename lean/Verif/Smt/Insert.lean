import Verif.Smt.TreeInsert
/-!
# Insertion through the walker
-/
set_option linter.unusedVariables false
set_option linter.unusedSimpArgs false
namespace Verif.Smt

theorem atT_plug (hs : Hasher) (v : Ver) : ∀ (x : Ctx) (t : T), atT (plug hs v x t) (pathOf x) = t
  | [], t => rfl
  | (b, s) :: x, t => by
    rw [plug, pathOf_cons, atT_append, atT_plug hs v x]
    show (node hs v b s t).child b = t
    exact node_child _ _ _ _ _

theorem nodeAt_zero (t : T) (bits : List Bool) : nodeAt t bits 0 = t := by simp [nodeAt, atT]

theorem nodeAt_succ {key : Hash} {d : Nat} (hk : 4 * d + 4 ≤ key.length) (t : T) (k : Nat) :
    nodeAt t (key.drop (4 * d)) (k + 1) = nodeAt (atT t (bitsAt key d)) (key.drop (4 * (d + 1))) k := by
  unfold nodeAt
  rw [← atT_append, drop_bitsAt key d, List.take_append, bitsAt_length hk]
  rw [List.take_of_length_le (by rw [bitsAt_length hk]; omega), show 4 * (k + 1) - 4 = 4 * k by omega]

theorem atT_nonint' {t : T} (h : t.isInt = false) : ∀ (p : List Bool), (atT t p).isInt = false := by
  intro p
  cases p with
  | nil => exact h
  | cons b p => rw [atT_nonint h]; rfl

theorem nodeAt_nonint {key : Hash} {d : Nat} (hk : 4 * d + 4 ≤ key.length) {t : T}
    (h : (zipN (bitsAt key d) t).2.1.isInt = false) : (atT t (bitsAt key d)).isInt = false := by
  have h1 := zipN_sub (bitsAt key d) t
  have h2 := zipN_path (bitsAt key d) t
  rw [← h2, atT_append, h1]
  exact atT_nonint' h _

/-- what processing the part of the tree at the walker's place does; `t` before, `R` after -/
structure Step (w w' : Walker) (key : Hash) (d : Nat) (t R : T) (stl : Option LeafKey) : Prop where
  stack : w'.stack = w.stack
  path : w'.path = w.path
  sv : w'.staleVersion = w.staleVersion
  same : Same w.cache w'.cache (nibs key d)
  nodes_new : ∀ q', w'.cache.nodes q' ≠ none →
    (w.cache.nodes q' ≠ none ∧ ∀ k, 1 ≤ k → q' = nibs key (d + k) → (nodeAt t (key.drop (4 * d)) k).isInt = false) ∨
    ∃ k, 1 ≤ k ∧ q' = nibs key (d + k) ∧ (nodeAt R (key.drop (4 * d)) k).isInt = true
  stale : ∀ u q', (u, q') ∈ w'.cache.staleInternal ↔ (u, q') ∈ w.cache.staleInternal ∨
    ∃ k, 1 ≤ k ∧ q' = nibs key (d + k) ∧ (nodeAt t (key.drop (4 * d)) k).isInt = true ∧
      (nodeAt t (key.drop (4 * d)) k).ver = u ∧ u ≠ 0 ∧ u ≠ w.cache.version
  leaf : w'.cache.staleLeaf = stl.toList ++ w.cache.staleLeaf

theorem nibs_inj_len {k k' : Hash} {a b : Nat} (h : nibs k a = nibs k' b) : a = b := by
  have := congrArg List.length h; rwa [nibs_length, nibs_length] at this

theorem nibs_prefix (k : Hash) (a b : Nat) : nibs k a <+: nibs k (a + b) := by
  induction b with
  | zero => exact List.prefix_rfl
  | succ b ih => rw [← Nat.add_assoc, nibs_succ]; exact ih.trans (List.prefix_append _ _)

/-- the part of a `Step` that moves one node up -/
theorem Step.lift {w0 w1 w1' w2 : Walker} {key : Hash} {d : Nat} {t t1 R R1 : T} {stl}
    (hk : 4 * d + 4 ≤ key.length)
    (hc : w1.cache = w0.cache) (st : Step w1 w1' key (d + 1) t1 R1 stl)
    (ht : t1 = atT t (bitsAt key d) ∨ (t1 = .empty ∧ (atT t (bitsAt key d)).isInt = false))
    (hR : R1.isInt = true → atT R (bitsAt key d) = R1)
    (hsv1 : w1.staleVersion = t1.ver)
    (hi1 : t1.isInt = true ∨ t1 = .empty)
    (a1 : w2.stack = w0.stack) (a2 : w2.path = w0.path) (a3 : w2.staleVersion = w0.staleVersion)
    (b1 : w2.cache.version = w1'.cache.version) (b2 : w2.cache.db = w1'.cache.db) (b3 : w2.cache.original = w1'.cache.original)
    (b4 : ∀ q', q' ≠ nibs key (d + 1) → w2.cache.nodes q' = w1'.cache.nodes q')
    (b4' : R1.isInt = false → w2.cache.nodes (nibs key (d + 1)) = none)
    (b4'' : R1.isInt = false → ∀ k, (nodeAt R1 (key.drop (4 * (d + 1))) k).isInt = false)
    (b5 : w2.cache.staleLeaf = w1'.cache.staleLeaf)
    (b6 : ∀ u q, (u, q) ∈ w2.cache.staleInternal ↔ (u, q) ∈ w1'.cache.staleInternal ∨
        (u = w1'.staleVersion ∧ q = nibs key (d + 1) ∧ u ≠ 0 ∧ u ≠ w1'.cache.version)) :
    Step w0 w2 key d t R stl := by
  have hT : ∀ k, (nodeAt t (key.drop (4 * d)) (k + 1)).isInt = (nodeAt t1 (key.drop (4 * (d + 1))) k).isInt := by
    intro k
    rw [nodeAt_succ hk]
    rcases ht with h | ⟨h, h'⟩
    · rw [h]
    · rw [h]; unfold nodeAt; rw [atT_nonint' h', atT_empty]; rfl
  have hT' : ∀ k, (nodeAt t (key.drop (4 * d)) (k + 1)).isInt = true →
      nodeAt t (key.drop (4 * d)) (k + 1) = nodeAt t1 (key.drop (4 * (d + 1))) k := by
    intro k h
    rw [nodeAt_succ hk] at h ⊢
    rcases ht with h1 | ⟨h1, h'⟩
    · rw [h1]
    · unfold nodeAt at h; rw [atT_nonint' h'] at h; simp at h
  refine ⟨a1, a2, a3, ⟨?_, ?_, ?_, ?_⟩, ?_, ?_, ?_⟩
  · rw [b1, st.same.version, hc]
  · rw [b2, st.same.db, hc]
  · rw [b3, st.same.original, hc]
  · intro q' hn
    rw [b4 q' (by
      rintro rfl; refine hn ⟨nibs_prefix key d 1, fun e => ?_⟩
      have := nibs_inj_len e; omega), st.same.nodes q' (by
      rintro ⟨h1, h2⟩
      refine hn ⟨(nibs_prefix key d 1).trans h1, ?_⟩
      rintro rfl
      have := h1.length_le
      rw [nibs_length, nibs_length] at this; omega), hc]
  · intro q' hq
    by_cases he : q' = nibs key (d + 1)
    · cases hi : R1.isInt with
      | false => subst he; exact absurd (b4' hi) hq
      | true =>
        refine Or.inr ⟨1, Nat.le_refl _, he, ?_⟩
        rw [show (1 : Nat) = 0 + 1 from rfl, nodeAt_succ hk, nodeAt_zero, hR hi, hi]
    · rw [b4 q' he] at hq
      rcases st.nodes_new q' hq with ⟨h1, h2⟩ | ⟨k, h1, h2, h3⟩
      · refine Or.inl ⟨by rw [← hc]; exact h1, fun k hk1 hqk => ?_⟩
        obtain ⟨k, rfl⟩ : ∃ j, k = j + 1 := ⟨k - 1, by omega⟩
        rw [hT]
        by_cases hk0 : k = 0
        · subst hk0; exact absurd hqk he
        · exact h2 k (by omega) (by rw [hqk]; congr 1; omega)
      · refine Or.inr ⟨k + 1, by omega, by rw [h2]; congr 1; omega, ?_⟩
        cases hi : R1.isInt with
        | false => rw [b4'' hi] at h3; simp at h3
        | true => rw [nodeAt_succ hk, hR hi]; exact h3
  · intro u q
    rw [b6, st.stale, hc, st.sv, hsv1, st.same.version, hc]
    constructor
    · rintro ((h | ⟨k, h1, h2, h3, h4, h5⟩) | ⟨h1, h2, h3, h4⟩)
      · exact Or.inl h
      · refine Or.inr ⟨k + 1, by omega, by rw [h2]; congr 1; omega, by rw [hT]; exact h3, ?_, h5⟩
        rw [hT' k (by rw [hT]; exact h3)]; exact h4
      · rcases hi1 with hi1 | hi1
        · have e0 : (nodeAt t (key.drop (4 * d)) (0 + 1)).isInt = true := by rw [hT, nodeAt_zero]; exact hi1
          refine Or.inr ⟨1, Nat.le_refl _, h2, e0, ?_, h3, h4⟩
          show (nodeAt t (key.drop (4 * d)) (0 + 1)).ver = u
          rw [hT' 0 e0, nodeAt_zero, h1]
        · rw [hi1] at h1; exact absurd h1 h3
    · rintro (h | ⟨k, h1, h2, h3, h4, h5, h6⟩)
      · exact Or.inl (Or.inl h)
      · obtain ⟨k, rfl⟩ : ∃ j, k = j + 1 := ⟨k - 1, by omega⟩
        by_cases hk0 : k = 0
        · subst hk0
          refine Or.inr ⟨?_, h2, h5, h6⟩
          rw [← h4]
          have e0 : nodeAt t (key.drop (4 * d)) (0 + 1) = t1 := by rw [hT' 0 h3, nodeAt_zero]
          exact congrArg T.ver e0
        · refine Or.inl (Or.inr ⟨k, by omega, by rw [h2]; congr 1; omega, by rw [← hT]; exact h3, ?_, h5, h6⟩)
          rw [← hT' k h3]; exact h4
  · rw [b5, st.leaf, hc]

theorem plug_ver (hs v) : ∀ (x : Ctx) (t : T), (x ≠ [] ∨ t.ver = v) → (plug hs v x t).ver = v
  | [], t, h => by rcases h with h | h; · exact absurd rfl h
                   · exact h
  | (b, s) :: x, t, h => plug_ver hs v x _ (Or.inr (node_ver _ _ _ _ _))

/-- `ascend` after a `Step` below -/
theorem Step.ascend (hs : Hasher) {w0 w1 w1' : Walker} {key : Hash} {d n : Nat} {t t1 R1 : T} {stl} {c : Node} {x : Ctx}
    (hk : 4 * d + 4 ≤ key.length) (hc : w1.cache = w0.cache) (st : Step w1 w1' key (d + 1) t1 R1 stl)
    (ht : t1 = atT t (bitsAt key d) ∨ (t1 = .empty ∧ (atT t (bitsAt key d)).isInt = false))
    (hsv1 : w1.staleVersion = t1.ver) (hi1 : t1.isInt = true ∨ t1 = .empty)
    (hst : w1.stack = c :: w0.stack) (hp : w0.path = nibs key d) (hp1 : w1.path = nibs key (d + 1))
    (hsv : w0.staleVersion = nodeVersion c)
    (hx : pathOf x = bitsAt key d) (rr : RepR c (Link w0.cache.get n (nibs key d)) 0 x)
    (hg : GRep w1'.cache.get n (nibs key (d + 1)) w1'.cur R1) (hi : R1.isInt = true) (hv : R1.ver = w0.cache.version) :
    ∃ w2, w1'.ascend hs = some w2 ∧ Step w0 w2 key d t (plug hs w0.cache.version x R1) stl ∧
      GRep w2.cache.get (n + 1) (nibs key d) w2.cur (plug hs w0.cache.version x R1) := by
  have hvv : w1'.cache.version = w0.cache.version := by rw [st.same.version, hc]
  have hget : ∀ v q', nibs key d <+: q' → ¬ (nibs key (d + 1) <+: q') → w1'.cache.get v q' = w0.cache.get v q' := by
    intro v q' _ hn
    rw [← hc]
    exact get_eq st.same.db (st.same.nodes q' (fun h => hn h.1))
  have := ascend_spec hs (get0 := w0.cache.get) hk (st.path.trans hp1) (st.stack.trans hst) hx rr hget hg hi (hv.trans hvv.symm)
  obtain ⟨w2, e, c1, c2, c3, c4, c5, c6, c7, c8, c9, c10⟩ := this
  rw [hvv] at c10
  refine ⟨w2, e, ?_, c10⟩
  refine Step.lift (w1' := w1') (R1 := R1) hk hc st ht (fun _ => by rw [← hx]; exact atT_plug hs _ x R1) hsv1 hi1 c1
    (by rw [c2, hp]) (by rw [c3, hsv]) c4 c5 c6 (fun q' hne => by rw [c7, if_neg hne]) (fun h => by rw [hi] at h; simp at h)
    (fun h => by rw [hi] at h; simp at h) c8 c9

/-! ## the collision chain -/

/-- the tree that separates two leaves, below `4 e` bits -/
def sepT (hs : Hasher) (v : Ver) (o l : LeafChild) (e : Nat) : T :=
  splitT hs v o l (o.key.hash.drop (4 * e)) (l.key.hash.drop (4 * e))

theorem splitT_int (hs : Hasher) (v : Ver) (o l : LeafChild) : ∀ (a b : List Bool), a.length = b.length → a ≠ b →
    (splitT hs v o l a b).isInt = true ∧ (splitT hs v o l a b).ver = v
  | [], [], _, h => absurd rfl h
  | [], _ :: _, h, _ => by simp at h
  | _ :: _, [], h, _ => by simp at h
  | x :: a, y :: b, hl, hne => by
    unfold splitT
    split <;> exact ⟨node_isInt _ _ _ _ _, node_ver _ _ _ _ _⟩

theorem RepR_emptyNode {L} : ∀ (x : Ctx) (h : Nat), (∀ f ∈ x, f.2 = T.empty) → RepR emptyNode L h x
  | [], _, _ => trivial
  | (b, s) :: x, h, hx => by
    have : s = .empty := hx (b, s) (List.mem_cons_self ..)
    subst this
    exact ⟨(fun l e => by simp [emptyNode] at e), Rep.of_empty (fun _ _ _ => rfl), RepR_emptyNode x _ (fun f hf => hx f (List.mem_cons_of_mem _ hf))⟩

theorem emptyFrames_mem : ∀ (bs : List Bool) (x : Ctx), (∀ f ∈ x, f.2 = T.empty) → ∀ f ∈ emptyFrames bs x, f.2 = T.empty
  | [], x, h => h
  | b :: bs, x, h => by
    rw [emptyFrames_cons]
    refine emptyFrames_mem bs _ (fun f hf => ?_)
    rcases List.mem_cons.1 hf with rfl | hf
    · rfl
    · exact h f hf

theorem appendLoop_spec (key : Hash) : ∀ (m d : Nat) (w : Walker), w.path = nibs key d → d + m ≤ 63 →
    appendLoop key m w = some { w with path := nibs key (d + m), stack := List.replicate m emptyNode ++ w.stack }
  | 0, d, w, hp, _ => by
    unfold appendLoop
    rw [Nat.add_zero, ← hp]; rfl
  | m + 1, d, w, hp, hd => by
    unfold appendLoop
    have hl : w.path.length = d := by rw [hp, nibs_length]
    rw [if_pos (by rw [hl]; simp [MAX_NIBBLES]; omega)]
    have := appendLoop_spec key m (d + 1) { w with path := w.path ++ [getNibble key w.path.length], stack := emptyNode :: w.stack }
      (by show w.path ++ _ = _; rw [hl, nibs_succ, hp]) (by omega)
    rw [this]
    simp only [Option.some.injEq, Walker.mk.injEq, true_and, and_true]
    refine ⟨?_, by congr 1; omega⟩
    rw [List.replicate_succ', List.append_assoc]; rfl

/-- a walker standing on the `j`-th new empty node below depth `d` -/
def onEmpty (w : Walker) (key : Hash) (c : Node) (e j : Nat) : Walker :=
  { w with stack := List.replicate j emptyNode ++ c :: w.stack, path := nibs key (e + j), cur := emptyNode, staleVersion := 0 }

theorem chain_spec (hs : Hasher) (w : Walker) (o l : LeafChild) (c : Node) (d : Nat)
    (hK : l.key.hash.length = 256) (hO : o.key.hash.length = 256) (hne : o.key.hash ≠ l.key.hash) :
    ∀ (j n : Nat) (w1 : Walker), d + 1 + j + n = 64 → (∀ e, d + 1 ≤ e → e < d + 1 + j → bitsAt o.key.hash e = bitsAt l.key.hash e) →
      o.key.hash.drop (4 * (d + 1 + j)) ≠ l.key.hash.drop (4 * (d + 1 + j)) →
      Step (onEmpty w l.key.hash c (d + 1) j) w1 l.key.hash (d + 1 + j) .empty (sepT hs w.cache.version o l (d + 1 + j)) none →
      GRep w1.cache.get n (nibs l.key.hash (d + 1 + j)) w1.cur (sepT hs w.cache.version o l (d + 1 + j)) →
      ∃ w2, ascendLoop hs (d + 1 + j) w1 = ascendLoop hs (d + 1) w2 ∧
        Step (onEmpty w l.key.hash c (d + 1) 0) w2 l.key.hash (d + 1) .empty (sepT hs w.cache.version o l (d + 1)) none ∧
        GRep w2.cache.get (n + j) (nibs l.key.hash (d + 1)) w2.cur (sepT hs w.cache.version o l (d + 1)) ∧
        o.key.hash.drop (4 * (d + 1)) ≠ l.key.hash.drop (4 * (d + 1))
  | 0, n, w1, hd, hb, hdr, st, hg => ⟨w1, rfl, st, hg, hdr⟩
  | j + 1, n, w1, hd, hb, hdr, st, hg => by
    have hk : 4 * (d + 1 + j) + 4 ≤ l.key.hash.length := by omega
    have hsame := hb (d + 1 + j) (by omega) (by omega)
    have hlen : (o.key.hash.drop (4 * (d + 1 + (j + 1)))).length = (l.key.hash.drop (4 * (d + 1 + (j + 1)))).length := by simp [hK, hO]
    have hdr' : o.key.hash.drop (4 * (d + 1 + j)) ≠ l.key.hash.drop (4 * (d + 1 + j)) := by
      rw [drop_bitsAt o.key.hash, drop_bitsAt l.key.hash, hsame]
      intro h; exact hdr (List.append_cancel_left h)
    have hint := splitT_int hs w.cache.version o l _ _ hlen hdr
    have hx : pathOf (emptyFrames (bitsAt l.key.hash (d + 1 + j)) []) = bitsAt l.key.hash (d + 1 + j) := by
      rw [emptyFrames_path]; rfl
    have := Step.ascend hs (w0 := onEmpty w l.key.hash c (d + 1) j) (w1 := onEmpty w l.key.hash c (d + 1) (j + 1)) (w1' := w1)
      (t := .empty) (t1 := .empty) (n := n) (c := emptyNode) hk rfl st (Or.inr ⟨rfl, by rw [atT_empty]; rfl⟩) rfl (Or.inr rfl)
      (by show List.replicate (j + 1) emptyNode ++ _ = _; rw [List.replicate_succ]; rfl) rfl rfl rfl hx
      (RepR_emptyNode _ _ (emptyFrames_mem _ _ (by simp))) hg hint.1 hint.2
    obtain ⟨w2, e, st2, hg2⟩ := this
    have hsep : plug hs w.cache.version (emptyFrames (bitsAt l.key.hash (d + 1 + j)) []) (sepT hs w.cache.version o l (d + 1 + j + 1)) =
        sepT hs w.cache.version o l (d + 1 + j) := by
      unfold sepT
      rw [drop_bitsAt o.key.hash (d + 1 + j), drop_bitsAt l.key.hash (d + 1 + j), hsame, ← splitT_common]; rfl
    have hsep' : plug hs (onEmpty w l.key.hash c (d + 1) j).cache.version (emptyFrames (bitsAt l.key.hash (d + 1 + j)) [])
        (sepT hs w.cache.version o l (d + 1 + j + 1)) = sepT hs w.cache.version o l (d + 1 + j) := hsep
    rw [show d + 1 + (j + 1) = d + 1 + j + 1 by omega, hsep'] at st2 hg2
    obtain ⟨w3, h1, h2, h3, h4⟩ := chain_spec hs w o l c d hK hO hne j (n + 1) w2 (by omega)
      (fun e h1 h2 => hb e h1 (by omega)) hdr' st2 hg2
    refine ⟨w3, ?_, h2, ?_, h4⟩
    · rw [show d + 1 + (j + 1) = (d + 1 + j) + 1 by omega, ascendLoop, e, Option.bind_some, h1]
    · rw [show n + (j + 1) = n + 1 + j by omega]; exact h3

theorem sepT_eq (hs : Hasher) (v : Ver) (o l : LeafChild) {X Y : List Bool} (hX : X ≠ []) (hY : Y ≠ []) (hne : o.key.hash ≠ l.key.hash)
    (hdrop : ∀ b Y', Y = b :: Y' → o.key.hash.drop (l.key.hash.length - Y'.length) = X.tail) :
    insN hs v l Y (insN hs v o X .empty) = splitT hs v o l X Y := by
  cases X with
  | nil => exact absurd rfl hX
  | cons b' X =>
    cases Y with
    | nil => exact absurd rfl hY
    | cons b Y =>
      have h := hdrop b Y rfl
      by_cases hb : b' = b
      · subst hb
        simp only [splitT, if_true, insN]
        rw [node_child, node_child']
        have : insT hs v o X (T.child .empty b') = .leaf o := by cases b' <;> simp [T.child, insT]
        rw [this]
        have h2 : insT hs v l Y (.leaf o) = splitT hs v o l X Y := by
          unfold insT; rw [if_neg hne, h]; rfl
        rw [h2]; cases b' <;> rfl
      · have hbb : b' = !b := by cases b <;> cases b' <;> simp at hb ⊢
        subst hbb
        simp only [splitT, insN]
        rw [if_neg (by cases b <;> simp), node_child]
        have := node_child' hs v (!b) (T.child .empty (!!b)) (insT hs v o X (T.child .empty (!b)))
        rw [Bool.not_not] at this
        rw [Bool.not_not, this]
        have h1 : insT hs v o X (T.child .empty (!b)) = .leaf o := by cases b <;> simp [T.child, insT]
        have h2 : insT hs v l Y (T.child .empty b) = .leaf l := by cases b <;> simp [T.child, insT]
        rw [h1, h2]

theorem prefix_common {a b p : List Bool} {x : Bool} {a' b' : List Bool} (ha : a = p ++ x :: a') (hb : b = p ++ (!x) :: b') (e : Nat)
    (h : 4 * e + 4 ≤ p.length) : bitsAt a e = bitsAt b e := by
  unfold bitsAt
  rw [ha, hb, List.drop_append_of_le_length (by omega), List.drop_append_of_le_length (by omega),
    List.take_append_of_le_length (by simp; omega), List.take_append_of_le_length (by simp; omega)]

theorem GRep_emptyNode {get : Ver → Path → Option Node} {n : Nat} {q : Path} : Rep emptyNode (Link get n q) 4 [] .empty :=
  Rep.of_empty (fun _ _ _ => rfl)

theorem nodeAt_empty (bits : List Bool) (k : Nat) : nodeAt .empty bits k = .empty := atT_empty _

/-- a step that changes only the current node -/
theorem Step.local {w : Walker} {key : Hash} {d : Nat} {t R : T} {c : Node} {stl : Option LeafKey} (hk : 4 * d + 4 ≤ key.length)
    (h : (atT t (bitsAt key d)).isInt = false) :
    Step w { w with cur := c, cache := w.cache.putStaleLeaf stl } key d t R stl := by
  have hT : ∀ k, 1 ≤ k → (nodeAt t (key.drop (4 * d)) k).isInt = false := by
    intro k hk1
    obtain ⟨k, rfl⟩ : ∃ j, k = j + 1 := ⟨k - 1, by omega⟩
    rw [nodeAt_succ hk]; exact atT_nonint' h _
  have hn : (w.cache.putStaleLeaf stl).nodes = w.cache.nodes := by cases stl <;> rfl
  have hs : (w.cache.putStaleLeaf stl).staleInternal = w.cache.staleInternal := by cases stl <;> rfl
  refine ⟨rfl, rfl, rfl, ⟨?_, ?_, ?_, ?_⟩, ?_, ?_, ?_⟩
  · cases stl <;> rfl
  · cases stl <;> rfl
  · cases stl <;> rfl
  · intro q' _; rw [hn]
  · intro q' hq
    refine Or.inl ⟨by rw [← hn]; exact hq, fun k hk1 _ => hT k hk1⟩
  · intro u q'
    show (u, q') ∈ (w.cache.putStaleLeaf stl).staleInternal ↔ _
    rw [hs]
    constructor
    · exact Or.inl
    · rintro (h | ⟨k, h1, _, h3, _⟩)
      · exact h
      · rw [hT k h1] at h3; simp at h3
  · cases stl <;> rfl

theorem prefixBitsAt_eq (a b : Hash) (d : Nat) : prefixBitsAt a b d = prefixBits a b - 4 * d := by
  have hN : NIBBLE_BITS = 4 := rfl
  unfold prefixBitsAt
  split <;> rename_i h <;> rw [hN] at h <;> (try rw [hN]) <;> omega

/-- `handleCollision` -/
theorem collision_spec (hs : Hasher) {w : Walker} {o l : LeafChild} {d n : Nat} {t : T} {x : Ctx}
    (hd : d + (n + 1) = 64) (hK : l.key.hash.length = 256) (hO : o.key.hash.length = 256) (hne : o.key.hash ≠ l.key.hash)
    (hv : l.key.version = w.cache.version) (hpath : w.path = nibs l.key.hash d) (hsv : w.staleVersion = nodeVersion w.cur)
    (hcommon : 4 ≤ prefixBitsAt l.key.hash o.key.hash d) (hx : pathOf x = bitsAt l.key.hash d)
    (rr : RepR w.cur (Link w.cache.get n (nibs l.key.hash d)) 0 x) (ht : (atT t (bitsAt l.key.hash d)).isInt = false) :
    ∃ w', handleCollision hs w o l = ascendLoop hs d w' ∧
      Step w w' l.key.hash d t (plug hs w.cache.version x (sepT hs w.cache.version o l (d + 1))) none ∧
      GRep w'.cache.get (n + 1) (nibs l.key.hash d) w'.cur (plug hs w.cache.version x (sepT hs w.cache.version o l (d + 1))) := by
  obtain ⟨p, y, a', b', e1, e2, e3, e4⟩ := prefixBits_split l.key.hash o.key.hash (by omega) (Ne.symm hne)
  have hp256 : p.length < 256 := by rw [← hK, e1]; simp
  have hpa : prefixBitsAt l.key.hash o.key.hash d = p.length - 4 * d := by
    rw [prefixBitsAt_eq, e3]
  rw [hpa] at hcommon
  obtain ⟨j, hj⟩ : ∃ j, (p.length - 4 * d) / 4 = j + 1 := ⟨(p.length - 4 * d) / 4 - 1, by omega⟩
  have hwd : w.path.length = d := by rw [hpath, nibs_length]
  have happ : appendEmptyNodes w l.key.hash (j + 1) = some (onEmpty w l.key.hash w.cur (d + 1) j) := by
    unfold appendEmptyNodes
    simp only [Nat.add_sub_cancel]
    rw [appendLoop_spec l.key.hash j d { w with stack := w.cur :: w.stack } hpath (by omega)]
    simp only [Option.bind_some]
    rw [if_pos (by rw [nibs_length]; simp [MAX_NIBBLES]; omega)]
    unfold onEmpty
    rw [nibs_length, ← nibs_succ, show d + 1 + j = d + j + 1 by omega]; rfl
  unfold handleCollision
  have hdep : w.depth = d := hwd
  rw [hdep, hpa, hj, happ]
  simp only [Option.bind_some]
  have hdep2 : (onEmpty w l.key.hash w.cur (d + 1) j).depth = d + 1 + j := nibs_length _ _
  rw [hdep2]
  -- numbers
  have hE : 4 * (d + 1 + j) ≤ p.length := by omega
  have hE2 : p.length < 4 * (d + 1 + j) + 4 := by omega
  have hkl : 4 * (d + 1 + j) + 4 ≤ l.key.hash.length := by omega
  have hko : 4 * (d + 1 + j) + 4 ≤ o.key.hash.length := by omega
  obtain ⟨m, hm⟩ : ∃ m, d + 1 + j + (m + 1) = 64 := ⟨63 - (d + 1 + j), by omega⟩
  let L := Link w.cache.get m (nibs l.key.hash (d + 1 + j))
  have hcv : (onEmpty w l.key.hash w.cur (d + 1) j).cache.version = w.cache.version := rfl
  have hcur : (onEmpty w l.key.hash w.cur (d + 1) j).cur = emptyNode := rfl
  rw [hcv, hcur]
  have hr0 : Rep emptyNode L 4 [] .empty := GRep_emptyNode
  have hz : ∀ (bs : List Bool), (zipN bs .empty).2.1 = .empty := by
    intro bs; cases bs with
    | nil => rfl
    | cons b bs => cases bs <;> cases b <;> simp [zipN, zipT, T.child, T.isInt]
  -- first insertion
  obtain ⟨c1, r1, i1, i2⟩ := nodeInsert_spec hs (l := o) (d := d + 1 + j) (cur := w.cache.version) hr0 rfl hko
    (Or.inr (hz _)) (by intro o' h; rw [hz] at h; simp at h)
  rw [i1]
  simp only [Option.bind_some]
  have hr1 : Rep c1 L 4 [] (insN hs w.cache.version o (o.key.hash.drop (4 * (d + 1 + j))) .empty) := by
    rcases i2 with ⟨h, _⟩ | ⟨_, h, _⟩ | ⟨o', x', h, _⟩
    · rw [hz] at h; simp [T.isInt] at h
    · exact h
    · rw [hz] at h; simp at h
  -- second insertion
  have hXne : o.key.hash.drop (4 * (d + 1 + j)) ≠ [] := by
    intro h; have := congrArg List.length h; simp at this; omega
  have hYne : l.key.hash.drop (4 * (d + 1 + j)) ≠ [] := by
    intro h; have := congrArg List.length h; simp at this; omega
  obtain ⟨bo, bo', hbo⟩ : ∃ b r, o.key.hash.drop (4 * (d + 1 + j)) = b :: r := List.exists_cons_of_ne_nil hXne
  have ht1 : insN hs w.cache.version o (o.key.hash.drop (4 * (d + 1 + j))) .empty = node hs w.cache.version bo .empty (.leaf o) := by
    rw [hbo]; unfold insN
    cases bo <;> simp [T.child, insT]
  have hz1 : ∀ bs : List Bool, bs ≠ [] → (zipN bs (node hs w.cache.version bo .empty (.leaf o))).2.1 = .empty ∨
      ((zipN bs (node hs w.cache.version bo .empty (.leaf o))).2.1 = .leaf o ∧ (zipN bs (node hs w.cache.version bo .empty (.leaf o))).1 = [(bo, .empty)] ∧
        ∃ r, bs = bo :: r) := by
    intro bs hbs
    cases bs with
    | nil => exact absurd rfl hbs
    | cons b bs =>
      by_cases hb : b = bo
      · subst hb
        right
        simp only [zipN]
        rw [node_child, node_child']
        cases bs <;> simp [zipT, T.isInt]
      · left
        have hb' : b = !bo := by cases b <;> cases bo <;> simp at hb ⊢
        subst hb'
        simp only [zipN]
        rw [node_child']
        cases bs <;> simp [zipT, T.isInt]
  have hbne : bitsAt l.key.hash (d + 1 + j) ≠ [] := by
    intro h; have := bitsAt_length hkl; rw [h] at this; simp at this
  rw [ht1] at hr1
  obtain ⟨c2, r2, i3, i4⟩ := nodeInsert_spec hs (l := l) (d := d + 1 + j) (cur := w.cache.version) hr1
    (by cases bo <;> rfl) hkl (Or.inl hv) (by
      intro o' ho'
      rcases hz1 _ hbne with h | ⟨h, hc, r, hr⟩
      · rw [h] at ho'; simp at ho'
      · rw [h] at ho'
        have : o = o' := by simpa using ho'
        subst this
        rw [hc]
        refine ⟨o.key.hash.drop (4 * (d + 1 + j) + 1), ?_, by omega⟩
        have hl1 : l.key.hash.take (4 * (d + 1 + j) + 1) = o.key.hash.take (4 * (d + 1 + j) + 1) := by
          rw [List.take_add, List.take_add]
          congr 1
          · rw [e1, e2, List.take_append_of_le_length hE, List.take_append_of_le_length hE]
          · have q1 : l.key.hash.drop (4 * (d + 1 + j)) = bo :: (r ++ l.key.hash.drop (4 * (d + 1 + j + 1))) := by
              rw [drop_bitsAt, hr]; rfl
            rw [q1, hbo]; rfl
        show o.key.hash = List.take (4 * (d + 1 + j) + 1) l.key.hash ++ _
        rw [hl1, List.take_append_drop])
  rw [i3]
  simp only [Option.bind_some]
  have hi4 : r2 = .complete none ∧ Rep c2 L 4 [] (sepT hs w.cache.version o l (d + 1 + j)) := by
    rcases i4 with ⟨h, _⟩ | ⟨_, h, st, hst, hst2⟩ | ⟨o', x', h, _, _, hpb, _⟩
    · rcases hz1 _ hbne with h' | ⟨h', _⟩ <;> rw [h'] at h <;> simp [T.isInt] at h
    · refine ⟨?_, ?_⟩
      · rw [hst]
        cases st with
        | none => rfl
        | some lk =>
          exfalso
          obtain ⟨o', ho', hk', _⟩ := (hst2 lk).1 rfl
          rcases hz1 _ hbne with h' | ⟨h', _⟩ <;> rw [h'] at ho'
          · simp at ho'
          · have : o = o' := by simpa using ho'
            subst this; exact hne hk'
      · rw [← ht1, sepT_eq hs _ o l hXne hYne hne] at h
        · exact h
        · intro b Y' hY'
          have : Y'.length + 1 = l.key.hash.length - 4 * (d + 1 + j) := by
            have := congrArg List.length hY'
            rw [List.length_drop, List.length_cons] at this; omega
          rw [show l.key.hash.length - Y'.length = 4 * (d + 1 + j) + 1 by omega, List.tail_drop]
    · exfalso
      rcases hz1 _ hbne with h' | ⟨h', _⟩ <;> rw [h'] at h
      · simp at h
      · have : o = o' := by simpa using h
        subst this
        rw [prefixBitsAt_eq, e3] at hpb
        omega
  obtain ⟨hr2, hrep2⟩ := hi4
  rw [hr2]
  simp only
  unfold Walker.ascendToRoot
  have hplen : (onEmpty w l.key.hash w.cur (d + 1) j).path.length = d + 1 + j := nibs_length _ _
  rw [hplen]
  have hst0 : Step (onEmpty w l.key.hash w.cur (d + 1) j) { onEmpty w l.key.hash w.cur (d + 1) j with cur := c2, cache := (onEmpty w l.key.hash w.cur (d + 1) j).cache.putStaleLeaf none }
      l.key.hash (d + 1 + j) .empty (sepT hs w.cache.version o l (d + 1 + j)) none :=
    Step.local hkl (by rw [atT_empty]; rfl)
  have hg0 : GRep (onEmpty w l.key.hash w.cur (d + 1) j).cache.get (m + 1) (nibs l.key.hash (d + 1 + j)) c2 (sepT hs w.cache.version o l (d + 1 + j)) := by
    rw [GRep_succ]; exact hrep2
  have hdropne : o.key.hash.drop (4 * (d + 1 + j)) ≠ l.key.hash.drop (4 * (d + 1 + j)) := by
    rw [e1, e2, List.drop_append_of_le_length hE, List.drop_append_of_le_length hE]
    intro h
    have := List.append_cancel_left h
    simp at this
  obtain ⟨w2, g1, g2, g3, g4⟩ := chain_spec hs w o l w.cur d hK hO hne j (m + 1)
    { onEmpty w l.key.hash w.cur (d + 1) j with cur := c2, cache := (onEmpty w l.key.hash w.cur (d + 1) j).cache.putStaleLeaf none } hm
    (fun e h1 h2 => (prefix_common e1 e2 e (by omega)).symm) hdropne hst0 hg0
  have hlen2 : (o.key.hash.drop (4 * (d + 1))).length = (l.key.hash.drop (4 * (d + 1))).length := by simp [hK, hO]
  have hint := splitT_int hs w.cache.version o l _ _ hlen2 g4
  have := Step.ascend hs (w0 := w) (w1 := onEmpty w l.key.hash w.cur (d + 1) 0) (w1' := w2) (t := t) (n := n) (c := w.cur) (x := x)
    (by omega) rfl g2 (Or.inr ⟨rfl, ht⟩) rfl (Or.inr rfl) rfl hpath rfl hsv hx rr (by rw [show n = m + 1 + j by omega]; exact g3) hint.1 hint.2
  obtain ⟨w3, f1, f2, f3⟩ := this
  refine ⟨w3, ?_, f2, f3⟩
  refine g1.trans ?_
  rw [ascendLoop, f1, Option.bind_some]

/-! ## insertion -/

/-- every leaf lies on the path of its key -/
def Placed (pre : List Bool) (t : T) : Prop := ∀ p o, atT t p = .leaf o → pre ++ p <+: o.key.hash ∧ o.key.hash.length = 256

theorem Placed.sub {pre t} (h : Placed pre t) (p : List Bool) : Placed (pre ++ p) (atT t p) := by
  intro q o hq
  have := h (p ++ q) o (by rw [atT_append]; exact hq)
  rw [List.append_assoc]; exact this

theorem take_bitsAt (key : Hash) (d : Nat) : key.take (4 * d) ++ bitsAt key d = key.take (4 * (d + 1)) := by
  unfold bitsAt
  rw [show 4 * (d + 1) = 4 * d + 4 by omega, List.take_add]

theorem insert_claim (hs : Hasher) (l : LeafChild) (hK : l.key.hash.length = 256) : ∀ (n d : Nat) (w : Walker) (t : T), d + n = 64 →
    l.key.version = w.cache.version → w.path = nibs l.key.hash d → w.staleVersion = nodeVersion w.cur → t.isLeaf = false →
    Placed (l.key.hash.take (4 * d)) t → GRep w.cache.get n (nibs l.key.hash d) w.cur t →
    ∃ w' stl, treeInsert hs n w l = ascendLoop hs d w' ∧
      Step w w' l.key.hash d t (insN hs w.cache.version l (l.key.hash.drop (4 * d)) t) stl ∧
      GRep w'.cache.get n (nibs l.key.hash d) w'.cur (insN hs w.cache.version l (l.key.hash.drop (4 * d)) t) ∧
      (∀ lk, stl = some lk ↔ ∃ o, findN (l.key.hash.drop (4 * d)) t = some o ∧ o.key.hash = l.key.hash ∧ o.key = lk)
  | 0, d, w, t, _, _, _, _, _, _, hg => absurd hg GRep_zero
  | n + 1, d, w, t, hd, hv, hpath, hsv, hl, hpl, hg => by
    have hk : 4 * d + 4 ≤ l.key.hash.length := by omega
    have hr := GRep_succ.1 hg
    have hwd : w.path.length = d := by rw [hpath, nibs_length]
    have hdep : w.depth = d := hwd
    have hbne : bitsAt l.key.hash d ≠ [] := by
      intro h; have := bitsAt_length hk; rw [h] at this; simp at this
    have hzp := zipN_path (bitsAt l.key.hash d) t
    have hzs := zipN_sub (bitsAt l.key.hash d) t
    have hfind := findN_zip hbne (l.key.hash.drop (4 * (d + 1))) t
    rw [← drop_bitsAt] at hfind
    rw [treeInsert, hdep, if_pos (by simp [MAX_NIBBLES]; omega)]
    have hplace : ∀ o, (zipN (bitsAt l.key.hash d) t).2.1 = .leaf o →
        ∃ ro, o.key.hash = l.key.hash.take (4 * d + (zipN (bitsAt l.key.hash d) t).1.length) ++ ro ∧
          o.key.hash.length = l.key.hash.length := by
      intro o ho
      obtain ⟨⟨ro, h1⟩, h2⟩ := hpl (pathOf (zipN (bitsAt l.key.hash d) t).1) o (by rw [hzs]; exact ho)
      refine ⟨ro, ?_, by omega⟩
      rw [← h1]
      congr 1
      rw [List.take_add]
      congr 1
      have h3 : l.key.hash.drop (4 * d) = pathOf (zipN (bitsAt l.key.hash d) t).1 ++ ((zipN (bitsAt l.key.hash d) t).2.2 ++ l.key.hash.drop (4 * (d + 1))) := by
        rw [← List.append_assoc, hzp, ← drop_bitsAt]
      rw [h3, ← pathOf_length, List.take_left']; rfl
    obtain ⟨c', res, e, hcase⟩ := nodeInsert_spec hs (cur := w.cache.version) hr hl hk (Or.inl hv) hplace
    rw [e]
    simp only [Option.bind_some]
    rcases hcase with ⟨hi, hc, hres⟩ | ⟨hi, hrep, st, hres, hst⟩ | ⟨o, x, ho, hne, hres, hcm, hx, rr, hc0, hins⟩
    · -- descend
      subst hc
      rw [hres]
      simp only
      have hrest := zipN_int _ t hi hbne
      obtain ⟨w1, w2, w3⟩ := walkN_spec (getNibble l.key.hash d) t hr hl
      rw [nibBits_getNibble hk] at w1 w2
      rw [hrest] at w1 w2 hzp
      simp only [List.length_nil, List.append_nil] at w1 w2 hzp
      rw [hzp] at w2
      have hlink := w2.2 hi
      obtain ⟨_, c1, hget, hg1⟩ := Link_iff.1 hlink
      have hq : nibs l.key.hash d ++ [val (bitsAt l.key.hash d)] = nibs l.key.hash (d + 1) := by rw [nibs_succ]; rfl
      rw [hq] at hget hg1
      have hn : n ≠ 0 := by rintro rfl; exact GRep_zero hg1
      have hat : atT t (bitsAt l.key.hash d) = (zipN (bitsAt l.key.hash d) t).2.1 := by rw [← hzs, hzp]
      generalize ht1 : (zipN (bitsAt l.key.hash d) t).2.1 = t1 at *
      have hdesc : ({ w with cur := w.cur } : Walker).descend l.key.hash t1.ver = some
          { w with stack := w.cur :: w.stack, path := nibs l.key.hash (d + 1), cur := c1, staleVersion := nodeVersion c1 } := by
        unfold Walker.descend
        simp only [hwd]
        rw [if_pos (by simp [MAX_NIBBLES]; omega), hpath, ← nibs_succ, hget]
        rfl
      rw [hdesc]
      simp only [Option.bind_some]
      have hv1 : nodeVersion c1 = t1.ver := by
        obtain ⟨n, rfl⟩ : ∃ m, n = m + 1 := ⟨n - 1, by omega⟩
        have := (GRep_succ.1 hg1).tag
        unfold nodeVersion
        rw [show c1 0 = t1.tag from this]
        cases t1 with
        | int _ _ _ _ => rfl
        | empty => rfl
        | leaf _ => rfl
      have hpl1 := hpl.sub (bitsAt l.key.hash d)
      rw [take_bitsAt, hat] at hpl1
      have ih := insert_claim hs l hK n (d + 1)
        { w with stack := w.cur :: w.stack, path := nibs l.key.hash (d + 1), cur := c1, staleVersion := nodeVersion c1 } t1
        (by omega) hv rfl rfl (by cases t1 <;> first | rfl | simp [T.isInt] at hi) hpl1 hg1
      obtain ⟨w', stl, i1, i2, i3, i4⟩ := ih
      have hR : (insN hs w.cache.version l (l.key.hash.drop (4 * (d + 1))) t1).isInt = true ∧
          (insN hs w.cache.version l (l.key.hash.drop (4 * (d + 1))) t1).ver = w.cache.version := by
        cases hdk : l.key.hash.drop (4 * (d + 1)) with
        | nil => have := congrArg List.length hdk; simp at this; omega
        | cons b bs => exact ⟨node_isInt _ _ _ _ _, node_ver _ _ _ _ _⟩
      have := Step.ascend hs (w0 := w) (w1 := { w with stack := w.cur :: w.stack, path := nibs l.key.hash (d + 1), cur := c1, staleVersion := nodeVersion c1 })
        (w1' := w') (t := t) (c := w.cur) (n := n) (x := (zipN (bitsAt l.key.hash d) t).1) hk rfl i2
        (Or.inl hat.symm) hv1 (Or.inl hi) rfl hpath rfl hsv hzp w1 i3 hR.1 hR.2
      obtain ⟨w2', f1, f2, f3⟩ := this
      have hins : plug hs w.cache.version (zipN (bitsAt l.key.hash d) t).1 (insN hs w.cache.version l (l.key.hash.drop (4 * (d + 1))) t1) =
          insN hs w.cache.version l (l.key.hash.drop (4 * d)) t := by
        rw [drop_bitsAt l.key.hash d, insN_zip hs _ l hbne, hrest, ht1, List.nil_append]
        congr 1
        cases hdk : l.key.hash.drop (4 * (d + 1)) with
        | nil => have := congrArg List.length hdk; simp at this; omega
        | cons b bs =>
          cases t1 with
          | int h v a c => rfl
          | empty => simp [T.isInt] at hi
          | leaf _ => simp [T.isInt] at hi
      rw [hins] at f2 f3
      refine ⟨w2', stl, ?_, f2, f3, ?_⟩
      · rw [i1, ascendLoop, f1, Option.bind_some]
      · intro lk
        rw [i4, hfind, hrest, List.nil_append]
        have : findT (l.key.hash.drop (4 * (d + 1))) t1 = findN (l.key.hash.drop (4 * (d + 1))) t1 := by
          cases hdk : l.key.hash.drop (4 * (d + 1)) with
          | nil => have := congrArg List.length hdk; simp at this; omega
          | cons b bs =>
            cases t1 with
            | int h v a c => rfl
            | empty => simp [T.isInt] at hi
            | leaf _ => simp [T.isInt] at hi
        rw [this]
    · -- complete
      rw [hres]
      simp only
      have hni := nodeAt_nonint hk hi
      refine ⟨{ w with cur := c', cache := w.cache.putStaleLeaf st }, st, ?_, Step.local hk hni, ?_, ?_⟩
      · show ascendLoop hs w.path.length _ = _
        rw [hwd]
      · rw [GRep_succ]
        have : (w.cache.putStaleLeaf st).get = w.cache.get := by
          funext v q; cases st <;> rfl
        show Rep c' (Link (w.cache.putStaleLeaf st).get n _) 4 [] _
        rw [this]; exact hrep
      · intro lk
        rw [hst, hfind]
        constructor
        · rintro ⟨o, h1, h2, h3⟩
          refine ⟨o, ?_, h2, h3⟩
          rw [h1]; cases ((zipN (bitsAt l.key.hash d) t).2.2 ++ l.key.hash.drop (4 * (d + 1))) <;> rfl
        · rintro ⟨o, h1, h2, h3⟩
          refine ⟨o, ?_, h2, h3⟩
          generalize (zipN (bitsAt l.key.hash d) t).2.1 = t1 at h1 hi
          cases t1 with
          | int _ _ _ _ => simp [T.isInt] at hi
          | empty => cases hq : ((zipN (bitsAt l.key.hash d) t).2.2 ++ l.key.hash.drop (4 * (d + 1))) <;> rw [hq] at h1 <;> simp [findT] at h1
          | leaf o' =>
            cases hq : ((zipN (bitsAt l.key.hash d) t).2.2 ++ l.key.hash.drop (4 * (d + 1))) <;> rw [hq] at h1 <;> simp [findT] at h1 <;> rw [h1]
    · -- collision
      rw [hres]
      simp only
      have hi : (zipN (bitsAt l.key.hash d) t).2.1.isInt = false := by rw [ho]; rfl
      have hni := nodeAt_nonint hk hi
      have hO : o.key.hash.length = 256 := by obtain ⟨ro, _, h⟩ := hplace o ho; omega
      have hsv' : w.staleVersion = nodeVersion c' := by rw [hsv]; unfold nodeVersion; rw [hc0]
      obtain ⟨w', g1, g2, g3⟩ := collision_spec hs (w := { w with cur := c' }) (t := t) hd hK hO hne hv hpath hsv' hcm hx rr hni
      have : plug hs w.cache.version x (sepT hs w.cache.version o l (d + 1)) = insN hs w.cache.version l (l.key.hash.drop (4 * d)) t := hins.symm
      have g2' := g2
      rw [show ({ w with cur := c' } : Walker).cache.version = w.cache.version from rfl, this] at g2 g3
      refine ⟨w', none, g1, ?_, g3, ?_⟩
      · exact ⟨g2.stack, g2.path, g2.sv, g2.same, g2.nodes_new, g2.stale, g2.leaf⟩
      · intro lk
        constructor
        · intro h; simp at h
        · rintro ⟨o', h1, h2, _⟩
          rw [hfind, ho] at h1
          have : o = o' := by
            cases hq : ((zipN (bitsAt l.key.hash d) t).2.2 ++ l.key.hash.drop (4 * (d + 1))) <;> rw [hq] at h1 <;> simpa [findT] using h1
          subst this
          exact absurd h2 hne

end Verif.Smt
