import Verif.Smt.Sem
/-!
# A batch of updates on the cache
-/
set_option linter.unusedVariables false
set_option linter.unusedSimpArgs false
namespace Verif.Smt

/-- well-formed whole tree -/
def RWF (hs : Hasher) (t : T) : Prop :=
  t = .empty ∨ ∃ h v a b, t = .int h v a b ∧ WF hs [false] a ∧ WF hs [true] b ∧
    h = (if a.isEmpty && b.isEmpty then hs.placeholder else hs.parent (a.hash hs) (b.hash hs))

theorem RWF.child {hs t} (w : RWF hs t) (b : Bool) : WF hs [b] (t.child b) := by
  rcases w with rfl | ⟨h, v, x, y, rfl, h1, h2, _⟩
  · cases b <;> trivial
  · cases b
    · exact h1
    · exact h2

theorem RWF.notLeaf {hs t} (w : RWF hs t) : t.isLeaf = false := by
  rcases w with rfl | ⟨h, v, x, y, rfl, _⟩ <;> rfl

theorem RWF.placed {hs t} (w : RWF hs t) : Placed [] t := by
  intro p o e
  cases p with
  | nil =>
    have : t = .leaf o := e
    have h := w.notLeaf
    rw [this] at h; simp [T.isLeaf] at h
  | cons b p =>
    have := (w.child b).placed p o e
    simpa using this

theorem WF.at {hs} : ∀ {p : List Bool} {pre t}, WF hs pre t → WF hs (pre ++ p) (atT t p)
  | [], pre, t, h => by rw [List.append_nil]; exact h
  | b :: p, pre, t, h => by
    cases t with
    | empty => rw [atT_empty]; trivial
    | leaf _ => rw [atT_nonint rfl]; trivial
    | int x y z w =>
      have := WF.at (p := p) (h.child b)
      rw [List.append_assoc] at this; exact this

theorem RWF.len_lt {hs t p} (w : RWF hs t) (hi : (atT t p).isInt = true) : p.length < 256 := by
  cases p with
  | nil => simp
  | cons b p => exact (WF.at (p := p) (w.child b)).len_lt hi

/-- what one operation on `key` does to the whole tree -/
structure OpT (hs : Hasher) (v : Ver) (key : Hash) (t R : T) (new : Option LeafChild) : Prop where
  rwf : RWF hs R
  vb : VB v R
  int : R.isInt = true
  ver : R.ver = v
  off : ∀ p, ¬ p <+: key → ((atT t p).isInt = true ∨ (atT R p).isInt = true) → atT R p = atT t p
  on : ∀ p, p <+: key → (atT R p).isInt = true → (atT R p).ver = v
  mem : ∀ x, InT x R ↔ new = some x ∨ (InT x t ∧ x.key.hash ≠ key)

theorem InT_children {t : T} (h : t.isLeaf = false) (b : Bool) (x) : InT x t ↔ InT x (t.child (!b)) ∨ InT x (t.child b) := by
  cases t with
  | empty => cases b <;> simp [T.child, InT_empty]
  | leaf _ => simp [T.isLeaf] at h
  | int p q r s =>
    rw [InT_int]; cases b
    · exact or_comm
    · exact Iff.rfl

theorem RWF.off {hs t b bs x} (w : RWF hs t) (h : InT x (t.child (!b))) : x.key.hash ≠ b :: bs := by
  intro he
  obtain ⟨⟨y, hy⟩, _⟩ := (w.child (!b)).InT_prefix h
  rw [he] at hy
  cases b <;> simp at hy

theorem atT_off {t : T} {b x : Bool} {p : List Bool} (hx : x ≠ b) : atT t (x :: p) = atT (t.child (!b)) p := by
  have : x = !b := by cases b <;> cases x <;> simp at hx ⊢
  subst this; rfl

theorem RWF.node {hs v b s t} (hne : ¬ (s.isEmpty && t.isEmpty) = true) (h1 : WF hs [!b] s) (h2 : WF hs [b] t) : RWF hs (Verif.Smt.node hs v b s t) := by
  right
  cases b
  · exact ⟨_, v, t, s, rfl, h2, h1, by rw [if_neg (by rw [Bool.and_comm]; exact hne)]⟩
  · exact ⟨_, v, s, t, rfl, h1, h2, by rw [if_neg hne]⟩

theorem insN_op {hs : Hasher} {v : Ver} {l : LeafChild} {t : T} (hK : l.key.hash.length = 256) (hv : 1 ≤ v) (hlv : l.key.version = v)
    (w : RWF hs t) (vb : VB v t) : OpT hs v l.key.hash t (insN hs v l l.key.hash t) (some l) := by
  cases hk : l.key.hash with
  | nil => rw [hk] at hK; simp at hK
  | cons b bs =>
    obtain ⟨h1, h2, h3, h4⟩ := insT_wf (hs := hs) (v := v) hK (t.child b) bs [b] hk (w.child b)
    have hints := fun p => insT_ints (hs := hs) (v := v) (l := l) (t.child b) bs p
      (fun hi => by
        have := (w.child b).len_lt hi
        rintro rfl
        rw [hk] at hK; simp at hK)
      (fun x y hxy hi => by
        have := (WF.at (p := x) (w.child b)).len_lt hi
        rintro rfl
        rw [hk, hxy] at hK; simp at hK this; omega)
    refine ⟨?_, ?_, ?_, ?_, ?_, ?_, ?_⟩
    · exact RWF.node (by rw [h2]; simp) (w.child (!b)) h1
    · exact VB.node hv (vb.child (!b)) (VB.insT hv ⟨by rw [hlv]; exact hv, by rw [hlv]; exact Nat.le_refl _⟩ _ _ (vb.child b))
    · exact node_isInt _ _ _ _ _
    · exact node_ver _ _ _ _ _
    · intro p hn hh
      cases p with
      | nil => exact absurd List.nil_prefix hn
      | cons x p =>
        by_cases hx : x = b
        · subst hx
          have e : atT (insN hs v l (x :: bs) t) (x :: p) = atT (insT hs v l bs (t.child x)) p := atT_node_on
          rw [e] at hh ⊢
          exact (hints p).1 (fun hp => hn (List.cons_prefix_cons.2 ⟨rfl, hp⟩)) hh
        · have e : atT (insN hs v l (b :: bs) t) (x :: p) = atT (t.child (!b)) p := atT_node_off hx
          rw [e, atT_off hx]
    · intro p hp hi
      cases p with
      | nil => exact node_ver _ _ _ _ _
      | cons x p =>
        obtain ⟨hx, hp'⟩ := List.cons_prefix_cons.1 hp
        subst hx
        have e : atT (insN hs v l (x :: bs) t) (x :: p) = atT (insT hs v l bs (t.child x)) p := atT_node_on
        rw [e] at hi ⊢
        exact (hints p).2 hp' hi
    · intro x
      have e : insN hs v l (b :: bs) t = node hs v b (t.child (!b)) (insT hs v l bs (t.child b)) := rfl
      rw [e, InT_node, h4, InT_children w.notLeaf b, hk]
      constructor
      · rintro (h | h | ⟨h, h'⟩)
        · exact Or.inr ⟨Or.inl h, w.off h⟩
        · exact Or.inl (by rw [h])
        · exact Or.inr ⟨Or.inr h, h'⟩
      · rintro (h | ⟨h | h, h'⟩)
        · exact Or.inr (Or.inl (by simpa using h.symm))
        · exact Or.inl h
        · exact Or.inr (Or.inr ⟨h, h'⟩)

theorem remN_op {hs : Hasher} {v : Ver} {key : Hash} {t : T} {o : LeafChild} (hv : 1 ≤ v) (w : RWF hs t) (vb : VB v t)
    (hf : findN key t = some o) (ho : o.key.hash = key) : OpT hs v key t (remN hs v key t) none := by
  cases hk : key with
  | nil => rw [hk] at hf; simp [findN] at hf
  | cons b bs =>
    rw [hk] at hf ho
    have hf' : findT bs (t.child b) = some o := hf
    have hin := fun x => remT_in (hs := hs) (v := v) (key := b :: bs) (t.child b) bs [b] o rfl (w.child b) hf' ho x
    have hints := fun p => remT_ints (hs := hs) (v := v) (t.child b) bs p o hf'
    have hwr := (w.child b).remT (v := v) (bs := bs)
    have hmem : ∀ x, (InT x (t.child (!b)) ∨ InT x (remT hs v bs (t.child b))) ↔ ((none : Option LeafChild) = some x ∨ (InT x t ∧ x.key.hash ≠ b :: bs)) := by
      intro x
      rw [hin, InT_children w.notLeaf b]
      constructor
      · rintro (h | ⟨h, h'⟩)
        · exact Or.inr ⟨Or.inl h, w.off h⟩
        · exact Or.inr ⟨Or.inr h, h'⟩
      · rintro (h | ⟨h | h, h'⟩)
        · simp at h
        · exact Or.inl h
        · exact Or.inr ⟨h, h'⟩
    by_cases he : ((t.child (!b)).isEmpty && (remT hs v bs (t.child b)).isEmpty) = true
    · have e : remN hs v (b :: bs) t = .int hs.placeholder v .empty .empty := by
        show (if _ then _ else _) = _; rw [if_pos he]
      simp only [Bool.and_eq_true, isEmpty_iff] at he
      rw [e]
      have hcb : (t.child b).isInt = false := by
        cases h : (t.child b).isInt with
        | false => rfl
        | true => exact absurd he.2 (remT_nonempty hs (w.child b).shaped h)
      refine ⟨Or.inr ⟨_, _, _, _, rfl, trivial, trivial, rfl⟩, ⟨hv, Nat.le_refl _, trivial, trivial⟩, rfl, rfl, ?_, ?_, ?_⟩
      · intro p hn hh
        exfalso
        cases p with
        | nil => exact hn List.nil_prefix
        | cons x p =>
          rcases hh with hh | hh
          · by_cases hx : x = b
            · subst hx
              have : (atT (t.child x) p).isInt = true := hh
              rw [atT_nonint' hcb] at this; simp at this
            · rw [atT_off hx, he.1, atT_empty] at hh; simp [T.isInt] at hh
          · have : atT (T.int hs.placeholder v .empty .empty) (x :: p) = .empty := by
              cases x <;> exact atT_empty p
            rw [this] at hh; simp [T.isInt] at hh
      · intro p hp hi
        cases p with
        | nil => rfl
        | cons x p =>
          have : atT (T.int hs.placeholder v .empty .empty) (x :: p) = .empty := by
            cases x <;> exact atT_empty p
          rw [this] at hi; simp [T.isInt] at hi
      · intro x
        rw [← hmem, InT_int, he.1, he.2]
    · have e : remN hs v (b :: bs) t = node hs v b (t.child (!b)) (remT hs v bs (t.child b)) := by
        show (if _ then _ else _) = _; rw [if_neg he]
      rw [e]
      refine ⟨RWF.node he (w.child (!b)) hwr, VB.node hv (vb.child _) (VB.remT hv _ _ (vb.child b)), node_isInt _ _ _ _ _, node_ver _ _ _ _ _, ?_, ?_, ?_⟩
      · intro p hn hh
        cases p with
        | nil => exact absurd List.nil_prefix hn
        | cons x p =>
          by_cases hx : x = b
          · subst hx
            rw [atT_node_on] at hh ⊢
            exact (hints p).1 (fun hp => hn (List.cons_prefix_cons.2 ⟨rfl, hp⟩)) hh
          · rw [atT_node_off hx, atT_off hx]
      · intro p hp hi
        cases p with
        | nil => exact node_ver _ _ _ _ _
        | cons x p =>
          obtain ⟨hx, hp'⟩ := List.cons_prefix_cons.1 hp
          subst hx
          rw [atT_node_on] at hi ⊢
          exact (hints p).2 hp' hi
      · intro x; rw [InT_node, hmem]

/-! ## node keys -/

/-- the key of a stored node of `t` -/
def K (t : T) (u : Ver) (q : Path) : Prop :=
  ∃ p : List Bool, p.length = 4 * q.length ∧ nibs p q.length = q ∧ (atT t p).isInt = true ∧ (atT t p).ver = u

theorem getNibble_take {k : Hash} {i j : Nat} (h : i < j) : getNibble (k.take (4 * j)) i = getNibble k i := by
  unfold getNibble
  rw [List.drop_take, List.take_take, Nat.min_eq_left (by omega)]

theorem nibs_take (k : Hash) (j : Nat) : nibs (k.take (4 * j)) j = nibs k j := by
  unfold nibs
  refine List.map_congr_left (fun i hi => ?_)
  exact getNibble_take (List.mem_range.1 hi)

theorem nibs_take_le (k : Hash) {j m : Nat} (h : j ≤ m) : nibs (k.take (4 * m)) j = nibs k j := by
  unfold nibs
  refine List.map_congr_left (fun i hi => ?_)
  have := List.mem_range.1 hi
  exact getNibble_take (by omega)

theorem nibs_inj : ∀ {j : Nat} {p p' : List Bool}, p.length = 4 * j → p'.length = 4 * j → nibs p j = nibs p' j → p = p'
  | 0, p, p', h, h', _ => by
    exact (List.length_eq_zero_iff.1 (show p.length = 0 by simpa using h)).trans (List.length_eq_zero_iff.1 (show p'.length = 0 by simpa using h')).symm
  | j + 1, p, p', h, h', e => by
    rw [nibs_succ, nibs_succ] at e
    obtain ⟨e1, e2⟩ := List.append_inj' e rfl
    have e1' : nibs (p.take (4 * j)) j = nibs (p'.take (4 * j)) j := by rw [nibs_take, nibs_take]; exact e1
    have h1 := nibs_inj (by rw [List.length_take]; omega) (by rw [List.length_take]; omega) e1'
    have h2 : bitsAt p j = bitsAt p' j := by
      refine val_inj (bitsAt_length (by omega)) (bitsAt_length (by omega)) ?_
      have : getNibble p j = getNibble p' j := by simpa using e2
      exact this
    rw [← List.take_append_drop (4 * j) p, ← List.take_append_drop (4 * j) p', h1]
    congr 1
    unfold bitsAt at h2
    rw [List.take_of_length_le (by rw [List.length_drop]; omega), List.take_of_length_le (by rw [List.length_drop]; omega)] at h2
    exact h2

theorem prefix_iff_nibs {p key : List Bool} {j : Nat} (hp : p.length = 4 * j) (hk : 4 * j ≤ key.length) : p <+: key ↔ nibs p j = nibs key j := by
  constructor
  · intro h
    have := List.prefix_iff_eq_take.1 h
    rw [this, hp, nibs_take]
  · intro h
    have : p = key.take (4 * j) := nibs_inj hp (by rw [List.length_take]; omega) (by rw [nibs_take]; exact h)
    rw [this]; exact List.take_prefix _ _

/-- the key of a stored leaf of `t` -/
def LK (t : T) (lk : LeafKey) : Prop := ∃ o, InT o t ∧ o.key = lk

theorem RWF.unique {hs t o o'} (w : RWF hs t) (h : InT o t) (h' : InT o' t) (e : o.key.hash = o'.key.hash) : o = o' := by
  have hl := (w.placed.of_InT h).2
  cases hk : o.key.hash with
  | nil => rw [hk] at hl; simp at hl
  | cons b bs =>
    have hi : ∀ x, InT x t → x.key.hash = b :: bs → InT x (t.child b) := by
      intro x hx hxe
      rcases (InT_children w.notLeaf b x).1 hx with h | h
      · exact absurd hxe (w.off h)
      · exact h
    have f1 := (findT_iff (hs := hs) (key := b :: bs) (t.child b) bs [b] o rfl (w.child b) hk).2 (hi o h hk)
    have f2 := (findT_iff (hs := hs) (key := b :: bs) (t.child b) bs [b] o' rfl (w.child b) (e.symm.trans hk)).2 (hi o' h' (e.symm.trans hk))
    rw [f1] at f2; simpa using f2

theorem findN_iff {hs : Hasher} {key t o} (w : RWF hs t) (hk : key ≠ []) (ho : o.key.hash = key) : findN key t = some o ↔ InT o t := by
  cases key with
  | nil => exact absurd rfl hk
  | cons b bs =>
    have := findT_iff (hs := hs) (key := b :: bs) (t.child b) bs [b] o rfl (w.child b) ho
    show findT bs (t.child b) = some o ↔ _
    rw [this, InT_children w.notLeaf b]
    constructor
    · exact Or.inr
    · rintro (h | h)
      · exact absurd ho (w.off h)
      · exact h

/-- invariant of the cache during a batch: `t0` at the start, `t` now, `ins` the key hashes inserted so far -/
structure BInv (hs : Hasher) (k : Cache) (t0 t : T) (ins : List Hash) : Prop where
  rep : GRep k.get 64 [] k.getRoot t
  rwf : RWF hs t
  vb : VB k.version t
  v1 : 1 ≤ k.version
  k0 : ∀ u q, K t u q → u ≠ k.version → K t0 u q
  cache : ∀ q, k.nodes q ≠ none → K t k.version q
  stale : ∀ u q, (u, q) ∈ k.staleInternal ↔ K t0 u q ∧ ¬ K t u q
  l0 : ∀ lk, LK t lk → lk.version ≠ k.version → LK t0 lk
  lins : ∀ o, InT o t → o.key.version = k.version → o.key.hash ∈ ins
  sleaf : ∀ lk, lk ∈ k.staleLeaf ↔ LK t0 lk ∧ ¬ LK t lk
  changed : (t = t0 ∧ k.nodes = fun _ => none) ∨ (k.nodes [] ≠ none ∧ t.isInt = true ∧ t.ver = k.version)

theorem BInv.op {hs : Hasher} {k k' : Cache} {t0 t R : T} {ins : List Hash} {key : Hash} {stl : Option LeafKey} {new : Option LeafChild}
    (h : BInv hs k t0 t ins) (h0 : VB (k.version - 1) t0) (hK : key.length = 256) (hd : Done k k' key t R stl) (ho : OpT hs k.version key t R new)
    (hstl : ∀ lk, stl = some lk ↔ ∃ o, InT o t ∧ o.key.hash = key ∧ o.key = lk) (hfresh : key ∉ ins)
    (hnew : ∀ x, new = some x → x.key = ⟨key, k.version⟩) :
    BInv hs k' t0 R (if new.isSome then key :: ins else ins) := by
  have h0K : ∀ u q, K t0 u q → u ≠ k.version ∧ u ≠ 0 := by
    rintro u q ⟨p, _, _, h1, h2⟩
    have hv := (h0.at p).ver h1
    have h3 := h.v1
    rw [h2] at hv
    generalize k.version = w at *
    exact ⟨fun e => by subst e; have := hv.2; exact absurd h3 (by revert hv; intro hv; have := hv.2; simp only [Ver] at *; omega), fun e => by subst e; exact absurd hv.1 (by simp)⟩
  have h0L : ∀ lk, LK t0 lk → lk.version ≠ k.version := by
    rintro lk ⟨o, h1, rfl⟩
    have h2 := h0.leafver h1
    have h3 := h.v1
    intro e
    rw [e] at h2
    generalize k.version = w at *
    have h4 := h2.2
    simp only [Ver] at *
    omega
  -- a path place
  have hon : ∀ {x : T} {p : List Bool} {q : Path}, RWF hs x → p.length = 4 * q.length → nibs p q.length = q → (atT x p).isInt = true →
      (p <+: key ↔ ∃ j, q = nibs key j ∧ p = key.take (4 * j)) := by
    intro x p q hx hp hq hi
    have hlt := hx.len_lt hi
    rw [prefix_iff_nibs hp (by omega)]
    constructor
    · intro e
      refine ⟨q.length, hq.symm.trans e, ?_⟩
      exact nibs_inj hp (by rw [List.length_take]; omega) (by rw [nibs_take]; exact e)
    · rintro ⟨j, h1, h2⟩
      have : q.length = j := by rw [h1, nibs_length]
      rw [hq, this, ← h1]
  have hKon : ∀ {x : T} {j}, RWF hs x → (nodeAt x key j).isInt = true → K x (nodeAt x key j).ver (nibs key j) := by
    intro x j hx hi
    refine ⟨key.take (4 * j), ?_, ?_, hi, rfl⟩
    · have := hx.len_lt hi
      rw [List.length_take] at this ⊢
      rw [nibs_length]; omega
    · rw [nibs_length, nibs_take]
  have hKR : ∀ u q, u ≠ k.version → K R u q → K t u q := by
    rintro u q hu ⟨p, h1, h2, h3, h4⟩
    have hnp : ¬ p <+: key := fun hp => hu (h4.symm.trans (ho.on p hp h3))
    have := ho.off p hnp (Or.inr h3)
    rw [this] at h3 h4
    exact ⟨p, h1, h2, h3, h4⟩
  have hKt : ∀ u q, K t u q → (∀ j, q = nibs key j → (nodeAt t key j).isInt = true → (nodeAt t key j).ver = u → False) → K R u q := by
    rintro u q ⟨p, h1, h2, h3, h4⟩ hno
    have hnp : ¬ p <+: key := by
      intro hp
      obtain ⟨j, e1, e2⟩ := (hon h.rwf h1 h2 h3).1 hp
      subst e2
      exact hno j e1 h3 h4
    have := ho.off p hnp (Or.inl h3)
    rw [← this] at h3 h4
    exact ⟨p, h1, h2, h3, h4⟩
  have hLR : ∀ lk, LK R lk ↔ (new.map (·.key) = some lk) ∨ (LK t lk ∧ lk.hash ≠ key) := by
    intro lk
    constructor
    · rintro ⟨o, h1, rfl⟩
      rcases (ho.mem o).1 h1 with h1 | ⟨h1, h2⟩
      · exact Or.inl (by rw [h1]; rfl)
      · exact Or.inr ⟨⟨o, h1, rfl⟩, h2⟩
    · rintro (h1 | ⟨⟨o, h1, rfl⟩, h2⟩)
      · cases hn : new with
        | none => rw [hn] at h1; simp at h1
        | some x => rw [hn] at h1; exact ⟨x, (ho.mem x).2 (Or.inl hn), by simpa using h1⟩
      · exact ⟨o, (ho.mem o).2 (Or.inr ⟨h1, h2⟩), rfl⟩
  have hnewv : ∀ lk, new.map (·.key) = some lk → lk = ⟨key, k.version⟩ := by
    intro lk h1
    cases hn : new with
    | none => rw [hn] at h1; simp at h1
    | some x => rw [hn] at h1; have := hnew x hn; simp at h1; rw [← h1]; exact this
  have hstl' : ∀ lk, stl = some lk ↔ LK t lk ∧ lk.hash = key := by
    intro lk
    rw [hstl]
    constructor
    · rintro ⟨o, h1, h2, rfl⟩; exact ⟨⟨o, h1, rfl⟩, h2⟩
    · rintro ⟨⟨o, h1, rfl⟩, h2⟩; exact ⟨o, h1, h2, rfl⟩
  have hov : ∀ lk, LK t lk → lk.hash = key → lk.version ≠ k.version := by
    rintro lk ⟨o, h1, rfl⟩ h2 h3
    exact hfresh (h2 ▸ h.lins o h1 h3)
  refine ⟨hd.rep, ho.rwf, by rw [hd.version]; exact ho.vb, by rw [hd.version]; exact h.v1, ?_, ?_, ?_, ?_, ?_, ?_, ?_⟩
  · intro u q hk hu
    rw [hd.version] at hu
    exact h.k0 u q (hKR u q hu hk) hu
  · intro q hq
    rw [hd.version]
    rcases hd.nodes_new q hq with ⟨h1, h2⟩ | ⟨j, h1, h2⟩
    · refine hKt _ q (h.cache q h1) (fun j e1 e2 _ => ?_)
      rw [h2 j e1] at e2; simp at e2
    · rw [h1]
      have := hKon ho.rwf h2
      have hv := ho.on (key.take (4 * j)) (List.take_prefix _ _) h2
      have hv' : (nodeAt R key j).ver = k.version := hv
      rw [hv'] at this; exact this
  · intro u q
    rw [hd.stale, h.stale]
    constructor
    · rintro (⟨h1, h2⟩ | ⟨j, h1, h2, h3, h4, h5⟩)
      · exact ⟨h1, fun h3 => h2 (hKR u q (h0K u q h1).1 h3)⟩
      · have hk := hKon h.rwf h2
        rw [h3, ← h1] at hk
        refine ⟨h.k0 u q hk h5, ?_⟩
        rintro ⟨p, e1, e2, e3, e4⟩
        have : p <+: key := (hon ho.rwf e1 e2 e3).2 ⟨j, h1, ?_⟩
        · exact h5 (e4.symm.trans (ho.on p this e3))
        · have hj : q.length = j := by rw [h1, nibs_length]
          have hlt := ho.rwf.len_lt e3
          refine nibs_inj (j := j) (by rw [e1, hj]) (by rw [List.length_take]; omega) ?_
          rw [nibs_take, ← h1, ← hj]; exact e2
    · rintro ⟨h1, h2⟩
      by_cases hk : K t u q
      · right
        by_cases hh : ∃ j, q = nibs key j ∧ (nodeAt t key j).isInt = true ∧ (nodeAt t key j).ver = u
        · obtain ⟨j, e1, e2, e3⟩ := hh
          exact ⟨j, e1, e2, e3, (h0K u q h1).2, (h0K u q h1).1⟩
        · exact absurd (hKt u q hk (fun j e1 e2 e3 => hh ⟨j, e1, e2, e3⟩)) h2
      · exact Or.inl ⟨h1, hk⟩
  · intro lk h1 h2
    rw [hd.version] at h2
    rcases (hLR lk).1 h1 with h3 | ⟨h3, _⟩
    · rw [hnewv lk h3] at h2; exact absurd rfl h2
    · exact h.l0 lk h3 h2
  · intro o h1 h2
    rw [hd.version] at h2
    rcases (ho.mem o).1 h1 with h3 | ⟨h3, _⟩
    · rw [h3]; simp only [Option.isSome_some, if_true]
      rw [hnew o h3]; exact List.mem_cons_self ..
    · have := h.lins o h3 h2
      split
      · exact List.mem_cons_of_mem _ this
      · exact this
  · intro lk
    rw [hd.leaf, List.mem_append, h.sleaf]
    have : lk ∈ stl.toList ↔ LK t lk ∧ lk.hash = key := by
      rw [← hstl', Option.mem_toList]
    rw [this, hLR]
    constructor
    · rintro (⟨h1, h2⟩ | ⟨h1, h2⟩)
      · have hv := hov lk h1 h2
        refine ⟨h.l0 lk h1 hv, ?_⟩
        rintro (h3 | ⟨_, h3⟩)
        · rw [hnewv lk h3] at hv; exact hv rfl
        · exact h3 h2
      · refine ⟨h1, ?_⟩
        rintro (h3 | ⟨h3, _⟩)
        · have := h0L lk h1; rw [hnewv lk h3] at this; exact this rfl
        · exact h2 h3
    · rintro ⟨h1, h2⟩
      by_cases hk : LK t lk
      · left
        refine ⟨hk, ?_⟩
        by_cases he : lk.hash = key
        · exact he
        · exact absurd (Or.inr ⟨hk, he⟩) h2
      · exact Or.inr ⟨h1, hk⟩
  · right
    exact ⟨hd.root, ho.int, by rw [hd.version]; exact ho.ver⟩

theorem Shaped_children {hs t} (w : RWF hs t) (b : Bool) : Shaped (t.child b) := (w.child b).shaped

/-- the deletes of a batch -/
theorem deletes_spec (hs : Hasher) (t0 : T) : ∀ (dels : List Bytes) (k : Cache) (t : T), BInv hs k t0 t [] → VB (k.version - 1) t0 →
    ∃ k' t', dels.foldlM (deleteKey hs) k = some k' ∧ BInv hs k' t0 t' [] ∧ k'.version = k.version ∧ k'.db = k.db ∧
      (∀ x, InT x t' ↔ InT x t ∧ x.key.hash ∉ dels.map hs.hash) ∧
      ((∃ kb ∈ dels, ∃ x, InT x t ∧ x.key.hash = hs.hash kb) → k'.nodes [] ≠ none) ∧ (k.nodes [] ≠ none → k'.nodes [] ≠ none)
  | [], k, t, h, h0 => ⟨k, t, rfl, h, rfl, rfl, by simp, by simp, id⟩
  | kb :: dels, k, t, h, h0 => by
    have hlen := hs.hash_len kb
    have hne : hs.hash kb ≠ [] := by intro e; rw [e] at hlen; simp at hlen
    have step : ∃ k1 t1, deleteKey hs k kb = some k1 ∧ BInv hs k1 t0 t1 [] ∧ k1.version = k.version ∧ k1.db = k.db ∧
        (∀ x, InT x t1 ↔ InT x t ∧ x.key.hash ≠ hs.hash kb) ∧ ((∃ x, InT x t ∧ x.key.hash = hs.hash kb) → k1.nodes [] ≠ none) ∧
        (k.nodes [] ≠ none → k1.nodes [] ≠ none) := by
      rcases deleteKey_spec hs (kb := kb) h.rwf.notLeaf h.rwf.placed (Shaped_children h.rwf) h.rep with ⟨o, k', h1, h2, h3, h4⟩ | ⟨h1, h2⟩
      · have hop := remN_op (v := k.version) h.v1 h.rwf h.vb h1 h2
        have := h.op (new := none) h0 hlen h4 hop (fun lk => by
          constructor
          · intro e
            have : o.key = lk := by simpa using e
            exact ⟨o, (findN_iff h.rwf hne h2).1 h1, h2, this⟩
          · rintro ⟨o', a1, a2, rfl⟩
            have := h.rwf.unique a1 ((findN_iff h.rwf hne h2).1 h1) (a2.trans h2.symm)
            rw [this]) (by simp) (by simp)
        refine ⟨k', _, h3, this, h4.version, h4.db, fun x => ?_, fun _ => h4.root, fun _ => h4.root⟩
        rw [hop.mem]; simp
      · refine ⟨k, t, h2, h, rfl, rfl, fun x => ?_, ?_, id⟩
        · constructor
          · intro hx
            exact ⟨hx, fun e => h1 x ((findN_iff h.rwf hne e).2 hx) e⟩
          · exact fun hx => hx.1
        · rintro ⟨x, hx, e⟩
          exact absurd e (h1 x ((findN_iff h.rwf hne e).2 hx))
    obtain ⟨k1, t1, s1, s2, s3, s4, s5, s6, s7⟩ := step
    obtain ⟨k', t', r1, r2, r3, r4, r5, r6, r7⟩ := deletes_spec hs t0 dels k1 t1 s2 (by rw [s3]; exact h0)
    refine ⟨k', t', ?_, r2, r3.trans s3, r4.trans s4, fun x => ?_, ?_, fun hh => r7 (s7 hh)⟩
    · rw [List.foldlM_cons, s1]; exact r1
    · rw [r5, s5, List.map_cons, List.mem_cons]
      constructor
      · rintro ⟨⟨a, b⟩, c⟩
        exact ⟨a, fun hh => hh.elim b c⟩
      · rintro ⟨a, b⟩
        exact ⟨⟨a, fun e => b (Or.inl e)⟩, fun e => b (Or.inr e)⟩
    · rintro ⟨kb', hm, x, hx, e⟩
      by_cases hc : ∃ x, InT x t ∧ x.key.hash = hs.hash kb
      · exact r7 (s6 hc)
      · rcases List.mem_cons.1 hm with rfl | hm
        · exact absurd ⟨x, hx, e⟩ hc
        · exact r6 ⟨kb', hm, x, (s5 x).2 ⟨hx, fun e' => hc ⟨x, hx, e'⟩⟩, e⟩

/-- the leaf written for a put -/
def leafOf (hs : Hasher) (v : Ver) (kv : Bytes × Bytes) : LeafChild := ⟨hs.hash kv.2, ⟨hs.hash kv.1, v⟩⟩

/-- the puts of a batch -/
theorem puts_spec (hs : Hasher) (t0 : T) : ∀ (puts : List (Bytes × Bytes)) (k : Cache) (t : T) (ins : List Hash), BInv hs k t0 t ins → VB (k.version - 1) t0 →
    ((puts.map (fun kv => hs.hash kv.1)).Nodup) → (∀ kv ∈ puts, hs.hash kv.1 ∉ ins) →
    ∃ k' t' ins', puts.foldlM (insertKey hs) k = some k' ∧ BInv hs k' t0 t' ins' ∧ k'.version = k.version ∧ k'.db = k.db ∧
      (∀ x, InT x t' ↔ (∃ kv ∈ puts, x = leafOf hs k.version kv) ∨ (InT x t ∧ x.key.hash ∉ puts.map (fun kv => hs.hash kv.1))) ∧
      (puts ≠ [] ∨ k.nodes [] ≠ none → k'.nodes [] ≠ none)
  | [], k, t, ins, h, h0, _, _ => ⟨k, t, ins, rfl, h, rfl, rfl, by simp, by simp⟩
  | kv :: puts, k, t, ins, h, h0, hnd, hfr => by
    have hlen := hs.hash_len kv.1
    have hne : hs.hash kv.1 ≠ [] := by intro e; rw [e] at hlen; simp at hlen
    obtain ⟨k1, stl, e1, hd, hst⟩ := insertKey_spec hs (kv := kv) h.rwf.notLeaf h.rwf.placed h.rep
    have hop := insN_op (hs := hs) (v := k.version) (l := leafOf hs k.version kv) (t := t) hlen h.v1 rfl h.rwf h.vb
    have hb := h.op (new := some (leafOf hs k.version kv)) h0 hlen hd hop (fun lk => by
      rw [hst]
      constructor
      · rintro ⟨o, a1, a2, a3⟩; exact ⟨o, (findN_iff h.rwf hne a2).1 a1, a2, a3⟩
      · rintro ⟨o, a1, a2, a3⟩; exact ⟨o, (findN_iff h.rwf hne a2).2 a1, a2, a3⟩) (hfr kv (List.mem_cons_self ..))
      (fun x hx => by have : leafOf hs k.version kv = x := by simpa using hx
                      rw [← this]; rfl)
    simp only [Option.isSome_some, if_true] at hb
    rw [List.map_cons, List.nodup_cons] at hnd
    obtain ⟨k', t', ins', r1, r2, r3, r4, r5, r6⟩ := puts_spec hs t0 puts k1 _ _ hb (by rw [hd.version]; exact h0) hnd.2
      (fun kv' hm => by
        rw [List.mem_cons]
        rintro (e | e)
        · exact hnd.1 (e ▸ List.mem_map.2 ⟨kv', hm, rfl⟩)
        · exact hfr kv' (List.mem_cons_of_mem _ hm) e)
    refine ⟨k', t', ins', ?_, r2, r3.trans hd.version, r4.trans hd.db, fun x => ?_, fun _ => r6 (Or.inr hd.root)⟩
    · rw [List.foldlM_cons, e1]; exact r1
    · have hmem := hop.mem x
      rw [r5, hd.version]
      have e : insN hs k.version (leafOf hs k.version kv) (leafOf hs k.version kv).key.hash t =
        insN hs k.version ⟨hs.hash kv.2, ⟨hs.hash kv.1, k.version⟩⟩ (hs.hash kv.1) t := rfl
      rw [e] at hmem
      rw [hmem, List.map_cons, List.mem_cons]
      constructor
      · rintro (⟨kv', hm, rfl⟩ | ⟨h1 | ⟨h1, h2⟩, h3⟩)
        · exact Or.inl ⟨kv', List.mem_cons_of_mem _ hm, rfl⟩
        · exact Or.inl ⟨kv, List.mem_cons_self .., by simpa using h1.symm⟩
        · exact Or.inr ⟨h1, fun hh => hh.elim h2 h3⟩
      · rintro (⟨kv', hm, rfl⟩ | ⟨h1, h2⟩)
        · rcases List.mem_cons.1 hm with rfl | hm
          · exact Or.inr ⟨Or.inl rfl, hnd.1⟩
          · exact Or.inl ⟨kv', hm, rfl⟩
        · exact Or.inr ⟨Or.inr ⟨h1, fun e => h2 (Or.inl e)⟩, fun e => h2 (Or.inr e)⟩

end Verif.Smt
