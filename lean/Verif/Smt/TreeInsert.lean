import Verif.Smt.NodeRemove
/-!
# The stored nodes together represent the trie; insertion through the walker
-/
set_option linter.unusedVariables false
set_option linter.unusedSimpArgs false
namespace Verif.Smt

def val (s : List Bool) : Nat := s.foldl (fun a b => 2 * a + b.toNat) 0

theorem val_inj {s s' : List Bool} (h : s.length = 4) (h' : s'.length = 4) (e : val s = val s') : s = s' := by
  match s, h, s', h' with
  | [a, b, c, d], _, [a', b', c', d'], _ =>
    apply ix_inj
    rw [← nib_index, ← nib_index]; exact congrArg nibbleToIndex e

mutual
/-- an internal child at level 0 is linked to a stored node that represents it -/
def Link (get : Ver → Path → Option Node) : Nat → Path → List Bool → T → Prop
  | n, q, s, t => s.length = 4 ∧ ∃ c, get t.ver (q ++ [val s]) = some c ∧ GRep get n (q ++ [val s]) c t
termination_by n _ _ _ => 2 * n + 1
/-- node `c` at path `q` with the stored nodes below it represents `t`; at most `n` levels of nodes -/
def GRep (get : Ver → Path → Option Node) : Nat → Path → Node → T → Prop
  | 0, _, _, _ => False
  | n + 1, q, c, t => Rep c (fun s t' => Link get n q s t') 4 [] t
termination_by n _ _ _ => 2 * n
end

theorem Link_iff {get n q s t} : Link get n q s t ↔ s.length = 4 ∧ ∃ c, get t.ver (q ++ [val s]) = some c ∧ GRep get n (q ++ [val s]) c t := by
  rw [Link]
theorem GRep_succ {get n q c t} : GRep get (n + 1) q c t ↔ Rep c (Link get n q) 4 [] t := by
  rw [GRep]
theorem GRep_zero {get q c t} : ¬ GRep get 0 q c t := by
  rw [GRep]; exact id

theorem GRep.frame {get get' : Ver → Path → Option Node} : ∀ {n q c t}, (∀ v q', q <+: q' → q' ≠ q → get' v q' = get v q') →
    GRep get n q c t → GRep get' n q c t
  | 0, q, c, t, _, h => absurd h GRep_zero
  | n + 1, q, c, t, hf, h => by
    rw [GRep_succ] at h ⊢
    refine h.frame (fun _ _ => rfl) (fun s' t' _ _ hl => ?_)
    rw [Link_iff] at hl ⊢
    obtain ⟨h4, c', h1, h2⟩ := hl
    refine ⟨h4, c', ?_, ?_⟩
    · rw [hf _ _ (List.prefix_append _ _) (by intro e; have := congrArg List.length e; simp at this)]; exact h1
    · refine GRep.frame (fun v q' hp hn => hf v q' ((List.prefix_append _ _).trans hp) ?_) h2
      rintro rfl; have := hp.length_le; simp at this; omega

theorem Link.frame {get get' : Ver → Path → Option Node} {n q s t} (hf : ∀ v q', q ++ [val s] <+: q' → get' v q' = get v q')
    (h : Link get n q s t) : Link get' n q s t := by
  rw [Link_iff] at h ⊢
  obtain ⟨h4, c', h1, h2⟩ := h
  exact ⟨h4, c', by rw [hf _ _ List.prefix_rfl]; exact h1, h2.frame (fun v q' hp _ => hf v q' hp)⟩

/-- the first `d` nibbles of a key -/
def nibs (k : Hash) (d : Nat) : Path := (List.range d).map (getNibble k)

theorem nibs_succ (k : Hash) (d : Nat) : nibs k (d + 1) = nibs k d ++ [getNibble k d] := by
  simp [nibs, List.range_succ]
theorem nibs_length (k : Hash) (d : Nat) : (nibs k d).length = d := by simp [nibs]

/-- what stays the same, apart from cached nodes strictly below `q` and the stale sets -/
structure Same (k k' : Cache) (q : Path) : Prop where
  version : k'.version = k.version
  db : k'.db = k.db
  original : k'.original = k.original
  nodes : ∀ q', ¬ (q <+: q' ∧ q' ≠ q) → k'.nodes q' = k.nodes q'

theorem Same.refl (k : Cache) (q : Path) : Same k k q := ⟨rfl, rfl, rfl, fun _ _ => rfl⟩

theorem get_eq {k k' : Cache} (hd : k'.db = k.db) {v : Ver} {q : Path} (h : k'.nodes q = k.nodes q) : k'.get v q = k.get v q := by
  unfold Cache.get; rw [h, hd]

/-- every node in the cache carries the new version at its root -/
def CacheOK (k : Cache) : Prop := ∀ q c, k.nodes q = some c → ∃ h, c 0 = some (.internal h k.version)

theorem sib_not_prefix {q : Path} {s s' : List Bool} (h : s.length = 4) (h' : s'.length = 4) (hne : s ≠ s') {q' : Path}
    (hp : q ++ [val s] <+: q') : ¬ (q ++ [val s'] <+: q') := by
  intro hp'
  obtain ⟨a, rfl⟩ := hp
  obtain ⟨b, hb⟩ := hp'
  rw [List.append_assoc, List.append_assoc] at hb
  have := List.append_cancel_left hb
  simp at this
  exact hne (val_inj h h' this.1.symm)

theorem markStale_fields (w : Walker) : w.markStale.stack = w.stack ∧ w.markStale.cur = w.cur ∧ w.markStale.path = w.path ∧
    w.markStale.staleVersion = w.staleVersion ∧ w.markStale.cache.version = w.cache.version ∧ w.markStale.cache.db = w.cache.db ∧
    w.markStale.cache.original = w.cache.original ∧ w.markStale.cache.nodes = w.cache.nodes ∧ w.markStale.cache.staleLeaf = w.cache.staleLeaf := by
  unfold Walker.markStale
  split <;> simp [Cache.putStale]

theorem markStale_stale (w : Walker) (u : Ver) (q : Path) : (u, q) ∈ w.markStale.cache.staleInternal ↔
    (u, q) ∈ w.cache.staleInternal ∨ (u = w.staleVersion ∧ q = w.path ∧ u ≠ 0 ∧ u ≠ w.cache.version) := by
  unfold Walker.markStale
  split
  · rename_i h
    simp only [Cache.putStale, List.mem_cons, Prod.mk.injEq]
    constructor
    · rintro (⟨rfl, rfl⟩ | h1)
      · exact Or.inr ⟨rfl, rfl, h.1, h.2⟩
      · exact Or.inl h1
    · rintro (h1 | ⟨h1, h2, _, _⟩)
      · exact Or.inr h1
      · exact Or.inl ⟨h1, h2⟩
  · rename_i h
    constructor
    · exact Or.inl
    · rintro (h1 | ⟨h1, _, h3, h4⟩)
      · exact h1
      · subst h1; exact absurd ⟨h3, h4⟩ h

/-- one `ascend`: the node left is cached and linked into its parent -/
theorem ascend_spec (hs : Hasher) {w : Walker} {key : Hash} {d n : Nat} {c : Node} {st : List Node} {x : Ctx} {t : T}
    {get0 : Ver → Path → Option Node}
    (hk : 4 * d + 4 ≤ key.length) (hpath : w.path = nibs key (d + 1)) (hstack : w.stack = c :: st)
    (hx : pathOf x = bitsAt key d) (rr : RepR c (Link get0 n (nibs key d)) 0 x)
    (hget : ∀ v q', nibs key d <+: q' → ¬ (nibs key (d + 1) <+: q') → w.cache.get v q' = get0 v q')
    (hg : GRep w.cache.get n (nibs key (d + 1)) w.cur t) (hi : t.isInt = true) (hv : t.ver = w.cache.version) :
    ∃ w', w.ascend hs = some w' ∧ w'.stack = st ∧ w'.path = nibs key d ∧ w'.staleVersion = nodeVersion c ∧
      w'.cache.version = w.cache.version ∧ w'.cache.db = w.cache.db ∧ w'.cache.original = w.cache.original ∧
      (∀ q', w'.cache.nodes q' = if q' = nibs key (d + 1) then some w.cur else w.cache.nodes q') ∧
      w'.cache.staleLeaf = w.cache.staleLeaf ∧
      (∀ u q, (u, q) ∈ w'.cache.staleInternal ↔ (u, q) ∈ w.cache.staleInternal ∨
        (u = w.staleVersion ∧ q = nibs key (d + 1) ∧ u ≠ 0 ∧ u ≠ w.cache.version)) ∧
      GRep w'.cache.get (n + 1) (nibs key d) w'.cur (plug hs w.cache.version x t) := by
  obtain ⟨m1, m2, m3, m4, m5, m6, m7, m8, m9⟩ := markStale_fields w
  have hbl := bitsAt_length hk
  cases ht : t with
  | empty => rw [ht] at hi; simp [T.isInt] at hi
  | leaf l => rw [ht] at hi; simp [T.isInt] at hi
  | int th tv ta tb =>
  have htv : tv = w.cache.version := by rw [ht] at hv; exact hv
  have hpop : w.markStale.cacheCurrent.pop hs = some
      ({ w.markStale.cacheCurrent with stack := st, path := nibs key d, cur := c, staleVersion := nodeVersion c }, getNibble key d, th) := by
    unfold Walker.pop Walker.cacheCurrent
    simp only [m1, m2, m3, hstack, hpath, nibs_succ, List.getLast?_append, List.getLast?_singleton, Option.some_or, List.dropLast_concat]
    have hh : nodeHash hs w.cur = th := by
      unfold nodeHash
      cases n with
      | zero => exact absurd hg GRep_zero
      | succ n =>
        rw [GRep_succ] at hg
        have := getHash_of (hs := hs) hg.tag
        rw [show ix [] = 0 from rfl] at this
        rw [this, ht]; rfl
    rw [hh]
  unfold Walker.ascend
  rw [hpop]
  simp only [Option.bind_some]
  let k' : Cache := w.markStale.cacheCurrent.cache
  have hnodes : ∀ q', k'.nodes q' = if q' = nibs key (d + 1) then some w.cur else w.cache.nodes q' := by
    intro q'
    show (if q' = w.markStale.path then some w.markStale.cur else w.markStale.cache.nodes q') = _
    rw [m3, m2, m8, hpath]
  have hver : k'.version = w.cache.version := m5
  have hdb : k'.db = w.cache.db := m6
  have hget' : ∀ v q', q' ≠ nibs key (d + 1) → k'.get v q' = w.cache.get v q' := by
    intro v q' hne
    exact get_eq hdb (by rw [hnodes, if_neg hne])
  have hlink : ∃ c', linkChild hs c (getNibble key d) th w.cache.version = some c' ∧
      Rep c' (Link k'.get n (nibs key d)) 4 [] (plug hs w.cache.version x (.int th tv ta tb)) := by
    rw [htv]
    refine linkChild_spec hs hk hx rr (fun s' t' hne hl => ?_) ?_
    · have h4 := (Link_iff.1 hl).1
      refine hl.frame (fun v q' hp => ?_)
      have hnp : ¬ (nibs key (d + 1) <+: q') := by
        rw [nibs_succ]; exact sib_not_prefix h4 hbl hne hp
      rw [hget' v q' (by rintro rfl; exact hnp List.prefix_rfl)]
      exact hget v q' ((List.prefix_append _ _).trans hp) hnp
    · rw [Link_iff]
      have hq : nibs key d ++ [val (bitsAt key d)] = nibs key (d + 1) := by rw [nibs_succ]; rfl
      refine ⟨hbl, w.cur, ?_, ?_⟩
      · rw [hq]; unfold Cache.get; rw [hnodes, if_pos rfl]
      · rw [hq, ← htv, ← ht]
        exact hg.frame (fun v q' _ hne => hget' v q' hne)
  obtain ⟨c', h1, h2⟩ := hlink
  have hver' : w.markStale.cacheCurrent.cache.version = w.cache.version := hver
  rw [hver', h1]
  refine ⟨_, rfl, rfl, rfl, rfl, hver, hdb, m7, hnodes, m9, ?_, ?_⟩
  · intro u q
    show (u, q) ∈ w.markStale.cache.staleInternal ↔ _
    rw [markStale_stale, hpath]
  · rw [GRep_succ]; exact h2

/-! ## positions in the trie -/

/-- the subtree at some bits -/
def atT : T → List Bool → T
  | t, [] => t
  | t, b :: bs => atT (t.child b) bs

theorem atT_append : ∀ (p q : List Bool) (t : T), atT t (p ++ q) = atT (atT t p) q
  | [], q, t => rfl
  | b :: p, q, t => atT_append p q _

theorem atT_empty : ∀ p, atT .empty p = .empty
  | [] => rfl
  | b :: p => by rw [atT]; exact atT_empty p

theorem atT_nonint {t : T} (h : t.isInt = false) : ∀ (b : Bool) (p : List Bool), atT t (b :: p) = .empty := by
  intro b p
  cases t with
  | int _ _ _ _ => simp [T.isInt] at h
  | empty => exact atT_empty p
  | leaf _ => exact atT_empty p

/-- the leaf at the end of a key's path -/
def findT : List Bool → T → Option LeafChild
  | _, .leaf o => some o
  | b :: bs, .int h v l r => findT bs ((T.int h v l r).child b)
  | _, _ => none

theorem zipT_sub : ∀ (bs : List Bool) (t : T) (x : Ctx), ∃ p, bs = p ++ (zipT bs t x).2.2 ∧ atT t p = (zipT bs t x).2.1
  | [], t, x => ⟨[], rfl, rfl⟩
  | b :: bs, t, x => by
    unfold zipT
    split
    · obtain ⟨p, h1, h2⟩ := zipT_sub bs (t.child b) ((b, t.child (!b)) :: x)
      exact ⟨b :: p, by rw [List.cons_append, ← h1], h2⟩
    · exact ⟨[], rfl, rfl⟩

theorem zipN_sub (bs : List Bool) (t : T) : atT t (pathOf (zipN bs t).1) = (zipN bs t).2.1 := by
  cases bs with
  | nil => rfl
  | cons b bs =>
    have hp := zipN_path (b :: bs) t
    obtain ⟨p, h1, h2⟩ := zipT_sub bs (t.child b) [(b, t.child (!b))]
    have h3 : b :: bs = (b :: p) ++ (zipN (b :: bs) t).2.2 := by rw [List.cons_append]; exact congrArg _ h1
    have h4 : pathOf (zipN (b :: bs) t).1 = b :: p := List.append_cancel_right (hp.trans h3)
    rw [h4]
    exact h2

theorem findT_zipT (rest : List Bool) : ∀ (bs : List Bool) (t : T) (x : Ctx), findT (bs ++ rest) t = findT ((zipT bs t x).2.2 ++ rest) (zipT bs t x).2.1
  | [], t, x => rfl
  | b :: bs, t, x => by
    unfold zipT
    split
    · rename_i hi
      rw [← findT_zipT rest bs]
      cases t with
      | int h v l r => rfl
      | empty => simp [T.isInt] at hi
      | leaf _ => simp [T.isInt] at hi
    · rfl

/-- the leaf on the path of a key from the root of a node -/
def findN : List Bool → T → Option LeafChild
  | b :: bs, t => findT bs (t.child b)
  | [], _ => none

theorem findN_zip {bs : List Bool} (hb : bs ≠ []) (rest : List Bool) (t : T) :
    findN (bs ++ rest) t = findT ((zipN bs t).2.2 ++ rest) (zipN bs t).2.1 := by
  cases bs with
  | nil => exact absurd rfl hb
  | cons b bs => exact findT_zipT rest bs _ _

/-- the internal place of `t` at a node boundary, `k` nodes below, on the path given by the bits -/
def nodeAt (t : T) (bits : List Bool) (k : Nat) : T := atT t (bits.take (4 * k))

end Verif.Smt
