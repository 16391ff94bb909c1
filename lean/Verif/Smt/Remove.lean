import Verif.Smt.Insert
/-!
# Removal through the walker
-/
set_option linter.unusedVariables false
set_option linter.unusedSimpArgs false
namespace Verif.Smt

/-- an internal child never has one lone leaf or nothing below it -/
def Shape (a b : T) : Prop := a.isInt = true ∨ b.isInt = true ∨ (a.isLeaf = true ∧ b.isLeaf = true)

def Shaped : T → Prop
  | .int _ _ a b => Shape a b ∧ Shaped a ∧ Shaped b
  | _ => True

theorem Shaped.child {t : T} (h : Shaped t) (b : Bool) : Shaped (t.child b) := by
  cases t with
  | int _ _ x y => cases b; exact h.2.1; exact h.2.2
  | empty => cases b <;> trivial
  | leaf _ => cases b <;> trivial

theorem Shaped.sub {t : T} (h : Shaped t) : ∀ p, Shaped (atT t p)
  | [] => h
  | b :: p => (h.child b).sub p

/-- the other side of a leaf below an internal child is not empty -/
theorem Shaped.sib {h v a b} (hS : Shaped (.int h v a b)) (c : Bool) {o} (hl : (T.int h v a b).child c = .leaf o) :
    (T.int h v a b).child (!c) ≠ .empty := by
  have := hS.1
  cases c <;> simp [T.child] at hl ⊢ <;> subst hl <;> rcases this with h | h | ⟨h, h'⟩ <;> intro e <;> simp [e, T.isInt, T.isLeaf] at *

/-- removal of a key from a subtree that holds it -/
def remT (hs : Hasher) (v : Ver) : List Bool → T → T
  | _, .leaf _ => .empty
  | b :: bs, .int h w a c => join hs v b ((T.int h w a c).child (!b)) (remT hs v bs ((T.int h w a c).child b))
  | _, t => t

theorem remT_zip (hs : Hasher) (v : Ver) : ∀ (bs rest : List Bool) (t : T) (x : Ctx),
    plugJ hs v x (remT hs v (bs ++ rest) t) = plugJ hs v (zipT bs t x).1 (remT hs v ((zipT bs t x).2.2 ++ rest) (zipT bs t x).2.1)
  | [], rest, t, x => rfl
  | b :: bs, rest, t, x => by
    unfold zipT
    split
    · rename_i hi
      rw [← remT_zip hs v bs rest]
      cases t with
      | int h w a c => rfl
      | empty => simp [T.isInt] at hi
      | leaf _ => simp [T.isInt] at hi
    · rfl

theorem remT_leaf (hs v bs o) : remT hs v bs (.leaf o) = .empty := by cases bs <;> rfl

theorem join_ver {hs v b s t} (h : (join hs v b s t).isInt = true) : join hs v b s t = node hs v b s t ∧ (join hs v b s t).ver = v := by
  have : join hs v b s t = node hs v b s t := by
    cases s <;> cases t <;> first | rfl | simp [join, T.isInt] at h
  exact ⟨this, by rw [this]; exact node_ver _ _ _ _ _⟩

theorem remT_ver {hs v b bs t} (hi : t.isInt = true) (h : (remT hs v (b :: bs) t).isInt = true) : (remT hs v (b :: bs) t).ver = v := by
  cases t with
  | int x y z w => exact (join_ver h).2
  | empty => simp [T.isInt] at hi
  | leaf _ => simp [T.isInt] at hi

/-- some leaf -/
def InT (o : LeafChild) (t : T) : Prop := ∃ p, atT t p = .leaf o

theorem InT_empty {o} : ¬ InT o .empty := by rintro ⟨p, h⟩; rw [atT_empty] at h; simp at h
theorem InT_leaf {o o'} : InT o (.leaf o') ↔ o = o' := by
  constructor
  · rintro ⟨p, h⟩
    cases p with
    | nil => simpa [atT] using h.symm
    | cons b p => rw [atT_nonint rfl] at h; simp at h
  · rintro rfl; exact ⟨[], rfl⟩
theorem InT_int {o h v a b} : InT o (.int h v a b) ↔ InT o a ∨ InT o b := by
  constructor
  · rintro ⟨p, e⟩
    cases p with
    | nil => simp [atT] at e
    | cons c p => cases c; exact Or.inl ⟨p, e⟩; exact Or.inr ⟨p, e⟩
  · rintro (⟨p, e⟩ | ⟨p, e⟩)
    · exact ⟨false :: p, e⟩
    · exact ⟨true :: p, e⟩
theorem InT_node {o hs v b s t} : InT o (node hs v b s t) ↔ InT o s ∨ InT o t := by
  cases b <;> simp [node, InT_int, or_comm]
theorem InT_join {o hs v b s t} : InT o (join hs v b s t) ↔ InT o s ∨ InT o t := by
  cases s <;> cases t <;> simp [join, InT_node, InT_empty, InT_leaf, InT_int]
theorem InT_plugJ {o hs v} : ∀ (x : Ctx) (t : T), InT o t → InT o (plugJ hs v x t)
  | [], t, h => h
  | (b, s) :: x, t, h => InT_plugJ x _ (InT_join.2 (Or.inr h))
theorem InT_child {o t b} (h : InT o (T.child t b)) : InT o t := by
  obtain ⟨p, e⟩ := h; exact ⟨b :: p, e⟩

theorem notSafe {c : Node} {L} {t : T} {o} (r : Rep c L 4 [] t) (h : InT o t) : safeToRemove c = false := by
  cases hs : safeToRemove c with
  | false => rfl
  | true =>
    exfalso
    obtain ⟨h1, h2⟩ := safeToRemove_iff.1 hs
    have key : ∀ (p : List Bool) (h : Nat) (s : List Bool) (t : T), s.length + h = 4 → Rep c L h s t → atT t p = .leaf o → False := by
      intro p
      induction p with
      | nil =>
        intro h s t hl r e
        have : t = .leaf o := e
        subst this
        exact h1 s (by omega) o r.tag
      | cons b p ih =>
        intro h s t hl r e
        cases h with
        | succ h => exact ih h (s ++ [b]) (t.child b) (by rw [List.length_append]; simp; omega) (r.child b) e
        | zero =>
          have := h2 s (by omega)
          rw [r.tag] at this
          cases t with
          | empty => rw [atT_empty] at e; simp at e
          | leaf _ => simp [T.tag] at this
          | int _ _ _ _ => simp [T.tag] at this
    obtain ⟨p, e⟩ := h
    exact key p 4 [] t rfl r e

theorem allEmpty_safe {c : Node} (h : ∀ s : List Bool, s.length ≤ 4 → c (ix s) = none) : safeToRemove c = true :=
  safeToRemove_iff.2 ⟨fun s hl l e => by rw [h s hl] at e; simp at e, fun s hl => h s (by omega)⟩

/-- leaving a node that has nothing left but a leaf to hand up -/
theorem unlink_step (hs : Hasher) {w0 w1 w1' : Walker} {key : Hash} {d n : Nat} {t t1 : T} {stl} {c : Node} {x : Ctx} {p : LeafChild}
    (hk : 4 * d + 4 ≤ key.length) (hc : w1.cache = w0.cache) (st : Step w1 w1' key (d + 1) t1 (.leaf p) stl)
    (ht : t1 = atT t (bitsAt key d)) (hsv1 : w1.staleVersion = t1.ver) (hi1 : t1.isInt = true)
    (hst : w1.stack = c :: w0.stack) (hp : w0.path = nibs key d) (hp1 : w1.path = nibs key (d + 1))
    (hsv : w0.staleVersion = nodeVersion c)
    (hx : pathOf x = bitsAt key d) (rr : RepR c (Link w0.cache.get n (nibs key d)) 0 x)
    (hempty : ∀ s : List Bool, s.length ≤ 4 → w1'.cur (ix s) = none) :
    ∃ w2 u, removeNodeLoop hs (d + 1) w1' (some p) = removeNodeLoop hs d w2 u ∧
      Step w0 w2 key d t (plugJ hs w0.cache.version x (.leaf p)) stl ∧
      Outcome w2.cur (Link w2.cache.get n (nibs key d)) (plugJ hs w0.cache.version x (.leaf p)) u := by
  obtain ⟨m1, m2, m3, m4, m5, m6, m7, m8, m9⟩ := markStale_fields w1'
  have hvv : w1'.cache.version = w0.cache.version := by rw [st.same.version, hc]
  rw [removeNodeLoop, if_pos (allEmpty_safe hempty)]
  have hpa : w1'.path = nibs key (d + 1) := st.path.trans hp1
  have hsk : w1'.stack = c :: w0.stack := st.stack.trans hst
  let k' : Cache := w1'.markStale.cache.remove (nibs key (d + 1))
  let w2 : Walker := { cache := k', stack := w0.stack, cur := c, path := nibs key d, staleVersion := nodeVersion c }
  have hrem : w1'.removeCurrent hs = some (w2, some (getNibble key d)) := by
    unfold Walker.removeCurrent
    simp only [m3, hpa]
    have hne : nibs key (d + 1) ≠ [] := by
      intro e; have := congrArg List.length e; rw [nibs_length] at this; simp at this
    rw [if_neg hne]
    unfold Walker.pop
    simp only [m1, m2, hsk, m3, hpa, nibs_succ, List.getLast?_append, List.getLast?_singleton, Option.some_or, List.dropLast_concat, Option.map_some]
    rw [← nibs_succ]
  rw [hrem]
  simp only [Option.bind_some]
  have hnodes : ∀ q', k'.nodes q' = if q' = nibs key (d + 1) then none else w1'.cache.nodes q' := by
    intro q'
    show (if q' = nibs key (d + 1) then none else w1'.markStale.cache.nodes q') = _
    rw [m8]
  have hdb : k'.db = w0.cache.db := by show w1'.markStale.cache.db = _; rw [m6, st.same.db, hc]
  have hL : ∀ s' t', s' ≠ bitsAt key d → Link w0.cache.get n (nibs key d) s' t' → Link k'.get n (nibs key d) s' t' := by
    intro s' t' hne hl
    refine hl.frame (fun v q' hp' => ?_)
    have hnp : ¬ (nibs key (d + 1) <+: q') := by
      rw [nibs_succ]; exact sib_not_prefix (Link_iff.1 hl).1 (bitsAt_length hk) hne hp'
    refine get_eq hdb ?_
    rw [hnodes, if_neg (by rintro rfl; exact hnp List.prefix_rfl), st.same.nodes q' (fun h => hnp h.1), hc]
  have hkv : k'.version = w0.cache.version := by show w1'.markStale.cache.version = _; rw [m5, hvv]
  obtain ⟨c', u, e, ho⟩ := unlinkChild_spec hs (v := w0.cache.version) (p := p) hk hx rr hL
  have e' : unlinkChild hs w2.cur (getNibble key d) w2.cache.version (some p) = some (c', u) := by
    show unlinkChild hs c _ k'.version _ = _
    rw [hkv]; exact e
  rw [e']
  simp only [Option.bind_some]
  refine ⟨{ w2 with cur := c' }, u, rfl, ?_, ho⟩
  refine Step.lift (w1' := w1') (R1 := .leaf p) hk hc st (Or.inl ht) (fun h => by simp [T.isInt] at h) hsv1 (Or.inl hi1) rfl
    hp.symm hsv.symm m5 m6 m7 (fun q' hne => (hnodes q').trans (if_neg hne)) (fun _ => (hnodes _).trans (if_pos rfl))
    (fun _ k => atT_nonint' rfl _) m9 (fun u q => ?_)
  show (u, q) ∈ w1'.markStale.cache.staleInternal ↔ _
  rw [markStale_stale, hpa]

theorem Shaped.zip_sib {key : Hash} {d : Nat} {t : T} (hS : ∀ b, Shaped (t.child b)) (hd : d ≠ 0 → Shaped t ∧ t.isInt = true) :
    ∀ b s up o, (zipN (bitsAt key d) t).2.1 = .leaf o → (zipN (bitsAt key d) t).1 = (b, s) :: up → s = .empty → up = [] ∧ d = 0 := by
  -- the frame next to the focus is a pair of children of one internal child
  have gen : ∀ (bs : List Bool) (u : T) (x : Ctx), Shaped u → ∀ b s up o, (zipT bs u x).2.1 = .leaf o → (zipT bs u x).1 = (b, s) :: up →
      s = .empty → (u = .leaf o ∧ x = (b, s) :: up) := by
    intro bs
    induction bs with
    | nil => intro u x _ b s up o h1 h2 _; exact ⟨h1, h2⟩
    | cons c bs ih =>
      intro u x hu b s up o h1 h2 h3
      unfold zipT at h1 h2
      by_cases hi : u.isInt = true
      · rw [if_pos hi] at h1 h2
        obtain ⟨h4, h5⟩ := ih (u.child c) _ (hu.child c) b s up o h1 h2 h3
        exfalso
        cases u with
        | int x y z w =>
          simp at h5
          exact hu.sib c h4 (h5.1.2.trans h3)
        | empty => simp [T.isInt] at hi
        | leaf _ => simp [T.isInt] at hi
      · rw [if_neg hi] at h1 h2; exact ⟨h1, h2⟩
  intro b s up o h1 h2 h3
  cases hb : bitsAt key d with
  | nil => rw [hb] at h2; simp [zipN] at h2
  | cons c bs =>
    rw [hb] at h1 h2
    obtain ⟨h4, h5⟩ := gen bs (t.child c) [(c, t.child (!c))] (hS c) b s up o h1 h2 h3
    simp at h5
    refine ⟨h5.2, ?_⟩
    by_cases hd0 : d = 0
    · exact hd0
    · exfalso
      obtain ⟨hs, hi⟩ := hd hd0
      cases t with
      | int x y z w => exact hs.sib c h4 (h5.1.2.trans h3)
      | empty => simp [T.isInt] at hi
      | leaf _ => simp [T.isInt] at hi

theorem findT_of_zip {key : Hash} {d : Nat} {t : T} (hi : t.isInt = true) (hk : 4 * d + 4 ≤ key.length) :
    findT (key.drop (4 * d)) t = findT ((zipN (bitsAt key d) t).2.2 ++ key.drop (4 * (d + 1))) (zipN (bitsAt key d) t).2.1 := by
  have hbne : bitsAt key d ≠ [] := by
    intro h; have := bitsAt_length hk; rw [h] at this; simp at this
  rw [← findN_zip hbne, ← drop_bitsAt]
  cases hdk : key.drop (4 * d) with
  | nil => have := congrArg List.length hdk; simp at this; omega
  | cons b bs =>
    cases t with
    | int h v a c => rfl
    | empty => simp [T.isInt] at hi
    | leaf _ => simp [T.isInt] at hi

theorem findT_leaf (bs o) : findT bs (.leaf o) = some o := by cases bs <;> rfl
theorem findT_empty (bs) : findT bs .empty = none := by cases bs <;> rfl

theorem remT_of_zip (hs : Hasher) {v : Ver} {key : Hash} {d : Nat} {t : T} (hi : t.isInt = true) (hk : 4 * d + 4 ≤ key.length) :
    remT hs v (key.drop (4 * d)) t = plugJ hs v (zipN (bitsAt key d) t).1
      (remT hs v ((zipN (bitsAt key d) t).2.2 ++ key.drop (4 * (d + 1))) (zipN (bitsAt key d) t).2.1) := by
  rw [drop_bitsAt key d]
  cases hb : bitsAt key d with
  | nil => have := bitsAt_length hk; rw [hb] at this; simp at this
  | cons b bs =>
    unfold zipN
    rw [← remT_zip]
    cases t with
    | int h v a c => rfl
    | empty => simp [T.isInt] at hi
    | leaf _ => simp [T.isInt] at hi

/-- what the removal below the root of the whole tree gives -/
def RemSub (hs : Hasher) (key : Hash) (n d : Nat) (w : Walker) (t : T) : Prop :=
  (∃ o, findT (key.drop (4 * d)) t = some o ∧ o.key.hash = key ∧
    (((remT hs w.cache.version (key.drop (4 * d)) t).isInt = true ∧ ∃ w', treeRemove hs n w key = ascendLoop hs d w' ∧
        Step w w' key d t (remT hs w.cache.version (key.drop (4 * d)) t) (some o.key) ∧
        GRep w'.cache.get n (nibs key d) w'.cur (remT hs w.cache.version (key.drop (4 * d)) t)) ∨
     (∃ p w', remT hs w.cache.version (key.drop (4 * d)) t = .leaf p ∧ treeRemove hs n w key = removeBatchedNode hs w' (some p) ∧
        Step w w' key d t (.leaf p) (some o.key) ∧ (∀ s : List Bool, s.length ≤ 4 → w'.cur (ix s) = none)))) ∨
  ((∀ o, findT (key.drop (4 * d)) t = some o → o.key.hash ≠ key) ∧ ∃ w', treeRemove hs n w key = some w' ∧ w'.cache = w.cache)

theorem nodeVersion_tag {c : Node} {t : T} (h : c 0 = t.tag) : nodeVersion c = t.ver := by
  unfold nodeVersion; rw [h]; cases t <;> rfl

/-- going down to the linked node -/
theorem descend_spec {w : Walker} {key : Hash} {d n : Nat} {t : T} (hd : d + (n + 1) = 64) (hK : key.length = 256)
    (hpath : w.path = nibs key d) (hl : t.isLeaf = false) (hr : Rep w.cur (Link w.cache.get n (nibs key d)) 4 [] t)
    (hi : (zipN (bitsAt key d) t).2.1.isInt = true) :
    ∃ c1, w.descend key (zipN (bitsAt key d) t).2.1.ver = some
        { w with stack := w.cur :: w.stack, path := nibs key (d + 1), cur := c1, staleVersion := nodeVersion c1 } ∧
      GRep w.cache.get n (nibs key (d + 1)) c1 (zipN (bitsAt key d) t).2.1 ∧
      nodeVersion c1 = (zipN (bitsAt key d) t).2.1.ver ∧ atT t (bitsAt key d) = (zipN (bitsAt key d) t).2.1 ∧
      (zipN (bitsAt key d) t).2.2 = [] ∧ pathOf (zipN (bitsAt key d) t).1 = bitsAt key d ∧
      RepR w.cur (Link w.cache.get n (nibs key d)) 0 (zipN (bitsAt key d) t).1 := by
  have hk : 4 * d + 4 ≤ key.length := by omega
  have hwd : w.path.length = d := by rw [hpath, nibs_length]
  have hbne : bitsAt key d ≠ [] := by
    intro h; have := bitsAt_length hk; rw [h] at this; simp at this
  have hzp := zipN_path (bitsAt key d) t
  have hzs := zipN_sub (bitsAt key d) t
  have hrest := zipN_int _ t hi hbne
  obtain ⟨w1, w2, w3⟩ := walkN_spec (getNibble key d) t hr hl
  rw [nibBits_getNibble hk] at w1 w2
  rw [hrest] at w1 w2 hzp
  simp only [List.length_nil, List.append_nil] at w1 w2 hzp
  rw [hzp] at w2
  obtain ⟨_, c1, hget, hg1⟩ := Link_iff.1 (w2.2 hi)
  have hq : nibs key d ++ [val (bitsAt key d)] = nibs key (d + 1) := by rw [nibs_succ]; rfl
  rw [hq] at hget hg1
  have hn : n ≠ 0 := by rintro rfl; exact GRep_zero hg1
  refine ⟨c1, ?_, hg1, ?_, by rw [← hzs, hzp], hrest, hzp, w1⟩
  · unfold Walker.descend
    simp only [hwd]
    rw [if_pos (by simp [MAX_NIBBLES]; omega), hpath, ← nibs_succ, hget]
    rfl
  · obtain ⟨n, rfl⟩ : ∃ m, n = m + 1 := ⟨n - 1, by omega⟩
    exact nodeVersion_tag (GRep_succ.1 hg1).tag

theorem putStaleLeaf_get (k : Cache) (st : Option LeafKey) : (k.putStaleLeaf st).get = k.get := by
  funext v q; cases st <;> rfl

/-- what `treeRemove` does with the result of the node -/
def remCont (hs : Hasher) (n : Nat) (w : Walker) (key : Hash) (c' : Node) : RemoveResult → Option Walker
  | .complete v => ({ w with cur := c' } : Walker).ascendToRoot hs (some ⟨key, v⟩)
  | .notFound => some { w with cur := c' }
  | .removeNode promoted v => removeBatchedNode hs { w with cur := c', cache := w.cache.putStaleLeaf (some ⟨key, v⟩) } promoted
  | .descend v => (({ w with cur := c' } : Walker).descend key v).bind fun w => treeRemove hs n w key

theorem treeRemove_eq (hs : Hasher) (n : Nat) {w : Walker} {key : Hash} {c' res} (hd : w.depth < 64)
    (e : nodeRemove hs w.cur key w.depth w.cache.version = some (c', res)) :
    treeRemove hs (n + 1) w key = remCont hs n w key c' res := by
  rw [treeRemove, if_pos (by simp [MAX_NIBBLES]; exact hd), e]
  cases res <;> rfl

/-- the end of `removeBatchedNode` -/
def batchCont (hs : Hasher) (w : Walker) : Option LeafChild → Option Walker
  | some l => (nodeInsert hs w.cur l w.depth w.cache.version).bind fun (c, r) =>
      match r with
      | .complete _ => ({ w with cur := c } : Walker).ascendToRoot hs none
      | _ => none
  | none => if w.path = [] ∧ safeToRemove w.cur = true then (w.removeCurrent hs).map fun (w, _) => w.insertEmptyRoot hs
      else w.ascendToRoot hs none

theorem removeBatched_eq (hs : Hasher) (w : Walker) (p : Option LeafChild) :
    removeBatchedNode hs w p = (removeNodeLoop hs w.path.length w p).bind fun x => batchCont hs x.1 x.2 := by
  unfold removeBatchedNode
  congr 1

theorem remove_claim (hs : Hasher) (key : Hash) (hK : key.length = 256) : ∀ (n d : Nat) (w : Walker) (t : T), d + n = 64 → d ≠ 0 →
    w.path = nibs key d → w.staleVersion = nodeVersion w.cur → t.isInt = true → Shaped t →
    GRep w.cache.get n (nibs key d) w.cur t → RemSub hs key n d w t
  | 0, d, w, t, _, _, _, _, _, _, hg => absurd hg GRep_zero
  | n + 1, d, w, t, hd, hd0, hpath, hsv, hint, hS, hg => by
    have hk : 4 * d + 4 ≤ key.length := by omega
    have hr := GRep_succ.1 hg
    have hwd : w.path.length = d := by rw [hpath, nibs_length]
    have hdep : w.depth = d := hwd
    have hl : t.isLeaf = false := by cases t <;> first | rfl | simp [T.isInt] at hint
    have hfind := findT_of_zip (key := key) (d := d) hint hk
    have hrem := remT_of_zip hs (v := w.cache.version) (key := key) (d := d) hint hk
    have hsib := Shaped.zip_sib (key := key) (d := d) (t := t) (fun b => hS.child b) (fun _ => ⟨hS, hint⟩)
    obtain ⟨c', res, e, hcase⟩ := nodeRemove_spec hs (v := w.cache.version) hr hl hk hsib
    have etr := treeRemove_eq hs n (by rw [hdep]; omega) (by rw [hdep]; exact e)
    rcases hcase with ⟨hi, hc, hres⟩ | ⟨hno, hi, hc, hres⟩ | ⟨o, ho, hok, hcases⟩
    · -- descend
      subst hc
      rw [hres, remCont] at etr
      obtain ⟨c1, d1, d2, d3, d4, d5, d6, d7⟩ := descend_spec hd hK hpath hl hr hi
      have d1' : ({ w with cur := w.cur } : Walker).descend key (zipN (bitsAt key d) t).2.1.ver = _ := d1
      rw [d1', Option.bind_some] at etr
      rw [d5, List.nil_append] at hfind hrem
      generalize ht1 : (zipN (bitsAt key d) t).2.1 = t1 at *
      have hS1 : Shaped t1 := by rw [← d4]; exact hS.sub _
      have ih := remove_claim hs key hK n (d + 1)
        { w with stack := w.cur :: w.stack, path := nibs key (d + 1), cur := c1, staleVersion := nodeVersion c1 } t1
        (by omega) (by omega) rfl rfl hi hS1 d2
      unfold RemSub
      rw [hfind, hrem]
      rcases ih with ⟨o, h1, h2, h3⟩ | ⟨h1, w', h2, h3⟩
      · refine Or.inl ⟨o, h1, h2, ?_⟩
        rcases h3 with ⟨hR, w', a1, a2, a3⟩ | ⟨p, w', hR, a1, a2, a3⟩
        · left
          have hR' : (remT hs w.cache.version (key.drop (4 * (d + 1))) t1).isInt = true := hR
          have hRv : (remT hs w.cache.version (key.drop (4 * (d + 1))) t1).ver = w.cache.version := by
            cases hdk : key.drop (4 * (d + 1)) with
            | nil =>
              rw [hdk] at hR'
              exfalso
              cases n with
              | zero => exact GRep_zero d2
              | succ n => have := congrArg List.length hdk; simp at this; omega
            | cons b bs => rw [hdk] at hR'; exact remT_ver hi hR'
          have := Step.ascend hs (w0 := w) (w1 := { w with stack := w.cur :: w.stack, path := nibs key (d + 1), cur := c1, staleVersion := nodeVersion c1 })
            (w1' := w') (t := t) (c := w.cur) (n := n) (x := (zipN (bitsAt key d) t).1) hk rfl a2 (Or.inl d4.symm) d3 (Or.inl hi) rfl hpath rfl hsv
            d6 d7 a3 hR' hRv
          obtain ⟨w2, f1, f2, f3⟩ := this
          rw [plugJ_int hs _ _ _ hR']
          exact ⟨plug_isInt hs _ _ _ (Or.inr hR'), w2, by rw [etr, a1, ascendLoop, f1, Option.bind_some], f2, f3⟩
        · have hR' : remT hs w.cache.version (key.drop (4 * (d + 1))) t1 = .leaf p := hR
          rw [hR']
          have := unlink_step hs (w0 := w) (w1 := { w with stack := w.cur :: w.stack, path := nibs key (d + 1), cur := c1, staleVersion := nodeVersion c1 })
            (w1' := w') (t := t) (c := w.cur) (n := n) (x := (zipN (bitsAt key d) t).1) hk rfl a2 d4.symm d3 hi rfl hpath rfl hsv d6 d7 a3
          obtain ⟨w2, u, f1, f2, f3⟩ := this
          have hp2 : w2.path = nibs key d := f2.path.trans hpath
          have hpl1 : w'.path.length = d + 1 := by rw [a2.path]; exact nibs_length _ _
          have hrb : removeBatchedNode hs w' (some p) = (removeNodeLoop hs d w2 u).bind fun x => batchCont hs x.1 x.2 := by
            rw [removeBatched_eq, hpl1, f1]
          rcases f3 with ⟨r1, r2, r3⟩ | ⟨p', r1, r2, r3⟩
          · left
            refine ⟨r1, w2, ?_, f2, by rw [GRep_succ]; exact r3⟩
            have hns : safeToRemove w2.cur = false := notSafe r3 (InT_plugJ _ _ (InT_leaf.2 rfl))
            obtain ⟨d', rfl⟩ : ∃ m, d = m + 1 := ⟨d - 1, by omega⟩
            have hne : ¬ (w2.path = [] ∧ safeToRemove w2.cur = true) := by rw [hns]; simp
            rw [etr, a1, hrb, r2, removeNodeLoop, if_neg (by rw [hns]; simp)]
            simp only [Option.bind_some, batchCont]
            rw [if_neg hne]
            unfold Walker.ascendToRoot
            have hp3 : w2.path.length = d' + 1 := by rw [hp2, nibs_length]
            rw [hp3]
            rfl
          · right
            refine ⟨p', w2, r1, ?_, by rw [← r1]; exact f2, fun s hs' => r3.empty_below s List.nil_prefix (by simpa using hs')⟩
            rw [etr, a1, hrb, r2, removeBatched_eq, hp2, nibs_length]
      · exact Or.inr ⟨h1, w', by rw [etr]; exact h2, h3⟩
    · -- not found
      refine Or.inr ⟨?_, ?_⟩
      · intro o ho
        rw [hfind] at ho
        generalize (zipN (bitsAt key d) t).2.1 = t1 at *
        cases t1 with
        | int _ _ _ _ => simp [T.isInt] at hi
        | empty => rw [findT_empty] at ho; simp at ho
        | leaf o' =>
          rw [findT_leaf] at ho
          have : o' = o := by simpa using ho
          subst this; exact hno _ rfl
      · rw [hres, remCont] at etr
        exact ⟨_, etr, rfl⟩
    · -- found here
      rcases hcases with ⟨h0, _⟩ | ⟨h0, _⟩ | ⟨_, u, hout, hres⟩
      · exact absurd h0 hd0
      · exact absurd h0 hd0
      rw [ho, remT_leaf] at hrem
      rw [ho, findT_leaf] at hfind
      have hni : (atT t (bitsAt key d)).isInt = false := nodeAt_nonint hk (by rw [ho]; rfl)
      have hkey : (⟨key, o.key.version⟩ : LeafKey) = o.key := by rw [← hok]
      unfold RemSub
      rw [hfind, hrem]
      refine Or.inl ⟨o, rfl, hok, ?_⟩
      rcases hout with ⟨r1, r2, r3⟩ | ⟨p, r1, r2, r3⟩
      · left
        rw [hres, r2] at etr
        simp only [remCont, hkey] at etr
        refine ⟨r1, { w with cur := c', cache := w.cache.putStaleLeaf (some o.key) }, ?_, Step.local hk hni, ?_⟩
        · rw [etr]; show ascendLoop hs w.path.length _ = _
          rw [hwd]
        · rw [GRep_succ]
          show Rep c' (Link (w.cache.putStaleLeaf (some o.key)).get n _) 4 [] _
          rw [putStaleLeaf_get]; exact r3
      · right
        rw [hres, r2] at etr
        simp only [remCont, hkey] at etr
        exact ⟨p, _, r1, etr, Step.local hk hni, fun s hs' => r3.empty_below s List.nil_prefix (by simpa using hs')⟩

/-! ## the whole tree -/

/-- one operation on the cache: `t` before, `R` after -/
structure Done (k k' : Cache) (key : Hash) (t R : T) (stl : Option LeafKey) : Prop where
  version : k'.version = k.version
  db : k'.db = k.db
  original : k'.original = k.original
  rep : GRep k'.get 64 [] k'.getRoot R
  root : k'.nodes [] ≠ none
  nodes_new : ∀ q', k'.nodes q' ≠ none →
    (k.nodes q' ≠ none ∧ ∀ j, q' = nibs key j → (nodeAt t key j).isInt = false) ∨
    ∃ j, q' = nibs key j ∧ (nodeAt R key j).isInt = true
  stale : ∀ u q', (u, q') ∈ k'.staleInternal ↔ (u, q') ∈ k.staleInternal ∨
    ∃ j, q' = nibs key j ∧ (nodeAt t key j).isInt = true ∧ (nodeAt t key j).ver = u ∧ u ≠ 0 ∧ u ≠ k.version
  leaf : k'.staleLeaf = stl.toList ++ k.staleLeaf

theorem nibs_zero (key : Hash) : nibs key 0 = [] := rfl

theorem Step.done {hs : Hasher} {w w' : Walker} {key : Hash} {t R : T} {stl} (st : Step w w' key 0 t R stl)
    (hp : w.path = []) (hsv : w.staleVersion = t.ver) (hl : t.isLeaf = false) (hR : R.isInt = true)
    (hg : GRep w'.cache.get 64 [] w'.cur R) :
    ∃ k', (ascendLoop hs 0 w').map (·.cache) = some k' ∧ Done w.cache k' key t R stl := by
  obtain ⟨m1, m2, m3, m4, m5, m6, m7, m8, m9⟩ := markStale_fields w'
  have hpa : w'.path = [] := st.path.trans hp
  refine ⟨w'.markStale.cacheCurrent.cache, rfl, ?_⟩
  have hnodes : ∀ q', w'.markStale.cacheCurrent.cache.nodes q' = if q' = [] then some w'.cur else w'.cache.nodes q' := by
    intro q'
    show (if q' = w'.markStale.path then some w'.markStale.cur else w'.markStale.cache.nodes q') = _
    rw [m3, m2, m8, hpa]
  have hbits : ∀ (x : T) (j : Nat), nodeAt x (key.drop (4 * 0)) j = nodeAt x key j := by intro x j; rfl
  refine ⟨m5.trans st.same.version, m6.trans st.same.db, m7.trans st.same.original, ?_, ?_, ?_, ?_, ?_⟩
  · have : w'.markStale.cacheCurrent.cache.getRoot = w'.cur := by
      unfold Cache.getRoot; rw [hnodes, if_pos rfl]; rfl
    rw [this]
    refine hg.frame (fun v q' _ hne => ?_)
    exact get_eq (k' := w'.markStale.cacheCurrent.cache) m6 (by rw [hnodes, if_neg hne])
  · rw [hnodes, if_pos rfl]; simp
  · intro q' hq
    rw [hnodes] at hq
    by_cases he : q' = []
    · exact Or.inr ⟨0, by rw [he]; rfl, by rw [nodeAt_zero]; exact hR⟩
    · rw [if_neg he] at hq
      rcases st.nodes_new q' hq with ⟨h1, h2⟩ | ⟨j, h1, h2, h3⟩
      · refine Or.inl ⟨h1, fun j hj => ?_⟩
        cases j with
        | zero => exact absurd hj he
        | succ j => exact h2 (j + 1) (by omega) (by rw [hj]; congr 1; omega)
      · exact Or.inr ⟨j, by rw [h2]; congr 1; omega, h3⟩
  · intro u q'
    show (u, q') ∈ w'.markStale.cache.staleInternal ↔ _
    rw [markStale_stale, st.stale, st.sv, hsv, hpa, st.same.version]
    constructor
    · rintro ((h | ⟨j, h1, h2, h3⟩) | ⟨h1, h2, h3, h4⟩)
      · exact Or.inl h
      · exact Or.inr ⟨j, by rw [h2]; congr 1; omega, h3⟩
      · refine Or.inr ⟨0, h2, ?_, ?_, h3, h4⟩
        · rw [nodeAt_zero]
          cases t with
          | int _ _ _ _ => rfl
          | empty => exact absurd h1 h3
          | leaf _ => exact absurd h1 h3
        · rw [nodeAt_zero, h1]
    · rintro (h | ⟨j, h1, h2, h3, h4, h5⟩)
      · exact Or.inl (Or.inl h)
      · cases j with
        | zero => rw [nodeAt_zero] at h3; exact Or.inr ⟨h3.symm, h1, h4, h5⟩
        | succ j => exact Or.inl (Or.inr ⟨j + 1, by omega, by rw [h1]; congr 1; omega, h2, h3, h4, h5⟩)
  · exact m9.trans st.leaf

/-- insertion into the whole tree -/
theorem insertKey_spec (hs : Hasher) {k : Cache} {kv : Bytes × Bytes} {t : T} (hl : t.isLeaf = false) (hpl : Placed [] t)
    (hg : GRep k.get 64 [] k.getRoot t) :
    ∃ k' stl, insertKey hs k kv = some k' ∧
      Done k k' (hs.hash kv.1) t (insN hs k.version ⟨hs.hash kv.2, ⟨hs.hash kv.1, k.version⟩⟩ (hs.hash kv.1) t) stl ∧
      (∀ lk, stl = some lk ↔ ∃ o, findN (hs.hash kv.1) t = some o ∧ o.key.hash = hs.hash kv.1 ∧ o.key = lk) := by
  have hr := GRep_succ.1 hg
  obtain ⟨w', stl, h1, h2, h3, h4⟩ := insert_claim hs ⟨hs.hash kv.2, ⟨hs.hash kv.1, k.version⟩⟩ (hs.hash_len _) 64 0 (Walker.new k) t rfl rfl rfl rfl hl
    (by simpa using hpl) hg
  have hR : (insN hs k.version ⟨hs.hash kv.2, ⟨hs.hash kv.1, k.version⟩⟩ (hs.hash kv.1) t).isInt = true := by
    cases hb : hs.hash kv.1 with
    | nil => have := hs.hash_len kv.1; rw [hb] at this; simp at this
    | cons b bs => exact node_isInt _ _ _ _ _
  obtain ⟨k', e, hd⟩ := Step.done (hs := hs) h2 rfl (nodeVersion_tag hr.tag) hl hR h3
  refine ⟨k', stl, ?_, hd, h4⟩
  unfold insertKey
  rw [show MAX_NIBBLES = 64 from rfl, h1]; exact e

/-- removal of a key that is there, from the whole tree -/
def remN (hs : Hasher) (v : Ver) : List Bool → T → T
  | b :: bs, t =>
    if (t.child (!b)).isEmpty && (remT hs v bs (t.child b)).isEmpty then .int hs.placeholder v .empty .empty
    else node hs v b (t.child (!b)) (remT hs v bs (t.child b))
  | [], t => t

theorem zipT_append : ∀ (bs : List Bool) (t : T) (x y : Ctx), zipT bs t (x ++ y) = ((zipT bs t x).1 ++ y, (zipT bs t x).2)
  | [], t, x, y => rfl
  | b :: bs, t, x, y => by
    unfold zipT
    split
    · exact zipT_append bs (t.child b) ((b, t.child (!b)) :: x) y
    · rfl

theorem plugRoot_snoc (hs v b s) : ∀ (x : Ctx) (t : T), plugRoot hs v (x ++ [(b, s)]) t = node hs v b s (plugJ hs v x t)
  | [], t => rfl
  | (c, u) :: x, t => by
    have := plugRoot_snoc hs v b s x (join hs v c u t)
    rw [plugJ, ← this]
    cases x <;> rfl

theorem plugJ_snoc (hs v b s) : ∀ (x : Ctx) (t : T), plugJ hs v (x ++ [(b, s)]) t = join hs v b s (plugJ hs v x t)
  | [], t => rfl
  | (c, u) :: x, t => plugJ_snoc hs v b s x _

theorem isEmpty_iff {t : T} : t.isEmpty = true ↔ t = .empty := by cases t <;> simp [T.isEmpty]

theorem remT_nonempty (hs : Hasher) {v bs t} (hS : Shaped t) (hi : t.isInt = true) : remT hs v bs t ≠ .empty := by
  cases t with
  | empty => simp [T.isInt] at hi
  | leaf _ => simp [T.isInt] at hi
  | int h w a c =>
    cases bs with
    | nil => simp [remT]
    | cons b bs =>
      have key : ∀ s u : T, Shape s u → Shaped u → (u.isInt = true → remT hs v bs u ≠ .empty) → join hs v b s (remT hs v bs u) ≠ .empty := by
        intro s u hsu hu ih e
        cases u with
        | empty => cases s <;> simp [Shape, T.isInt, T.isLeaf] at hsu; cases bs <;> cases b <;> simp [remT, join, node] at e
        | leaf o => rw [remT_leaf] at e; cases s <;> simp [Shape, T.isInt, T.isLeaf] at hsu <;> cases b <;> simp [join, node] at e
        | int x y z q =>
          have := ih rfl
          generalize remT hs v bs (T.int x y z q) = r at *
          cases s <;> cases r <;> cases b <;> simp [join, node] at e this
      cases b
      · refine key _ _ ?_ hS.2.1 (fun h => remT_nonempty hs hS.2.1 h)
        rcases hS.1 with h | h | h
        · exact Or.inr (Or.inl h)
        · exact Or.inl h
        · exact Or.inr (Or.inr ⟨h.2, h.1⟩)
      · exact key _ _ hS.1 hS.2.2 (fun h => remT_nonempty hs hS.2.2 h)

theorem InT_remT {hs : Hasher} {v o} : ∀ (bs : List Bool) (t : T), InT o (remT hs v bs t) → InT o t
  | bs, .leaf o', h => by rw [remT_leaf] at h; exact absurd h InT_empty
  | bs, .empty, h => by cases bs <;> exact h
  | [], .int _ _ _ _, h => h
  | b :: bs, .int x y z w, h => by
    rcases InT_join.1 h with h | h
    · exact InT_child h
    · exact InT_child (InT_remT bs _ h)

theorem Placed.of_InT {pre t o} (h : Placed pre t) (hi : InT o t) : pre <+: o.key.hash ∧ o.key.hash.length = 256 := by
  obtain ⟨p, e⟩ := hi
  obtain ⟨h1, h2⟩ := h p o e
  exact ⟨(List.prefix_append _ _).trans h1, h2⟩

/-- removal from the whole tree -/
theorem deleteKey_spec (hs : Hasher) {k : Cache} {kb : Bytes} {t : T} (hl : t.isLeaf = false) (hpl : Placed [] t) (hS : ∀ b, Shaped (t.child b))
    (hg : GRep k.get 64 [] k.getRoot t) :
    (∃ o k', findN (hs.hash kb) t = some o ∧ o.key.hash = hs.hash kb ∧ deleteKey hs k kb = some k' ∧
      Done k k' (hs.hash kb) t (remN hs k.version (hs.hash kb) t) (some o.key)) ∨
    ((∀ o, findN (hs.hash kb) t = some o → o.key.hash ≠ hs.hash kb) ∧ deleteKey hs k kb = some k) := by
  generalize hkey : hs.hash kb = key
  have hK : key.length = 256 := by rw [← hkey]; exact hs.hash_len _
  have hk : 4 * 0 + 4 ≤ key.length := by omega
  let w := Walker.new k
  have hr : Rep w.cur (Link w.cache.get 63 (nibs key 0)) 4 [] t := GRep_succ.1 hg
  have hsv : w.staleVersion = t.ver := nodeVersion_tag hr.tag
  have hbl := bitsAt_length hk
  have hbne : bitsAt key 0 ≠ [] := by intro h; rw [h] at hbl; simp at hbl
  obtain ⟨b, bs, hb⟩ : ∃ b bs, bitsAt key 0 = b :: bs := List.exists_cons_of_ne_nil hbne
  have hkb : key = b :: (bs ++ key.drop 4) := by
    have := drop_bitsAt key 0
    rw [hb] at this; simpa using this
  have hfind : findN key t = findT ((zipN (bitsAt key 0) t).2.2 ++ key.drop 4) (zipN (bitsAt key 0) t).2.1 := by
    have := findN_zip hbne (key.drop (4 * (0 + 1))) t
    rw [← drop_bitsAt] at this; exact this
  have hx : (zipN (bitsAt key 0) t).1 = (zipT bs (t.child b) []).1 ++ [(b, t.child (!b))] := by
    rw [hb]; exact congrArg Prod.fst (zipT_append bs (t.child b) [] [(b, t.child (!b))])
  have hf2 : (zipN (bitsAt key 0) t).2 = (zipT bs (t.child b) []).2 := by
    rw [hb]
    have := congrArg Prod.snd (zipT_append bs (t.child b) [] [(b, t.child (!b))])
    exact this
  have hrem : remT hs k.version (bs ++ key.drop 4) (t.child b) = plugJ hs k.version (zipT bs (t.child b) []).1
      (remT hs k.version ((zipN (bitsAt key 0) t).2.2 ++ key.drop 4) (zipN (bitsAt key 0) t).2.1) := by
    rw [hf2]; exact remT_zip hs k.version bs (key.drop 4) (t.child b) []
  have hremN : ¬ (t.child (!b) = .empty ∧ remT hs k.version (bs ++ key.drop 4) (t.child b) = .empty) →
      remN hs k.version key t = node hs k.version b (t.child (!b)) (remT hs k.version (bs ++ key.drop 4) (t.child b)) := by
    intro h
    rw [hkb]
    show (if _ then _ else _) = _
    rw [if_neg (by simpa [isEmpty_iff] using h), ← hkb]
  have hdk : ∀ {r}, (treeRemove hs 64 w key) = r → deleteKey hs k kb = r.map (·.cache) := by
    intro r h; unfold deleteKey; rw [hkey, show MAX_NIBBLES = 64 from rfl]; exact congrArg _ h
  have hsib := Shaped.zip_sib (key := key) (d := 0) (t := t) hS (fun h => absurd rfl h)
  obtain ⟨c', res, e, hcase⟩ := nodeRemove_spec hs (v := w.cache.version) hr hl hk hsib
  have etr := treeRemove_eq hs 63 (w := w) (key := key) (by show (0 : Nat) < 64; omega) e
  rcases hcase with ⟨hi, hc, hres⟩ | ⟨hno, hi, hc, hres⟩ | ⟨o, ho, hok, hcases⟩
  · -- descend
    subst hc
    rw [hres, remCont] at etr
    obtain ⟨c1, d1, d2, d3, d4, d5, d6, d7⟩ := descend_spec (n := 63) rfl hK rfl hl hr hi
    have d1' : ({ w with cur := w.cur } : Walker).descend key (zipN (bitsAt key 0) t).2.1.ver = _ := d1
    rw [d1', Option.bind_some] at etr
    rw [d5, List.nil_append] at hfind hrem
    generalize ht1 : (zipN (bitsAt key 0) t).2.1 = t1 at *
    have hS1 : Shaped t1 := by
      rw [← d4, hb]; exact (hS b).sub bs
    have ih := remove_claim hs key hK 63 1
      { w with stack := w.cur :: w.stack, path := nibs key (0 + 1), cur := c1, staleVersion := nodeVersion c1 } t1
      rfl (by omega) rfl rfl hi hS1 d2
    have hrn : remT hs k.version (key.drop 4) t1 ≠ .empty := remT_nonempty hs hS1 hi
    rcases ih with ⟨o, h1, h2, h3⟩ | ⟨h1, w', h2, h3⟩
    · left
      rcases h3 with ⟨hR, w', a1, a2, a3⟩ | ⟨p, w', hR, a1, a2, a3⟩
      · have hR' : (remT hs k.version (key.drop 4) t1).isInt = true := hR
        have hRv : (remT hs k.version (key.drop 4) t1).ver = k.version := by
          cases hdk : key.drop 4 with
          | nil => have := congrArg List.length hdk; rw [List.length_drop, hK] at this; simp at this
          | cons b bs => rw [hdk] at hR'; exact remT_ver hi hR'
        obtain ⟨w2, f1, f2, f3⟩ := Step.ascend hs (w0 := w) (w1 := { w with stack := w.cur :: w.stack, path := nibs key (0 + 1), cur := c1, staleVersion := nodeVersion c1 })
          (w1' := w') (t := t) (c := w.cur) (n := 63) (x := (zipN (bitsAt key 0) t).1) hk rfl a2 (Or.inl d4.symm) d3 (Or.inl hi) rfl rfl rfl rfl
          d6 d7 a3 hR' hRv
        have hpl : plug hs k.version (zipN (bitsAt key 0) t).1 (remT hs k.version (key.drop 4) t1) = remN hs k.version key t := by
          rw [hremN, hrem, hx, ← plugRoot_int _ _ _ _ hR', plugRoot_snoc]
          rw [hrem, plugJ_int _ _ _ _ hR']
          rintro ⟨_, h⟩
          have := plug_isInt hs k.version (zipT bs (t.child b) []).1 _ (Or.inr hR')
          rw [h] at this; simp [T.isInt] at this
        have f2' : Step w w2 key 0 t (plug hs k.version (zipN (bitsAt key 0) t).1 (remT hs k.version (key.drop 4) t1)) (some o.key) := f2
        have f3' : GRep w2.cache.get 64 [] w2.cur (plug hs k.version (zipN (bitsAt key 0) t).1 (remT hs k.version (key.drop 4) t1)) := f3
        rw [hpl] at f2' f3'
        obtain ⟨k', g1, g2⟩ := Step.done (hs := hs) f2' rfl hsv hl (by rw [← hpl]; exact plug_isInt hs _ _ _ (Or.inr hR')) f3'
        refine ⟨o, k', by rw [hfind]; exact h1, h2, ?_, g2⟩
        rw [hdk (etr.trans a1), ascendLoop, f1, Option.bind_some]; exact g1
      · have hR' : remT hs k.version (key.drop 4) t1 = .leaf p := hR
        obtain ⟨w2, u, f1, f2, f3⟩ := unlink_step hs (w0 := w) (w1 := { w with stack := w.cur :: w.stack, path := nibs key (0 + 1), cur := c1, staleVersion := nodeVersion c1 })
          (w1' := w') (t := t) (c := w.cur) (n := 63) (x := (zipN (bitsAt key 0) t).1) hk rfl a2 d4.symm d3 hi rfl rfl rfl rfl d6 d7 a3
        have hp2 : w2.path = [] := f2.path
        have hpl1 : w'.path.length = 0 + 1 := by rw [a2.path]; exact nibs_length _ _
        have hrb : removeBatchedNode hs w' (some p) = batchCont hs w2 u := by
          rw [removeBatched_eq, hpl1, f1]
          rfl
        have hv2 : w2.cache.version = k.version := f2.same.version
        have hpj : plugJ hs k.version (zipT bs (t.child b) []).1 (.leaf p) ≠ .empty := by
          intro h
          have := InT_plugJ (hs := hs) (v := k.version) (zipT bs (t.child b) []).1 (.leaf p) (InT_leaf.2 rfl)
          rw [h] at this; exact InT_empty this
        have hrN : remN hs k.version key t = node hs k.version b (t.child (!b)) (plugJ hs k.version (zipT bs (t.child b) []).1 (.leaf p)) := by
          rw [hremN, hrem, hR']
          rw [hrem, hR']; exact fun h => hpj h.2
        have hfull : plugJ hs w.cache.version (zipN (bitsAt key 0) t).1 (.leaf p) = join hs k.version b (t.child (!b)) (plugJ hs k.version (zipT bs (t.child b) []).1 (.leaf p)) := by
          rw [hx, plugJ_snoc]; rfl
        rcases f3 with ⟨r1, r2, r3⟩ | ⟨p', r1, r2, r3⟩
        · have hns : safeToRemove w2.cur = false := notSafe r3 (InT_plugJ _ _ (InT_leaf.2 rfl))
          have hj : plugJ hs w.cache.version (zipN (bitsAt key 0) t).1 (.leaf p) = remN hs k.version key t := by
            rw [hrN, hfull]; rw [hfull] at r1; exact (join_ver r1).1
          rw [hj] at f2 r3 r1
          obtain ⟨k', g1, g2⟩ := Step.done (hs := hs) f2 rfl hsv hl r1 (GRep_succ.2 r3)
          refine ⟨o, k', by rw [hfind]; exact h1, h2, ?_, g2⟩
          rw [hdk (etr.trans a1), hrb, r2]
          simp only [batchCont]
          rw [if_neg (by rw [hns]; simp)]
          have : w2.ascendToRoot hs none = ascendLoop hs 0 w2 := by
            unfold Walker.ascendToRoot; rw [hp2]; cases w2; subst hp2; rfl
          rw [this]; exact g1
        · -- one leaf left in the whole tree
          have hs1 : t.child (!b) = .empty ∧ plugJ hs k.version (zipT bs (t.child b) []).1 (.leaf p) = .leaf p' := by
            rw [hfull] at r1
            generalize plugJ hs k.version (zipT bs (t.child b) []).1 (.leaf p) = u at *
            generalize t.child (!b) = s at *
            cases s <;> cases u <;> cases b <;> simp [join, node] at r1 hpj ⊢ <;> exact r1
          have hin : InT p' t := by
            have : InT p' (remT hs k.version (bs ++ key.drop 4) (t.child b)) := by
              rw [hrem, hR', hs1.2]; exact InT_leaf.2 rfl
            exact InT_child (InT_remT _ _ this)
          have hin2 : Placed [b] (t.child b) := by
            have := hpl.sub [b]; exact this
          have hp'len := (hpl.of_InT hin).2
          have hp'b : [b] <+: p'.key.hash := by
            have : InT p' (remT hs k.version (bs ++ key.drop 4) (t.child b)) := by
              rw [hrem, hR', hs1.2]; exact InT_leaf.2 rfl
            exact (hin2.of_InT (InT_remT _ _ this)).1
          obtain ⟨rp, hrp⟩ := hp'b
          have hz : ∀ (bs : List Bool), (zipN bs .empty).2.1 = .empty := by
            intro bs; cases bs with
            | nil => rfl
            | cons b bs => cases bs <;> cases b <;> simp [zipN, zipT, T.child, T.isInt]
          obtain ⟨c2, r4, i1, i2⟩ := nodeInsert_spec hs (l := p') (d := 0) (cur := w2.cache.version) r3 rfl (by omega)
            (Or.inr (hz _)) (by intro o' h; rw [hz] at h; simp at h)
          have hr2 : Rep c2 (Link w2.cache.get 63 (nibs key 0)) 4 [] (insN hs w2.cache.version p' (p'.key.hash.drop (4 * 0)) .empty) ∧ ∃ st, r4 = .complete st := by
            rcases i2 with ⟨h, _⟩ | ⟨_, h, st, h', _⟩ | ⟨o', x', h, _⟩
            · rw [hz] at h; simp [T.isInt] at h
            · exact ⟨h, st, h'⟩
            · rw [hz] at h; simp at h
          obtain ⟨hr2, stx, hstx⟩ := hr2
          have hN : insN hs w2.cache.version p' (p'.key.hash.drop (4 * 0)) .empty = remN hs k.version key t := by
            rw [hrN, hs1.1, hs1.2, hv2]
            show insN hs k.version p' p'.key.hash .empty = _
            rw [← hrp]
            cases b <;> simp [insN, T.child, insT, List.append]
          rw [hN] at hr2
          have f2' : Step w { w2 with cur := c2 } key 0 t (remN hs k.version key t) (some o.key) := by
            refine ⟨f2.stack, f2.path, f2.sv, f2.same, ?_, f2.stale, f2.leaf⟩
            intro q' hq
            rcases f2.nodes_new q' hq with h | ⟨j, h1, h2, h3⟩
            · exact Or.inl h
            · rw [r1] at h3; unfold nodeAt at h3; rw [atT_nonint' rfl] at h3; simp at h3
          have hRi : (remN hs k.version key t).isInt = true := by rw [hrN]; exact node_isInt _ _ _ _ _
          obtain ⟨k', g1, g2⟩ := Step.done (hs := hs) f2' rfl hsv hl hRi (GRep_succ.2 hr2)
          refine ⟨o, k', by rw [hfind]; exact h1, h2, ?_, g2⟩
          rw [hdk (etr.trans a1), hrb, r2]
          have hdep : w2.depth = 0 := by unfold Walker.depth; rw [hp2]; rfl
          simp only [batchCont]
          rw [hdep, i1, hstx]
          simp only [Option.bind_some]
          have : ({ w2 with cur := c2 } : Walker).ascendToRoot hs none = ascendLoop hs 0 { w2 with cur := c2 } := by
            unfold Walker.ascendToRoot; cases w2; subst hp2; rfl
          rw [this]; exact g1
    · right
      refine ⟨by rw [hfind]; exact h1, ?_⟩
      rw [hdk (etr.trans h2)]; exact congrArg some h3
  · right
    refine ⟨?_, ?_⟩
    · intro o ho
      rw [hfind] at ho
      generalize (zipN (bitsAt key 0) t).2.1 = t1 at *
      cases t1 with
      | int _ _ _ _ => simp [T.isInt] at hi
      | empty => rw [findT_empty] at ho; simp at ho
      | leaf o' =>
        rw [findT_leaf] at ho
        have : o' = o := by simpa using ho
        subst this; exact hno _ rfl
    · rw [hres, remCont] at etr
      rw [hdk etr]; rfl
  · left
    have hkeyo : (⟨key, o.key.version⟩ : LeafKey) = o.key := by rw [← hok]
    rw [ho, findT_leaf] at hfind
    rw [ho, remT_leaf] at hrem
    have hni : (atT t (bitsAt key 0)).isInt = false := nodeAt_nonint hk (by rw [ho]; rfl)
    rcases hcases with ⟨_, hres, hrep, hnx⟩ | ⟨_, ⟨b', hx1⟩, hres, hsafe⟩ | ⟨h0, _⟩
    · rw [hres] at etr
      simp only [remCont, hkeyo] at etr
      have hR : plugRoot hs k.version (zipN (bitsAt key 0) t).1 .empty = remN hs k.version key t := by
        rw [hremN, hrem, hx, plugRoot_snoc]
        rw [hrem]
        rintro ⟨h1, h2⟩
        refine hnx ⟨b, ?_⟩
        rw [hx, h1]
        cases hcb : t.child b with
        | int x y z q =>
          exfalso
          have := remT_nonempty hs (v := k.version) (bs := bs ++ key.drop 4) (hS b) (by rw [hcb]; rfl)
          rw [hrem] at this; exact this h2
        | empty => cases bs <;> rfl
        | leaf _ => cases bs <;> rfl
      have hrep' : Rep c' (Link w.cache.get 63 (nibs key 0)) 4 [] (plugRoot hs k.version (zipN (bitsAt key 0) t).1 .empty) := hrep
      rw [hR] at hrep'
      have st : Step w { w with cur := c', cache := w.cache.putStaleLeaf (some o.key) } key 0 t (remN hs k.version key t) (some o.key) :=
        Step.local hk hni
      have hRi : (remN hs k.version key t).isInt = true := by
        rw [← hR, hx, plugRoot_snoc]; exact node_isInt _ _ _ _ _
      obtain ⟨k', g1, g2⟩ := Step.done (hs := hs) st rfl hsv hl hRi (by
        rw [GRep_succ]; show Rep c' (Link (w.cache.putStaleLeaf (some o.key)).get 63 []) 4 [] _
        rw [putStaleLeaf_get]; exact hrep')
      exact ⟨o, k', hfind, hok, by rw [hdk etr]; exact g1, g2⟩
    · -- the only leaf
      rw [hres] at etr
      simp only [remCont, hkeyo] at etr
      have hch : t.child (!b) = .empty ∧ t.child b = .leaf o := by
        rw [hx] at hx1
        have hl0 : (zipT bs (t.child b) []).1 = [] := by
          have := congrArg List.length hx1
          rw [List.length_append] at this
          exact List.length_eq_zero_iff.1 (by simpa using this)
        refine ⟨?_, ?_⟩
        · rw [hl0] at hx1; simp at hx1; exact hx1.2
        · rw [hf2] at ho
          cases bs with
          | nil => exact ho
          | cons c bs =>
            unfold zipT at ho hl0
            by_cases hi : (t.child b).isInt = true
            · rw [if_pos hi] at hl0; exact absurd hl0 (zipT_ne _ _ _ (by simp))
            · rw [if_neg hi] at ho; exact ho
      have hRe : remN hs k.version key t = .int hs.placeholder k.version .empty .empty := by
        rw [hkb]
        show (if _ then _ else _) = _
        rw [if_pos (by rw [hch.1, hch.2, remT_leaf]; rfl)]
      rw [hRe]
      let w1 : Walker := { w with cur := c', cache := w.cache.putStaleLeaf (some o.key) }
      obtain ⟨m1, m2, m3, m4, m5, m6, m7, m8, m9⟩ := markStale_fields w1
      have hrb : removeBatchedNode hs w1 none = some (({ w1.markStale with cache := w1.markStale.cache.remove w1.markStale.path } : Walker).insertEmptyRoot hs) := by
        unfold removeBatchedNode
        show ((removeNodeLoop hs 0 w1 none).bind _) = _
        rw [removeNodeLoop]
        simp only [Option.bind_some]
        rw [if_pos ⟨rfl, hsafe⟩]
        unfold Walker.removeCurrent
        simp only
        rw [if_pos (by rw [m3]; rfl)]
        rfl
      refine ⟨o, (({ w1.markStale with cache := w1.markStale.cache.remove w1.markStale.path } : Walker).insertEmptyRoot hs).cache, hfind, hok,
        by rw [hdk (etr.trans hrb)]; rfl, ?_⟩
      have hnodes : ∀ q', (({ w1.markStale with cache := w1.markStale.cache.remove w1.markStale.path } : Walker).insertEmptyRoot hs).cache.nodes q' =
          if q' = [] then some (set emptyNode 0 (some (.internal hs.placeholder k.version))) else k.nodes q' := by
        intro q'
        show (if q' = [] then some (set emptyNode 0 (some (.internal hs.placeholder w1.markStale.cache.version))) else
          if q' = w1.markStale.path then none else w1.markStale.cache.nodes q') = _
        rw [m3, m8, m5]
        by_cases hq : q' = []
        · rw [if_pos hq, if_pos hq]; rfl
        · rw [if_neg hq, if_neg hq, if_neg (show q' ≠ w1.path from hq)]; rfl
      have hT : ∀ j, 1 ≤ j → (nodeAt t key j).isInt = false := by
        intro j hj
        obtain ⟨j, rfl⟩ : ∃ i, j = i + 1 := ⟨j - 1, by omega⟩
        have := nodeAt_succ hk t j
        rw [show key.drop (4 * 0) = key from rfl] at this
        rw [this]; exact atT_nonint' hni _
      refine ⟨m5, m6, m7, ?_, ?_, ?_, ?_, ?_⟩
      · have : (({ w1.markStale with cache := w1.markStale.cache.remove w1.markStale.path } : Walker).insertEmptyRoot hs).cache.getRoot =
            set emptyNode 0 (some (.internal hs.placeholder k.version)) := by
          unfold Cache.getRoot; rw [hnodes, if_pos rfl]; rfl
        rw [this, GRep_succ]
        refine ⟨rfl, ?_, ?_⟩
        all_goals
          refine Rep.of_empty (fun s' hp hl => ?_)
          rw [show (0 : Nat) = ix [] from rfl, set_ix _ _ (by rintro rfl; simp at hp)]
          rfl
      · rw [hnodes, if_pos rfl]; simp
      · intro q' hq
        rw [hnodes] at hq
        by_cases he : q' = []
        · exact Or.inr ⟨0, he, rfl⟩
        · rw [if_neg he] at hq
          refine Or.inl ⟨hq, fun j hj => ?_⟩
          cases j with
          | zero => exact absurd hj he
          | succ j => exact hT _ (by omega)
      · intro u q'
        show (u, q') ∈ w1.markStale.cache.staleInternal ↔ _
        rw [markStale_stale]
        constructor
        · rintro (h | ⟨h1, h2, h3, h4⟩)
          · exact Or.inl h
          · refine Or.inr ⟨0, h2, ?_, ?_, h3, h4⟩
            · rw [nodeAt_zero]
              have h5 : u = t.ver := h1.trans hsv
              cases t with
              | int _ _ _ _ => rfl
              | empty => exact absurd h5 h3
              | leaf _ => exact absurd h5 h3
            · rw [nodeAt_zero, h1]; exact hsv.symm
        · rintro (h | ⟨j, h1, h2, h3, h4, h5⟩)
          · exact Or.inl h
          · cases j with
            | zero => rw [nodeAt_zero] at h3; exact Or.inr ⟨h3.symm.trans hsv.symm, h1, h4, h5⟩
            | succ j => rw [hT _ (by omega)] at h2; simp at h2
      · exact m9
    · exact absurd rfl h0

end Verif.Smt
