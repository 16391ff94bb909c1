import Verif.Smt.Trie
/-!
# What the operations of a batched node do to the trie: walking down, inserting, linking
-/
set_option linter.unusedVariables false
set_option linter.unusedSimpArgs false
namespace Verif.Smt

/-- go down through internal nodes: context, subtree reached, bits not used -/
def zipT : List Bool → T → Ctx → Ctx × T × List Bool
  | [], t, x => (x, t, [])
  | b :: bs, t, x => if t.isInt then zipT bs (t.child b) ((b, t.child (!b)) :: x) else (x, t, b :: bs)

/-- the bits of a nibble from bit `k - 1` down -/
def nibBits (nib : Nat) : Nat → List Bool
  | 0 => []
  | k + 1 => getBit nib k :: nibBits nib k

theorem nibBits_length (nib k) : (nibBits nib k).length = k := by
  induction k with
  | zero => rfl
  | succ k ih => simp [nibBits, ih]

/-- the first step from the root of a node is taken whatever is there -/
def zipN (bs : List Bool) (t : T) : Ctx × T × List Bool :=
  match bs with
  | b :: bs => zipT bs (t.child b) [(b, t.child (!b))]
  | [] => ([], t, [])

theorem zipT_path : ∀ (bs : List Bool) (t : T) (x : Ctx), pathOf (zipT bs t x).1 ++ (zipT bs t x).2.2 = pathOf x ++ bs
  | [], t, x => rfl
  | b :: bs, t, x => by
    unfold zipT
    split
    · rw [zipT_path bs _ _, pathOf_cons]; simp
    · rfl

theorem zipT_int : ∀ (bs : List Bool) (t : T) (x : Ctx), (zipT bs t x).2.1.isInt = true → (zipT bs t x).2.2 = []
  | [], t, x, _ => rfl
  | b :: bs, t, x, h => by
    unfold zipT at h ⊢
    split
    · rename_i hi; rw [if_pos hi] at h; exact zipT_int bs _ _ h
    · rename_i hi; rw [if_neg hi] at h; exact absurd h hi

theorem zipT_ne : ∀ (bs : List Bool) (t : T) (x : Ctx), x ≠ [] → (zipT bs t x).1 ≠ []
  | [], t, x, h => h
  | b :: bs, t, x, h => by
    unfold zipT
    split
    · exact zipT_ne bs _ _ (by simp)
    · exact h

theorem isInternal_of {c : Node} {i : Nat} {t : T} (h : c i = t.tag) : isInternal c i = t.isInt := by
  unfold isInternal; rw [h]; cases t <;> rfl

theorem notLeaf_of {c : Node} {i : Nat} {t : T} (h : c i = t.tag) (hl : t.isLeaf = false) : notLeaf (c i) := by
  intro l e; rw [h] at e
  cases t <;> simp [T.tag, T.isLeaf] at e hl

/-- `walkDown` follows the trie -/
theorem walk_spec {c : Node} {L} (nib : Nat) : ∀ (k : Nat) (t : T) (x : Ctx), Rep c L k (pathOf x) t → RepR c L k x → t.isInt = true →
    RepR c L (zipT (nibBits nib k) t x).2.2.length (zipT (nibBits nib k) t x).1 ∧
    Rep c L (zipT (nibBits nib k) t x).2.2.length (pathOf (zipT (nibBits nib k) t x).1) (zipT (nibBits nib k) t x).2.1 ∧
    walkDown c nib k (ix (pathOf x)) =
      (if (zipT (nibBits nib k) t x).2.1.isInt then Sum.inr (ix (pathOf (zipT (nibBits nib k) t x).1))
       else Sum.inl (ix (pathOf (zipT (nibBits nib k) t x).1)))
  | 0, t, x, r, rr, hi => by
    refine ⟨rr, r, ?_⟩
    simp [nibBits, zipT, walkDown, hi]
  | k + 1, t, x, r, rr, hi => by
    rw [nibBits, zipT, if_pos hi]
    have r1 : Rep c L k (pathOf ((getBit nib k, t.child (!getBit nib k)) :: x)) (t.child (getBit nib k)) := by
      rw [pathOf_cons]; exact r.child _
    have rr1 : RepR c L k ((getBit nib k, t.child (!getBit nib k)) :: x) :=
      ⟨notLeaf_of r.tag (by cases t <;> simp [T.isInt, T.isLeaf] at hi ⊢), r.child _, rr⟩
    have hw : walkDown c nib (k + 1) (ix (pathOf x)) =
        if isInternal c (ix (pathOf x ++ [getBit nib k])) then walkDown c nib k (ix (pathOf x ++ [getBit nib k]))
        else .inl (ix (pathOf x ++ [getBit nib k])) := by
      rw [walkDown, ix_snoc]
    rw [hw, isInternal_of (r.child (getBit nib k)).tag]
    cases hci : (t.child (getBit nib k)).isInt with
    | true =>
      have := walk_spec nib k _ _ r1 rr1 hci
      rw [pathOf_cons] at this
      simpa using this
    | false =>
      have hz : zipT (nibBits nib k) (t.child (getBit nib k)) ((getBit nib k, t.child (!getBit nib k)) :: x) =
          ((getBit nib k, t.child (!getBit nib k)) :: x, t.child (getBit nib k), nibBits nib k) := by
        cases k with
        | zero => rfl
        | succ k => rw [nibBits, zipT, if_neg (by simp [hci])]
      rw [hz]
      refine ⟨by rw [nibBits_length]; exact rr1, by rw [nibBits_length]; exact r1, ?_⟩
      simp [hci, pathOf_cons]

theorem walkN_spec {c : Node} {L} (nib : Nat) (t : T) (r : Rep c L 4 [] t) (hl : t.isLeaf = false) :
    RepR c L (zipN (nibBits nib 4) t).2.2.length (zipN (nibBits nib 4) t).1 ∧
    Rep c L (zipN (nibBits nib 4) t).2.2.length (pathOf (zipN (nibBits nib 4) t).1) (zipN (nibBits nib 4) t).2.1 ∧
    walkDown c nib 4 0 =
      (if (zipN (nibBits nib 4) t).2.1.isInt then Sum.inr (ix (pathOf (zipN (nibBits nib 4) t).1))
       else Sum.inl (ix (pathOf (zipN (nibBits nib 4) t).1))) := by
  rw [nibBits, zipN]
  have r1 : Rep c L 3 (pathOf [(getBit nib 3, t.child (!getBit nib 3))]) (t.child (getBit nib 3)) := r.child _
  have rr1 : RepR c L 3 [(getBit nib 3, t.child (!getBit nib 3))] := ⟨notLeaf_of r.tag hl, r.child _, trivial⟩
  have hw : walkDown c nib 4 0 =
      if isInternal c (ix (pathOf [(getBit nib 3, t.child (!getBit nib 3))])) then
        walkDown c nib 3 (ix (pathOf [(getBit nib 3, t.child (!getBit nib 3))]))
      else .inl (ix (pathOf [(getBit nib 3, t.child (!getBit nib 3))])) := by
    rw [walkDown]; rfl
  rw [hw, isInternal_of r1.tag]
  cases hci : (t.child (getBit nib 3)).isInt with
  | true =>
    have := walk_spec nib 3 _ _ r1 rr1 hci
    simpa using this
  | false =>
    have hz : zipT (nibBits nib 3) (t.child (getBit nib 3)) [(getBit nib 3, t.child (!getBit nib 3))] =
        ([(getBit nib 3, t.child (!getBit nib 3))], t.child (getBit nib 3), nibBits nib 3) := by
      rw [nibBits, zipT, if_neg (by simp [hci])]
    rw [hz]
    refine ⟨rr1, r1, ?_⟩
    simp [hci]

theorem zipN_path (bs : List Bool) (t : T) : pathOf (zipN bs t).1 ++ (zipN bs t).2.2 = bs := by
  cases bs with
  | nil => rfl
  | cons b bs => exact zipT_path bs _ _

theorem zipN_ne (b : Bool) (bs : List Bool) (t : T) : (zipN (b :: bs) t).1 ≠ [] := zipT_ne bs _ _ (by simp)

theorem zipN_len {bs : List Bool} (h : bs.length = 4) (t : T) : (zipN bs t).1.length + (zipN bs t).2.2.length = 4 := by
  have := congrArg List.length (zipN_path bs t)
  rw [List.length_append, pathOf_length, h] at this
  exact this

theorem zipN_int (bs : List Bool) (t : T) (h : (zipN bs t).2.1.isInt = true) (hb : bs ≠ []) : (zipN bs t).2.2 = [] := by
  cases bs with
  | nil => exact absurd rfl hb
  | cons b bs => exact zipT_int bs _ _ h

/-! ## keys and nibbles -/

theorem nibBits_of_bits : ∀ (b0 b1 b2 b3 : Bool),
    nibBits ([b0, b1, b2, b3].foldl (fun a b => 2 * a + b.toNat) 0) 4 = [b0, b1, b2, b3] := by decide

theorem nib_index : ∀ (b0 b1 b2 b3 : Bool),
    nibbleToIndex ([b0, b1, b2, b3].foldl (fun a b => 2 * a + b.toNat) 0) = ix [b0, b1, b2, b3] := by decide

theorem four_bits {k : Hash} {d : Nat} (h : 4 * d + 4 ≤ k.length) :
    ∃ b0 b1 b2 b3, (k.drop (4 * d)).take 4 = [b0, b1, b2, b3] := by
  have hl : ((k.drop (4 * d)).take 4).length = 4 := by
    rw [List.length_take, List.length_drop]; omega
  match hm : (k.drop (4 * d)).take 4, hl with
  | [a, b, c, e], _ => exact ⟨a, b, c, e, rfl⟩

/-- the bits of nibble `d` of a key -/
def bitsAt (k : Hash) (d : Nat) : List Bool := (k.drop (4 * d)).take 4

theorem nibBits_getNibble {k : Hash} {d : Nat} (h : 4 * d + 4 ≤ k.length) : nibBits (getNibble k d) 4 = bitsAt k d := by
  obtain ⟨a, b, c, e, hb⟩ := four_bits h
  rw [bitsAt, getNibble, hb]; exact nibBits_of_bits a b c e

theorem index_getNibble {k : Hash} {d : Nat} (h : 4 * d + 4 ≤ k.length) : nibbleToIndex (getNibble k d) = ix (bitsAt k d) := by
  obtain ⟨a, b, c, e, hb⟩ := four_bits h
  rw [bitsAt, getNibble, hb]; exact nib_index a b c e

theorem bitsAt_length {k : Hash} {d : Nat} (h : 4 * d + 4 ≤ k.length) : (bitsAt k d).length = 4 := by
  rw [bitsAt, List.length_take, List.length_drop]; omega

theorem drop_bitsAt (k : Hash) (d : Nat) : k.drop (4 * d) = bitsAt k d ++ k.drop (4 * (d + 1)) := by
  rw [bitsAt, show 4 * (d + 1) = 4 * d + 4 by omega, ← List.drop_drop, List.take_append_drop]

theorem height_ix : ∀ (s : List Bool), s.length ≤ 4 → height (ix s) = 4 - s.length
  | [], _ => by decide
  | [a], _ => by revert a; decide
  | [a, b], _ => by revert a b; decide
  | [a, b, c], _ => by revert a b c; decide
  | [a, b, c, d], _ => by revert a b c d; decide
  | _ :: _ :: _ :: _ :: _ :: _, h => by simp at h

theorem prefixBits_append (p a b : Hash) : prefixBits (p ++ a) (p ++ b) = p.length + prefixBits a b := by
  induction p with
  | nil => simp
  | cons x p ih => simp [prefixBits, ih]; omega

/-! ## inserting -/

/-- the trie holding two different leaves -/
def splitT (hs : Hasher) (v : Ver) (o l : LeafChild) : List Bool → List Bool → T
  | b' :: bs', b :: bs => if b' = b then node hs v b .empty (splitT hs v o l bs' bs) else node hs v b (.leaf o) (.leaf l)
  | _, _ => .empty

/-- insertion into a subtree; the bits are those of the key of `l` below it -/
def insT (hs : Hasher) (v : Ver) (l : LeafChild) : List Bool → T → T
  | _, .empty => .leaf l
  | bs, .leaf o => if o.key.hash = l.key.hash then .leaf l
      else splitT hs v o l (o.key.hash.drop (l.key.hash.length - bs.length)) bs
  | b :: bs, .int h w a c => node hs v b ((T.int h w a c).child (!b)) (insT hs v l bs ((T.int h w a c).child b))
  | [], t => t

/-- insertion at the root of a node -/
def insN (hs : Hasher) (v : Ver) (l : LeafChild) : List Bool → T → T
  | b :: bs, t => node hs v b (t.child (!b)) (insT hs v l bs (t.child b))
  | [], t => t

theorem insT_zip (hs : Hasher) (v : Ver) (l : LeafChild) : ∀ (bs rest : List Bool) (t : T) (x : Ctx),
    plug hs v x (insT hs v l (bs ++ rest) t) =
      plug hs v (zipT bs t x).1 (insT hs v l ((zipT bs t x).2.2 ++ rest) (zipT bs t x).2.1)
  | [], rest, t, x => rfl
  | b :: bs, rest, t, x => by
    unfold zipT
    split
    · rename_i hi
      rw [← insT_zip hs v l bs rest]
      cases t with
      | int h w a c => rfl
      | empty => simp [T.isInt] at hi
      | leaf _ => simp [T.isInt] at hi
    · rfl

theorem insN_zip (hs : Hasher) (v : Ver) (l : LeafChild) {bs : List Bool} (hb : bs ≠ []) (rest : List Bool) (t : T) :
    insN hs v l (bs ++ rest) t =
      plug hs v (zipN bs t).1 (insT hs v l ((zipN bs t).2.2 ++ rest) (zipN bs t).2.1) := by
  cases bs with
  | nil => exact absurd rfl hb
  | cons b bs =>
    rw [zipN, ← insT_zip hs v l bs rest]; rfl

/-- frames with an empty sibling for some bits, above a context -/
def emptyFrames (bs : List Bool) (x : Ctx) : Ctx := bs.foldl (fun x b => (b, T.empty) :: x) x

theorem emptyFrames_path : ∀ (bs : List Bool) (x : Ctx), pathOf (emptyFrames bs x) = pathOf x ++ bs
  | [], x => by simp [emptyFrames]
  | b :: bs, x => by
    have := emptyFrames_path bs ((b, T.empty) :: x)
    rw [pathOf_cons] at this
    rw [emptyFrames, List.foldl_cons]
    rw [emptyFrames] at this
    rw [this]; simp

theorem emptyFrames_len (bs : List Bool) (x : Ctx) : (emptyFrames bs x).length = x.length + bs.length := by
  have := congrArg List.length (emptyFrames_path bs x)
  simpa [pathOf_length] using this

theorem emptyFrames_cons (b : Bool) (bs : List Bool) (x : Ctx) : emptyFrames (b :: bs) x = emptyFrames bs ((b, T.empty) :: x) := rfl

/-- splitting below common bits -/
theorem splitT_common (hs : Hasher) (v : Ver) (o l : LeafChild) : ∀ (p a b : List Bool) (x : Ctx),
    plug hs v x (splitT hs v o l (p ++ a) (p ++ b)) = plug hs v (emptyFrames p x) (splitT hs v o l a b)
  | [], a, b, x => rfl
  | c :: p, a, b, x => by
    rw [emptyFrames_cons, ← splitT_common hs v o l p]
    simp [splitT, plug]

/-- creating internal children downwards: the places below stay free, the context grows by empty siblings -/
theorem insertInternal_spec (hs : Hasher) (nib : Nat) (v : Ver) (u : Nat) {L} : ∀ (k : Nat) (c : Node) (x : Ctx),
    u ≤ k → notLeaf (c (ix (pathOf x))) → RepR c L k x → (∀ s', pathOf x <+: s' → s' ≠ pathOf x → s'.length ≤ x.length + k → c (ix s') = none) →
    ∃ c', insertInternalChildren hs nib v u k c (ix (pathOf x)) =
        (c', ix (pathOf (emptyFrames ((nibBits nib k).take (k - u)) x))) ∧
      notLeaf (c' (ix (pathOf (emptyFrames ((nibBits nib k).take (k - u)) x)))) ∧
      RepR c' L u (emptyFrames ((nibBits nib k).take (k - u)) x) ∧
      (∀ s', pathOf (emptyFrames ((nibBits nib k).take (k - u)) x) <+: s' →
        s' ≠ pathOf (emptyFrames ((nibBits nib k).take (k - u)) x) → s'.length ≤ x.length + k → c' (ix s') = none) ∧
      c' 0 = c 0
  | 0, c, x, hu, hn, rr, he => by
    obtain rfl : u = 0 := by omega
    exact ⟨c, by simp [insertInternalChildren, nibBits, emptyFrames], by simpa [nibBits, emptyFrames] using hn,
      by simpa [nibBits, emptyFrames] using rr, by simpa [nibBits, emptyFrames] using he, rfl⟩
  | k + 1, c, x, hu, hn, rr, he => by
    by_cases huk : u ≤ k
    · rw [insertInternalChildren, if_pos huk, show k + 1 - u = (k - u) + 1 by omega, nibBits, List.take_succ_cons, emptyFrames_cons]
      have hst : step (ix (pathOf x)) (getBit nib k) = ix (pathOf ((getBit nib k, T.empty) :: x)) := by rw [pathOf_cons, ix_snoc]
      simp only [hst]
      have hlen : (pathOf x).length = x.length := pathOf_length x
      have := insertInternal_spec hs nib v u (L := L) k (set c (ix (pathOf ((getBit nib k, T.empty) :: x))) (some (.internal hs.placeholder v)))
        ((getBit nib k, T.empty) :: x) huk ?_ ?_ ?_
      · rw [List.length_cons, show x.length + 1 + k = x.length + (k + 1) by omega, pathOf_cons, set_ne _ _ (fun e => by rw [ix_snoc] at e; exact step_ne_zero _ _ e.symm)] at this
        rw [pathOf_cons]; exact this
      · rw [set_same]; intro l e; simp at e
      · rw [pathOf_cons]
        refine ⟨?_, ?_, rr.set (List.prefix_append _ _)⟩
        · rw [set_ix _ _ (snoc_ne _ _).symm]; exact hn
        · refine Rep.of_empty (fun s' hp hl => ?_)
          rw [set_ix]
          · refine he s' ((List.prefix_append _ _).trans hp) ?_ (by rw [List.length_append] at hl; simp at hl; omega)
            rintro rfl; exact not_snoc_prefix _ _ hp
          · rintro rfl; exact not_prefix_sib List.prefix_rfl hp
      · intro s' hp hne hl
        rw [set_ix _ _ hne]
        rw [pathOf_cons] at hp
        refine he s' ((List.prefix_append _ _).trans hp) ?_ (by simp at hl; omega)
        rintro rfl; exact not_snoc_prefix _ _ hp
    · obtain rfl : u = k + 1 := by omega
      rw [insertInternalChildren, if_neg huk]
      refine ⟨c, ?_, ?_, ?_, ?_, rfl⟩
      all_goals simp only [Nat.sub_self, List.take_zero, emptyFrames, List.foldl_nil]
      · exact hn
      · exact rr
      · exact he

theorem updateHashes_full (hs : Hasher) (v : Ver) {x : Ctx} {h : Nat} {c : Node} {L} {t : T} (hx : x ≠ []) (hl : h + x.length = 4)
    (rr : RepR c L h x) (r : Rep c L h (pathOf x) t) :
    ∃ c', updateHashes hs c (ix (pathOf x)) v = some c' ∧ Rep c' L 4 [] (plug hs v x t) := by
  have := updateHashes_spec hs v x 5 h c L t hx (by omega) rr r
  rw [hl] at this; exact this

/-- `linkChild` -/
theorem linkChild_spec (hs : Hasher) {c : Node} {L L'} {x : Ctx} {key : Hash} {d : Nat} {h : Hash} {v : Ver} {a b : T}
    (hk : 4 * d + 4 ≤ key.length) (hx : pathOf x = bitsAt key d) (rr : RepR c L 0 x)
    (hL : ∀ s' t', s' ≠ bitsAt key d → L s' t' → L' s' t') (hl : L' (bitsAt key d) (.int h v a b)) :
    ∃ c', linkChild hs c (getNibble key d) h v = some c' ∧ Rep c' L' 4 [] (plug hs v x (.int h v a b)) := by
  unfold linkChild
  rw [index_getNibble hk, ← hx]
  have hlen : x.length = 4 := by rw [← pathOf_length, hx, bitsAt_length hk]
  refine updateHashes_full hs v (h := 0) (by rintro rfl; simp at hlen) (by omega) ?_ ?_
  · refine RepR.set List.prefix_rfl (rr.frame (fun _ _ => rfl) (fun s' t' hn => hL s' t' ?_))
    rintro rfl; exact hn (hx ▸ List.prefix_rfl)
  · exact ⟨set_same _ _ _, fun _ => by rw [hx]; exact hl⟩

theorem prefixBits_split : ∀ (a b : Hash), a.length = b.length → a ≠ b →
    ∃ p x a' b', a = p ++ x :: a' ∧ b = p ++ (!x) :: b' ∧ prefixBits a b = p.length ∧ prefixBits b a = p.length
  | [], [], _, h => absurd rfl h
  | [], _ :: _, h, _ => by simp at h
  | _ :: _, [], h, _ => by simp at h
  | x :: a, y :: b, hl, hne => by
    by_cases hxy : x = y
    · subst hxy
      obtain ⟨p, z, a', b', h1, h2, h3, h4⟩ := prefixBits_split a b (by simpa using hl) (by rintro rfl; exact hne rfl)
      exact ⟨x :: p, z, a', b', by rw [h1]; rfl, by rw [h2]; rfl, by simp [prefixBits, h3], by simp [prefixBits, h4]⟩
    · exact ⟨[], x, a, b, rfl, by cases x <;> cases y <;> simp at hxy ⊢, by simp [prefixBits, hxy],
        by simp [prefixBits, Ne.symm hxy]⟩

theorem nibBits_drop (nib : Nat) : ∀ (j k : Nat), (nibBits nib (j + k)).drop j = nibBits nib k
  | 0, k => by simp
  | j + 1, k => by
    rw [show j + 1 + k = (j + k) + 1 by omega, nibBits, List.drop_succ_cons]
    exact nibBits_drop nib j k

theorem nibBits_get (nib : Nat) : ∀ (p : List Bool) (b : Bool) (q : List Bool) (k : Nat), nibBits nib k = p ++ b :: q → getBit nib (k - p.length - 1) = b
  | [], b, q, 0, h => by simp [nibBits] at h
  | [], b, q, k + 1, h => by simp [nibBits] at h; simpa using h.1
  | a :: p, b, q, 0, h => by simp [nibBits] at h
  | a :: p, b, q, k + 1, h => by
    simp [nibBits] at h
    have := nibBits_get nib p b q k h.2
    rw [List.length_cons, show k + 1 - (p.length + 1) - 1 = k - p.length - 1 by omega]; exact this

/-- `splitNode` -/
theorem splitNode_spec (hs : Hasher) {c : Node} {L} {x : Ctx} {o l : LeafChild} {d : Nat} {rest tail P ro : List Bool}
    (hk : 4 * d + 4 ≤ l.key.hash.length) (hlen : x.length + rest.length = 4) (hne : x ≠ [])
    (hpath : pathOf x ++ rest = bitsAt l.key.hash d) (rr : RepR c L rest.length x) (rs : Rep c L rest.length (pathOf x) (.leaf o))
    (hK : l.key.hash = P ++ (rest ++ tail)) (hO : o.key.hash = P ++ ro) (hP : P.length = 4 * d + x.length)
    (hro : ro.length = (rest ++ tail).length) (hkey : ro ≠ rest ++ tail) :
    ∃ c' res, splitNode hs c (ix (pathOf x)) o l d = some (c', res) ∧
      ((res = .complete none ∧ Rep c' L 4 [] (plug hs l.key.version x (splitT hs l.key.version o l ro (rest ++ tail)))) ∨
       (∃ x' ro', res = .createNew o ∧ 4 ≤ prefixBitsAt l.key.hash o.key.hash d ∧ pathOf x' = bitsAt l.key.hash d ∧ RepR c' L 0 x' ∧
          c' 0 = c 0 ∧ ro = rest ++ ro' ∧
          plug hs l.key.version x (splitT hs l.key.version o l ro (rest ++ tail)) =
            plug hs l.key.version x' (splitT hs l.key.version o l ro' tail))) := by
  obtain ⟨p, y, ra, rb, e1, e2, e3, e4⟩ := prefixBits_split ro (rest ++ tail) hro hkey
  have hx1 : 1 ≤ x.length := by
    cases x with
    | nil => exact absurd rfl hne
    | cons _ _ => simp
  have hpb : prefixBitsAt o.key.hash l.key.hash d = x.length + p.length := by
    unfold prefixBitsAt
    rw [hO, hK, prefixBits_append, e3, hP, show NIBBLE_BITS = 4 from rfl, if_pos (by omega)]; omega
  have hpb' : prefixBitsAt l.key.hash o.key.hash d = x.length + p.length := by
    unfold prefixBitsAt
    rw [hO, hK, prefixBits_append, e4, hP, show NIBBLE_BITS = 4 from rfl, if_pos (by omega)]; omega
  have hpl : (pathOf x).length = x.length := pathOf_length x
  have hnp : pathOf x ≠ [] := by intro e; rw [e] at hpl; simp at hpl; omega
  have h00 : ∀ o, set c (ix (pathOf x)) o 0 = c 0 := fun o => set_ne _ _ (fun e => hnp (ix_eq_zero.1 e.symm))
  have hh : height (ix (pathOf x)) = rest.length := by rw [height_ix _ (by omega)]; omega
  unfold splitNode
  simp only [hh, hpb]
  by_cases hr0 : rest.length = 0
  · have hr : rest = [] := List.length_eq_zero_iff.1 hr0
    subst hr
    simp only [List.length_nil, if_true]
    refine ⟨_, _, rfl, Or.inr ⟨x, ro, rfl, by rw [hpb']; simp at hlen; omega, by simpa using hpath, ?_, h00 _, rfl, rfl⟩⟩
    exact rr.set List.prefix_rfl
  · rw [if_neg hr0, if_neg (by omega)]
    have hnb : nibBits (getNibble l.key.hash d) rest.length = rest := by
      have := nibBits_drop (getNibble l.key.hash d) x.length rest.length
      rw [hlen, nibBits_getNibble hk, ← hpath, List.drop_append_of_le_length (by omega), List.drop_of_length_le (by omega)] at this
      simpa using this.symm
    have hbelow : ∀ s', pathOf x <+: s' → s' ≠ pathOf x → s'.length ≤ x.length + rest.length →
        set c (ix (pathOf x)) (some (.internal hs.placeholder l.key.version)) (ix s') = none := by
      intro s' hp hn hl
      rw [set_ix _ _ hn]
      have := (rs.clear rfl).empty_below s' hp (by omega)
      rwa [set_ix _ _ hn] at this
    have hnl : notLeaf (set c (ix (pathOf x)) (some (.internal hs.placeholder l.key.version)) (ix (pathOf x))) := by
      rw [set_same]; intro l e; simp at e
    by_cases hc4 : x.length + p.length < 4
    · -- both leaves fit in this node
      have hpr : p.length < rest.length := by omega
      simp only [show NIBBLE_BITS = 4 from rfl, hc4, if_true]
      have hu : 4 - (x.length + p.length) = rest.length - p.length := by omega
      rw [hu]
      obtain ⟨c1, f1, f2, f3, f4, f5⟩ := insertInternal_spec hs (getNibble l.key.hash d) l.key.version (rest.length - p.length) rest.length
        _ x (by omega) hnl (rr.set (o := some (.internal hs.placeholder l.key.version)) List.prefix_rfl) hbelow
      rw [hnb, show rest.length - (rest.length - p.length) = p.length by omega] at f1 f2 f3 f4
      have hrp : ∃ q, rest = p ++ (!y) :: q ∧ rb = q ++ tail := by
        have h1 := congrArg (List.take (p.length + 1)) e2
        rw [List.take_append_of_le_length (by omega)] at h1
        have h2 : List.take (p.length + 1) (p ++ (!y) :: rb) = p ++ [!y] := by
          rw [List.take_append, List.take_of_length_le (by omega)]; simp
        refine ⟨rest.drop (p.length + 1), ?_, ?_⟩
        · conv => lhs; rw [← List.take_append_drop (p.length + 1) rest, h1, h2]
          simp
        · have h3 := congrArg (List.drop (p.length + 1)) e2
          rw [List.drop_append_of_le_length (by omega)] at h3
          rw [h3, List.drop_append]; simp
      obtain ⟨q, hq, hqb⟩ := hrp
      have htake : rest.take p.length = p := by rw [hq]; simp
      rw [htake] at f1 f2 f3 f4
      rw [f1]
      unfold insertTwoLeafChildren
      have hbit : getBit (getNibble l.key.hash d) (4 - (x.length + p.length) - 1) = !y := by
        have := nibBits_get (getNibble l.key.hash d) p (!y) q rest.length (by rw [hnb]; exact hq)
        rw [← hu] at this; exact this
      simp only [show NIBBLE_BITS = 4 from rfl, hbit]
      generalize hX : emptyFrames p x = X at *
      have hXl : X.length = x.length + p.length := by rw [← hX]; exact emptyFrames_len _ _
      rw [← ix_snoc, ← ix_snoc, Bool.not_not]
      have hpX : (pathOf X).length = X.length := pathOf_length X
      obtain ⟨j, hj⟩ : ∃ j, rest.length - p.length = j + 1 := ⟨rest.length - p.length - 1, by omega⟩
      rw [hj] at f3
      have hemp : ∀ b, Rep c1 L j (pathOf X ++ [b]) .empty := by
        intro b
        refine Rep.of_empty (fun s' hp hl => f4 s' ((List.prefix_append _ _).trans hp) ?_ ?_)
        · rintro rfl; exact not_snoc_prefix _ _ hp
        · rw [List.length_append] at hl; simp at hl; omega
      have hne2 : pathOf X ++ [y] ≠ pathOf X ++ [!y] := by
        intro e; have := List.append_cancel_left e; cases y <;> simp at this
      have hsibs : ∀ s', pathOf X ++ [!y] <+: s' → s' ≠ pathOf X ++ [y] := by
        rintro s' hp rfl; exact not_prefix_sib (List.prefix_rfl (l := pathOf X ++ [y])) hp
      have hsibs' : ∀ s', pathOf X ++ [y] <+: s' → s' ≠ pathOf X ++ [!y] := by
        rintro s' hp rfl; exact not_prefix_sib hp List.prefix_rfl
      have g1 : Rep (set (set c1 (ix (pathOf X ++ [!y])) (some (.leaf l))) (ix (pathOf X ++ [y])) (some (.leaf o))) L j (pathOf X ++ [!y]) (.leaf l) :=
        ((hemp (!y)).set_leafish (t := .leaf l) rfl).frame (fun s' hp => set_ix _ _ (hsibs s' hp)) (fun _ _ _ _ h => h)
      have g2 : Rep (set (set c1 (ix (pathOf X ++ [!y])) (some (.leaf l))) (ix (pathOf X ++ [y])) (some (.leaf o))) L j (pathOf X ++ [y]) (.leaf o) :=
        Rep.set_leafish (t := .leaf o) ((hemp y).frame (fun s' hp => set_ix _ _ (hsibs' s' hp)) (fun _ _ _ _ h => h)) rfl
      have g3 : RepR (set (set c1 (ix (pathOf X ++ [!y])) (some (.leaf l))) (ix (pathOf X ++ [y])) (some (.leaf o))) L j ((!y, T.leaf o) :: X) := by
        refine ⟨?_, by rw [Bool.not_not]; exact g2, ?_⟩
        · rw [set_ix _ _ (snoc_ne _ _).symm, set_ix _ _ (snoc_ne _ _).symm]; exact f2
        · exact (f3.set (List.prefix_append _ _)).set (List.prefix_append _ _)
      obtain ⟨c', h1, h2⟩ := updateHashes_full hs l.key.version (x := (!y, T.leaf o) :: X) (h := j) (by simp)
        (by rw [List.length_cons]; omega) g3 (by rw [pathOf_cons]; exact g1)
      rw [pathOf_cons] at h1
      rw [h1]
      refine ⟨c', _, rfl, Or.inl ⟨rfl, ?_⟩⟩
      rw [e1, e2, splitT_common, hX]
      rw [plug] at h2
      rw [splitT, if_neg (by cases y <;> simp)]
      exact h2
    · -- the bits of this node are all in common
      simp only [show NIBBLE_BITS = 4 from rfl, hc4, if_false]
      obtain ⟨c1, f1, f2, f3, f4, f5⟩ := insertInternal_spec hs (getNibble l.key.hash d) l.key.version 0 rest.length
        _ x (by omega) hnl (rr.set (o := some (.internal hs.placeholder l.key.version)) List.prefix_rfl) hbelow
      rw [hnb, Nat.sub_zero, List.take_length] at f1 f2 f3 f4
      rw [f1]
      have hprp : rest.length ≤ p.length := by omega
      have hpp : ∃ q, p = rest ++ q ∧ tail = q ++ (!y) :: rb := by
        refine ⟨p.drop rest.length, ?_, ?_⟩
        · have h1 := congrArg (List.take rest.length) e2
          rw [List.take_append_of_le_length (Nat.le_refl _), List.take_append_of_le_length hprp, List.take_length] at h1
          conv => lhs; rw [← List.take_append_drop rest.length p, ← h1]
        · have h1 := congrArg (List.drop rest.length) e2
          rw [List.drop_append_of_le_length (Nat.le_refl _), List.drop_append_of_le_length hprp, List.drop_length] at h1
          exact h1
      obtain ⟨q, hq1, hq2⟩ := hpp
      refine ⟨c1, _, rfl, Or.inr ⟨emptyFrames rest x, q ++ y :: ra, rfl, by rw [hpb']; omega, ?_, f3, ?_, ?_, ?_⟩⟩
      · rw [emptyFrames_path]; exact hpath
      · rw [f5]; exact h00 _
      · rw [e1, hq1, List.append_assoc]
      · rw [e1, hq1, List.append_assoc]; exact splitT_common hs _ o l rest _ _ x

/-- `BatchedInternalNode::insert` -/
theorem nodeInsert_spec (hs : Hasher) {c : Node} {L} {t : T} {l : LeafChild} {d : Nat} {cur : Ver}
    (r : Rep c L 4 [] t) (hl : t.isLeaf = false) (hk : 4 * d + 4 ≤ l.key.hash.length)
    (hv : l.key.version = cur ∨ (zipN (bitsAt l.key.hash d) t).2.1 = .empty)
    (hplace : ∀ o, (zipN (bitsAt l.key.hash d) t).2.1 = .leaf o →
      ∃ ro, o.key.hash = l.key.hash.take (4 * d + (zipN (bitsAt l.key.hash d) t).1.length) ++ ro ∧
        o.key.hash.length = l.key.hash.length) :
    ∃ c' res, nodeInsert hs c l d cur = some (c', res) ∧
      (((zipN (bitsAt l.key.hash d) t).2.1.isInt = true ∧ c' = c ∧ res = .existing (zipN (bitsAt l.key.hash d) t).2.1.ver) ∨
       ((zipN (bitsAt l.key.hash d) t).2.1.isInt = false ∧ Rep c' L 4 [] (insN hs cur l (l.key.hash.drop (4 * d)) t) ∧
          ∃ st, res = .complete st ∧ ∀ lk, st = some lk ↔ ∃ o, (zipN (bitsAt l.key.hash d) t).2.1 = .leaf o ∧ o.key.hash = l.key.hash ∧ o.key = lk) ∨
       (∃ o x, (zipN (bitsAt l.key.hash d) t).2.1 = .leaf o ∧ o.key.hash ≠ l.key.hash ∧ res = .createNew o ∧
          4 ≤ prefixBitsAt l.key.hash o.key.hash d ∧
          pathOf x = bitsAt l.key.hash d ∧ RepR c' L 0 x ∧ c' 0 = c 0 ∧
          insN hs cur l (l.key.hash.drop (4 * d)) t =
            plug hs cur x (splitT hs cur o l (o.key.hash.drop (4 * (d + 1))) (l.key.hash.drop (4 * (d + 1)))))) := by
  have hbl := bitsAt_length hk
  obtain ⟨rr, rs, hw⟩ := walkN_spec (getNibble l.key.hash d) t r hl
  have hpath := zipN_path (bitsAt l.key.hash d) t
  have hlen := zipN_len hbl t
  have hins := insN_zip hs cur l (bs := bitsAt l.key.hash d) (by intro e; rw [e] at hbl; simp at hbl) (l.key.hash.drop (4 * (d + 1))) t
  rw [← drop_bitsAt] at hins
  have hne : (zipN (bitsAt l.key.hash d) t).1 ≠ [] := by
    match hb : bitsAt l.key.hash d, hbl with
    | b :: bs, _ => exact zipN_ne b bs t
  rw [nibBits_getNibble hk] at rr rs hw
  have hni : ¬ (zipN (bitsAt l.key.hash d) t).2.1.isInt = true → True := fun _ => trivial
  have hint := zipN_int (bitsAt l.key.hash d) t
  generalize zipN (bitsAt l.key.hash d) t = z at *
  obtain ⟨x, sub, rest⟩ := z
  simp only at *
  unfold nodeInsert
  rw [show NIBBLE_BITS = 4 from rfl, hw]
  cases sub with
  | int h w a b =>
    simp only [T.isInt, if_true]
    rw [rs.tag]
    exact ⟨c, _, rfl, Or.inl ⟨trivial, rfl, rfl⟩⟩
  | empty =>
    simp only [T.isInt, Bool.false_eq_true, if_false]
    rw [rs.tag]
    simp only [T.tag]
    obtain ⟨c', h1, h2⟩ := updateHashes_full hs cur hne (by omega) (rr.set (s := pathOf x) (o := some (.leaf l)) List.prefix_rfl)
      (rs.set_leafish (t := .leaf l) rfl)
    rw [h1]
    refine ⟨c', _, rfl, Or.inr (Or.inl ⟨trivial, ?_, none, rfl, by simp⟩)⟩
    rw [hins, insT]; exact h2
  | leaf o =>
    have hv : l.key.version = cur := by
      rcases hv with h | h
      · exact h
      · simp at h
    simp only [T.isInt, Bool.false_eq_true, if_false]
    rw [rs.tag]
    simp only [T.tag]
    obtain ⟨ro, ho, holen⟩ := hplace o rfl
    by_cases hkey : o.key.hash = l.key.hash
    · rw [if_pos hkey, hv]
      have rclear := (rs.clear rfl).set_leafish (t := .leaf l) rfl
      obtain ⟨c', h1, h2⟩ := updateHashes_full hs cur hne (by omega)
        ((rr.set (s := pathOf x) (o := none) List.prefix_rfl).set (s := pathOf x) (o := some (.leaf l)) List.prefix_rfl) rclear
      have hss : set (set c (ix (pathOf x)) none) (ix (pathOf x)) (some (Child.leaf l)) = set c (ix (pathOf x)) (some (Child.leaf l)) := by
        funext j; unfold set; split <;> rfl
      simp only [T.tag, hss] at h1
      rw [h1]
      refine ⟨c', _, rfl, Or.inr (Or.inl ⟨trivial, ?_, some o.key, rfl, ?_⟩)⟩
      · rw [hins, insT, if_pos hkey]; exact h2
      · intro lk; constructor
        · intro h; exact ⟨o, rfl, hkey, by simpa using h⟩
        · rintro ⟨o', h1, h2, h3⟩
          simp at h1; subst h1; rw [h3]
    · rw [if_neg hkey]
      have hK : l.key.hash = l.key.hash.take (4 * d + x.length) ++ (rest ++ l.key.hash.drop (4 * (d + 1))) := by
        have h1 : l.key.hash.drop (4 * d + x.length) = rest ++ l.key.hash.drop (4 * (d + 1)) := by
          rw [← List.drop_drop, drop_bitsAt, ← hpath, List.append_assoc, List.drop_append_of_le_length (by rw [pathOf_length]; exact Nat.le_refl _),
            List.drop_of_length_le (by rw [pathOf_length]; exact Nat.le_refl _), List.nil_append]
        rw [← h1, List.take_append_drop]
      have hPl : (l.key.hash.take (4 * d + x.length)).length = 4 * d + x.length := by
        rw [List.length_take]; omega
      have hdrop : o.key.hash.drop (l.key.hash.length - (rest ++ l.key.hash.drop (4 * (d + 1))).length) = ro := by
        have : l.key.hash.length - (rest ++ l.key.hash.drop (4 * (d + 1))).length = 4 * d + x.length := by
          rw [List.length_append, List.length_drop]; omega
        rw [this, ho, List.drop_append_of_le_length (by omega), List.drop_of_length_le (by omega), List.nil_append]
      have hins2 : insN hs cur l (l.key.hash.drop (4 * d)) t =
          plug hs cur x (splitT hs cur o l ro (rest ++ l.key.hash.drop (4 * (d + 1)))) := by
        rw [hins, insT, if_neg hkey, hdrop]
      have hrol : ro.length = rest.length + (l.key.hash.drop (4 * (d + 1))).length := by
        have := congrArg List.length ho
        rw [List.length_append, hPl, holen] at this
        rw [List.length_drop]; omega
      have hkey' : ro ≠ rest ++ l.key.hash.drop (4 * (d + 1)) := by
        intro e; apply hkey; rw [ho, e]; exact hK.symm
      obtain ⟨c', res, g1, g2⟩ := splitNode_spec hs hk hlen hne hpath rr rs hK ho hPl (by rw [hrol, List.length_append]) hkey'
      rw [hv] at g2
      refine ⟨c', res, g1, ?_⟩
      rcases g2 with ⟨g2, g3⟩ | ⟨x', ro', g2, g3, g4, g5, g6, g7, g8⟩
      · refine Or.inr (Or.inl ⟨trivial, by rw [hins2]; exact g3, none, g2, ?_⟩)
        intro lk; constructor
        · intro h; simp at h
        · rintro ⟨o', h1, h2, h3⟩
          simp at h1; subst h1; exact absurd h2 hkey
      · refine Or.inr (Or.inr ⟨o, x', rfl, hkey, g2, g3, g4, g5, g6, ?_⟩)
        rw [hins2, g8]
        have : o.key.hash.drop (4 * (d + 1)) = ro' := by
          rw [ho, g7, ← List.append_assoc, List.drop_append_of_le_length (by rw [List.length_append, hPl]; omega),
            List.drop_of_length_le (by rw [List.length_append, hPl]; omega), List.nil_append]
        rw [this]

end Verif.Smt
