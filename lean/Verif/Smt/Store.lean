import Verif.Smt.Batch
import Verif.Smt.Spec
/-!
# Stored nodes: which ones a tree needs, reading through them, the hash of the root
-/
set_option linter.unusedVariables false
set_option linter.unusedSimpArgs false
namespace Verif.Smt

theorem Rep.at {c : Node} {L} : ∀ {h s t} (p : List Bool), Rep c L h s t → p.length ≤ h → c (ix (s ++ p)) = (atT t p).tag ∧
    (p.length = h → (atT t p).isInt = true → L (s ++ p) (atT t p))
  | h, s, t, [], r, _ => by
    rw [List.append_nil]
    refine ⟨r.tag, fun e hi => ?_⟩
    subst e; exact r.2 hi
  | 0, s, t, b :: p, r, hl => by simp at hl
  | h + 1, s, t, b :: p, r, hl => by
    have := Rep.at p (r.child b) (by simpa using hl)
    rw [List.append_assoc] at this
    exact ⟨this.1, fun e hi => this.2 (by simpa using e) hi⟩

theorem Rep.congr {c : Node} {L L' : List Bool → T → Prop} : ∀ {h s t}, (∀ p : List Bool, p.length = h → (atT t p).isInt = true → L (s ++ p) (atT t p) → L' (s ++ p) (atT t p)) →
    Rep c L h s t → Rep c L' h s t
  | 0, s, t, hl, r => ⟨r.1, fun hi => by have := hl [] rfl hi; rw [List.append_nil] at this; exact this (r.2 hi)⟩
  | h + 1, s, t, hl, r => by
    refine ⟨r.1, ?_, ?_⟩
    · refine Rep.congr (fun p hp hi h => ?_) r.2.1
      have := hl (false :: p) (by simpa using hp) hi
      rw [List.append_assoc] at h ⊢; exact this h
    · refine Rep.congr (fun p hp hi h => ?_) r.2.2
      have := hl (true :: p) (by simpa using hp) hi
      rw [List.append_assoc] at h ⊢; exact this h

theorem getNibble_append {s p : List Bool} (h : s.length = 4) (i : Nat) : getNibble (s ++ p) (i + 1) = getNibble p i := by
  unfold getNibble
  have : 4 * (i + 1) = s.length + 4 * i := by omega
  rw [this, List.drop_append, List.drop_of_length_le (by omega)]; simp

theorem getNibble_head {s p : List Bool} (h : s.length = 4) : getNibble (s ++ p) 0 = val s := by
  unfold getNibble val
  rw [Nat.mul_zero, List.drop_zero, List.take_append_of_le_length (by omega), List.take_of_length_le (by omega)]

theorem nibs_cons {s p : List Bool} (h : s.length = 4) (j : Nat) : nibs (s ++ p) (j + 1) = val s :: nibs p j := by
  unfold nibs
  rw [List.range_succ_eq_map, List.map_cons, List.map_map, getNibble_head h]
  congr 1
  refine List.map_congr_left (fun i _ => ?_)
  exact getNibble_append h i

theorem K.cons {t u r s} (h4 : s.length = 4) (h : K (atT t s) u r) : K t u (val s :: r) := by
  obtain ⟨p, h1, h2, h3, h5⟩ := h
  refine ⟨s ++ p, ?_, ?_, ?_, ?_⟩
  · rw [List.length_append, List.length_cons]; omega
  · rw [List.length_cons, nibs_cons h4, h2]
  · rw [atT_append]; exact h3
  · rw [atT_append]; exact h5

theorem K.uncons {t u nib r} (h : K t u (nib :: r)) : ∃ s : List Bool, s.length = 4 ∧ val s = nib ∧ K (atT t s) u r := by
  obtain ⟨p, h1, h2, h3, h5⟩ := h
  have hs : (p.take 4).length = 4 := by rw [List.length_take]; rw [List.length_cons] at h1; omega
  have hp : p = p.take 4 ++ p.drop 4 := (List.take_append_drop 4 p).symm
  rw [hp, List.length_cons, nibs_cons hs] at h2
  rw [hp, atT_append] at h3 h5
  injection h2 with e1 e2
  refine ⟨p.take 4, hs, e1, p.drop 4, ?_, e2, h3, h5⟩
  rw [List.length_drop]; rw [List.length_cons] at h1; omega

theorem K.unique {t u u' q} (h : K t u q) (h' : K t u' q) : u = u' := by
  obtain ⟨p, h1, h2, h3, h5⟩ := h
  obtain ⟨p', h1', h2', h3', h5'⟩ := h'
  have : p = p' := nibs_inj h1 h1' (h2.trans h2'.symm)
  subst this; exact h5.symm.trans h5'

theorem K.nil {t u} : K t u [] ↔ t.isInt = true ∧ t.ver = u := by
  constructor
  · rintro ⟨p, h1, _, h3, h5⟩
    have : p = [] := List.length_eq_zero_iff.1 (by simpa using h1)
    subst this; exact ⟨h3, h5⟩
  · rintro ⟨h1, h2⟩; exact ⟨[], rfl, rfl, h1, h2⟩

theorem K.ver {t u q v} (h : K t u q) (hv : VB v t) : 1 ≤ u ∧ u ≤ v := by
  obtain ⟨p, _, _, h3, h5⟩ := h
  have := (hv.at p).ver h3
  rw [h5] at this; exact this

/-- the representation only looks at the nodes of the tree -/
theorem GRep.congr {get get' : Ver → Path → Option Node} : ∀ {n q c t}, (∀ u r, r ≠ [] → K t u r → get' u (q ++ r) = get u (q ++ r)) →
    GRep get n q c t → GRep get' n q c t
  | 0, q, c, t, _, h => absurd h GRep_zero
  | n + 1, q, c, t, hf, h => by
    rw [GRep_succ] at h ⊢
    refine h.congr (fun s h4 hi hl => ?_)
    rw [List.nil_append] at hl ⊢
    rw [Link_iff] at hl ⊢
    obtain ⟨_, c', h1, h2⟩ := hl
    refine ⟨h4, c', ?_, ?_⟩
    · rw [hf _ [val s] (by simp) (K.cons h4 (K.nil.2 ⟨hi, rfl⟩))]; exact h1
    · refine GRep.congr (fun u r hr hk => ?_) h2
      rw [List.append_assoc]
      exact hf u (val s :: r) (by simp) (K.cons h4 hk)

/-- every node of the tree is stored -/
theorem GRep.stored {get : Ver → Path → Option Node} : ∀ {n q c t} (r : Path) {u}, GRep get n q c t → r ≠ [] → K t u r → get u (q ++ r) ≠ none
  | 0, q, c, t, r, u, h, _, _ => absurd h GRep_zero
  | n + 1, q, c, t, [], u, h, hr, _ => absurd rfl hr
  | n + 1, q, c, t, nib :: r, u, h, _, hk => by
    obtain ⟨s, h4, rfl, hk'⟩ := hk.uncons
    rw [GRep_succ] at h
    have hi : (atT t s).isInt = true := by
      obtain ⟨p, _, _, h3, _⟩ := hk'
      cases hh : (atT t s).isInt with
      | true => rfl
      | false =>
        cases p with
        | nil => have h3' : (atT t s).isInt = true := h3
                 rw [hh] at h3'; exact h3'
        | cons b p => rw [atT_nonint hh] at h3; simp [T.isInt] at h3
    obtain ⟨_, c', h1, h2⟩ := Link_iff.1 ((h.at s (by omega)).2 h4 hi)
    rw [List.nil_append] at h1 h2
    cases r with
    | nil => rw [(K.nil.1 hk').2] at h1; rw [h1]; simp
    | cons x r =>
      have := GRep.stored (x :: r) h2 (by simp) hk'
      rw [List.append_assoc] at this; exact this

theorem nibbleIndex_val {s : List Bool} (h4 : s.length = 4) : nibbleToIndex (val s) = ix s := by
  match s, h4 with
  | [a, b, c, d], _ => exact nib_index a b c d

theorem val_lt {s : List Bool} (h4 : s.length = 4) : val s < 16 := by
  match s, h4 with
  | [a, b, c, d], _ => cases a <;> cases b <;> cases c <;> cases d <;> decide

theorem exists_bits : ∀ n, n < 16 → ∃ s : List Bool, s.length = 4 ∧ val s = n := by
  intro n h
  refine ⟨nibBits n 4, nibBits_length n 4, ?_⟩
  have : ∀ n : Fin 16, val (nibBits n.1 4) = n.1 := by decide
  exact this ⟨n, h⟩

/-- the nodes of the tree are reachable from the root through the store -/
theorem GRep.reach {db : Db} {x : Ver} : ∀ {n q c t} (r : Path) {u}, GRep db.internal n q c t → Reach db x t.ver q → db.internal t.ver q = some c →
    K t u r → Reach db x u (q ++ r)
  | 0, q, c, t, r, u, h, _, _, _ => absurd h GRep_zero
  | n + 1, q, c, t, [], u, h, hr, hc, hk => by
    rw [List.append_nil, ← (K.nil.1 hk).2]; exact hr
  | n + 1, q, c, t, nib :: r, u, h, hr, hc, hk => by
    obtain ⟨s, h4, rfl, hk'⟩ := hk.uncons
    rw [GRep_succ] at h
    have hi : (atT t s).isInt = true := by
      obtain ⟨p, _, _, h3, _⟩ := hk'
      cases hh : (atT t s).isInt with
      | true => rfl
      | false =>
        cases p with
        | nil => have h3' : (atT t s).isInt = true := h3
                 rw [hh] at h3'; exact h3'
        | cons b p => rw [atT_nonint hh] at h3; simp [T.isInt] at h3
    have hat := h.at s (by omega)
    rw [List.nil_append] at hat
    obtain ⟨_, c', h1, h2⟩ := Link_iff.1 (hat.2 h4 hi)
    obtain ⟨hh, htag⟩ : ∃ hh, c (nibbleToIndex (val s)) = some (.internal hh (atT t s).ver) := by
      rw [nibbleIndex_val h4, hat.1]
      cases he : atT t s with
      | int hh _ _ _ => exact ⟨hh, rfl⟩
      | empty => rw [he] at hi; simp [T.isInt] at hi
      | leaf _ => rw [he] at hi; simp [T.isInt] at hi
    have := GRep.reach r h2 (Reach.step hr hc (val_lt h4) htag) h1 hk'
    rw [List.append_assoc] at this; exact this

/-- everything reachable through the store is a node of the tree -/
theorem Reach.K {db : Db} {x : Ver} {t : T} {root : Node} {n : Nat} (hroot : db.internal x [] = some root) (hg : GRep db.internal n [] root t)
    (hi : t.isInt = true) (hv : t.ver = x) {u q} (h : Reach db x u q) : K t u q := by
  suffices ∃ m c p, db.internal u q = some c ∧ p.length = 4 * q.length ∧ nibs p q.length = q ∧ (atT t p).isInt = true ∧ (atT t p).ver = u ∧
      GRep db.internal m q c (atT t p) by
    obtain ⟨_, _, p, _, h1, h2, h3, h4, _⟩ := this
    exact ⟨p, h1, h2, h3, h4⟩
  induction h with
  | root => exact ⟨n, root, [], hroot, rfl, rfl, hi, hv, hg⟩
  | @step u q c nib hh u' _ hc hn ht ih =>
    obtain ⟨m, c0, p, h0, h1, h2, h3, h4, h5⟩ := ih
    rw [h0] at hc
    have hcc : c0 = c := by simpa using hc
    subst hcc
    obtain ⟨s, s4, rfl⟩ := exists_bits nib hn
    cases m with
    | zero => exact absurd h5 GRep_zero
    | succ m =>
      rw [GRep_succ] at h5
      have hat := h5.at s (by omega)
      rw [List.nil_append, ← nibbleIndex_val s4, ht] at hat
      have hii : (atT (atT t p) s).isInt = true ∧ (atT (atT t p) s).ver = u' := by
        cases he : atT (atT t p) s with
        | int a b _ _ => rw [he] at hat; have := hat.1; simp [T.tag] at this; exact ⟨rfl, this.2.symm⟩
        | empty => rw [he] at hat; simp [T.tag] at hat
        | leaf _ => rw [he] at hat; simp [T.tag] at hat
      obtain ⟨_, c', g1, g2⟩ := Link_iff.1 (hat.2 s4 hii.1)
      rw [hii.2] at g1
      rw [← atT_append] at g2 hii
      refine ⟨m, c', p ++ s, g1, ?_, ?_, hii.1, hii.2, g2⟩
      · rw [List.length_append, List.length_append, List.length_singleton]; omega
      · rw [List.length_append, List.length_singleton, nibs_succ]
        have e1 : nibs (p ++ s) q.length = q := by
          rw [← nibs_take, ← h1, List.take_left', h2]; rfl
        have e2 : getNibble (p ++ s) q.length = val s := by
          unfold getNibble val
          rw [← h1, List.drop_left' rfl, List.take_of_length_le (by omega)]
        rw [e1, e2]

/-! ## reading -/

theorem readNode_spec {get : Ver → Path → Option Node} {key : Hash} (hK : key.length = 256) : ∀ {n d c t}, d + n = 64 → t.isLeaf = false →
    GRep get n (nibs key d) c t → readNode get n (nibs key d) c key = (findN (key.drop (4 * d)) t).filter (fun o => decide (o.key.hash = key))
  | 0, d, c, t, _, _, hg => absurd hg GRep_zero
  | n + 1, d, c, t, hd, hl, hg => by
    rw [GRep_succ] at hg
    have hk : 4 * d + 4 ≤ key.length := by omega
    have hbne : bitsAt key d ≠ [] := by
      intro h; have := bitsAt_length hk; rw [h] at this; simp at this
    have hfind : findN (key.drop (4 * d)) t = findT ((zipN (bitsAt key d) t).2.2 ++ key.drop (4 * (d + 1))) (zipN (bitsAt key d) t).2.1 := by
      rw [drop_bitsAt key d, findN_zip hbne]
    obtain ⟨w1, w2, w3⟩ := walkN_spec (getNibble key d) t hg hl
    rw [nibBits_getNibble hk] at w1 w2 w3
    have hzp := zipN_path (bitsAt key d) t
    rw [readNode, hfind]
    simp only [nibs_length, NIBBLE_BITS, w3]
    cases hz : (zipN (bitsAt key d) t).2.1 with
    | empty =>
      simp only [T.isInt, Bool.false_eq_true, if_false]
      have := w2.tag
      rw [hz] at this
      rw [this, findT_empty]; rfl
    | leaf o =>
      simp only [T.isInt, Bool.false_eq_true, if_false]
      have := w2.tag
      rw [hz] at this
      rw [this, findT_leaf]
      simp only [T.tag, Option.filter, decide_eq_true_eq]
    | int x v a b =>
      have hi : (zipN (bitsAt key d) t).2.1.isInt = true := by rw [hz]; rfl
      have hrest := zipN_int _ t hi hbne
      have htag := w2.tag
      simp only [T.isInt, if_true]
      rw [hz] at htag
      rw [htag]
      rw [hrest, List.append_nil] at hzp
      rw [hrest, List.length_nil, hzp] at w2
      obtain ⟨_, c1, hget, hg1⟩ := Link_iff.1 (w2.2 hi)
      have hq : nibs key d ++ [val (bitsAt key d)] = nibs key (d + 1) := by rw [nibs_succ]; rfl
      rw [hq] at hget hg1
      rw [hz] at hget hg1
      simp only [T.tag]
      rw [← nibs_succ]
      have hget' : get v (nibs key (d + 1)) = some c1 := hget
      rw [hget']
      simp only [Option.bind_some]
      rw [readNode_spec hK (by omega) rfl hg1, hrest, List.nil_append]
      have hn : n ≠ 0 := by rintro rfl; exact GRep_zero hg1
      congr 1
      cases hdk : key.drop (4 * (d + 1)) with
      | nil => have := congrArg List.length hdk; rw [List.length_drop] at this; simp at this; omega
      | cons b bs => rfl

/-! ## the hash -/

theorem subHash_many (hs : Hasher) (n d : Nat) {l : List (Hash × Hash)} (h : 2 ≤ l.length) :
    subHash hs (n + 1) d l = hs.parent (subHash hs n (d + 1) (l.filter (fun x => keyBit d x == false))) (subHash hs n (d + 1) (l.filter (keyBit d))) := by
  match l, h with
  | x :: y :: l, _ => rfl

/-- `l` lists the (key hash, value hash) pairs of the leaves of `t` -/
def Lists (l : List (Hash × Hash)) (t : T) : Prop := l.Nodup ∧ ∀ x, x ∈ l ↔ ∃ o, InT o t ∧ (o.key.hash, o.hash) = x

theorem bit_of_prefix {pre : List Bool} {b : Bool} {k : Hash} (h : pre ++ [b] <+: k) : k.getD pre.length false = b := by
  obtain ⟨r, rfl⟩ := h
  simp [List.getD]

theorem Lists.child {hs pre h v a b l} (w1 : WF hs (pre ++ [false]) a) (w2 : WF hs (pre ++ [true]) b) (hl : Lists l (.int h v a b)) :
    Lists (l.filter (fun x => keyBit pre.length x == false)) a ∧ Lists (l.filter (keyBit pre.length)) b := by
  refine ⟨⟨hl.1.sublist List.filter_sublist, fun x => ?_⟩, ⟨hl.1.sublist List.filter_sublist, fun x => ?_⟩⟩
  · rw [List.mem_filter, hl.2]
    constructor
    · rintro ⟨⟨o, h1, rfl⟩, h2⟩
      rcases InT_int.1 h1 with h1 | h1
      · exact ⟨o, h1, rfl⟩
      · have := bit_of_prefix (w2.InT_prefix h1).1
        simp only [keyBit] at h2; rw [this] at h2; simp at h2
    · rintro ⟨o, h1, rfl⟩
      refine ⟨⟨o, InT_int.2 (Or.inl h1), rfl⟩, ?_⟩
      have := bit_of_prefix (w1.InT_prefix h1).1
      simp only [keyBit]; rw [this]; rfl
  · rw [List.mem_filter, hl.2]
    constructor
    · rintro ⟨⟨o, h1, rfl⟩, h2⟩
      rcases InT_int.1 h1 with h1 | h1
      · have := bit_of_prefix (w1.InT_prefix h1).1
        simp only [keyBit] at h2; rw [this] at h2; simp at h2
      · exact ⟨o, h1, rfl⟩
    · rintro ⟨o, h1, rfl⟩
      refine ⟨⟨o, InT_int.2 (Or.inr h1), rfl⟩, ?_⟩
      have := bit_of_prefix (w2.InT_prefix h1).1
      simp only [keyBit]; rw [this]

theorem WF.hash_eq {hs : Hasher} : ∀ (t : T) (pre : List Bool) (l : List (Hash × Hash)), WF hs pre t → Lists l t →
    t.hash hs = subHash hs (256 - pre.length) pre.length l
  | .empty, pre, l, w, hl => by
    have : l = [] := by
      cases l with
      | nil => rfl
      | cons x l => obtain ⟨o, h, _⟩ := (hl.2 x).1 (List.mem_cons_self ..); exact absurd h InT_empty
    subst this; unfold subHash; rfl
  | .leaf o, pre, l, w, hl => by
    have hm : ∀ x, x ∈ l ↔ (o.key.hash, o.hash) = x := by
      intro x; rw [hl.2]; constructor
      · rintro ⟨o', h, e⟩; rw [InT_leaf] at h; subst h; exact e
      · intro e; exact ⟨o, InT_leaf.2 rfl, e⟩
    have : l = [(o.key.hash, o.hash)] := by
      match l, hl, hm with
      | [], _, hm => exact absurd ((hm _).2 rfl) (by simp)
      | [x], _, hm => rw [(hm x).1 (by simp)]
      | x :: y :: l, hl, hm =>
        have e1 := (hm x).1 (by simp)
        have e2 := (hm y).1 (by simp)
        have := hl.1
        rw [← e1, ← e2] at this; simp at this
    subst this; unfold subHash; rfl
  | .int h v a b, pre, l, w, hl => by
    have hlt := w.len_lt rfl
    obtain ⟨o, o', h1, h2, h3⟩ := w.two rfl
    have hlen : 2 ≤ l.length := by
      match l, hl with
      | [], hl => exact absurd ((hl.2 _).2 ⟨o, h1, rfl⟩) (by simp)
      | [x], hl =>
        have e1 := (hl.2 _).2 ⟨o, h1, rfl⟩
        have e2 := (hl.2 _).2 ⟨o', h2, rfl⟩
        rw [List.mem_singleton] at e1 e2
        exact absurd (congrArg Prod.fst (e1.trans e2.symm)) h3
      | x :: y :: l, _ => simp
    obtain ⟨n, hn⟩ : ∃ n, 256 - pre.length = n + 1 := ⟨255 - pre.length, by omega⟩
    obtain ⟨l1, l2⟩ := hl.child w.2.2.1 w.2.2.2
    rw [hn, subHash_many hs n _ hlen]
    have i1 := WF.hash_eq a _ _ w.2.2.1 l1
    have i2 := WF.hash_eq b _ _ w.2.2.2 l2
    rw [List.length_append, List.length_singleton, show 256 - (pre.length + 1) = n by omega] at i1 i2
    rw [← i1, ← i2]
    exact w.1

theorem RWF.hash_eq {hs : Hasher} {t : T} {l : List (Hash × Hash)} (w : RWF hs t) (hl : Lists l t) : t.hash hs = rootSpec hs l := by
  rcases w with rfl | ⟨h, v, a, b, rfl, h1, h2, hh⟩
  · have : l = [] := by
      cases l with
      | nil => rfl
      | cons x l => obtain ⟨o, h, _⟩ := (hl.2 x).1 (List.mem_cons_self ..); exact absurd h InT_empty
    subst this; rfl
  · obtain ⟨l1, l2⟩ := Lists.child (pre := []) h1 h2 hl
    have i1 := WF.hash_eq a _ _ h1 l1
    have i2 := WF.hash_eq b _ _ h2 l2
    have hempty : (a.isEmpty && b.isEmpty) = true ↔ l = [] := by
      constructor
      · intro he
        simp only [Bool.and_eq_true, isEmpty_iff] at he
        cases l with
        | nil => rfl
        | cons x l =>
          obtain ⟨o, hin, _⟩ := (hl.2 x).1 (List.mem_cons_self ..)
          rw [he.1, he.2, InT_int] at hin
          rcases hin with h | h <;> exact absurd h InT_empty
      · rintro rfl
        have key : ∀ (t : T) (p), WF hs p t → (∀ o, ¬ InT o t) → t.isEmpty = true := by
          intro t p w hno
          cases t with
          | empty => rfl
          | leaf o => exact absurd (InT_leaf.2 rfl) (hno o)
          | int _ _ _ _ => obtain ⟨o, _, h1, _⟩ := w.two rfl; exact absurd h1 (hno o)
        rw [key a _ h1 (fun o h => by have := (hl.2 _).2 ⟨o, InT_int.2 (Or.inl h), rfl⟩; simp at this),
          key b _ h2 (fun o h => by have := (hl.2 _).2 ⟨o, InT_int.2 (Or.inr h), rfl⟩; simp at this)]; rfl
    unfold rootSpec
    by_cases he : l = []
    · rw [if_pos he]; show h = _; rw [hh, if_pos (hempty.2 he)]
    · rw [if_neg he]; show h = _; rw [hh, if_neg (fun hc => he (hempty.1 hc)), i1, i2]; rfl

end Verif.Smt
