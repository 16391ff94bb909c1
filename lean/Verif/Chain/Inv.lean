import Verif.Chain.Rebuild
import Verif.Chain.Binding
set_option linter.unusedVariables false
set_option linter.unusedSimpArgs false
/-!
# C26: what a run of the blockchain preserves
-/
namespace Verif.Chain
open Verif.Bytes Verif.Kvbc

/-! ### operations over the categories of a block -/

/-- `onCats` as a relation -/
inductive Rel {α β : Type} (f : α → CState → Option β) (db : Db) : List (CatId × α) → List (CatId × β) → Prop where
  | nil : Rel f db [] []
  | cons {id : CatId} {a : α} {s : CState} {b : β} {l : List (CatId × α)} {r : List (CatId × β)} :
      db id = some s → f a s = some b → Rel f db l r → Rel f db ((id, a) :: l) ((id, b) :: r)

theorem onCats_rel {α β : Type} {f : α → CState → Option β} {db : Db} : ∀ {l : List (CatId × α)} {r : List (CatId × β)},
    onCats f db l = some r → Rel f db l r
  | [], r, h => by cases h; exact .nil
  | (id, a) :: l, r, h => by
    rw [onCats, List.mapM_cons] at h
    cases e1 : db id with
    | none => simp [e1] at h
    | some s =>
      cases e2 : f a s with
      | none => simp [e1, e2] at h
      | some b =>
        simp only [e1, e2, Option.map_some, Option.bind_eq_bind, Option.bind_some, Option.pure_def] at h
        cases e3 : onCats f db l with
        | none => rw [onCats] at e3; rw [e3] at h; cases h
        | some rs =>
          have e4 := e3
          rw [onCats] at e4; rw [e4] at h
          cases h
          exact .cons e1 e2 (onCats_rel e3)

theorem rel_onCats {α β : Type} {f : α → CState → Option β} {db : Db} {l : List (CatId × α)} {r : List (CatId × β)}
    (h : Rel f db l r) : onCats f db l = some r := by
  induction h with
  | nil => rfl
  | cons e1 e2 _ ih =>
    rw [onCats, List.mapM_cons]
    rw [onCats] at ih
    simp only [e1, e2, Option.map_some, Option.bind_eq_bind, Option.bind_some, ih]
    rfl

theorem Rel.fst {α β : Type} {f : α → CState → Option β} {db : Db} {l : List (CatId × α)} {r : List (CatId × β)}
    (h : Rel f db l r) : r.map (·.1) = l.map (·.1) := by
  induction h with
  | nil => rfl
  | cons _ _ _ ih => rw [List.map_cons, List.map_cons, ih]

theorem Rel.left {α β : Type} {f : α → CState → Option β} {db : Db} {l : List (CatId × α)} {r : List (CatId × β)}
    (h : Rel f db l r) : ∀ x ∈ l, ∃ s b, db x.1 = some s ∧ f x.2 s = some b ∧ (x.1, b) ∈ r := by
  induction h with
  | nil => intro x hx; cases hx
  | cons e1 e2 _ ih =>
    intro x hx
    rcases List.mem_cons.1 hx with e | hx
    · subst e; exact ⟨_, _, e1, e2, List.mem_cons_self⟩
    · obtain ⟨s, b, h1, h2, h3⟩ := ih x hx
      exact ⟨s, b, h1, h2, List.mem_cons_of_mem _ h3⟩

theorem Rel.right {α β : Type} {f : α → CState → Option β} {db : Db} {l : List (CatId × α)} {r : List (CatId × β)}
    (h : Rel f db l r) : ∀ y ∈ r, ∃ a s, (y.1, a) ∈ l ∧ db y.1 = some s ∧ f a s = some y.2 := by
  induction h with
  | nil => intro x hx; cases hx
  | cons e1 e2 _ ih =>
    intro x hx
    rcases List.mem_cons.1 hx with e | hx
    · subst e; exact ⟨_, _, List.mem_cons_self, e1, e2⟩
    · obtain ⟨a, s, h1, h2, h3⟩ := ih x hx
      exact ⟨a, s, List.mem_cons_of_mem _ h1, h2, h3⟩

/-- the database `db'` has the categories of `db`, with the same values for block `b` -/
def DbSame (b : Nat) (db db' : Db) : Prop := ∀ id s, db id = some s → ∃ s', db' id = some s' ∧ Same b s s'

theorem rel_same {H : MHash} {b : Nat} {db db' : Db} (h : DbSame b db db') {outs : List (CatId × COutput)} {u : Updates}
    (hr : Rel (catRebuild H b) db outs u) : Rel (catRebuild H b) db' outs u := by
  induction hr with
  | nil => exact .nil
  | cons e1 e2 _ ih =>
    obtain ⟨s', h1, h2⟩ := h _ _ e1
    exact .cons h1 (by rw [← rebuild_same h2]; exact e2) ih

theorem write_mem {l : List (CatId × CState)} (hn : (l.map (·.1)).Nodup) (db : Db) {x : CatId × CState} (hx : x ∈ l) :
    db.write l x.1 = some x.2 := by
  rw [Db.write, lookup_of_mem_nodup hn (show (x.1, x.2) ∈ l from hx)]

theorem write_cases (l : List (CatId × CState)) (db : Db) (id : CatId) :
    (∃ s, (id, s) ∈ l ∧ db.write l id = some s) ∨ db.write l id = db id := by
  rw [Db.write]
  cases e : l.lookup id with
  | none => exact Or.inr rfl
  | some s => exact Or.inl ⟨s, mem_of_lookup e, rfl⟩

theorem write_same {α : Type} {f : α → CState → Option CState} {db : Db} {l : List (CatId × α)} {r : List (CatId × CState)}
    (h : Rel f db l r) {b : Nat} (hs : ∀ x s s', x ∈ l → db x.1 = some s → f x.2 s = some s' → Same b s s') :
    DbSame b db (db.write r) := by
  intro id s he
  rcases write_cases r db id with ⟨s', hm, hw⟩ | hw
  · obtain ⟨a, s0, h1, h2, h3⟩ := h.right _ hm
    simp only at h1 h2 h3
    rw [he] at h2
    cases h2
    exact ⟨s', hw, hs (id, a) s s' h1 he h3⟩
  · exact ⟨s, by rw [hw]; exact he, Same.refl b s⟩

theorem write_bound {α : Type} {f : α → CState → Option CState} {db : Db} {l : List (CatId × α)} {r : List (CatId × CState)}
    (h : Rel f db l r) {g g' : Nat} (hg : g ≤ g') (hb : ∀ id s, db id = some s → s.Bound g)
    (hs : ∀ x s s', x ∈ l → db x.1 = some s → f x.2 s = some s' → s'.Bound g') :
    ∀ id s, db.write r id = some s → s.Bound g' := by
  intro id s he
  rcases write_cases r db id with ⟨s', hm, hw⟩ | hw
  · obtain ⟨a, s0, h1, h2, h3⟩ := h.right _ hm
    rw [hw] at he
    cases he
    exact hs (id, a) s0 s h1 h2 h3
  · rw [hw] at he
    exact Bound.mono hg (hb id s he)

/-! ### the updates of a block -/

/-- updates as the API takes them: one entry per category, each `Proper`, and the internal category (if named at all) is
versioned and does not delete the key the blockchain itself puts -/
structure UGood (H : MHash) (u : Updates) : Prop where
  map : Sorted u
  proper : ∀ x ∈ u, x.2.Proper H
  internal : ∀ i r, (internalCat, CInput.versioned i r) ∈ u → genesisKey ∉ i.deletes

/-- no key of the block is already in its immutable category -/
def UFresh (db : Db) (u : Updates) : Prop := ∀ x ∈ u, ∀ s, db x.1 = some s → x.2.Fresh s

theorem assign_mem {α : Type} (k : Key) (v : α) (l : List (Key × α)) (x : Key × α) (h : x ∈ assign k v l) :
    x = (k, v) ∨ x ∈ l := by
  induction l with
  | nil => simp [assign] at h; exact Or.inl h
  | cons y ys ih =>
    rw [assign] at h
    split at h
    · rcases List.mem_cons.1 h with h | h
      · exact Or.inl h
      · exact Or.inr (List.mem_cons_of_mem _ h)
    · split at h
      · rcases List.mem_cons.1 h with h | h
        · exact Or.inl h
        · exact Or.inr h
      · rcases List.mem_cons.1 h with h | h
        · exact Or.inr (by rw [h]; exact List.mem_cons_self)
        · rcases ih h with h | h
          · exact Or.inl h
          · exact Or.inr (List.mem_cons_of_mem _ h)

theorem assign_sorted {α : Type} (k : Key) (v : α) (l : List (Key × α)) (hs : Sorted l) : Sorted (assign k v l) := by
  induction l with
  | nil => exact List.pairwise_singleton _ _
  | cons y ys ih =>
    have h' := List.pairwise_cons.1 hs
    rw [assign]
    split
    · rename_i e
      refine List.pairwise_cons.2 ⟨?_, h'.2⟩
      intro z hz
      show keyLt k z.1 = true
      rw [e]; exact h'.1 z hz
    · rename_i hne
      split
      · rename_i hlt
        refine List.pairwise_cons.2 ⟨?_, hs⟩
        intro z hz
        rcases List.mem_cons.1 hz with e | hz
        · rw [e]; exact hlt
        · exact keyLt_trans _ _ _ hlt (h'.1 z hz)
      · rename_i hlt
        refine List.pairwise_cons.2 ⟨?_, ih h'.2⟩
        intro z hz
        rcases assign_mem _ _ _ _ hz with e | e
        · rw [e]; exact keyLt_total _ _ hne (by simpa using hlt)
        · exact h'.1 z e

/-- adding the genesis-block key keeps the updates good -/
theorem addGenesisKey_good {H : MHash} {g : Nat} {u u' : Updates} (hg : UGood H u) (h : addGenesisKey g u = some u') :
    Sorted u' ∧ (∀ x ∈ u', x.2.Proper H) ∧
    ∀ x ∈ u', x ∈ u ∨ (x.1 = internalCat ∧ ∃ i r, x.2 = .versioned i r) := by
  rw [addGenesisKey] at h
  split at h
  · cases h
    refine ⟨assign_sorted _ _ _ hg.map, fun x hx => ?_, fun x hx => ?_⟩
    · rcases assign_mem _ _ _ _ hx with e | e
      · rw [e]
        exact ⟨List.pairwise_singleton _ _, List.Pairwise.nil, fun k hk => by cases hk⟩
      · exact hg.proper x e
    · rcases assign_mem _ _ _ _ hx with e | e
      · rw [e]; exact Or.inr ⟨rfl, _, _, rfl⟩
      · exact Or.inl e
  · rename_i i r e
    cases h
    have hm := mem_of_lookup e
    obtain ⟨p1, p2, p3⟩ := hg.proper _ hm
    refine ⟨assign_sorted _ _ _ hg.map, fun x hx => ?_, fun x hx => ?_⟩
    · rcases assign_mem _ _ _ _ hx with e | e
      · rw [e]
        refine ⟨assign_sorted _ _ _ p1, p2, fun k hk hkv => ?_⟩
        obtain ⟨y, hy, rfl⟩ := List.mem_map.1 hkv
        rcases assign_mem _ _ _ _ hy with e | e
        · rw [e] at hk
          exact hg.internal i r hm hk
        · exact p3 _ hk (List.mem_map.2 ⟨y, e, rfl⟩)
      · exact hg.proper x e
    · rcases assign_mem _ _ _ _ hx with e | e
      · rw [e]; exact Or.inr ⟨rfl, _, _, rfl⟩
      · exact Or.inl e
  · cases h

theorem addGenesisKey_fresh {H : MHash} {g : Nat} {u u' : Updates} {db : Db} (hg : UGood H u) (hf : UFresh db u)
    (h : addGenesisKey g u = some u') : UFresh db u' := by
  intro x hx s hs
  rcases (addGenesisKey_good hg h).2.2 x hx with e | ⟨_, i, r, e⟩
  · exact hf x e s hs
  · rw [e]; trivial

/-! ### the invariant -/

/-- block `b` is stored, and its updates can be read back: they are those of `r` -/
def Live (H : Hashes) (c : Chain) (b : Nat) (r : Raw) : Prop :=
  ∃ bl, c.blocks b = some bl ∧ Rel (catRebuild H.m b) c.db bl.outs r.updates ∧ r = mkRaw bl.parent r.updates bl.outs

theorem live_getRaw {H : Hashes} {c : Chain} {b : Nat} {r : Raw} (h : Live H c b r) : c.getRaw H b = some r := by
  obtain ⟨bl, h1, h2, h3⟩ := h
  rw [Chain.getRaw, h1]
  simp only [rel_onCats h2, Option.map_some]
  rw [← h3]

/-- `raws` are the raw blocks `1 … last` of the chain, as they were when they were added -/
structure Inv (H : Hashes) (c : Chain) (raws : List Raw) : Prop where
  len : raws.length = c.last
  fresh : c.genesis = 0 → c.last = 0
  range : c.genesis ≤ c.last
  live : ∀ b, 1 ≤ c.genesis → c.genesis ≤ b → b ≤ c.last → ∃ r, raws[b - 1]? = some r ∧ Live H c b r
  gone : ∀ b, b < c.genesis ∨ c.last < b ∨ b = 0 → c.blocks b = none
  linked : Linked H raws
  cache : ∀ i r, c.cache = some (i, r) → 1 ≤ i ∧ c.last ≤ i ∧ (i = c.last → raws[c.last - 1]? = some r)
  bound : ∀ id s, c.db id = some s → s.Bound c.genesis

theorem inv_new {H : Hashes} {db : Db} (hb : ∀ id s, db id = some s → s.Bound 0) : Inv H (Chain.new db) [] where
  len := rfl
  fresh := fun _ => rfl
  range := Nat.le_refl _
  live := fun b h => by simp [Chain.new] at h
  gone := fun _ _ => rfl
  linked := ⟨fun r h => (by cases h), fun i r r' h => (by cases h)⟩
  cache := fun i r h => by cases h
  bound := hb

/-- the parent digest computed from the cache or from the stored block is the digest of the last block of the history -/
theorem parent_digest_eq {H : Hashes} {c : Chain} {raws : List Raw} (hi : Inv H c raws) :
    c.parentDigest H (c.last + 1) = match raws[c.last - 1]? with
      | none => some zeroDigest
      | some r => digest H c.last r := by
  have hst : (if c.last + 1 > 1 then (match c.getRaw H (c.last + 1 - 1) with | none => none | some r => digest H (c.last + 1 - 1) r)
      else some zeroDigest) = match raws[c.last - 1]? with | none => some zeroDigest | some r => digest H c.last r := by
    by_cases h0 : c.last = 0
    · have : raws = [] := List.length_eq_zero_iff.1 (hi.len.trans h0)
      rw [if_neg (by omega), this]
      rfl
    · have hg : 1 ≤ c.genesis := by
        have := hi.fresh
        omega
      obtain ⟨r, h1, h2⟩ := hi.live c.last hg hi.range (Nat.le_refl _)
      rw [if_pos (by omega), h1, Nat.add_sub_cancel, live_getRaw h2]
  rw [Chain.parentDigest]
  cases e : c.cache with
  | none => exact hst
  | some p =>
    obtain ⟨i, r⟩ := p
    obtain ⟨c1, c2, c3⟩ := hi.cache i r e
    simp only
    split
    · rename_i h
      have hl : i = c.last := by omega
      rw [c3 hl, Nat.add_sub_cancel]
    · exact hst

theorem linked_append {H : Hashes} {raws : List Raw} (h : Linked H raws) {r : Raw}
    (hr : (match raws[raws.length - 1]? with | none => some zeroDigest | some q => digest H raws.length q) = some r.parent) :
    Linked H (raws ++ [r]) := by
  constructor
  · intro q hq
    cases raws with
    | nil =>
      simp only [List.nil_append, List.getElem?_cons_zero, Option.some.injEq] at hq
      subst hq
      simpa using hr.symm
    | cons a as => exact h.first q (by simpa using hq)
  · intro i q q' h1 h2
    by_cases hl : i + 1 < raws.length
    · rw [List.getElem?_append_left (by omega)] at h1
      rw [List.getElem?_append_left hl] at h2
      exact h.next i q q' h1 h2
    · have hi : i + 1 < (raws ++ [r]).length := (List.getElem?_eq_some_iff.1 h2).1
      rw [List.length_append, List.length_singleton] at hi
      have e : i + 1 = raws.length := by omega
      rw [e, List.getElem?_append_right (Nat.le_refl _), Nat.sub_self] at h2
      simp only [List.getElem?_cons_zero, Option.some.injEq] at h2
      subst h2
      rw [List.getElem?_append_left (by omega)] at h1
      rw [show raws.length - 1 = i by omega, h1] at hr
      rw [e]
      exact hr

/-- what a successful append does -/
theorem append_some {H : Hashes} {c c' : Chain} {u : Updates} (h : c.append H u = some c') :
    ∃ p l, c.parentDigest H (c.last + 1) = some p ∧ Rel (catAdd H.m (c.last + 1)) c.db u l ∧
      c' = { c with
        db := c.db.write (l.map (fun x => (x.1, x.2.1)))
        blocks := fun i => if i = c.last + 1 then some { parent := p, outs := l.map (fun x => (x.1, x.2.2)) } else c.blocks i
        genesis := if c.genesis = 0 then 1 else c.genesis
        last := c.last + 1
        cache := some (c.last + 1, mkRaw p u (l.map (fun x => (x.1, x.2.2)))) } := by
  simp only [Chain.append] at h
  split at h
  · rename_i p l h1 h2
    cases h
    exact ⟨p, l, h1, onCats_rel h2, rfl⟩
  · cases h

theorem rel_states {H : MHash} {b : Nat} {db : Db} {u : Updates} {l : List (CatId × (CState × COutput))}
    (h : Rel (catAdd H b) db u l) :
    Rel (fun i s => (catAdd H b i s).map (·.1)) db u (l.map (fun x => (x.1, x.2.1))) := by
  induction h with
  | nil => exact .nil
  | cons e1 e2 _ ih => exact .cons e1 (by simp only [e2, Option.map_some]) ih

theorem rel_rebuild_new {H : MHash} {b : Nat} {db db' : Db} {u : Updates} {l : List (CatId × (CState × COutput))}
    (h : Rel (catAdd H b) db u l) (hp : ∀ x ∈ u, x.2.Proper H) (hw : ∀ x ∈ l, db' x.1 = some x.2.1) :
    Rel (catRebuild H b) db' (l.map (fun x => (x.1, x.2.2))) u := by
  induction h with
  | nil => exact .nil
  | @cons id a s p l r e1 e2 _ ih =>
    refine .cons (hw _ List.mem_cons_self) (rebuild_add (hp _ List.mem_cons_self) (s := s) (s' := p.1) (o := p.2) e2) ?_
    exact ih (fun x hx => hp x (List.mem_cons_of_mem _ hx)) (fun x hx => hw x (List.mem_cons_of_mem _ hx))

theorem inv_append {H : Hashes} {c c' : Chain} {raws : List Raw} (hi : Inv H c raws) {u : Updates} (hs : Sorted u)
    (hp : ∀ x ∈ u, x.2.Proper H.m) (hf : UFresh c.db u) (h : c.append H u = some c') :
    ∃ r, c'.cache = some (c'.last, r) ∧ r.updates = u ∧ Inv H c' (raws ++ [r]) := by
  obtain ⟨p, l, h1, h2, rfl⟩ := append_some h
  refine ⟨_, rfl, rfl, ?_⟩
  have hst := rel_states h2
  have hn : ((l.map (fun x => (x.1, x.2.1))).map (·.1)).Nodup := by
    rw [hst.fst]; exact sorted_nodup hs
  have hsame : ∀ b, b ≠ c.last + 1 → DbSame b c.db (c.db.write (l.map (fun x => (x.1, x.2.1)))) := by
    intro b hb
    refine write_same hst (fun x s s' hx he hf' => ?_)
    simp only [Option.map_eq_some_iff] at hf'
    obtain ⟨⟨t, o⟩, h3, rfl⟩ := hf'
    exact add_same hb (hf x hx s he) h3
  have hlive : ∀ b r, b ≤ c.last → Live H c b r → Live H
      { c with
        db := c.db.write (l.map (fun x => (x.1, x.2.1)))
        blocks := fun i => if i = c.last + 1 then some { parent := p, outs := l.map (fun x => (x.1, x.2.2)) } else c.blocks i
        genesis := if c.genesis = 0 then 1 else c.genesis
        last := c.last + 1
        cache := some (c.last + 1, mkRaw p u (l.map (fun x => (x.1, x.2.2)))) } b r := by
    rintro b r hb ⟨bl, k1, k2, k3⟩
    refine ⟨bl, ?_, rel_same (hsame b (by omega)) k2, k3⟩
    show (if b = c.last + 1 then _ else c.blocks b) = some bl
    rw [if_neg (by omega)]
    exact k1
  have hnew : Live H
      { c with
        db := c.db.write (l.map (fun x => (x.1, x.2.1)))
        blocks := fun i => if i = c.last + 1 then some { parent := p, outs := l.map (fun x => (x.1, x.2.2)) } else c.blocks i
        genesis := if c.genesis = 0 then 1 else c.genesis
        last := c.last + 1
        cache := some (c.last + 1, mkRaw p u (l.map (fun x => (x.1, x.2.2)))) } (c.last + 1)
      (mkRaw p u (l.map (fun x => (x.1, x.2.2)))) := by
    refine ⟨{ parent := p, outs := l.map (fun x => (x.1, x.2.2)) }, ?_, ?_, rfl⟩
    · show (if c.last + 1 = c.last + 1 then _ else _) = _
      rw [if_pos rfl]
    · refine rel_rebuild_new h2 hp (fun x hx => ?_)
      exact write_mem hn c.db (x := (x.1, x.2.1)) (List.mem_map.2 ⟨x, hx, rfl⟩)
  have hlast : (raws ++ [mkRaw p u (l.map (fun x => (x.1, x.2.2)))])[c.last]? = some (mkRaw p u (l.map (fun x => (x.1, x.2.2)))) := by
    rw [List.getElem?_append_right (by rw [hi.len]; exact Nat.le_refl _), hi.len, Nat.sub_self]
    rfl
  constructor
  · show (raws ++ [_]).length = c.last + 1
    rw [List.length_append, List.length_singleton, hi.len]
  · show (if c.genesis = 0 then 1 else c.genesis) = 0 → _
    split <;> omega
  · show (if c.genesis = 0 then 1 else c.genesis) ≤ c.last + 1
    have := hi.range
    split <;> omega
  · intro b hg hb hb'
    have hg : 1 ≤ (if c.genesis = 0 then 1 else c.genesis) := hg
    have hb : (if c.genesis = 0 then 1 else c.genesis) ≤ b := hb
    have hb' : b ≤ c.last + 1 := hb'
    by_cases e : b = c.last + 1
    · subst e
      exact ⟨_, hlast, hnew⟩
    · have hg0 : c.genesis ≠ 0 := by
        intro h0
        have := hi.fresh h0
        rw [if_pos h0] at hb
        omega
      rw [if_neg hg0] at hb
      obtain ⟨r, k1, k2⟩ := hi.live b (by omega) hb (by omega)
      refine ⟨r, ?_, hlive b r (by omega) k2⟩
      rw [List.getElem?_append_left (by rw [hi.len]; omega)]
      exact k1
  · intro b hb
    show (if b = c.last + 1 then _ else c.blocks b) = none
    have hb : b < (if c.genesis = 0 then 1 else c.genesis) ∨ c.last + 1 < b ∨ b = 0 := hb
    have hr := hi.range
    have : b ≠ c.last + 1 := by
      rintro rfl
      split at hb <;> omega
    rw [if_neg this]
    apply hi.gone
    split at hb <;> omega
  · refine linked_append hi.linked ?_
    rw [hi.len, ← parent_digest_eq hi, h1]
    rfl
  · intro i r hc
    cases hc
    refine ⟨by omega, Nat.le_refl _, fun _ => ?_⟩
    show (raws ++ [_])[c.last + 1 - 1]? = _
    rw [Nat.add_sub_cancel]
    exact hlast
  · refine write_bound hst ?_ hi.bound (fun x s s' hx he hf' => ?_)
    · show c.genesis ≤ if c.genesis = 0 then 1 else c.genesis
      split <;> omega
    · simp only [Option.map_eq_some_iff] at hf'
      obtain ⟨⟨t, o⟩, h3, rfl⟩ := hf'
      refine add_bound (Bound.mono ?_ (hi.bound _ s he)) h3
      show c.genesis ≤ if c.genesis = 0 then 1 else c.genesis
      split <;> omega

theorem prune_some {H : Hashes} {c c' : Chain} (h : c.prune H = some c') :
    ∃ bl l, 1 ≤ c.genesis ∧ c.genesis ≠ c.last ∧ c.blocks c.genesis = some bl ∧
      Rel (catPrune H.m c.genesis) c.db bl.outs l ∧
      c' = { c with
        db := c.db.write l
        blocks := fun i => if i = c.genesis then none else c.blocks i
        genesis := c.genesis + 1 } := by
  rw [Chain.prune] at h
  split at h
  · cases h
  · rename_i h1
    split at h
    · cases h
    · rename_i h2
      cases e : c.blocks c.genesis with
      | none => rw [e] at h; cases h
      | some bl =>
        rw [e] at h
        simp only [Option.map_eq_some_iff] at h
        obtain ⟨l, h3, rfl⟩ := h
        exact ⟨bl, l, by omega, h2, rfl, onCats_rel h3, rfl⟩

theorem live_rel {H : Hashes} {c : Chain} {b : Nat} {r : Raw} {bl : Block} (h : Live H c b r) (hb : c.blocks b = some bl) :
    Rel (catRebuild H.m b) c.db bl.outs r.updates := by
  obtain ⟨bl', h1, h2, _⟩ := h
  rw [hb] at h1; cases h1; exact h2

theorem inv_prune {H : Hashes} {c c' : Chain} {raws : List Raw} (hi : Inv H c raws) (h : c.prune H = some c') :
    Inv H c' raws := by
  obtain ⟨bl, l, hg, hne, hb, hrel, rfl⟩ := prune_some h
  have hr := hi.range
  obtain ⟨r0, _, hl0⟩ := hi.live c.genesis hg (Nat.le_refl _) hr
  have hreb := live_rel hl0 hb
  have key : ∀ x s s', x ∈ bl.outs → c.db x.1 = some s → catPrune H.m c.genesis x.2 s = some s' →
      (∀ b, c.genesis < b → Same b s s') ∧ s'.Bound (c.genesis + 1) := by
    intro x s s' hx he hf
    obtain ⟨s1, i, k1, k2, _⟩ := hreb.left x hx
    rw [he] at k1; cases k1
    exact prune_same (hi.bound _ s he) k2 hf
  constructor
  · exact hi.len
  · intro h0; have h0 : c.genesis + 1 = 0 := h0; omega
  · show c.genesis + 1 ≤ c.last; omega
  · intro b h1 h2 h3
    have h2 : c.genesis + 1 ≤ b := h2
    have h3 : b ≤ c.last := h3
    obtain ⟨r, k1, bl', k2, k3, k4⟩ := hi.live b hg (by omega) h3
    refine ⟨r, k1, bl', ?_, rel_same ?_ k3, k4⟩
    · show (if b = c.genesis then none else c.blocks b) = _
      rw [if_neg (by omega)]; exact k2
    · exact write_same hrel (fun x s s' hx he hf => (key x s s' hx he hf).1 b (by omega))
  · intro b hb'
    show (if b = c.genesis then none else c.blocks b) = none
    have hb' : b < c.genesis + 1 ∨ c.last < b ∨ b = 0 := hb'
    split
    · rfl
    · exact hi.gone b (by omega)
  · exact hi.linked
  · exact hi.cache
  · exact write_bound hrel (Nat.le_succ _) hi.bound (fun x s s' hx he hf => (key x s s' hx he hf).2)

theorem deleteLast_some {H : Hashes} {c c' : Chain} (h : c.deleteLast H = some c') :
    ∃ bl l, c.last ≠ 0 ∧ c.last ≠ c.genesis ∧ c.blocks c.last = some bl ∧
      Rel (catUndo H.m c.last) c.db bl.outs l ∧
      c' = { c with
        db := c.db.write l
        blocks := fun i => if i = c.last then none else c.blocks i
        last := c.last - 1 } := by
  rw [Chain.deleteLast] at h
  split at h
  · cases h
  · rename_i h1
    split at h
    · cases h
    · rename_i h2
      cases e : c.blocks c.last with
      | none => rw [e] at h; cases h
      | some bl =>
        rw [e] at h
        simp only [Option.map_eq_some_iff] at h
        obtain ⟨l, h3, rfl⟩ := h
        exact ⟨bl, l, h1, h2, rfl, onCats_rel h3, rfl⟩

theorem inv_deleteLast {H : Hashes} {c c' : Chain} {raws : List Raw} (hi : Inv H c raws) (h : c.deleteLast H = some c') :
    Inv H c' raws.dropLast := by
  obtain ⟨bl, l, h0, hne, hb, hrel, rfl⟩ := deleteLast_some h
  have hr := hi.range
  have hg : 1 ≤ c.genesis := by
    have := hi.fresh
    omega
  obtain ⟨r0, _, hl0⟩ := hi.live c.last hg hr (Nat.le_refl _)
  have hreb := live_rel hl0 hb
  have key : ∀ x s s', x ∈ bl.outs → c.db x.1 = some s → catUndo H.m c.last x.2 s = some s' →
      (∀ b, b ≠ c.last → Same b s s') ∧ s'.Bound c.genesis := by
    intro x s s' hx he hf
    obtain ⟨s1, i, k1, k2, _⟩ := hreb.left x hx
    rw [he] at k1; cases k1
    exact undo_same (hi.bound _ s he) k2 hf
  constructor
  · show raws.dropLast.length = c.last - 1
    rw [List.length_dropLast, hi.len]
  · intro h1
    have h1 : c.genesis = 0 := h1
    omega
  · show c.genesis ≤ c.last - 1; omega
  · intro b h1 h2 h3
    have h2 : c.genesis ≤ b := h2
    have h3 : b ≤ c.last - 1 := h3
    obtain ⟨r, k1, bl', k2, k3, k4⟩ := hi.live b hg h2 (by omega)
    refine ⟨r, ?_, bl', ?_, rel_same ?_ k3, k4⟩
    · rw [List.getElem?_dropLast, if_pos (by rw [hi.len]; omega)]; exact k1
    · show (if b = c.last then none else c.blocks b) = _
      rw [if_neg (by omega)]; exact k2
    · exact write_same hrel (fun x s s' hx he hf => (key x s s' hx he hf).1 b (by omega))
  · intro b hb'
    show (if b = c.last then none else c.blocks b) = none
    have hb' : b < c.genesis ∨ c.last - 1 < b ∨ b = 0 := hb'
    split
    · rfl
    · exact hi.gone b (by omega)
  · exact linked_dropLast hi.linked
  · intro i r hc
    obtain ⟨c1, c2, c3⟩ := hi.cache i r hc
    refine ⟨c1, ?_, fun e => ?_⟩
    · show c.last - 1 ≤ i; omega
    · have e : i = c.last - 1 := e
      omega
  · exact write_bound hrel (Nat.le_refl _) hi.bound (fun x s s' hx he hf => (key x s s' hx he hf).2)

end Verif.Chain
