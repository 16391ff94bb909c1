import Verif.Rp.Keys
import Verif.Rp.Spec
set_option linter.unusedVariables false
set_option linter.unusedSimpArgs false
/-!
# The database holds what is in memory (C41)
-/
namespace Verif.Rp
open Verif.Bytes Verif.St

variable {c : Cfg}

/-- a pending page in memory and in the database -/
def PendSync (c : Cfg) : Option Bytes → Option Bytes → Prop
  | none, x => x = none
  | some b, x => ∃ b0, x = some (encPend b0) ∧ b0.length ≤ c.pageSize ∧ pad c.pageSize b0 = b

structure Sync (c : Cfg) (pend : List (Nat × Bytes)) (pages : Pages) (descs : List (Nat × Desc)) (kv : List (Bytes × Bytes)) : Prop where
  inc : Inc Kvbc.keyLt kv
  pend : ∀ p, p < c.pages → PendSync c (get p pend) (get (kPend p) kv)
  page : ∀ p k, p < 2 ^ 32 → k < 2 ^ 64 → get (kPage p k) kv = (get (p, k) pages).map (fun x => encPage c.pageSize p k x.1 x.2)
  desc : ∀ k, k < 2 ^ 64 → get (kDesc k) kv = (get k descs).map encDesc
  only : ∀ e ∈ kv, kPrefix.isPrefixOf e.1 = true → ∃ p k, p < 2 ^ 32 ∧ k < 2 ^ 64 ∧ e.1 = kPage p k

variable {pend : List (Nat × Bytes)} {pages : Pages} {descs : List (Nat × Desc)} {kv : List (Bytes × Bytes)}

theorem only_put {k v : Bytes} (hi : Inc Kvbc.keyLt kv) (h : ∀ e ∈ kv, kPrefix.isPrefixOf e.1 = true → ∃ p k, p < 2 ^ 32 ∧ k < 2 ^ 64 ∧ e.1 = kPage p k)
    (hk : kPrefix.isPrefixOf k = true → ∃ p j, p < 2 ^ 32 ∧ j < 2 ^ 64 ∧ k = kPage p j) :
    ∀ e ∈ put Kvbc.keyLt k v kv, kPrefix.isPrefixOf e.1 = true → ∃ p k, p < 2 ^ 32 ∧ k < 2 ^ 64 ∧ e.1 = kPage p k := by
  intro e he hp
  rcases (mem_put keyLt_strict hi).1 he with rfl | ⟨_, he⟩
  · exact hk hp
  · exact h e he hp

theorem Sync.setPend (ok : CfgOk c) (h : Sync c pend pages descs kv) (hi : Inc natLt pend) {p : Nat} {b : Bytes} (hp : p < c.pages) (hb : b.length ≤ c.pageSize) :
    Sync c (put natLt p (pad c.pageSize b) pend) pages descs (put Kvbc.keyLt (kPend p) (encPend b) kv) := by
  have := ok.pages
  refine ⟨h.inc.put keyLt_strict _ _, fun q hq => ?_, fun q k h1 h2 => ?_, fun k hk => ?_, only_put h.inc h.only (fun hx => by rw [prefix_kPend] at hx; cases hx)⟩
  · rw [get_put natLt_strict hi, get_put keyLt_strict h.inc]
    by_cases e : q = p
    · subst e
      rw [if_pos rfl, if_pos rfl]
      exact ⟨b, rfl, hb, rfl⟩
    · rw [if_neg e, if_neg (fun e' => e (kPend_inj (by omega) (by omega) e'))]
      exact h.pend q hq
  · rw [get_put keyLt_strict h.inc, if_neg (fun e => kPend_ne_page _ _ _ e.symm)]
    exact h.page q k h1 h2
  · rw [get_put keyLt_strict h.inc, if_neg (fun e => kPend_ne_desc _ _ e.symm)]
    exact h.desc k hk

theorem Sync.delPend (ok : CfgOk c) (h : Sync c pend pages descs kv) {p : Nat} (hp : p < c.pages) : Sync c (del p pend) pages descs (del (kPend p) kv) := by
  have := ok.pages
  refine ⟨h.inc.del _, fun q hq => ?_, fun q k h1 h2 => ?_, fun k hk => ?_, fun e he hx => h.only e (mem_del.1 he).2 hx⟩
  · rw [get_del, get_del]
    by_cases e : q = p
    · subst e
      rw [if_pos rfl, if_pos rfl]
      rfl
    · rw [if_neg e, if_neg (fun e' => e (kPend_inj (by omega) (by omega) e'))]
      exact h.pend q hq
  · rw [get_del, if_neg (fun e => kPend_ne_page _ _ _ e.symm)]
    exact h.page q k h1 h2
  · rw [get_del, if_neg (fun e => kPend_ne_desc _ _ e.symm)]
    exact h.desc k hk

theorem Sync.setPage (h : Sync c pend pages descs kv) (hi : Inc pageLt pages) {p k : Nat} {x : Bytes × Bytes} (hp : p < 2 ^ 32) (hk : k < 2 ^ 64) :
    Sync c pend (put pageLt (p, k) x pages) descs (put Kvbc.keyLt (kPage p k) (encPage c.pageSize p k x.1 x.2) kv) := by
  refine ⟨h.inc.put keyLt_strict _ _, fun q hq => ?_, fun q j h1 h2 => ?_, fun j hj => ?_, only_put h.inc h.only (fun hx => ⟨p, k, hp, hk, rfl⟩)⟩
  · rw [get_put keyLt_strict h.inc, if_neg (kPend_ne_page _ _ _)]
    exact h.pend q hq
  · rw [get_put keyLt_strict h.inc, get_put pageLt_strict hi]
    by_cases e : (q, j) = (p, k)
    · cases e
      rw [if_pos rfl, if_pos rfl]
      rfl
    · rw [if_neg e, if_neg (fun e' => e ?_)]
      · exact h.page q j h1 h2
      · obtain ⟨e1, e2⟩ := kPage_inj h1 hp h2 hk e'
        rw [e1, e2]
  · rw [get_put keyLt_strict h.inc, if_neg (kDesc_ne_page _ _ _)]
    exact h.desc j hj

theorem Sync.setDesc (h : Sync c pend pages descs kv) (hi : Inc natLt descs) {k : Nat} {d : Desc} (hk : k < 2 ^ 64) :
    Sync c pend pages (put natLt k d descs) (put Kvbc.keyLt (kDesc k) (encDesc d) kv) := by
  refine ⟨h.inc.put keyLt_strict _ _, fun q hq => ?_, fun q j h1 h2 => ?_, fun j hj => ?_, only_put h.inc h.only (fun hx => by rw [prefix_kDesc] at hx; cases hx)⟩
  · rw [get_put keyLt_strict h.inc, if_neg (kPend_ne_desc _ _)]
    exact h.pend q hq
  · rw [get_put keyLt_strict h.inc, if_neg (fun e => kDesc_ne_page _ _ _ e.symm)]
    exact h.page q j h1 h2
  · rw [get_put keyLt_strict h.inc, get_put natLt_strict hi]
    by_cases e : j = k
    · subst e
      rw [if_pos rfl, if_pos rfl]
      rfl
    · rw [if_neg e, if_neg (fun e' => e (kDesc_inj hj hk e'))]
      exact h.desc j hj

theorem Sync.other (h : Sync c pend pages descs kv) {k v : Bytes} (hk : k.head? ≠ some 1) : Sync c pend pages descs (put Kvbc.keyLt k v kv) := by
  have hne : ∀ x : Bytes, x.head? = some 1 → x ≠ k := fun x hx e => hk (by rw [← e]; exact hx)
  refine ⟨h.inc.put keyLt_strict _ _, fun q hq => ?_, fun q j h1 h2 => ?_, fun j hj => ?_, only_put h.inc h.only (fun hx => ?_)⟩
  · rw [get_put keyLt_strict h.inc, if_neg (hne _ rfl)]
    exact h.pend q hq
  · rw [get_put keyLt_strict h.inc, if_neg (hne _ rfl)]
    exact h.page q j h1 h2
  · rw [get_put keyLt_strict h.inc, if_neg (hne _ rfl)]
    exact h.desc j hj
  · obtain ⟨k', rfl⟩ := List.isPrefixOf_iff_prefix.1 hx
    exact absurd rfl hk

/-! ## Transactions -/

theorem commit_append (db : Db) (a b : List W) : db.commit (a ++ b) = (db.commit a).commit b := List.foldl_append

theorem commit_cons (db : Db) (w : W) (ws : List W) : db.commit (w :: ws) = (db.write w).commit ws := rfl

/-- the numbers and the flag are not touched -/
def Db.Same (db db' : Db) : Prop := db'.first = db.first ∧ db'.last = db.last ∧ db'.fetching = db.fetching

theorem Db.Same.refl (db : Db) : db.Same db := ⟨rfl, rfl, rfl⟩
theorem Db.Same.trans {a b d : Db} (h : a.Same b) (g : b.Same d) : a.Same d := ⟨g.1.trans h.1, g.2.1.trans h.2.1, g.2.2.trans h.2.2⟩

theorem commit_dels (ws : List W) : ∀ (db : Db), (∀ w ∈ ws, ∃ k, w = .del k) →
    db.Same (db.commit ws) ∧ (Inc Kvbc.keyLt db.kv → Inc Kvbc.keyLt (db.commit ws).kv) ∧ (∀ e ∈ (db.commit ws).kv, e ∈ db.kv) ∧
      ∀ k, get k (db.commit ws).kv = if .del k ∈ ws then none else get k db.kv := by
  induction ws with
  | nil => intro db _; exact ⟨Db.Same.refl _, fun h => h, fun e h => h, fun k => by rw [if_neg (by simp)]; rfl⟩
  | cons w ws ih =>
    intro db h
    obtain ⟨k0, rfl⟩ := h w List.mem_cons_self
    obtain ⟨g1, g2, g3, g4⟩ := ih (db.write (.del k0)) (fun w hw => h w (List.mem_cons_of_mem _ hw))
    rw [commit_cons]
    refine ⟨Db.Same.trans ⟨rfl, rfl, rfl⟩ g1, fun hi => g2 (hi.del _), fun e he => (mem_del.1 (g3 e he)).2, fun k => ?_⟩
    rw [g4]
    show (if W.del k ∈ ws then none else get k (del k0 db.kv)) = _
    rw [get_del]
    by_cases hk : k = k0
    · subst hk
      rw [if_pos rfl, if_pos List.mem_cons_self]
      split <;> rfl
    · rw [if_neg hk]
      by_cases hm : W.del k ∈ ws
      · rw [if_pos hm, if_pos (List.mem_cons_of_mem _ hm)]
      · rw [if_neg hm, if_neg]
        intro hx
        rcases List.mem_cons.1 hx with e | e
        · cases e; exact hk rfl
        · exact hm e

theorem Sync.dropDescs {db : Db} (h : Sync c pend pages descs db.kv) {descs' : List (Nat × Desc)} {ws : List W}
    (hw : ∀ w, w ∈ ws ↔ ∃ k, k < 2 ^ 64 ∧ get k descs ≠ none ∧ get k descs' = none ∧ w = .del (kDesc k))
    (hd : ∀ k, get k descs' = none ∨ get k descs' = get k descs) : Sync c pend pages descs' (db.commit ws).kv := by
  obtain ⟨g1, g2, g3, g4⟩ := commit_dels ws db (fun w hw' => by obtain ⟨k, _, _, _, e⟩ := (hw w).1 hw'; exact ⟨_, e⟩)
  refine ⟨g2 h.inc, fun q hq => ?_, fun q j h1 h2 => ?_, fun j hj => ?_, fun e he hx => h.only e (g3 e he) hx⟩
  · rw [g4, if_neg]
    · exact h.pend q hq
    · intro hx
      obtain ⟨k, _, _, _, e⟩ := (hw _).1 hx
      injection e with e
      exact kPend_ne_desc _ _ e
  · rw [g4, if_neg]
    · exact h.page q j h1 h2
    · intro hx
      obtain ⟨k, _, _, _, e⟩ := (hw _).1 hx
      injection e with e
      exact kDesc_ne_page _ _ _ e.symm
  · rw [g4, h.desc j hj]
    split
    · rename_i hx
      obtain ⟨k, hk, _, e1, e⟩ := (hw _).1 hx
      injection e with e
      rw [kDesc_inj hj hk e, e1]
      rfl
    · rename_i hx
      rcases hd j with e | e
      · cases e2 : get j descs with
        | none => rw [e]
        | some x => exact absurd ((hw _).2 ⟨j, hj, by rw [e2]; simp, e, rfl⟩) hx
      · rw [e]

theorem Sync.dropPages {db : Db} (h : Sync c pend pages descs db.kv) {pages' : Pages} {ws : List W}
    (hw : ∀ w, w ∈ ws ↔ ∃ p k, p < 2 ^ 32 ∧ k < 2 ^ 64 ∧ get (p, k) pages ≠ none ∧ get (p, k) pages' = none ∧ w = .del (kPage p k))
    (hd : ∀ x, get x pages' = none ∨ get x pages' = get x pages) : Sync c pend pages' descs (db.commit ws).kv := by
  obtain ⟨g1, g2, g3, g4⟩ := commit_dels ws db (fun w hw' => by obtain ⟨p, k, _, _, _, _, e⟩ := (hw w).1 hw'; exact ⟨_, e⟩)
  refine ⟨g2 h.inc, fun q hq => ?_, fun q j h1 h2 => ?_, fun j hj => ?_, fun e he hx => h.only e (g3 e he) hx⟩
  · rw [g4, if_neg]
    · exact h.pend q hq
    · intro hx
      obtain ⟨p, k, _, _, _, _, e⟩ := (hw _).1 hx
      injection e with e
      exact kPend_ne_page _ _ _ e
  · rw [g4, h.page q j h1 h2]
    split
    · rename_i hx
      obtain ⟨p, k, hp, hk, _, e1, e⟩ := (hw _).1 hx
      injection e with e
      obtain ⟨e2, e3⟩ := kPage_inj h1 hp h2 hk e
      rw [e2, e3, e1]
      rfl
    · rename_i hx
      rcases hd (q, j) with e | e
      · cases e2 : get (q, j) pages with
        | none => rw [e]
        | some x => exact absurd ((hw _).2 ⟨q, j, h1, h2, by rw [e2]; simp, e, rfl⟩) hx
      · rw [e]
  · rw [g4, if_neg]
    · exact h.desc j hj
    · intro hx
      obtain ⟨p, k, _, _, _, _, e⟩ := (hw _).1 hx
      injection e with e
      exact kDesc_ne_page _ _ _ e

theorem Sync.dropPend (ok : CfgOk c) {db : Db} (h : Sync c pend pages descs db.kv) (hi : Inc natLt pend) (hp : ∀ e ∈ pend, e.1 < c.pages) :
    Sync c [] pages descs (db.commit (pend.map (fun e => W.del (kPend e.1)))).kv := by
  have := ok.pages
  obtain ⟨g1, g2, g3, g4⟩ := commit_dels (pend.map (fun e => W.del (kPend e.1))) db (fun w hw => by
    obtain ⟨e, _, rfl⟩ := List.mem_map.1 hw
    exact ⟨_, rfl⟩)
  refine ⟨g2 h.inc, fun q hq => ?_, fun q j h1 h2 => ?_, fun j hj => ?_, fun e he hx => h.only e (g3 e he) hx⟩
  · rw [g4]
    split
    · rfl
    · rename_i hx
      have := h.pend q hq
      cases e : get q pend with
      | none => rw [e] at this; exact this
      | some b => exact absurd (List.mem_map.2 ⟨(q, b), mem_of_get e, rfl⟩) hx
  · rw [g4, if_neg]
    · exact h.page q j h1 h2
    · intro hx
      obtain ⟨e, _, he⟩ := List.mem_map.1 hx
      injection he with he
      exact kPend_ne_page _ _ _ he
  · rw [g4, if_neg]
    · exact h.desc j hj
    · intro hx
      obtain ⟨e, _, he⟩ := List.mem_map.1 hx
      injection he with he
      exact kPend_ne_desc _ _ he

/-! ## Loops that write -/

theorem put_get_self {α β : Type} [DecidableEq α] {lt : α → α → Bool} (hs : Strict lt) {m : List (α × β)} (h : Inc lt m) (k : α) (v : β) : get k (put lt k v m) = some v := by
  rw [get_put hs h, if_pos rfl]

theorem assocAll_spec (ok : CfgOk c) {k : Nat} (hk : k < 2 ^ 64) : ∀ (ps : List Nat) (m : Mem) (ws : List W), ps.Nodup → (∀ p ∈ ps, p < c.pages ∧ get p m.pend ≠ none ∧ get (p, k) m.pages = none) →
    Inc natLt m.pend → Inc pageLt m.pages →
    ∃ m' ws', assocAll c k ps m ws = .ok (m', ws ++ ws') ∧ m' = { m with pend := m'.pend, pages := m'.pages } ∧ Inc natLt m'.pend ∧ Inc pageLt m'.pages ∧
      (∀ p, get p m'.pend = if p ∈ ps then none else get p m.pend) ∧
      (∀ p j, get (p, j) m'.pages = if p ∈ ps ∧ j = k then (get p m.pend).map (fun b => (c.pageH p k b, b)) else get (p, j) m.pages) ∧
      ∀ db : Db, Sync c m.pend m.pages m.descs db.kv → Sync c m'.pend m'.pages m.descs (db.commit ws').kv ∧ db.Same (db.commit ws') := by
  intro ps
  induction ps with
  | nil =>
    intro m ws _ _ h1 h2
    exact ⟨m, [], by rw [assocAll, List.append_nil], rfl, h1, h2, fun p => by rw [if_neg (by simp)], fun p j => by rw [if_neg (by simp)], fun db h => ⟨h, Db.Same.refl _⟩⟩
  | cons p ps ih =>
    intro m ws hnd hps h1 h2
    rw [List.nodup_cons] at hnd
    obtain ⟨hp, hg, hg2⟩ := hps p List.mem_cons_self
    have := ok.pages
    rw [assocAll]
    cases hb : get p m.pend with
    | none => exact absurd hb hg
    | some b =>
      simp only
      have ha : m.associate p k (c.pageH p k b) = .ok { m with
          pages := put pageLt (p, k) (c.pageH p k b, b) m.pages
          pend := del p m.pend } := by
        unfold Mem.associate
        rw [hb]
        simp only
        rw [require, if_pos hg2]
        rfl
      rw [ha]
      simp only [bind, R.bind]
      have e3 : ∀ q, get q (del p m.pend) = if q = p then none else get q m.pend := fun q => get_del _ _
      have e4 : ∀ q j, get (q, j) (put pageLt (p, k) (c.pageH p k b, b) m.pages) = if (q, j) = (p, k) then some (c.pageH p k b, b) else get (q, j) m.pages :=
        fun q j => get_put pageLt_strict h2 _ _ _
      obtain ⟨m', ws', q1, q2, q3, q4, q5, q6, q7⟩ := ih { m with
          pages := put pageLt (p, k) (c.pageH p k b, b) m.pages
          pend := del p m.pend } (ws ++ [.put (kPage p k) (encPage c.pageSize p k (c.pageH p k b) b), .del (kPend p)]) hnd.2 (fun q hq => by
            have hne : q ≠ p := fun e => hnd.1 (e ▸ hq)
            obtain ⟨a1, a2, a3⟩ := hps q (List.mem_cons_of_mem _ hq)
            refine ⟨a1, ?_, ?_⟩
            · show get q (del p m.pend) ≠ none
              rw [e3, if_neg hne]
              exact a2
            · show get (q, k) (put pageLt (p, k) (c.pageH p k b, b) m.pages) = none
              rw [e4, if_neg (fun e => hne (Prod.mk.inj e).1)]
              exact a3) (h1.del p) (h2.put pageLt_strict _ _)
      refine ⟨m', [.put (kPage p k) (encPage c.pageSize p k (c.pageH p k b) b), .del (kPend p)] ++ ws', by rw [q1, List.append_assoc], ?_, q3, q4, ?_, ?_, ?_⟩
      · rw [q2]
      · intro q
        rw [q5]
        show (if q ∈ ps then none else get q (del p m.pend)) = _
        rw [e3]
        by_cases e1 : q ∈ ps
        · rw [if_pos e1, if_pos (List.mem_cons_of_mem _ e1)]
        · rw [if_neg e1]
          by_cases e2 : q = p
          · rw [if_pos e2, if_pos (by rw [e2]; exact List.mem_cons_self)]
          · rw [if_neg e2, if_neg (by simp [e1, e2])]
      · intro q j
        rw [q6]
        show (if q ∈ ps ∧ j = k then (get q (del p m.pend)).map (fun b => (c.pageH q k b, b)) else get (q, j) (put pageLt (p, k) (c.pageH p k b, b) m.pages)) = _
        rw [e3, e4]
        by_cases e1 : q = p
        · subst e1
          rw [if_neg (fun h => hnd.1 h.1)]
          by_cases e2 : j = k
          · subst e2
            rw [if_pos rfl, if_pos ⟨List.mem_cons_self, rfl⟩, hb]
            rfl
          · rw [if_neg (fun e => e2 (Prod.mk.inj e).2), if_neg (fun h => e2 h.2)]
        · rw [if_neg e1, if_neg (fun e => e1 (Prod.mk.inj e).1)]
          simp only [List.mem_cons, e1, false_or]
      · intro db hs
        have s1 := (hs.setPage h2 (p := p) (k := k) (x := (c.pageH p k b, b)) (by omega) hk).delPend ok hp
        have e0 : (db.commit [.put (kPage p k) (encPage c.pageSize p k (c.pageH p k b) b), .del (kPend p)]).kv = del (kPend p) (put Kvbc.keyLt (kPage p k) (encPage c.pageSize p k (c.pageH p k b) b) db.kv) := rfl
        rw [commit_append]
        have := q7 (db.commit [.put (kPage p k) (encPage c.pageSize p k (c.pageH p k b) b), .del (kPend p)]) (by rw [e0]; exact s1)
        exact ⟨this.1, Db.Same.trans ⟨rfl, rfl, rfl⟩ this.2⟩

theorem installAll_spec (check : Bool) : ∀ (es : List Elem) (m : Mem) (ws : List W), (∀ e ∈ es, e.page < 2 ^ 32 ∧ e.ckpt < 2 ^ 64 ∧ (∀ x, get (e.page, e.ckpt) m.pages = some x → x.1 = e.digest)) →
    es.Pairwise (fun a b => a.page < b.page) → Inc pageLt m.pages →
    (installAll c check es m ws).All (fun r => ∃ ws', r.2 = ws ++ ws' ∧ r.1 = { m with pages := r.1.pages } ∧ Inc pageLt r.1.pages ∧
      (installElems check (store m.pages) es = .ok (store r.1.pages)) ∧
      ∀ db : Db, Sync c m.pend m.pages m.descs db.kv → Sync c m.pend r.1.pages m.descs (db.commit ws').kv ∧ db.Same (db.commit ws')) := by
  intro es
  induction es with
  | nil =>
    intro m ws _ _ hi
    rw [installAll, all_ok]
    exact ⟨[], by rw [List.append_nil], rfl, hi, rfl, fun db h => ⟨h, Db.Same.refl _⟩⟩
  | cons e es ih =>
    intro m ws he hpw hi
    rw [List.pairwise_cons] at hpw
    obtain ⟨h1, h2, h3⟩ := he e List.mem_cons_self
    rw [installAll, all_bind]
    have key : (m.setResPage e.page e.ckpt e.digest e.content check).All (fun m1 => m1 = { m with pages := put pageLt (e.page, e.ckpt) (e.digest, e.content) m.pages } ∧
        (store m.pages).setResPage e.page e.ckpt e.digest e.content check = .ok (store (put pageLt (e.page, e.ckpt) (e.digest, e.content) m.pages))) := by
      intro m1 hm1
      have hst : (store m.pages).set e.page e.ckpt (e.digest, e.content) = store (put pageLt (e.page, e.ckpt) (e.digest, e.content) m.pages) := by
        funext p k
        unfold Store.set store
        rw [get_put pageLt_strict hi]
        by_cases g : p = e.page ∧ k = e.ckpt
        · rw [if_pos g, if_pos (by rw [g.1, g.2])]
        · rw [if_neg g, if_neg (fun e => g ⟨(Prod.mk.inj e).1, (Prod.mk.inj e).2⟩)]
      unfold Mem.setResPage at hm1
      unfold Store.setResPage
      have e0 : store m.pages e.page e.ckpt = get (e.page, e.ckpt) m.pages := rfl
      rw [e0]
      cases hg : get (e.page, e.ckpt) m.pages with
      | none =>
        rw [hg] at hm1
        simp only at hm1 ⊢
        injection hm1 with hm1
        exact ⟨hm1.symm, by rw [hst]⟩
      | some x =>
        rw [hg] at hm1
        simp only at hm1 ⊢
        have hx := h3 x hg
        split at hm1
        · cases hm1
        · rename_i hc
          injection hm1 with hm1
          rw [if_neg hc, hx, hst]
          refine ⟨?_, rfl⟩
          rw [← hm1, hx]
    refine key.mono fun m1 hm1 => ?_
    obtain ⟨hm1, hset⟩ := hm1
    have hi1 : Inc pageLt m1.pages := by rw [hm1]; exact hi.put pageLt_strict _ _
    have hg1 : ∀ x, get x m1.pages = if x = (e.page, e.ckpt) then some (e.digest, e.content) else get x m.pages := by
      intro x
      rw [hm1]
      exact get_put pageLt_strict hi _ _ _
    refine (ih m1 (ws ++ [.put (kPage e.page e.ckpt) (encPage c.pageSize e.page e.ckpt e.digest e.content)]) (fun f hf => ?_) hpw.2 hi1).mono ?_
    · obtain ⟨a1, a2, a3⟩ := he f (List.mem_cons_of_mem _ hf)
      refine ⟨a1, a2, fun x hx => ?_⟩
      rw [hg1, if_neg (fun g => by have := hpw.1 _ hf; have := (Prod.mk.inj g).1; omega)] at hx
      exact a3 x hx
    · rintro ⟨m', w'⟩ ⟨ws', q1, q2, q3, q4, q5⟩
      simp only at q1 q2 q3 q4 q5 ⊢
      refine ⟨[.put (kPage e.page e.ckpt) (encPage c.pageSize e.page e.ckpt e.digest e.content)] ++ ws', by rw [q1, List.append_assoc], ?_, q3, ?_, ?_⟩
      · rw [q2, hm1]
      · rw [installElems, hset]
        show installElems check (store (put pageLt (e.page, e.ckpt) (e.digest, e.content) m.pages)) es = _
        rw [← q4, hm1]
      · intro db hs
        rw [commit_append]
        have s1 := hs.setPage hi (p := e.page) (k := e.ckpt) (x := (e.digest, e.content)) h1 h2
        have e0 : (db.commit [.put (kPage e.page e.ckpt) (encPage c.pageSize e.page e.ckpt e.digest e.content)]).kv = put Kvbc.keyLt (kPage e.page e.ckpt) (encPage c.pageSize e.page e.ckpt e.digest e.content) db.kv := rfl
        have hm2 : m1.pend = m.pend ∧ m1.descs = m.descs := by rw [hm1]; exact ⟨rfl, rfl⟩
        have := q5 (db.commit [.put (kPage e.page e.ckpt) (encPage c.pageSize e.page e.ckpt e.digest e.content)]) (by rw [e0, hm2.1, hm2.2, hm1]; exact s1)
        rw [hm2.1, hm2.2] at this
        exact ⟨this.1, Db.Same.trans ⟨rfl, rfl, rfl⟩ this.2⟩

end Verif.Rp
