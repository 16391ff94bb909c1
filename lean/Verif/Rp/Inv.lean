import Verif.Rp.Old
set_option linter.unusedVariables false
set_option linter.unusedSimpArgs false
/-!
# What the memory has to do with the meaning (C41)
-/
namespace Verif.Rp
open Verif.Bytes Verif.St

variable {c : Cfg}

/-- page, as stored -/
def full (c : Cfg) (p : Nat) (x : Nat × Bytes) : Nat × Bytes × Bytes := (x.1, c.pageH p x.1 x.2, x.2)

structure MInv (c : Cfg) (m : Mem) (a : A) : Prop where
  pInc : Inc natLt m.pend
  pend : ∀ p, get p m.pend = if a.dirty p then a.cur p else none
  dirty : ∀ p, a.dirty p = true → p < c.pages ∧ ∃ b, a.cur p = some b ∧ b.length = c.pageSize
  clean : ∀ p, a.dirty p = false → a.cur p = (a.base p).map (·.2)
  pg : PagesInv c m.pages a.last
  dInc : Inc natLt m.descs
  dOk : ∀ k d, get k m.descs = some d → d.num = k ∧ DescOk d ∧ m.first ≤ k ∧
    ∃ sn, a.snap k = some sn ∧ sn.2 = ⟨d.maxBlock, d.maxDigest, d.rvb⟩ ∧ d.pagesDigest = Snap.digest c sn.1
  rel : ∀ k sn, a.snap k = some sn → m.first ≤ k → get k m.descs ≠ none ∧ ∀ p, (store m.pages).rel p k = (sn.1 p).map (full c p)
  snapOk : ∀ k sn, a.snap k = some sn → 0 < k ∧ k ≤ a.last ∧ Snap.Wf c k sn.1
  first : m.first ≤ a.last
  firstOk : m.first = 0 ∨ a.snap m.first ≠ none
  last : m.last = a.last
  lastOk : a.last = 0 ∨ a.snap a.last ≠ none
  lastLt : a.last < 2 ^ 64
  width : a.last < m.first + c.maxStored
  keep : ∀ k, a.snap k ≠ none → a.last < k + c.maxStored → m.first ≤ k
  fetching : m.fetching = a.fetching
  nopend : a.fetching = true → ∀ p, a.dirty p = false

structure Inv (c : Cfg) (s : S) (a : A) : Prop where
  m : MInv c s.mem a
  sync : Sync c s.mem.pend s.mem.pages s.mem.descs s.db.kv
  first : s.db.first = s.mem.first
  last : s.db.last = s.mem.last
  fetching : s.db.fetching = s.mem.fetching
  cache : ∀ e ∈ s.cache, ∃ sn, a.snap e.1.1 = some sn ∧ e.2 = Snap.block c sn.1 e.1.2

theorem rel_congr {m m' : Store} {p n : Nat} (h : ∀ j, j ≤ n → m p j = m' p j) : m.rel p n = m'.rel p n := by
  rcases rel_cases m p n with ⟨k, x, q1, q2, q3, q4⟩ | ⟨q1, q2⟩
  · rw [q4]
    exact (rel_some q1 (by rw [← h k q1]; exact q2) (fun j a b => by rw [← h j b]; exact q3 j a b)).symm
  · rw [q2]
    exact (rel_none fun j hj => by rw [← h j hj]; exact q1 j hj).symm

theorem rel_skip {m : Store} {p a b : Nat} (hab : a ≤ b) (h : ∀ j, a < j → j ≤ b → m p j = none) : m.rel p b = m.rel p a := by
  rcases rel_cases m p a with ⟨k, x, q1, q2, q3, q4⟩ | ⟨q1, q2⟩
  · rw [q4]
    refine rel_some (by omega) q2 fun j h1 h2 => ?_
    by_cases e : j ≤ a
    · exact q3 j h1 e
    · exact h j (by omega) h2
  · rw [q2]
    refine rel_none fun j hj => ?_
    by_cases e : j ≤ a
    · exact q1 j e
    · exact h j (by omega) hj

theorem desc_lines {m : Store} {k : Nat} {sn : Snap} (h : ∀ p, m.rel p k = (sn p).map (full c p)) : m.desc c.pages k = Snap.lines c sn := by
  unfold Store.desc Snap.lines
  congr 1
  funext p
  unfold Store.line Snap.line
  rw [h p]
  cases sn p <;> rfl

theorem inc_nil_of_get {α β : Type} [DecidableEq α] {m : List (α × β)} (h : ∀ k, get k m = none) : m = [] := by
  cases m with
  | nil => rfl
  | cons e es =>
    have := h e.1
    rw [get, if_pos rfl] at this
    cases this

theorem MInv.base (h : MInv c m a) (p : Nat) : (store m.pages).rel p a.last = (a.base p).map (full c p) := by
  unfold A.base
  rcases h.lastOk with e | e
  · have hn : a.snap a.last = none := by
      cases hs : a.snap a.last with
      | none => rfl
      | some sn => have := (h.snapOk _ _ hs).1; omega
    rw [hn, rel_none]
    · rfl
    · intro k hk
      cases hx : store m.pages p k with
      | none => rfl
      | some x => have := h.pg.store hx; omega
  · cases hs : a.snap a.last with
    | none => exact absurd hs e
    | some sn => exact (h.rel _ _ hs h.first).2 p

theorem MInv.baseWf (h : MInv c m a) : Snap.Wf c a.last a.base := by
  unfold A.base
  cases hs : a.snap a.last with
  | none => intro p v b hb; cases hb
  | some sn => exact (h.snapOk _ _ hs).2.2

/-- a new checkpoint, and the old ones deleted -/
theorem MInv.after (ok : CfgOk c) {m : Mem} {a : A} (h : MInv c m a) {k : Nat} (hk0 : 0 < k) (hk : a.last ≤ k) (hkl : k < 2 ^ 64) {d : Desc} (hd : DescOk d) (hdn : d.num = k)
    {sn : Snap} (hwf : Snap.Wf c k sn) (hdg : d.pagesDigest = Snap.digest c sn) {pages : Pages} (hpg : PagesInv c pages k)
    (hrel : ∀ p, (store pages).rel p k = (sn p).map (full c p)) (hold : ∀ j p, j < k → j ≤ a.last → (store pages).rel p j = (store m.pages).rel p j)
    {cur : Nat → Option Bytes} (hcur : ∀ p, cur p = (sn p).map (·.2)) {m2 : Mem} (hm2 : m2 = { m with
      pend := []
      pages := pages
      descs := put natLt k d m.descs }) {db : Db} (hdb : Sync c m.pend m.pages m.descs db.kv) :
    ∃ m3 ws, m2.deleteOld c db k = .ok (m3, ws) ∧
      MInv c m3 { a with
        cur := cur
        dirty := fun _ => false
        snap := fun j => if j = k then some (sn, ⟨d.maxBlock, d.maxDigest, d.rvb⟩) else a.snap j
        last := k } ∧
      ∀ db' : Db, Sync c [] pages (put natLt k d m.descs) db'.kv → db'.first = m.first → Sync c m3.pend m3.pages m3.descs (db'.commit ws).kv ∧
        (db'.commit ws).first = m3.first ∧ (db'.commit ws).last = m3.last ∧ (db'.commit ws).fetching = db'.fetching := by
  have hfl := h.first
  have hg : ∀ j, get j m2.descs = if j = k then some d else get j m.descs := by
    intro j
    rw [hm2]
    exact get_put natLt_strict h.dInc _ _ _
  have hsn : ∀ j, get j m.descs ≠ none → ∃ x, a.snap j = some x ∧ 0 < j ∧ m.first ≤ j ∧ j ≤ a.last := by
    intro j hj
    cases hx : get j m.descs with
    | none => exact absurd hx hj
    | some x =>
      obtain ⟨_, _, a3, y, a4, _⟩ := h.dOk j x hx
      have := h.snapOk _ _ a4
      exact ⟨y, a4, this.1, a3, this.2.1⟩
  have pre : PreOld c db m2 k := by
    refine ⟨?_, ?_, ?_, ?_, ?_, ?_, ?_, hkl⟩
    · rw [hm2]; exact h.dInc.put natLt_strict _ _
    · intro j hj
      rw [hg] at hj
      have e : m2.first = m.first := by rw [hm2]
      rw [e]
      by_cases e : j = k
      · subst e; omega
      · rw [if_neg e] at hj
        obtain ⟨x, _, a2, a3, a4⟩ := hsn j hj
        omega
    · rw [hg, if_pos rfl]; simp
    · rw [hm2]; show m.first ≤ k; omega
    · have e : m2.first = m.first := by rw [hm2]
      rw [e, hg]
      rcases h.firstOk with g | g
      · exact .inl g
      · right
        by_cases e : m.first = k
        · rw [if_pos e]; simp
        · rw [if_neg e]
          cases hs : a.snap m.first with
          | none => exact absurd hs g
          | some x => exact (h.rel _ _ hs (Nat.le_refl _)).1
    · intro j hj hn
      rw [hg, if_neg (by omega)] at hn
      rw [hdb.desc j (by omega), hn]
      rfl
    · rw [hm2]; exact hpg
  obtain ⟨m3, ws, q1, q2, q3⟩ := deleteOld_spec ok pre
  have hm2f : m2.first = m.first := by rw [hm2]
  have hm2p : m2.pages = pages := by rw [hm2]
  refine ⟨m3, ws, q1, ?_, ?_⟩
  · have hge := q2.ge
    rw [hm2f] at hge
    have hpend : m3.pend = [] := by rw [q2.pend, hm2]
    refine ⟨?_, ?_, ?_, ?_, q2.pg, q2.dInc, ?_, ?_, ?_, q2.first, ?_, q2.last, ?_, hkl, q2.width, ?_, ?_, fun _ _ => rfl⟩
    · rw [hpend]; exact Inc.nil
    · intro p; rw [hpend]; rfl
    · intro p hp; cases hp
    · intro p _
      show cur p = _
      unfold A.base
      simp only [if_pos]
      exact hcur p
    · intro j d' hj
      rw [q2.descs, hg] at hj
      split at hj
      · cases hj
      · rename_i hjf
        show _ ∧ _ ∧ _ ∧ ∃ x, (if j = k then some (sn, (⟨d.maxBlock, d.maxDigest, d.rvb⟩ : Info)) else a.snap j) = some x ∧ _
        by_cases e : j = k
        · subst e
          rw [if_pos rfl] at hj
          cases hj
          exact ⟨hdn, hd, by omega, (sn, _), by rw [if_pos rfl], rfl, hdg⟩
        · rw [if_neg e] at hj
          obtain ⟨a1, a2, a3, x, a4, a5, a6⟩ := h.dOk j d' hj
          exact ⟨a1, a2, by omega, x, by rw [if_neg e]; exact a4, a5, a6⟩
    · intro j x hj hjf
      have hj : (if j = k then some (sn, (⟨d.maxBlock, d.maxDigest, d.rvb⟩ : Info)) else a.snap j) = some x := hj
      have hr : ∀ p, (store m3.pages).rel p j = (store pages).rel p j := fun p => by rw [q2.rel p j hjf, hm2p]
      by_cases e : j = k
      · subst e
        rw [if_pos rfl] at hj
        cases hj
        refine ⟨?_, fun p => by rw [hr, hrel]⟩
        rw [q2.descs, if_neg (by omega), hg, if_pos rfl]
        simp
      · rw [if_neg e] at hj
        have hb := h.snapOk j x hj
        have := h.rel j x hj (by omega)
        refine ⟨?_, fun p => by rw [hr, hold j p (by omega) hb.2.1, this.2]⟩
        rw [q2.descs, if_neg (by omega), hg, if_neg e]
        exact this.1
    · intro j x hj
      have hj : (if j = k then some (sn, (⟨d.maxBlock, d.maxDigest, d.rvb⟩ : Info)) else a.snap j) = some x := hj
      by_cases e : j = k
      · subst e
        rw [if_pos rfl] at hj
        cases hj
        exact ⟨hk0, Nat.le_refl _, hwf⟩
      · rw [if_neg e] at hj
        have := h.snapOk j x hj
        exact ⟨this.1, by show j ≤ k; omega, this.2.2⟩
    · rcases q2.firstOk with g | g
      · exact .inl g
      · right
        show (if m3.first = k then some (sn, (⟨d.maxBlock, d.maxDigest, d.rvb⟩ : Info)) else a.snap m3.first) ≠ none
        rw [q2.descs, if_neg (by omega), hg] at g
        split
        · simp
        · rename_i e
          rw [if_neg e] at g
          obtain ⟨x, hx, _⟩ := hsn _ g
          rw [hx]; simp
    · right
      show (if k = k then some (sn, (⟨d.maxBlock, d.maxDigest, d.rvb⟩ : Info)) else a.snap k) ≠ none
      rw [if_pos rfl]; simp
    · intro j hj hjk
      have hj : (if j = k then some (sn, (⟨d.maxBlock, d.maxDigest, d.rvb⟩ : Info)) else a.snap j) ≠ none := hj
      have hjk : k < j + c.maxStored := hjk
      refine q2.keep j ?_ hjk
      rw [hg]
      by_cases e : j = k
      · rw [if_pos e]; simp
      · rw [if_neg e] at hj ⊢
        cases hs : a.snap j with
        | none => exact absurd hs hj
        | some x => exact (h.rel j x hs (h.keep j hj (by omega))).1
    · show m3.fetching = a.fetching
      rw [q2.fetching, hm2]
      exact h.fetching
  · intro db' hs hf
    have e1 : m2.pend = [] := by rw [hm2]
    have e2 : m2.descs = put natLt k d m.descs := by rw [hm2]
    have := q3 db' (by rw [e1, e2, hm2p]; exact hs) (by rw [hm2f]; exact hf)
    exact ⟨this.1, this.2.1, by rw [this.2.2.1, q2.last], this.2.2.2⟩

theorem mem_put' {α β : Type} {lt : α → α → Bool} {m : List (α × β)} {k : α} {v : β} {x : α × β} (h : x ∈ put lt k v m) : x = (k, v) ∨ x ∈ m := by
  induction m with
  | nil => rw [put, List.mem_singleton] at h; exact .inl h
  | cons e es ih =>
    rw [put] at h
    split at h
    · exact List.mem_cons.1 h
    · split at h
      · rcases List.mem_cons.1 h with e | e
        · exact .inr (by rw [e]; exact List.mem_cons_self)
        · rcases ih e with g | g
          · exact .inl g
          · exact .inr (List.mem_cons_of_mem _ g)
      · rcases List.mem_cons.1 h with e | e
        · exact .inl e
        · exact .inr (List.mem_cons_of_mem _ e)

theorem pad_length {ps : Nat} {b : Bytes} (h : b.length ≤ ps) : (pad ps b).length = ps := by
  unfold pad
  rw [List.length_append, List.length_replicate]
  omega

/-! ## Saving -/

theorem Inv.put (ok : CfgOk c) {s : S} {a : A} (h : Inv c s a) {p : Nat} {b : Bytes} (hp : p < c.pages) (hb : b.length ≤ c.pageSize) (hf : a.fetching = false) :
    Inv c { s with
      mem := { s.mem with pend := Rp.put natLt p (pad c.pageSize b) s.mem.pend }
      db := s.db.write (.put (kPend p) (encPend b)) } { a with
        cur := fun q => if q = p then some (pad c.pageSize b) else a.cur q
        dirty := fun q => if q = p then true else a.dirty q } := by
  have hm := h.m
  refine ⟨⟨hm.pInc.put natLt_strict _ _, ?_, ?_, ?_, hm.pg, hm.dInc, hm.dOk, hm.rel, hm.snapOk, hm.first, hm.firstOk, hm.last, hm.lastOk, hm.lastLt, hm.width, hm.keep, hm.fetching, ?_⟩,
    h.sync.setPend ok hm.pInc hp hb, h.first, h.last, h.fetching, h.cache⟩
  · intro q
    show get q (Rp.put natLt p (pad c.pageSize b) s.mem.pend) = if (if q = p then true else a.dirty q) = true then (if q = p then some (pad c.pageSize b) else a.cur q) else none
    rw [get_put natLt_strict hm.pInc]
    by_cases e : q = p
    · simp only [if_pos e, if_true]
    · simp only [if_neg e]
      exact hm.pend q
  · intro q hq
    have hq : (if q = p then true else a.dirty q) = true := hq
    show q < c.pages ∧ ∃ b', (if q = p then some (pad c.pageSize b) else a.cur q) = some b' ∧ _
    by_cases e : q = p
    · rw [if_pos e, e]
      exact ⟨hp, _, rfl, pad_length hb⟩
    · rw [if_neg e] at hq ⊢
      exact hm.dirty q hq
  · intro q hq
    have hq : (if q = p then true else a.dirty q) = false := hq
    show (if q = p then some (pad c.pageSize b) else a.cur q) = (a.base q).map (·.2)
    by_cases e : q = p
    · rw [if_pos e] at hq; cases hq
    · rw [if_neg e] at hq ⊢
      exact hm.clean q hq
  · intro g
    have g : a.fetching = true := g
    rw [hf] at g; cases g

theorem save_ok (ok : CfgOk c) {s : S} {a : A} (h : Inv c s a) (tp : Nat → Snap) (acc : Bool) {p : Nat} {b : Bytes} (hp : p < c.pages) (hb : b.length ≤ c.pageSize) :
    ∃ s', s.save c p b = .ok s' ∧ Inv c s' (a.step c tp acc (.save p b)) := by
  unfold S.save A.step
  rw [h.m.fetching]
  by_cases hf : a.fetching = true
  · rw [if_pos hf]; simp only [if_pos hf]; exact ⟨s, rfl, h⟩
  · rw [if_neg hf]; simp only [if_neg hf]
    rw [Bool.not_eq_true] at hf
    rw [require, if_pos hp, require, if_pos hb]
    simp only [bind, R.bind]
    unfold Mem.setPend
    rw [require, if_pos hb]
    simp only [bind, R.bind]
    exact ⟨_, rfl, h.put ok hp hb hf⟩

theorem zeroPage_ok (ok : CfgOk c) {s : S} {a : A} (h : Inv c s a) (tp : Nat → Snap) (acc : Bool) {p : Nat} (hp : p < c.pages) :
    ∃ s', s.zeroPage c p = .ok s' ∧ Inv c s' (a.step c tp acc (.zeroPage p)) := by
  unfold S.zeroPage A.step
  rw [h.m.fetching]
  by_cases hf : a.fetching = true
  · rw [if_pos hf]; simp only [if_pos hf]; exact ⟨s, rfl, h⟩
  · rw [if_neg hf]; simp only [if_neg hf]
    rw [Bool.not_eq_true] at hf
    have hb : (List.replicate c.pageSize (0 : UInt8)).length ≤ c.pageSize := by simp
    rw [require, if_pos hp]
    simp only [bind, R.bind]
    unfold Mem.setPend
    rw [require, if_pos hb]
    simp only [bind, R.bind]
    have hpad : pad c.pageSize (List.replicate c.pageSize 0) = List.replicate c.pageSize 0 := by
      unfold pad
      simp
    have := h.put ok hp hb hf
    rw [hpad] at this
    rw [hpad]
    exact ⟨_, rfl, this⟩

/-! ## Checkpoints -/

theorem ckpt_ok (ok : CfgOk c) {s : S} {a : A} (h : Inv c s a) (tp : Nat → Snap) (acc : Bool) {k mb : Nat} {dg rvb : Bytes} (hf : a.fetching = false) (hk0 : 0 < k) (hk : a.last ≤ k)
    (hkl : k < 2 ^ 64) (hmb : mb < 2 ^ 64) (hdg : dg.length = 32) (hrvb : rvb.length < 2 ^ 64) :
    ∃ s', s.ckpt c k mb dg rvb = .ok s' ∧ Inv c s' (a.step c tp acc (.ckpt k mb dg rvb)) := by
  have hm := h.m
  unfold S.ckpt A.step
  have hff : s.mem.fetching = false := by rw [hm.fetching, hf]
  rw [require, if_pos hff, require, if_pos hk0]
  simp only [bind, R.bind]
  rw [hm.last]
  by_cases e : k = a.last
  · rw [if_pos e, if_pos e]
    exact ⟨s, rfl, h⟩
  · rw [if_neg e, if_neg e]
    rw [require, if_pos (by omega)]
    simp only
    -- the pending pages
    have hnew : ∀ p j, a.last < j → get (p, j) s.mem.pages = none := by
      intro p j hj
      cases hx : get (p, j) s.mem.pages with
      | none => rfl
      | some x => have := hm.pg.store (p := p) (k := j) hx; omega
    have hps : ∀ p, p ∈ s.mem.pend.map (·.1) ↔ get p s.mem.pend ≠ none := by
      intro p
      rw [List.mem_map]
      constructor
      · rintro ⟨x, hx, rfl⟩
        rw [(hm.pInc.get_mem natLt_strict).2 hx]
        simp
      · intro hn
        cases hg : get p s.mem.pend with
        | none => exact absurd hg hn
        | some b => exact ⟨(p, b), mem_of_get hg, rfl⟩
    obtain ⟨m1, w1, q1, q2, q3, q4, q5, q6, q7⟩ := assocAll_spec ok hkl (s.mem.pend.map (·.1)) s.mem [] (hm.pInc.nodup natLt_strict) (fun p hp => by
      have hg := (hps p).1 hp
      refine ⟨?_, hg, hnew p k (by omega)⟩
      rw [hm.pend] at hg
      split at hg
      · rename_i hd
        exact (hm.dirty p hd).1
      · exact absurd rfl hg) hm.pInc hm.pg.inc
    have hm1 : m1.pend = [] := by
      refine inc_nil_of_get fun p => ?_
      rw [q5]
      split
      · rfl
      · rename_i hn
        rw [hps] at hn
        exact Classical.byContradiction hn
    let sn : Snap := fun p => if a.dirty p then (a.cur p).map (fun b => (k, b)) else a.base p
    have hcur : ∀ p, a.cur p = (sn p).map (·.2) := by
      intro p
      show _ = (if a.dirty p then (a.cur p).map (fun b => (k, b)) else a.base p).map (·.2)
      cases hd : a.dirty p with
      | true =>
        rw [if_pos rfl]
        cases a.cur p <;> rfl
      | false =>
        rw [if_neg (by simp)]
        exact hm.clean p hd
    have hget : ∀ p j, get (p, j) m1.pages = if a.dirty p = true ∧ j = k then (a.cur p).map (fun b => (c.pageH p k b, b)) else get (p, j) s.mem.pages := by
      intro p j
      rw [q6]
      have hgp := hm.pend p
      cases hd : a.dirty p with
      | true =>
        obtain ⟨_, b, hb, _⟩ := hm.dirty p hd
        rw [hd, if_pos rfl] at hgp
        have hin := (hps p).2 (by rw [hgp, hb]; simp)
        rw [hgp]
        simp only [hin, true_and]
      | false =>
        rw [hd, if_neg (by simp)] at hgp
        have hin : p ∉ s.mem.pend.map (·.1) := fun hx => (hps p).1 hx hgp
        rw [if_neg (fun hx => hin hx.1), if_neg (by simp)]
    have hpg1 : PagesInv c m1.pages k := by
      refine ⟨q4, fun e he => ?_⟩
      have hg : get e.1 m1.pages = some e.2 := (q4.get_mem pageLt_strict).2 he
      have hg : get (e.1.1, e.1.2) m1.pages = some e.2 := hg
      rw [hget] at hg
      split at hg
      · rename_i hd
        obtain ⟨h1, b, h2, h3⟩ := hm.dirty _ hd.1
        rw [h2] at hg
        injection hg with hg
        rw [← hg, hd.2]
        exact ⟨h1, hk0, Nat.le_refl _, rfl, h3⟩
      · have := hm.pg.store (p := e.1.1) (k := e.1.2) hg
        exact ⟨this.1, this.2.1, by omega, this.2.2.2⟩
    have hwf : Snap.Wf c k sn := by
      intro p v b hb
      have hb : (if a.dirty p then (a.cur p).map (fun b => (k, b)) else a.base p) = some (v, b) := hb
      split at hb
      · rename_i hd
        obtain ⟨h1, b', h2, h3⟩ := hm.dirty _ hd
        rw [h2] at hb
        injection hb with hb
        cases hb
        exact ⟨h1, hk0, Nat.le_refl _, h3⟩
      · have := hm.baseWf p v b hb
        exact ⟨this.1, this.2.1, by omega, this.2.2.2⟩
    have hrel : ∀ p, (store m1.pages).rel p k = (sn p).map (full c p) := by
      intro p
      show _ = (if a.dirty p then (a.cur p).map (fun b => (k, b)) else a.base p).map (full c p)
      cases hd : a.dirty p with
      | true =>
        obtain ⟨h1, b, h2, h3⟩ := hm.dirty _ hd
        rw [if_pos rfl, h2]
        show _ = some (k, c.pageH p k b, b)
        refine rel_some (Nat.le_refl _) ?_ (fun j h1 h2 => by omega)
        show get (p, k) m1.pages = _
        rw [hget, if_pos ⟨hd, rfl⟩, h2]
        rfl
      | false =>
        rw [if_neg (by simp)]
        rw [rel_congr (m' := store s.mem.pages) (fun j _ => ?_), rel_skip (a := a.last) hk (fun j h1 h2 => hnew p j h1)]
        · exact hm.base p
        · show get (p, j) m1.pages = get (p, j) s.mem.pages
          rw [hget, if_neg (by simp [hd])]
    have hold : ∀ j p, j < k → j ≤ a.last → (store m1.pages).rel p j = (store s.mem.pages).rel p j := by
      intro j p h1 h2
      refine rel_congr fun i hi => ?_
      show get (p, i) m1.pages = get (p, i) s.mem.pages
      rw [hget, if_neg (by omega)]
    have hcp : s.mem.checkpointPages c k = .ok (m1, w1, Snap.digest c sn) := by
      unfold Mem.checkpointPages
      rw [q1]
      simp only [bind, R.bind, List.nil_append]
      rw [require, if_pos hm1]
      simp only
      rw [descriptor_eq hpg1, desc_lines hrel]
      rfl
    rw [hcp]
    simp only
    have hd1 : m1.descs = s.mem.descs := by rw [q2]
    have hno : get k m1.descs = none := by
      rw [hd1]
      cases hx : get k s.mem.descs with
      | none => rfl
      | some x =>
        obtain ⟨_, _, _, y, hy, _⟩ := hm.dOk _ _ hx
        have := hm.snapOk _ _ hy
        omega
    have hsd : m1.setDesc k ⟨k, mb, dg, Snap.digest c sn, rvb⟩ true = .ok { m1 with descs := Rp.put natLt k ⟨k, mb, dg, Snap.digest c sn, rvb⟩ m1.descs } := by
      unfold Mem.setDesc
      rw [require, if_pos rfl, require, if_pos (.inr hno)]
      rfl
    rw [hsd]
    simp only
    obtain ⟨m3, w3, r1, r2, r3⟩ := hm.after ok hk0 hk hkl (d := ⟨k, mb, dg, Snap.digest c sn, rvb⟩) ⟨hkl, hmb, hdg, ok.descLen _, hrvb⟩ rfl hwf rfl hpg1 hrel hold hcur
      (m2 := { m1 with descs := Rp.put natLt k ⟨k, mb, dg, Snap.digest c sn, rvb⟩ m1.descs }) (by rw [hd1, q2, hm1]) h.sync
    rw [r1]
    simp only
    refine ⟨_, rfl, ?_⟩
    have s1 := q7 s.db h.sync
    rw [hm1] at s1
    have s2 := s1.1.setDesc hm.dInc (k := k) (d := ⟨k, mb, dg, Snap.digest c sn, rvb⟩) hkl
    have s3 := r3 ((s.db.commit w1).commit [.put (kDesc k) (encDesc ⟨k, mb, dg, Snap.digest c sn, rvb⟩)]) s2 (by
      show (s.db.commit w1).first = _
      rw [s1.2.1, h.first])
    rw [← commit_append, ← commit_append, ← List.append_assoc] at s3
    refine ⟨r2, s3.1, s3.2.1, s3.2.2.1, ?_, ?_⟩
    · show (s.db.commit (w1 ++ [W.put (kDesc k) (encDesc ⟨k, mb, dg, Snap.digest c sn, rvb⟩)] ++ w3)).fetching = m3.fetching
      rw [s3.2.2.2]
      have : m3.fetching = a.fetching := r2.fetching
      rw [this, ← hm.fetching, ← h.fetching]
      exact s1.2.2.2
    · intro e he
      obtain ⟨x, hx, hx2⟩ := h.cache e he
      refine ⟨x, ?_, hx2⟩
      have := hm.snapOk _ _ hx
      show (if e.1.1 = k then _ else a.snap e.1.1) = some x
      rw [if_neg (by omega)]
      exact hx

/-! ## State transfer -/

theorem collect_ok (ok : CfgOk c) {s : S} {a : A} (h : Inv c s a) (tp : Nat → Snap) (acc : Bool) : Inv c s.collect (a.step c tp acc .collect) := by
  have hm := h.m
  unfold S.collect A.step
  rw [hm.fetching]
  cases hf : a.fetching with
  | true => rw [if_pos rfl, if_pos rfl]; exact h
  | false =>
    rw [if_neg (by simp), if_neg (by simp)]
    have hpe : ∀ e ∈ s.mem.pend, e.1 < c.pages := by
      intro e he
      have hg := (hm.pInc.get_mem natLt_strict).2 he
      rw [hm.pend] at hg
      split at hg
      · rename_i hd
        exact (hm.dirty _ hd).1
      · cases hg
    have s1 := h.sync.dropPend ok hm.pInc hpe
    have d1 := (commit_dels (s.mem.pend.map (fun e => W.del (kPend e.1))) s.db (fun w hw => by
      obtain ⟨e, _, rfl⟩ := List.mem_map.1 hw
      exact ⟨_, rfl⟩)).1
    refine ⟨⟨Inc.nil, fun p => rfl, fun p hp => (by cases hp), fun p _ => rfl, hm.pg, hm.dInc, hm.dOk, hm.rel, hm.snapOk, hm.first, hm.firstOk, hm.last, hm.lastOk, hm.lastLt, hm.width, hm.keep, rfl, fun _ _ => rfl⟩,
      ?_, ?_, ?_, ?_, ?_⟩
    · simp only
      rw [commit_append]
      exact s1
    · simp only
      rw [commit_append]
      exact d1.1.trans h.first
    · simp only
      rw [commit_append]
      exact d1.2.1.trans h.last
    · simp only
      rw [commit_append]
      rfl
    · intro e he; cases he

theorem finish_ok {s : S} {a : A} (h : Inv c s a) (tp : Nat → Snap) (acc : Bool) : Inv c s.finish (a.step c tp acc .finish) := by
  have hm := h.m
  exact ⟨⟨hm.pInc, hm.pend, hm.dirty, hm.clean, hm.pg, hm.dInc, hm.dOk, hm.rel, hm.snapOk, hm.first, hm.firstOk, hm.last, hm.lastOk, hm.lastLt, hm.width, hm.keep, rfl, fun g => (by cases g)⟩,
    h.sync, h.first, h.last, rfl, fun e he => (by cases he)⟩

end Verif.Rp
