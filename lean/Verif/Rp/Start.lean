import Verif.Rp.Inv
set_option linter.unusedVariables false
set_option linter.unusedSimpArgs false
/-!
# A start restores the memory (C41)
-/
namespace Verif.Rp
open Verif.Bytes Verif.St

variable {c : Cfg}

theorem mem_takeWhile_of {α β : Type} {lt : α → α → Bool} {P : α × β → Bool} {l : List (α × β)} {x : α × β} (hi : Inc lt l) (hx : x ∈ l) (hp : P x = true)
    (h : ∀ y ∈ l, lt y.1 x.1 = true → P y = true) : x ∈ l.takeWhile P := by
  induction l with
  | nil => cases hx
  | cons e es ih =>
    rw [Inc, List.pairwise_cons] at hi
    rw [List.takeWhile_cons]
    rcases List.mem_cons.1 hx with rfl | hx
    · rw [if_pos hp]; exact List.mem_cons_self
    · rw [if_pos (h e List.mem_cons_self (hi.1 _ hx))]
      exact List.mem_cons_of_mem _ (ih hi.2 hx (fun y hy => h y (List.mem_cons_of_mem _ hy)))

/-- an entry of the pages in the database -/
def kvOf (c : Cfg) (y : (Nat × Nat) × (Bytes × Bytes)) : Bytes × Bytes := (kPage y.1.1 y.1.2, encPage c.pageSize y.1.1 y.1.2 y.2.1 y.2.2)

theorem loadPages_spec (ok : CfgOk c) {T : Pages} {top : Nat} (hT : PagesInv c T top) (htop : top < 2 ^ 64) : ∀ (es : List (Bytes × Bytes)) (m : Mem), Inc Kvbc.keyLt es →
    (∀ e ∈ es.takeWhile (fun e => kPrefix.isPrefixOf e.1), ∃ y ∈ T, e = kvOf c y) → Inc pageLt m.pages →
    (∀ y ∈ m.pages, y ∈ T ∧ ∀ e ∈ es, kPage y.1.1 y.1.2 ≠ e.1) →
    ∃ ps, loadPages c es m = .ok { m with pages := ps } ∧ Inc pageLt ps ∧ ∀ y, y ∈ ps ↔ y ∈ m.pages ∨ (y ∈ T ∧ kvOf c y ∈ es.takeWhile (fun e => kPrefix.isPrefixOf e.1)) := by
  intro es
  induction es with
  | nil =>
    intro m _ _ hi _
    refine ⟨m.pages, rfl, hi, fun y => ⟨fun h => .inl h, ?_⟩⟩
    rintro (h | ⟨_, h⟩)
    · exact h
    · cases h
  | cons e es ih =>
    intro m hinc hT' hi hm
    rw [Inc, List.pairwise_cons] at hinc
    rw [loadPages]
    by_cases hp : kPrefix.isPrefixOf e.1 = true
    · rw [if_pos hp]
      rw [List.takeWhile_cons, if_pos hp] at hT' ⊢
      obtain ⟨y, hy, he⟩ := hT' e List.mem_cons_self
      have hyo := hT.ok y hy
      have := ok.pages
      have hdl : y.2.1.length = 32 := by rw [hyo.2.2.2.1]; exact ok.pageLen _ _ _
      have hdec : decPage c.pageSize e.2 = .ok (y.1.1, y.1.2, y.2.1, y.2.2) := by
        rw [he]
        exact decPage_encPage ok.size (by omega) (by omega) hdl hyo.2.2.2.2
      rw [hdec]
      simp only [bind, R.bind]
      have hno : get (y.1.1, y.1.2) m.pages = none := by
        rw [get_none]
        intro v hv
        refine (hm _ hv).2 e List.mem_cons_self ?_
        rw [he]; rfl
      have hset : m.setResPage y.1.1 y.1.2 y.2.1 y.2.2 true = .ok { m with pages := put pageLt (y.1.1, y.1.2) (y.2.1, y.2.2) m.pages } := by
        unfold Mem.setResPage
        rw [hno]
      rw [hset]
      simp only
      obtain ⟨ps, q1, q2, q3⟩ := ih { m with pages := put pageLt (y.1.1, y.1.2) (y.2.1, y.2.2) m.pages } hinc.2 (fun f hf => hT' f (List.mem_cons_of_mem _ hf)) (hi.put pageLt_strict _ _) (fun z hz => by
        rcases (mem_put pageLt_strict hi).1 hz with rfl | ⟨_, hz⟩
        · refine ⟨hy, fun f hf hk => ?_⟩
          have := hinc.1 _ hf
          rw [he] at this
          have hk : (kvOf c y).1 = f.1 := hk
          exact keyLt_strict.ne this hk
        · exact ⟨(hm z hz).1, fun f hf => (hm z hz).2 f (List.mem_cons_of_mem _ hf)⟩)
      refine ⟨ps, q1, q2, fun z => ?_⟩
      rw [q3]
      have hpm : z ∈ put pageLt (y.1.1, y.1.2) (y.2.1, y.2.2) m.pages ↔ z = y ∨ (z.1 ≠ y.1 ∧ z ∈ m.pages) := mem_put pageLt_strict hi
      show z ∈ put pageLt (y.1.1, y.1.2) (y.2.1, y.2.2) m.pages ∨ _ ↔ _
      rw [hpm, List.mem_cons]
      constructor
      · rintro ((rfl | h) | h)
        · exact .inr ⟨hy, .inl he.symm⟩
        · exact .inl h.2
        · exact .inr ⟨h.1, .inr h.2⟩
      · rintro (h | ⟨h1, h2 | h2⟩)
        · refine .inl (.inr ⟨fun hz => ?_, h⟩)
          refine (hm z h).2 e List.mem_cons_self ?_
          rw [he, hz]; rfl
        · refine .inl (.inl ?_)
          have hk : (kvOf c z).1 = (kvOf c y).1 := by rw [h2, he]
          have hzo := hT.ok z h1
          obtain ⟨g1, g2⟩ := kPage_inj (by omega) (by omega) (by omega) (by omega) hk
          have : z.1 = y.1 := Prod.ext g1 g2
          have h1' : (y.1, z.2) ∈ T := by rw [← this]; exact h1
          have hy' : (y.1, y.2) ∈ T := hy
          exact Prod.ext this (hT.inc.inj pageLt_strict h1' hy')
        · exact .inr ⟨h1, h2⟩
    · rw [if_neg hp]
      rw [List.takeWhile_cons, if_neg hp]
      refine ⟨m.pages, rfl, hi, fun y => ⟨fun h => .inl h, ?_⟩⟩
      rintro (h | ⟨_, h⟩)
      · exact h
      · cases h

theorem loadPend_spec (ok : CfgOk c) {T : List (Nat × Bytes)} {kv : List (Bytes × Bytes)} : ∀ (ps : List Nat) (m : Mem), (∀ p ∈ ps, PendSync c (get p T) (get (kPend p) kv)) → Inc natLt m.pend →
    (∀ p ∈ ps, get p m.pend = none) → ps.Nodup →
    ∃ pend, loadPend c kv ps m = .ok { m with pend := pend } ∧ Inc natLt pend ∧ ∀ p, get p pend = if p ∈ ps then get p T else get p m.pend := by
  intro ps
  induction ps with
  | nil => intro m _ hi _ _; exact ⟨m.pend, rfl, hi, fun p => by rw [if_neg (by simp)]⟩
  | cons p ps ih =>
    intro m hs hi hn hnd
    rw [List.nodup_cons] at hnd
    have hs' := hs p List.mem_cons_self
    rw [loadPend]
    cases hT : get p T with
    | none =>
      rw [hT] at hs'
      have hs' : get (kPend p) kv = none := hs'
      rw [hs']
      simp only
      obtain ⟨pend, q1, q2, q3⟩ := ih m (fun q hq => hs q (List.mem_cons_of_mem _ hq)) hi (fun q hq => hn q (List.mem_cons_of_mem _ hq)) hnd.2
      refine ⟨pend, q1, q2, fun q => ?_⟩
      rw [q3]
      by_cases e : q = p
      · subst e
        rw [if_neg hnd.1, if_pos List.mem_cons_self, hT]
        exact hn q List.mem_cons_self
      · simp only [List.mem_cons, e, false_or]
    | some b =>
      rw [hT] at hs'
      obtain ⟨b0, g1, g2, g3⟩ := hs'
      have := ok.size
      rw [g1]
      simp only
      rw [decPend_encPend (by omega)]
      simp only [bind, R.bind]
      have hsp : m.setPend c.pageSize p b0 = .ok { m with pend := put natLt p b m.pend } := by
        unfold Mem.setPend
        rw [require, if_pos g2, g3]
        rfl
      rw [hsp]
      simp only
      have hg : ∀ q, get q (put natLt p b m.pend) = if q = p then some b else get q m.pend := fun q => get_put natLt_strict hi _ _ _
      obtain ⟨pend, q1, q2, q3⟩ := ih { m with pend := put natLt p b m.pend } (fun q hq => hs q (List.mem_cons_of_mem _ hq)) (hi.put natLt_strict _ _) (fun q hq => by
        show get q (put natLt p b m.pend) = none
        rw [hg, if_neg (fun e : q = p => hnd.1 (by rw [← e]; exact hq))]
        exact hn q (List.mem_cons_of_mem _ hq)) hnd.2
      refine ⟨pend, q1, q2, fun q => ?_⟩
      rw [q3]
      show (if q ∈ ps then get q T else get q (put natLt p b m.pend)) = _
      rw [hg]
      by_cases e : q = p
      · subst e
        rw [if_neg hnd.1, if_pos List.mem_cons_self, hT, if_pos rfl]
      · simp only [List.mem_cons, e, false_or, if_false]

theorem inc_eq_of_get {α β : Type} [DecidableEq α] {lt : α → α → Bool} (hs : Strict lt) {m m' : List (α × β)} (h : Inc lt m) (h' : Inc lt m') (hg : ∀ k, get k m = get k m') : m = m' := by
  refine Inc.ext hs h h' fun x => ?_
  have e : x = (x.1, x.2) := rfl
  rw [e, ← h.get_mem hs, ← h'.get_mem hs, hg]

theorem loadMem_spec (ok : CfgOk c) {s : S} {a : A} (h : Inv c s a) : loadMem c s.db = .ok { s.mem with descs := [] } := by
  have hm := h.m
  have hlt := hm.lastLt
  have hpages := ok.pages
  unfold loadMem
  simp only [bind, R.bind]
  have h1 : (if 0 < s.db.last then loadPages c (lower Kvbc.keyLt (kPage 0 0) s.db.kv) ⟨[], [], [], s.db.first, s.db.last, s.db.fetching⟩ else R.ok ⟨[], [], [], s.db.first, s.db.last, s.db.fetching⟩) =
      R.ok ⟨[], s.mem.pages, [], s.db.first, s.db.last, s.db.fetching⟩ := by
    by_cases hl : 0 < s.db.last
    · rw [if_pos hl]
      have hlow := h.sync.inc.lower (kPage 0 0)
      have hmem : ∀ e, e ∈ (lower Kvbc.keyLt (kPage 0 0) s.db.kv).takeWhile (fun e => kPrefix.isPrefixOf e.1) ↔ e ∈ s.db.kv ∧ kPrefix.isPrefixOf e.1 = true := by
        intro e
        constructor
        · intro he
          exact ⟨((mem_lower keyLt_strict h.sync.inc).1 ((List.takeWhile_sublist _).subset he)).1, by
            have hall := List.all_takeWhile (p := fun e : Kvbc.Key × Bytes => kPrefix.isPrefixOf e.1) (l := lower Kvbc.keyLt (kPage 0 0) s.db.kv)
            exact (List.all_eq_true.1 hall) e he⟩
        · rintro ⟨he, hp⟩
          obtain ⟨p, k, g1, g2, g3⟩ := h.sync.only e he hp
          refine mem_takeWhile_of hlow ((mem_lower keyLt_strict h.sync.inc).2 ⟨he, ?_⟩) hp fun y hy hlt => ?_
          · rw [g3]; exact kPage_first g1 g2
          · obtain ⟨y1, y2⟩ := (mem_lower keyLt_strict h.sync.inc).1 hy
            by_cases hy0 : y.1 = kPage 0 0
            · rw [hy0]; exact prefix_kPage 0 0
            · refine prefix_between (prefix_kPage 0 0) hp ?_ hlt
              rcases keyLt_strict.total _ _ hy0 with g | g
              · rw [y2] at g; cases g
              · exact g
      have hkv : ∀ y ∈ s.mem.pages, kvOf c y ∈ s.db.kv := by
        intro y hy
        have hyo := hm.pg.ok y hy
        have := h.sync.page y.1.1 y.1.2 (by omega) (by omega)
        have hg : get (y.1.1, y.1.2) s.mem.pages = some y.2 := (hm.pg.inc.get_mem pageLt_strict).2 hy
        rw [hg] at this
        exact mem_of_get this
      obtain ⟨ps, q1, q2, q3⟩ := loadPages_spec ok hm.pg hlt (lower Kvbc.keyLt (kPage 0 0) s.db.kv) ⟨[], [], [], s.db.first, s.db.last, s.db.fetching⟩ hlow (fun e he => by
        obtain ⟨he, hp⟩ := (hmem e).1 he
        obtain ⟨p, k, g1, g2, g3⟩ := h.sync.only e he hp
        have hpg := h.sync.page p k g1 g2
        have he : (kPage p k, e.2) ∈ s.db.kv := by rw [← g3]; exact he
        rw [(h.sync.inc.get_mem keyLt_strict).2 he] at hpg
        cases hx : get (p, k) s.mem.pages with
        | none => rw [hx] at hpg; cases hpg
        | some x =>
          rw [hx] at hpg
          injection hpg with hpg
          exact ⟨((p, k), x), mem_of_get hx, Prod.ext g3 hpg⟩) Inc.nil (fun y hy => by cases hy)
      rw [q1]
      have : ps = s.mem.pages := Inc.ext pageLt_strict q2 hm.pg.inc fun y => by
        rw [q3]
        constructor
        · rintro (h | h)
          · cases h
          · exact h.1
        · intro hy
          exact .inr ⟨hy, (hmem _).2 ⟨hkv y hy, prefix_kPage _ _⟩⟩
      rw [this]
    · rw [if_neg hl]
      have : s.mem.pages = [] := by
        rw [h.last, hm.last] at hl
        cases hp : s.mem.pages with
        | nil => rfl
        | cons e es =>
          have := hm.pg.ok e (by rw [hp]; exact List.mem_cons_self)
          omega
      rw [this]
  rw [h1]
  simp only
  obtain ⟨pend, q1, q2, q3⟩ := loadPend_spec ok (T := s.mem.pend) (kv := s.db.kv) (List.range c.pages) ⟨[], s.mem.pages, [], s.db.first, s.db.last, s.db.fetching⟩
    (fun p hp => h.sync.pend p (List.mem_range.1 hp)) Inc.nil (fun p _ => rfl) List.nodup_range
  rw [q1]
  have : pend = s.mem.pend := inc_eq_of_get natLt_strict q2 hm.pInc fun p => by
    rw [q3]
    split
    · rfl
    · rename_i hp
      rw [List.mem_range] at hp
      have := hm.pend p
      cases hd : a.dirty p with
      | true => exact absurd (hm.dirty p hd).1 hp
      | false =>
        rw [hd, if_neg (by simp)] at this
        rw [this]
        rfl
  rw [this, h.first, h.last, h.fetching]

/-! ## The checks at start -/

/-- some of the descriptors are loaded -/
structure Part (m m0 : Mem) : Prop where
  eq : m0 = { m with descs := m0.descs }
  inc : Inc natLt m0.descs
  sub : ∀ k d, get k m0.descs = some d → get k m.descs = some d

theorem Part.hasDesc {s : S} {a : A} (h : Inv c s a) {m0 : Mem} (hp : Part s.mem m0) {k : Nat} (hk : k < 2 ^ 64) :
    ∃ m1, m0.hasDesc s.db k = .ok ((get k s.mem.descs).isSome, m1) ∧ Part s.mem m1 ∧ get k m1.descs = get k s.mem.descs ∧ ∀ j, get j m0.descs ≠ none → get j m1.descs ≠ none := by
  unfold Mem.hasDesc
  cases hg : get k m0.descs with
  | some d =>
    simp only
    rw [hp.sub k d hg]
    exact ⟨m0, rfl, hp, hg, fun j hj => hj⟩
  | none =>
    simp only
    rw [h.sync.desc k hk]
    cases hg' : get k s.mem.descs with
    | none => exact ⟨m0, rfl, hp, hg, fun j hj => hj⟩
    | some d =>
      obtain ⟨a1, a2, _⟩ := h.m.dOk k d hg'
      show ∃ m1, ((decDesc (encDesc d) >>= fun d => m0.setDesc k d true >>= fun m => R.ok (true, m)) : R (Bool × Mem)) = _ ∧ _
      rw [decDesc_encDesc a2]
      simp only [bind, R.bind]
      have hset : m0.setDesc k d true = .ok { m0 with descs := put natLt k d m0.descs } := by
        unfold Mem.setDesc
        rw [require, if_pos a1.symm, require, if_pos (.inr hg)]
        rfl
      rw [hset]
      simp only
      have hget : ∀ j, get j (put natLt k d m0.descs) = if j = k then some d else get j m0.descs := fun j => get_put natLt_strict hp.inc _ _ _
      refine ⟨_, rfl, ⟨?_, hp.inc.put natLt_strict _ _, ?_⟩, ?_, ?_⟩
      · rw [hp.eq]
      · intro j d' hj
        have hj : get j (put natLt k d m0.descs) = some d' := hj
        rw [hget] at hj
        split at hj
        · rename_i e
          rw [e, ← hj]
          exact hg'
        · exact hp.sub j d' hj
      · show get k (put natLt k d m0.descs) = _
        rw [hget, if_pos rfl]
      · intro j hj
        show get j (put natLt k d m0.descs) ≠ none
        rw [hget]
        split
        · simp
        · exact hj

theorem checkPages_spec {m : Mem} {top : Nat} (hpg : PagesInv c m.pages top) {k : Nat} (hk : k ≤ m.last) : ∀ ps : List Nat, (∀ p ∈ ps, p < c.pages) →
    checkPages c m k ((store m.pages).desc c.pages k) ps = .ok () := by
  intro ps
  induction ps with
  | nil => intro _; rfl
  | cons p ps ih =>
    intro hp
    rw [checkPages]
    have h1 : checkPage c m k ((store m.pages).desc c.pages k) p = .ok () := by
      unfold checkPage
      rw [getResPage_eq hpg.inc p k hk]
      simp only [bind, R.bind]
      cases hr : (store m.pages).rel p k with
      | none => rfl
      | some x =>
        obtain ⟨k', d, b⟩ := x
        simp only
        have hd : ((store m.pages).desc c.pages k)[p]? = some (p, k', d) := by
          unfold Store.desc
          rw [List.getElem?_map, List.getElem?_range (hp p List.mem_cons_self), Option.map_some]
          unfold Store.line
          rw [hr]
        rw [hd]
        simp only
        obtain ⟨q1, q2, q3, q4, q5, q6, q7⟩ := hpg.rel hr
        have q6 : c.pageH p k' b = d := q6.symm
        simp only [require, q2, q4, q6, if_true]
    rw [h1]
    exact ih (fun q hq => hp q (List.mem_cons_of_mem _ hq))

theorem Part.checkCkpt (ok : CfgOk c) {s : S} {a : A} (h : Inv c s a) {m0 : Mem} (hp : Part s.mem m0) {k : Nat} (h1 : s.mem.first ≤ k) (h2 : k ≤ a.last) :
    ∃ m1, checkCkpt c s.db m0 k = .ok m1 ∧ Part s.mem m1 ∧ get k m1.descs = get k s.mem.descs ∧ ∀ j, get j m0.descs ≠ none → get j m1.descs ≠ none := by
  have hlt := h.m.lastLt
  obtain ⟨m1, q1, q2, q3, q4⟩ := hp.hasDesc h (k := k) (by omega)
  unfold Rp.checkCkpt
  rw [q1]
  simp only [bind, R.bind]
  cases hg : get k s.mem.descs with
  | none =>
    rw [Option.isSome_none, if_neg (by simp)]
    rw [hg] at q3
    exact ⟨m1, rfl, q2, q3, q4⟩
  | some d =>
    rw [Option.isSome_some, if_pos rfl]
    rw [hg] at q3
    rw [q3, ofOption]
    simp only
    obtain ⟨a1, a2, a3, sn, a4, a5, a6⟩ := h.m.dOk k d hg
    rw [require, if_pos a1]
    simp only
    have hpe : m1.pages = s.mem.pages := by rw [q2.eq]
    have hle : m1.last = a.last := by rw [q2.eq]; exact h.m.last
    have hpg : PagesInv c m1.pages a.last := by rw [hpe]; exact h.m.pg
    rw [descriptor_eq hpg]
    simp only
    have hdl : (store m1.pages).desc c.pages k = Snap.lines c sn.1 := desc_lines fun p => by
      rw [hpe]
      exact (h.m.rel k sn a4 h1).2 p
    have hrq : c.descH ((store m1.pages).desc c.pages k) = d.pagesDigest := by rw [hdl, a6]; rfl
    rw [require, if_pos hrq]
    simp only
    rw [checkPages_spec hpg (by omega) _ (fun p hp => List.mem_range.1 hp)]
    exact ⟨m1, rfl, q2, q3, q4⟩

theorem Part.checkStored (ok : CfgOk c) {s : S} {a : A} (h : Inv c s a) : ∀ (ks : List Nat) (m0 : Mem), Part s.mem m0 → (∀ k ∈ ks, s.mem.first ≤ k ∧ k ≤ a.last) →
    ∃ m1, checkStored c s.db ks m0 = .ok m1 ∧ Part s.mem m1 ∧ (∀ k ∈ ks, get k m1.descs = get k s.mem.descs) ∧ ∀ j, get j m0.descs ≠ none → get j m1.descs ≠ none := by
  intro ks
  induction ks with
  | nil => intro m0 hp _; exact ⟨m0, rfl, hp, fun k hk => (by cases hk), fun j hj => hj⟩
  | cons k ks ih =>
    intro m0 hp hks
    have hk := hks k List.mem_cons_self
    obtain ⟨m1, q1, q2, q3, q4⟩ := hp.checkCkpt ok h hk.1 hk.2
    obtain ⟨m2, r1, r2, r3, r4⟩ := ih m1 q2 (fun j hj => hks j (List.mem_cons_of_mem _ hj))
    refine ⟨m2, ?_, r2, ?_, fun j hj => r4 j (q4 j hj)⟩
    · rw [Rp.checkStored, q1]
      exact r1
    · intro j hj
      rcases List.mem_cons.1 hj with rfl | hj
      · cases hg : get j m1.descs with
        | none =>
          rw [← q3, hg]
          cases hg2 : get j m2.descs with
          | none => rfl
          | some d =>
            rw [r2.sub j d hg2, hg] at q3
            cases q3
        | some d =>
          have := r4 j (by rw [hg]; simp)
          cases hg2 : get j m2.descs with
          | none => exact absurd hg2 this
          | some d' => exact (r2.sub j d' hg2).symm
      · exact r3 j hj

theorem Part.checkEnds (ok : CfgOk c) {s : S} {a : A} (h : Inv c s a) {m0 : Mem} (hp : Part s.mem m0) : ∃ m1, checkEnds c s.db m0 = .ok m1 ∧ Part s.mem m1 := by
  have hm := h.m
  have hlt := hm.lastLt
  have hw := hm.width
  have hfl := hm.first
  have ef : m0.first = s.mem.first := by rw [hp.eq]
  have el : m0.last = a.last := by rw [hp.eq]; exact hm.last
  unfold Rp.checkEnds
  rw [require, if_pos (by omega), require, if_pos (by omega)]
  simp only [bind, R.bind]
  have h1 : ∃ m1, (if m0.last = 0 then R.ok m0 else (m0.hasDesc s.db m0.last).bind fun x => (require (x.1 = true)).bind fun _ => R.ok x.2) = R.ok m1 ∧ Part s.mem m1 := by
    by_cases e : m0.last = 0
    · rw [if_pos e]; exact ⟨m0, rfl, hp⟩
    · rw [if_neg e, el]
      obtain ⟨m1, q1, q2, q3, q4⟩ := hp.hasDesc h (k := a.last) (by omega)
      rw [q1]
      simp only [R.bind]
      have : (get a.last s.mem.descs).isSome = true := by
        rcases hm.lastOk with g | g
        · omega
        · cases hs : a.snap a.last with
          | none => exact absurd hs g
          | some sn =>
            have := (hm.rel _ _ hs hfl).1
            cases hd : get a.last s.mem.descs with
            | none => exact absurd hd this
            | some d => rfl
      rw [require, if_pos this]
      exact ⟨m1, rfl, q2⟩
  obtain ⟨m1, q1, q2⟩ := h1
  have q1' : (if m0.last = 0 then R.ok m0 else (m0.hasDesc s.db m0.last).bind fun x => match x with | (b, m) => (require (b = true)).bind fun _ => R.ok m) = R.ok m1 := q1
  have ef1 : m1.first = s.mem.first := by rw [q2.eq]
  have el1 : m1.last = a.last := by rw [q2.eq]; exact hm.last
  show ∃ m2, (R.bind (if m0.last = 0 then R.ok m0 else (m0.hasDesc s.db m0.last).bind fun x => match x with | (b, m) => (require (b = true)).bind fun _ => R.ok m) _) = _ ∧ _
  rw [q1']
  simp only [R.bind]
  by_cases e : m1.first ≠ 0 ∧ m1.first ≠ m1.last
  · rw [if_pos e, ef1]
    obtain ⟨m2, r1, r2, r3, r4⟩ := q2.hasDesc h (k := s.mem.first) (by omega)
    rw [r1]
    simp only
    have : (get s.mem.first s.mem.descs).isSome = true := by
      rcases hm.firstOk with g | g
      · rw [ef1] at e; exact absurd g e.1
      · cases hs : a.snap s.mem.first with
        | none => exact absurd hs g
        | some sn =>
          have := (hm.rel _ _ hs (Nat.le_refl _)).1
          cases hd : get s.mem.first s.mem.descs with
          | none => exact absurd hd this
          | some d => rfl
    rw [require, if_pos this]
    exact ⟨m2, rfl, r2⟩
  · rw [if_neg e]
    exact ⟨m1, rfl, q2⟩

/-- a start finds exactly what was in memory -/
theorem start_ok (ok : CfgOk c) {s : S} {a : A} (h : Inv c s a) : S.start c s.db = .ok ⟨s.mem, s.db, []⟩ := by
  have hm := h.m
  unfold S.start
  rw [loadMem_spec ok h]
  simp only [bind, R.bind]
  have p0 : Part s.mem { s.mem with descs := [] } := ⟨rfl, Inc.nil, fun k d hk => by cases hk⟩
  obtain ⟨m1, q1, q2⟩ := p0.checkEnds ok h
  rw [q1]
  simp only
  have e1 : m1.first = s.mem.first := by rw [q2.eq]
  have e2 : m1.last = a.last := by rw [q2.eq]; exact hm.last
  have e3 : m1.fetching = a.fetching := by rw [q2.eq]; exact hm.fetching
  have e4 : m1.pend = s.mem.pend := by rw [q2.eq]
  have h1 : ∃ m2, (if 0 < m1.last then checkStored c s.db (List.range' m1.first (m1.last + 1 - m1.first)) m1 else R.ok m1) = R.ok m2 ∧ Part s.mem m2 ∧ ∀ k, get k m2.descs = get k s.mem.descs := by
    by_cases hl : 0 < m1.last
    · rw [if_pos hl]
      have hfl := hm.first
      obtain ⟨m2, r1, r2, r3, r4⟩ := Part.checkStored ok h (List.range' m1.first (m1.last + 1 - m1.first)) m1 q2 (fun k hk => by
        rw [List.mem_range'_1] at hk
        omega)
      refine ⟨m2, r1, r2, fun k => ?_⟩
      by_cases hk : s.mem.first ≤ k ∧ k ≤ a.last
      · exact r3 k (by rw [List.mem_range'_1]; omega)
      · have hn : get k s.mem.descs = none := by
          cases hg : get k s.mem.descs with
          | none => rfl
          | some d =>
            obtain ⟨_, _, a3, sn, a4, _⟩ := hm.dOk k d hg
            have := hm.snapOk _ _ a4
            omega
        rw [hn]
        cases hg : get k m2.descs with
        | none => rfl
        | some d => rw [r2.sub k d hg] at hn; cases hn
    · rw [if_neg hl]
      refine ⟨m1, rfl, q2, fun k => ?_⟩
      have hn : get k s.mem.descs = none := by
        cases hg : get k s.mem.descs with
        | none => rfl
        | some d =>
          obtain ⟨_, _, a3, sn, a4, _⟩ := hm.dOk k d hg
          have := hm.snapOk _ _ a4
          omega
      rw [hn]
      cases hg : get k m1.descs with
      | none => rfl
      | some d => rw [q2.sub k d hg] at hn; cases hn
  obtain ⟨m2, r1, r2, r3⟩ := h1
  rw [r1]
  simp only
  have hm2 : m2 = s.mem := by
    have := inc_eq_of_get natLt_strict r2.inc hm.dInc r3
    rw [r2.eq, this]
  rw [hm2]
  have hreq : s.mem.fetching = false ∨ s.mem.pend = [] := by
    cases hf : a.fetching with
    | false => left; rw [hm.fetching, hf]
    | true =>
      right
      refine inc_nil_of_get fun p => ?_
      rw [hm.pend, hm.nopend hf p]
      rfl
  rw [require, if_pos hreq]

theorem restart_ok (ok : CfgOk c) {s : S} {a : A} (h : Inv c s a) : s.restart c = .ok ⟨s.mem, s.db, []⟩ ∧ Inv c ⟨s.mem, s.db, []⟩ a :=
  ⟨start_ok ok h, h.m, h.sync, h.first, h.last, h.fetching, fun e he => by cases he⟩

end Verif.Rp
