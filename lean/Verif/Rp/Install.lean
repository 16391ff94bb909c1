import Verif.Rp.Start
set_option linter.unusedVariables false
set_option linter.unusedSimpArgs false
/-!
# Installation of fetched pages (C41)
-/
namespace Verif.Rp
open Verif.Bytes Verif.St

variable {c : Cfg}

theorem checkV_some {m : Store} {ls : Nat} {want v : Bytes} {es : List Elem} {L : List (Nat × Nat × Bytes)} (h : checkV c m ls want v = .ok (some (es, L))) :
    elemsOk ls none es = true ∧ c.descH L = want ∧ applyElems c ls es (m.desc c.pages ls) = .ok (some L) := by
  unfold checkV at h
  split at h
  · cases h
  · rename_i es' known hpv
    split at h
    · cases h
    · rename_i hk
      have hk : ls = known := Decidable.not_not.1 hk
      subst hk
      have hok : elemsOk ls none es' = true := by
        unfold parseV at hpv
        split at hpv
        · cases hpv
        · split at hpv
          · cases hpv
          · dsimp only at hpv
            split at hpv
            · rename_i g
              cases hpv
              exact g.2
            · cases hpv
      cases hap : applyElems c ls es' (m.desc c.pages ls) with
      | abort => rw [hap] at h; cases h
      | fault => rw [hap] at h; cases h
      | ok o =>
        rw [hap] at h
        cases o with
        | none => cases h
        | some D =>
          have h : R.ok (if c.descH D = want then some (es', D) else none) = R.ok (some (es, L)) := h
          split at h
          · rename_i hd
            injection h with h
            injection h with h
            injection h with h1 h2
            subst h1; subst h2
            exact ⟨hok, hd, hap⟩
          · injection h with h; cases h

/-- what accepted elements are: true pages -/
theorem accepted_elems {s : S} {a : A} (h : Inv c s a) {d : Desc} {v : Bytes} {sn : Snap} (hdig : d.pagesDigest = Snap.digest c sn) (hc : Continues c a d.num sn)
    (hnc : NoCollision c sn s.mem.pages s.mem.last d.pagesDigest v) (hpz : ∀ p k b, c.pageH p k b ≠ zero) {es : List Elem} {L : List (Nat × Nat × Bytes)}
    (hv : checkV c (store s.mem.pages) s.mem.last d.pagesDigest v = .ok (some (es, L))) :
    L = Snap.lines c sn ∧ es.Pairwise (fun a b => a.page < b.page) ∧ ∀ e ∈ es, e.page < c.pages ∧ sn e.page = some (e.ckpt, e.content) ∧ e.digest = c.pageH e.page e.ckpt e.content := by
  obtain ⟨h1, h2, h3⟩ := checkV_some hv
  obtain ⟨n1, n2⟩ := hnc es L hv
  have hL := n1 (h2.trans hdig)
  obtain ⟨_, _, hpw⟩ := elems_sorted _ h1
  obtain ⟨_, _, a3⟩ := applyElems_spec c _ es _ hpw _ h3 L rfl
  refine ⟨hL, hpw, fun e he => ?_⟩
  obtain ⟨b1, b2⟩ := a3 e he
  rw [hL] at b1
  unfold Snap.lines at b1
  rw [List.getElem?_map] at b1
  by_cases hp : e.page < c.pages
  · rw [List.getElem?_range hp, Option.map_some] at b1
    injection b1 with b1
    unfold Snap.line at b1
    cases hs : sn e.page with
    | none =>
      rw [hs] at b1
      injection b1 with _ b1
      injection b1 with _ b1
      rw [← b1] at b2
      exact absurd b2 (hpz _ _ _)
    | some x =>
      obtain ⟨w, b⟩ := x
      rw [hs] at b1
      simp only [Prod.mk.injEq, true_and] at b1
      obtain ⟨b3, b4⟩ := b1
      subst b3
      have := n2 e he _ b hs (b2.trans b4.symm)
      exact ⟨hp, by rw [this], b2.symm⟩
  · rw [List.getElem?_eq_none (by simp; omega)] at b1
    cases b1

/-- the pages are written and the checkpoint is stored -/
theorem install_core (ok : CfgOk c) {s : S} {a : A} (h : Inv c s a) {d : Desc} {v : Bytes} {tp : Nat → Snap} (hl : Legal c tp s a (.install d v)) {es : List Elem} {L : List (Nat × Nat × Bytes)}
    (hv : checkV c (store s.mem.pages) s.mem.last d.pagesDigest v = .ok (some (es, L))) {m1 : Mem} {w1 : List W}
    (hi : installAll c (decide (d.num ≠ s.mem.last)) es s.mem [] = .ok (m1, w1)) :
    ∃ s', s.install c d v = .ok s' ∧ Inv c s' (a.step c tp true (.install d v)) := by
  obtain ⟨hf, hk0, hk, hkl, hmb, hdg, hrvb, hdig, hcont, hnc⟩ := hl
  have hm := h.m
  have hll := hm.last
  obtain ⟨hL, hpw, hel⟩ := accepted_elems h hdig hcont hnc ok.pageNz hv
  have hwf := hcont.wf
  have hpages := ok.pages
  -- the page of an element that is not new is there already
  have hthere : ∀ p k b, tp d.num p = some (k, b) → k ≤ a.last → store s.mem.pages p k = some (c.pageH p k b, b) := by
    intro p k b hsn hkl'
    have hb := hm.base p
    rw [hcont.below p k b hsn hkl'] at hb
    exact (hm.pg.rel hb).1
  have hpre : ∀ e ∈ es, e.page < 2 ^ 32 ∧ e.ckpt < 2 ^ 64 ∧ (∀ x, get (e.page, e.ckpt) s.mem.pages = some x → x.1 = e.digest) := by
    intro e he
    obtain ⟨e1, e2, e3⟩ := hel e he
    have := hwf _ _ _ e2
    refine ⟨by omega, by omega, fun x hx => ?_⟩
    have hx : store s.mem.pages e.page e.ckpt = some x := hx
    have hx2 := hm.pg.store hx
    rw [hthere _ _ _ e2 hx2.2.2.1] at hx
    cases hx
    exact e3.symm
  obtain ⟨w1', q1, q2, q3, q4, q5⟩ := installAll_spec (decide (d.num ≠ s.mem.last)) es s.mem [] hpre hpw hm.pg.inc _ hi
  simp only [List.nil_append] at q1 q2 q3 q4 q5
  subst q1
  obtain ⟨i1, i2⟩ := installElems_spec _ es (store s.mem.pages) hpw _ q4
  -- entries up to the last checkpoint are as before, newer ones are true pages
  have hA : ∀ p i, i ≤ a.last → store m1.pages p i = store s.mem.pages p i := by
    intro p i hia
    by_cases hx : ∃ e ∈ es, e.page = p ∧ e.ckpt = i
    · obtain ⟨e, he, rfl, rfl⟩ := hx
      obtain ⟨e1, e2, e3⟩ := hel e he
      rw [i2 e he, hthere _ _ _ e2 hia]
      rfl
    · exact i1 p i (fun e he hh => hx ⟨e, he, hh⟩)
  have hnew : ∀ p i, a.last < i → store s.mem.pages p i = none := by
    intro p i hi
    cases hx : store s.mem.pages p i with
    | none => rfl
    | some x => have := hm.pg.store hx; omega
  have hB : ∀ p i x, a.last < i → store m1.pages p i = some x → tp d.num p = some (i, x.2) ∧ x.1 = c.pageH p i x.2 := by
    intro p i x hia hx
    by_cases hy : ∃ e ∈ es, e.page = p ∧ e.ckpt = i
    · obtain ⟨e, he, rfl, rfl⟩ := hy
      obtain ⟨e1, e2, e3⟩ := hel e he
      rw [i2 e he, hnew _ _ hia] at hx
      simp only [Option.map_none, Option.getD_none, Option.some.injEq] at hx
      rw [← hx]
      exact ⟨e2, e3⟩
    · rw [i1 p i (fun e he hh => hy ⟨e, he, hh⟩), hnew _ _ hia] at hx
      cases hx
  have hpg : PagesInv c m1.pages d.num := by
    refine ⟨q3, fun e he => ?_⟩
    have he : store m1.pages e.1.1 e.1.2 = some e.2 := (store_mem q3).2 he
    by_cases hia : e.1.2 ≤ a.last
    · rw [hA _ _ hia] at he
      have := hm.pg.store he
      exact ⟨this.1, this.2.1, by omega, this.2.2.2⟩
    · obtain ⟨g1, g2⟩ := hB _ _ _ (by omega) he
      have := hwf _ _ _ g1
      exact ⟨this.1, this.2.1, this.2.2.1, g2, this.2.2.2⟩
  have hL' : ∀ x ∈ L, x.2.1 ≤ d.num := by
    intro x hx
    rw [hL] at hx
    obtain ⟨p, hp, rfl⟩ := List.mem_map.1 hx
    unfold Snap.line
    cases hs : tp d.num p with
    | none => exact Nat.zero_le _
    | some y => exact (hwf p y.1 y.2 hs).2.2.1
  obtain ⟨l1, l2, l3⟩ := checkV_install hv (fun p k x hx => by
    have := hm.pg.store hx
    exact ⟨by omega, this.2.2.2.1⟩) (num := d.num) (by omega) hL' (fun p k dg x hx hs => by
      rw [hL] at hx
      obtain ⟨p', hp, hx⟩ := List.mem_map.1 hx
      unfold Snap.line at hx
      have hs2 := hm.pg.store hs
      cases hs' : tp d.num p' with
      | none =>
        rw [hs'] at hx
        simp only [Prod.mk.injEq] at hx
        omega
      | some y =>
        rw [hs'] at hx
        simp only [Prod.mk.injEq] at hx
        obtain ⟨rfl, rfl, rfl⟩ := hx
        rw [hthere _ _ _ (show tp d.num p' = some (y.1, y.2) from hs') (by omega)] at hs
        cases hs
        rfl) q4
  have hrel : ∀ p, (store m1.pages).rel p d.num = (tp d.num p).map (full c p) := by
    intro p
    by_cases hp : p < c.pages
    · have hline := l1 d.num (Nat.le_refl _) p hp
      rw [hL] at hline
      unfold Snap.lines at hline
      rw [List.getElem?_map, List.getElem?_range hp, Option.map_some] at hline
      injection hline with hline
      unfold Store.line Snap.line at hline
      cases hr : (store m1.pages).rel p d.num with
      | none =>
        rw [hr] at hline
        cases hs : tp d.num p with
        | none => rfl
        | some y =>
          rw [hs] at hline
          simp only [Prod.mk.injEq] at hline
          have := hwf p y.1 y.2 hs
          omega
      | some y =>
        obtain ⟨k, dg, b⟩ := y
        rw [hr] at hline
        obtain ⟨r1, r2, r3, r4, r5, r6, r7⟩ := hpg.rel hr
        cases hs : tp d.num p with
        | none =>
          rw [hs] at hline
          simp only [Prod.mk.injEq] at hline
          omega
        | some z =>
          rw [hs] at hline
          simp only [Prod.mk.injEq, true_and] at hline
          obtain ⟨g1, g2⟩ := hline
          subst g1
          have hb : b = z.2 := by
            by_cases hia : z.1 ≤ a.last
            · rw [hA _ _ hia, hthere p z.1 z.2 hs hia] at r1
              cases r1
              rfl
            · have := (hB _ _ _ (by omega) r1).1
              rw [hs] at this
              injection this with this
              rw [this]
          rw [Option.map_some, full, g2, hb]
    · rw [rel_none]
      · cases hs : tp d.num p with
        | none => rfl
        | some y => exact absurd (hwf p y.1 y.2 hs).1 hp
      · intro k _
        cases hx : store m1.pages p k with
        | none => rfl
        | some x => exact absurd (hpg.store hx).1 hp
  have hold : ∀ j p, j < d.num → j ≤ a.last → (store m1.pages).rel p j = (store s.mem.pages).rel p j :=
    fun j p _ hj => rel_congr fun i hij => hA p i (by omega)
  have hpend : s.mem.pend = [] := inc_nil_of_get fun p => by
    rw [hm.pend, hm.nopend hf p]
    rfl
  have hdescs : m1.descs = s.mem.descs := by rw [q2]
  have hlast1 : m1.last = a.last := by rw [q2]; exact hll
  have hsd : m1.setDesc d.num d (decide (d.num ≠ s.mem.last)) = .ok { m1 with descs := Rp.put natLt d.num d m1.descs } := by
    unfold Mem.setDesc
    rw [require, if_pos rfl]
    have : decide (d.num ≠ s.mem.last) = false ∨ get d.num m1.descs = none := by
      by_cases e : d.num = s.mem.last
      · left; simp [e]
      · right
        rw [hdescs]
        cases hx : get d.num s.mem.descs with
        | none => rfl
        | some x =>
          obtain ⟨_, _, _, y, hy, _⟩ := hm.dOk _ _ hx
          have := hm.snapOk _ _ hy
          omega
    rw [require, if_pos this]
    rfl
  obtain ⟨m3, w3, r1, r2, r3⟩ := hm.after ok hk0 hk hkl (d := d) ⟨hkl, hmb, hdg, by rw [hdig]; exact ok.descLen _, hrvb⟩ rfl hwf hdig hpg hrel hold
    (cur := fun p => (tp d.num p).map (·.2)) (fun p => rfl) (m2 := { m1 with descs := Rp.put natLt d.num d m1.descs }) (by rw [hdescs, q2, hpend]) h.sync
  have hres : s.install c d v = .ok { s with
      mem := m3
      db := s.db.commit (w1 ++ [.put (kDesc d.num) (encDesc d)] ++ w3) } := by
    unfold S.install
    rw [hv]
    simp only [bind, R.bind]
    rw [hi]
    simp only
    rw [require, if_pos (by omega)]
    simp only
    rw [hsd]
    simp only
    rw [r1]
  refine ⟨_, hres, ?_⟩
  have hstep : a.step c tp true (.install d v) = { a with
      cur := fun p => (tp d.num p).map (·.2)
      dirty := fun _ => false
      snap := fun j => if j = d.num then some (tp d.num, ⟨d.maxBlock, d.maxDigest, d.rvb⟩) else a.snap j
      last := d.num } := by
    have : a.dirty = fun _ => false := funext fun p => hm.nopend hf p
    show ({ a with
      cur := fun p => (tp d.num p).map (·.2)
      snap := fun j => if j = d.num then some (tp d.num, ⟨d.maxBlock, d.maxDigest, d.rvb⟩) else a.snap j
      last := d.num } : A) = _
    rw [this]
  rw [hstep]
  have s1 := q5 s.db h.sync
  rw [hpend] at s1
  have s2 := s1.1.setDesc hm.dInc (k := d.num) (d := d) hkl
  have s3 := r3 ((s.db.commit w1).commit [.put (kDesc d.num) (encDesc d)]) s2 (by
    show (s.db.commit w1).first = _
    rw [s1.2.1, h.first])
  rw [← commit_append, ← commit_append, ← List.append_assoc] at s3
  refine ⟨r2, s3.1, s3.2.1, s3.2.2.1, ?_, ?_⟩
  · show (s.db.commit (w1 ++ [W.put (kDesc d.num) (encDesc d)] ++ w3)).fetching = m3.fetching
    rw [s3.2.2.2]
    have : m3.fetching = a.fetching := r2.fetching
    rw [this, ← hm.fetching, ← h.fetching]
    exact s1.2.2.2
  · intro e he
    obtain ⟨x, hx, hx2⟩ := h.cache e he
    show ∃ sn, (if e.1.1 = d.num then some (tp d.num, (⟨d.maxBlock, d.maxDigest, d.rvb⟩ : Info)) else a.snap e.1.1) = some sn ∧ _
    by_cases e0 : e.1.1 = d.num
    · rw [e0] at hx
      have := hcont.same x hx
      exact ⟨_, by rw [if_pos e0], by rw [hx2, this]⟩
    · exact ⟨x, by rw [if_neg e0]; exact hx, hx2⟩

theorem install_inv (ok : CfgOk c) {s : S} {a : A} (h : Inv c s a) {d : Desc} {v : Bytes} {tp : Nat → Snap} (hl : Legal c tp s a (.install d v)) {s' : S} (hs : s.install c d v = .ok s') :
    Inv c s' (a.step c tp (s.accepts c (.install d v)) (.install d v)) := by
  have hacc : s.accepts c (.install d v) = match checkV c (store s.mem.pages) s.mem.last d.pagesDigest v with
    | .ok (some _) => true
    | _ => false := rfl
  have hs0 := hs
  unfold S.install at hs
  cases hv : checkV c (store s.mem.pages) s.mem.last d.pagesDigest v with
  | abort => rw [hv] at hs; cases hs
  | fault => rw [hv] at hs; cases hs
  | ok o =>
    rw [hv] at hs
    cases o with
    | none =>
      rw [hacc, hv]
      simp only [bind, R.bind] at hs
      cases hs
      exact h
    | some x =>
      obtain ⟨es, L⟩ := x
      rw [hacc, hv]
      cases hi : installAll c (decide (d.num ≠ s.mem.last)) es s.mem [] with
      | abort => simp only [bind, R.bind] at hs; rw [hi] at hs; cases hs
      | fault => simp only [bind, R.bind] at hs; rw [hi] at hs; cases hs
      | ok r =>
        obtain ⟨m1, w1⟩ := r
        obtain ⟨s'', g1, g2⟩ := install_core ok h hl hv hi
        rw [hs0] at g1
        cases g1
        exact g2

end Verif.Rp
