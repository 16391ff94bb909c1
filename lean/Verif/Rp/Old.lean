import Verif.Rp.Sync
set_option linter.unusedVariables false
set_option linter.unusedSimpArgs false
/-!
# Deletion of old checkpoints (C41)
-/
namespace Verif.Rp
open Verif.Bytes Verif.St

variable {c : Cfg}

theorem hasDesc_eq {db : Db} {m : Mem} {k : Nat} (h : get k m.descs = none → get (kDesc k) db.kv = none) : m.hasDesc db k = .ok ((get k m.descs).isSome, m) := by
  unfold Mem.hasDesc
  cases hg : get k m.descs with
  | some d => rfl
  | none => simp only; rw [h hg]; rfl

theorem findMin_spec {db : Db} {m : Mem} {k : Nat} (h : ∀ j, j < k → get j m.descs = none → get (kDesc j) db.kv = none) : ∀ (fuel min : Nat), min ≤ k → k ≤ min + fuel →
    ∃ min', findMin db k fuel min m = .ok (min', m) ∧ min ≤ min' ∧ min' ≤ k ∧ (∀ j, min ≤ j → j < min' → get j m.descs = none) ∧ (min' < k → get min' m.descs ≠ none) := by
  intro fuel
  induction fuel with
  | zero => intro min h1 h2; exact ⟨min, rfl, Nat.le_refl _, h1, fun j a b => by omega, fun a => by omega⟩
  | succ fuel ih =>
    intro min h1 h2
    rw [findMin]
    by_cases hm : min < k
    · rw [if_pos hm, hasDesc_eq (h min hm)]
      simp only [bind, R.bind]
      cases hg : get min m.descs with
      | some d =>
        rw [Option.isSome_some, if_pos rfl]
        exact ⟨min, rfl, Nat.le_refl _, h1, fun j a b => by omega, fun _ => by rw [hg]; simp⟩
      | none =>
        rw [Option.isSome_none, if_neg (by simp)]
        obtain ⟨min', q1, q2, q3, q4, q5⟩ := ih (min + 1) hm (by omega)
        refine ⟨min', q1, by omega, q3, fun j a b => ?_, q5⟩
        by_cases e : j = min
        · rw [e]; exact hg
        · exact q4 j (by omega) b
    · rw [if_neg hm]
      exact ⟨min, rfl, Nat.le_refl _, h1, fun j a b => by omega, fun a => by omega⟩

theorem dropWhile_get {α : Type} {l : List (Nat × α)} (hi : Inc natLt l) (k j : Nat) : get j (l.dropWhile (fun e => decide (e.1 < k))) = if j < k then none else get j l := by
  have e0 : l.dropWhile (fun e => decide (e.1 < k)) = lower natLt k l := rfl
  rw [e0]
  cases hg : get j l with
  | none =>
    have : get j (lower natLt k l) = none := by
      rw [get_none] at hg ⊢
      intro v hv
      exact hg v ((mem_lower natLt_strict hi).1 hv).1
    rw [this]
    split <;> rfl
  | some x =>
    have hm := mem_of_get hg
    split
    · rename_i hj
      rw [get_none]
      intro v hv
      have := ((mem_lower natLt_strict hi).1 hv).2
      simp only [natLt, decide_eq_false_iff_not] at this
      omega
    · rename_i hj
      rw [(hi.lower k).get_mem natLt_strict, mem_lower natLt_strict hi]
      exact ⟨hm, by simp only [natLt, decide_eq_false_iff_not]; exact hj⟩

theorem takeWhile_mem {α : Type} {l : List (Nat × α)} (hi : Inc natLt l) (k : Nat) (x : Nat × α) : x ∈ l.takeWhile (fun e => decide (e.1 < k)) ↔ x ∈ l ∧ x.1 < k := by
  induction l with
  | nil => exact ⟨fun h => (by cases h), fun h => (by cases h.1)⟩
  | cons e es ih =>
    rw [Inc, List.pairwise_cons] at hi
    rw [List.takeWhile_cons]
    by_cases h : e.1 < k
    · rw [if_pos (by simpa using h), List.mem_cons, List.mem_cons, ih hi.2]
      constructor
      · rintro (rfl | ⟨a, b⟩)
        · exact ⟨.inl rfl, h⟩
        · exact ⟨.inr a, b⟩
      · rintro ⟨rfl | a, b⟩
        · exact .inl rfl
        · exact .inr ⟨a, b⟩
    · rw [if_neg (by simpa using h)]
      constructor
      · intro hx; cases hx
      · rintro ⟨hx, b⟩
        rcases List.mem_cons.1 hx with rfl | hx
        · exact absurd b h
        · have := hi.1 _ hx
          simp only [natLt, decide_eq_true_eq] at this
          omega

/-- what is true of the memory before old checkpoints are deleted: the new checkpoint `k` is there -/
structure PreOld (c : Cfg) (db : Db) (m : Mem) (k : Nat) : Prop where
  dInc : Inc natLt m.descs
  dOk : ∀ j, get j m.descs ≠ none → 0 < j ∧ m.first ≤ j ∧ j ≤ k
  new : get k m.descs ≠ none
  first : m.first ≤ k
  firstOk : m.first = 0 ∨ get m.first m.descs ≠ none
  old : ∀ j, j < k → get j m.descs = none → get (kDesc j) db.kv = none
  pg : PagesInv c m.pages k
  lt : k < 2 ^ 64

structure PostOld (c : Cfg) (m m' : Mem) (k : Nat) : Prop where
  last : m'.last = k
  pend : m'.pend = m.pend
  fetching : m'.fetching = m.fetching
  ge : m.first ≤ m'.first
  first : m'.first ≤ k
  firstOk : m'.first = 0 ∨ get m'.first m'.descs ≠ none
  dInc : Inc natLt m'.descs
  descs : ∀ j, get j m'.descs = if j < m'.first then none else get j m.descs
  pg : PagesInv c m'.pages k
  rel : ∀ p n, m'.first ≤ n → (store m'.pages).rel p n = (store m.pages).rel p n
  width : k < m'.first + c.maxStored
  keep : ∀ j, get j m.descs ≠ none → k < j + c.maxStored → m'.first ≤ j

theorem deleteOld_spec (ok : CfgOk c) {db : Db} {m : Mem} {k : Nat} (h : PreOld c db m k) :
    ∃ m' ws, m.deleteOld c db k = .ok (m', ws) ∧ PostOld c m m' k ∧
      ∀ db' : Db, Sync c m.pend m.pages m.descs db'.kv → db'.first = m.first → Sync c m'.pend m'.pages m'.descs (db'.commit ws).kv ∧
        (db'.commit ws).first = m'.first ∧ (db'.commit ws).last = k ∧ (db'.commit ws).fetching = db'.fetching := by
  have hst := ok.stored
  have hlt := h.lt
  have hpg := ok.pages
  unfold Mem.deleteOld
  dsimp only
  generalize hm0 : (if c.maxStored ≤ k then k - c.maxStored + 1 else 0) = min0
  have h0 : min0 ≤ k ∧ k < min0 + c.maxStored ∧ (k < c.maxStored → min0 = 0) := by
    rw [← hm0]
    split <;> omega
  -- the first checkpoint to keep
  have hmin : ∃ min, (if 0 < min0 then findMin db k k min0 m else .ok (min0, m)) = .ok (min, m) ∧ min0 ≤ min ∧ min ≤ k ∧ (∀ j, min0 ≤ j → j < min → get j m.descs = none) ∧
      (0 < min → get min m.descs ≠ none) := by
    by_cases hp : 0 < min0
    · rw [if_pos hp]
      obtain ⟨min, q1, q2, q3, q4, q5⟩ := findMin_spec h.old k min0 h0.1 (by omega)
      refine ⟨min, q1, q2, q3, q4, fun _ => ?_⟩
      by_cases e : min = k
      · rw [e]; exact h.new
      · exact q5 (by omega)
    · rw [if_neg hp]
      exact ⟨min0, rfl, Nat.le_refl _, h0.1, fun j a b => by omega, fun a => absurd a hp⟩
  obtain ⟨min, q1, q2, q3, q4, q5⟩ := hmin
  rw [q1]
  simp only [bind, R.bind]
  have hkeep : ∀ j, get j m.descs ≠ none → k < j + c.maxStored → min ≤ j := by
    intro j hj hk
    refine Classical.byContradiction fun hn => hj (q4 j ?_ (by omega))
    rw [← hm0]
    split <;> omega
  by_cases hd : 2 ≤ min ∧ m.first < min
  · -- old checkpoints are deleted
    rw [if_pos hd]
    have hdd : ∀ j, get j (m.dropDescs min).descs = if j < min then none else get j m.descs := fun j => dropWhile_get h.dInc min j
    have hdc : (m.dropDescs min).deleteCovered c min = .ok { m.dropDescs min with pages := cover min m.pages } :=
      deleteCovered_eq (m := m.dropDescs min) (top := k) h.pg hd.1 q3 (by omega)
    rw [hdc]
    simp only
    rw [if_pos hd.2]
    refine ⟨_, _, rfl, ⟨rfl, rfl, rfl, by show m.first ≤ min; omega, q3, ?_, ?_, hdd, h.pg.cover min, ?_, by show k < min + c.maxStored; omega, hkeep⟩, ?_⟩
    · right
      show get min (m.dropDescs min).descs ≠ none
      rw [hdd, if_neg (by omega)]
      exact q5 (by omega)
    · exact h.dInc.lower min
    · intro p n hn
      exact cover_rel min h.pg.inc p n hn
    · intro db' hs hf
      rw [commit_append, commit_append]
      have s1 : Sync c m.pend m.pages (m.dropDescs min).descs (db'.commit (m.dropDescKeys min)).kv := by
        refine hs.dropDescs (fun w => ?_) (fun j => ?_)
        · unfold Mem.dropDescKeys
          rw [List.mem_map]
          constructor
          · rintro ⟨e, he, rfl⟩
            rw [takeWhile_mem h.dInc] at he
            have hg : get e.1 m.descs = some e.2 := (h.dInc.get_mem natLt_strict).2 he.1
            have := h.dOk e.1 (by rw [hg]; simp)
            exact ⟨e.1, by omega, by rw [hg]; simp, by rw [hdd, if_pos he.2], rfl⟩
          · rintro ⟨j, h1, h2, h3, rfl⟩
            rw [hdd] at h3
            split at h3
            · rename_i hj
              cases hg : get j m.descs with
              | none => exact absurd hg h2
              | some d => exact ⟨(j, d), (takeWhile_mem h.dInc min _).2 ⟨mem_of_get hg, hj⟩, rfl⟩
            · exact absurd h3 h2
        · rw [hdd]
          split
          · exact .inl rfl
          · exact .inr rfl
      have s2 : Sync c m.pend (cover min m.pages) (m.dropDescs min).descs ((db'.commit (m.dropDescKeys min)).commit ((m.dropDescs min).coverKeys min)).kv := by
        have hcg : ∀ x y, get x (cover min m.pages) = some y ↔ (x, y) ∈ m.pages ∧ ¬ coveredBy min m.pages (x, y) := by
          intro x y
          rw [(cover_inc min h.pg.inc).get_mem pageLt_strict, cover_mem min h.pg.inc]
        refine s1.dropPages (fun w => ?_) (fun x => ?_)
        · rw [coverKeys_keys min (m := m.dropDescs min) h.pg.inc]
          constructor
          · rintro ⟨x, hx, hc, rfl⟩
            have hx : x ∈ m.pages := hx
            have hxo := h.pg.ok x hx
            have hg : get x.1 m.pages = some x.2 := (h.pg.inc.get_mem pageLt_strict).2 hx
            refine ⟨x.1.1, x.1.2, by omega, by omega, ?_, ?_, rfl⟩
            · show get x.1 m.pages ≠ none
              rw [hg]; simp
            · show get x.1 (cover min m.pages) = none
              cases hy : get x.1 (cover min m.pages) with
              | none => rfl
              | some y =>
                obtain ⟨a1, a2⟩ := (hcg _ _).1 hy
                have : y = x.2 := h.pg.inc.inj pageLt_strict a1 hx
                rw [this] at a2
                exact absurd hc a2
          · rintro ⟨p, j, h1, h2, h3, h4, rfl⟩
            cases hg : get (p, j) m.pages with
            | none => exact absurd hg h3
            | some y =>
              refine ⟨((p, j), y), mem_of_get hg, ?_, rfl⟩
              refine Classical.byContradiction fun hn => ?_
              rw [(hcg _ _).2 ⟨mem_of_get hg, hn⟩] at h4
              cases h4
        · cases hy : get x (cover min m.pages) with
          | none => exact .inl rfl
          | some y => exact .inr ((h.pg.inc.get_mem pageLt_strict).2 ((hcg _ _).1 hy).1).symm
      have d1 := (commit_dels (m.dropDescKeys min) db' (fun w hw => by
        unfold Mem.dropDescKeys at hw
        obtain ⟨e, _, rfl⟩ := List.mem_map.1 hw
        exact ⟨_, rfl⟩)).1
      have d2 := (commit_dels ((m.dropDescs min).coverKeys min) (db'.commit (m.dropDescKeys min)) (fun w hw => by
        obtain ⟨x, _, _, rfl⟩ := (coverKeys_keys min (m := m.dropDescs min) h.pg.inc w).1 hw
        exact ⟨_, rfl⟩)).1
      have d3 := d1.trans d2
      exact ⟨s2, rfl, rfl, d3.2.2⟩
  · rw [if_neg hd]
    simp only
    by_cases hf : m.first < min
    · rw [if_pos hf]
      have hmin1 : min = 1 ∧ m.first = 0 := by omega
      refine ⟨_, _, rfl, ⟨rfl, rfl, rfl, Nat.le_of_lt hf, q3, .inr (q5 (by omega)), h.dInc, ?_, h.pg, fun p n _ => rfl, by show k < min + c.maxStored; omega, hkeep⟩, ?_⟩
      · intro j
        show get j m.descs = if j < min then none else get j m.descs
        split
        · rename_i hj
          cases hg : get j m.descs with
          | none => rfl
          | some d =>
            have := h.dOk j (by rw [hg]; simp)
            omega
        · rfl
      · intro db' hs hf'
        exact ⟨hs, rfl, rfl, rfl⟩
    · rw [if_neg hf]
      have hkf : k < m.first + c.maxStored := by omega
      refine ⟨_, _, rfl, ⟨rfl, rfl, rfl, Nat.le_refl _, h.first, h.firstOk, h.dInc, ?_, h.pg, fun p n _ => rfl, hkf, fun j hj _ => (h.dOk j hj).2.1⟩, ?_⟩
      · intro j
        show get j m.descs = if j < m.first then none else get j m.descs
        split
        · rename_i hj
          cases hg : get j m.descs with
          | none => rfl
          | some d =>
            have := h.dOk j (by rw [hg]; simp)
            omega
        · rfl
      · intro db' hs hf'
        exact ⟨hs, hf', rfl, rfl⟩

end Verif.Rp
