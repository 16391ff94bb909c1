import Verif.Clients.PageLemmas
import Verif.Util.ListLemmas
/-! # Invariants of the clients manager -/
set_option linter.unusedSimpArgs false
set_option linter.unusedVariables false
namespace Verif.Clients
open Verif.Bytes

/-- shape of one client's tables -/
structure Shape (m : Nat) (i : Info) : Prop where
  reqKeys : (i.reqs.map (·.1)).Nodup
  reqLen : i.reqs.length ≤ m
  repSeq : (i.reps.map (·.1)).Nodup
  repIdx : (i.reps.map (·.2)).Nodup
  repLt : ∀ p ∈ i.reps, p.2 < m

theorem shape_empty (m : Nat) : Shape m ⟨[], []⟩ := ⟨by simp, by simp, by simp, by simp, by simp⟩

theorem hasReq_iff {i : Info} {q : Nat} : i.hasReq q = true ↔ q ∈ i.reqs.map (·.1) := by
  simp [Info.hasReq]

theorem hasRep_iff {i : Info} {q : Nat} : i.hasRep q = true ↔ q ∈ i.reps.map (·.1) := by
  simp [Info.hasRep]

theorem map_filter_nodup {α β : Type} (f : α → β) (p : α → Bool) {l : List α} (h : (l.map f).Nodup) :
    ((l.filter p).map f).Nodup :=
  h.sublist (List.filter_sublist.map f)

theorem shape_filterReq {m : Nat} {i : Info} (h : Shape m i) (p : Nat × ReqInfo → Bool) :
    Shape m { i with reqs := i.reqs.filter p } :=
  ⟨map_filter_nodup _ _ h.reqKeys, Nat.le_trans (List.length_filter_le _ _) h.reqLen, h.repSeq, h.repIdx, h.repLt⟩

theorem shape_mark {m : Nat} {i : Info} (h : Shape m i) (seq : Nat) : Shape m (i.mark seq) := by
  refine ⟨?_, ?_, h.repSeq, h.repIdx, h.repLt⟩
  · have : (i.mark seq).reqs.map (·.1) = i.reqs.map (·.1) := by
      simp only [Info.mark, List.map_map]
      apply List.map_congr_left
      intro p _
      simp only [Function.comp]
      split <;> rfl
    rw [this]; exact h.reqKeys
  · simp [Info.mark]; exact h.reqLen

theorem deleteRep_sublist (idx : Nat) (reps : List (Nat × Nat)) : (deleteRep idx reps).Sublist reps := by
  unfold deleteRep
  split
  · exact List.Sublist.refl _
  · split
    · exact List.filter_sublist
    · exact List.Sublist.refl _

/-- with a nonzero number at the index, nothing is left at the index -/
theorem deleteRep_idx {reps : List (Nat × Nat)} (hn : (reps.map (·.2)).Nodup) (h0 : ∀ p ∈ reps, p.1 ≠ 0) (idx : Nat) :
    ∀ p ∈ deleteRep idx reps, p.2 ≠ idx := by
  intro p hp he
  unfold deleteRep at hp
  split at hp
  · rename_i hf
    have := List.find?_eq_none.1 hf p hp
    simp [he] at this
  · rename_i q hf
    have hq := List.mem_of_find?_eq_some hf
    have hqi : q.2 = idx := by have := List.find?_some hf; simpa using this
    rw [if_pos (h0 q hq)] at hp
    obtain ⟨hp1, hp2⟩ := List.mem_filter.1 hp
    have hpq : p = q := by
      exact (Verif.ListU.inj_of_nodup_map hn) hp1 hq (by rw [he, hqi])
    subst hpq
    simp at hp2

/-- records at other indices are kept -/
theorem deleteRep_keep {reps : List (Nat × Nat)} (hs : (reps.map (·.1)).Nodup) {idx : Nat} {p : Nat × Nat} (hp : p ∈ reps)
    (hne : p.2 ≠ idx) : p ∈ deleteRep idx reps := by
  unfold deleteRep
  split
  · exact hp
  · rename_i q hf
    split
    · apply List.mem_filter.2
      refine ⟨hp, ?_⟩
      have hqi : q.2 = idx := by have := List.find?_some hf; simpa using this
      have : p.1 ≠ q.1 := by
        intro e
        have := (Verif.ListU.inj_of_nodup_map hs) hp (List.mem_of_find?_eq_some hf) e
        exact hne (this ▸ hqi)
      simpa using this
    · exact hp

theorem insertRep_mem {seq idx : Nat} {reps : List (Nat × Nat)} {p : Nat × Nat} (h : p ∈ insertRep seq idx reps) :
    p ∈ reps ∨ (p = (seq, idx) ∧ (∀ q ∈ reps, q.1 ≠ seq ∧ q.2 ≠ idx)) := by
  unfold insertRep at h
  split at h
  · exact Or.inl h
  · rename_i hn
    rcases List.mem_cons.1 h with h | h
    · refine Or.inr ⟨h, fun q hq => ?_⟩
      have := hn
      simp only [List.any_eq_true, not_exists, not_and, Bool.or_eq_true, beq_iff_eq, not_or] at this
      exact this q hq
    · exact Or.inl h

theorem insertRep_keep {seq idx : Nat} {reps : List (Nat × Nat)} {p : Nat × Nat} (h : p ∈ reps) : p ∈ insertRep seq idx reps := by
  unfold insertRep; split
  · exact h
  · exact List.mem_cons_of_mem _ h

theorem shape_setReps {m : Nat} {i : Info} (h : Shape m i) (reps : List (Nat × Nat)) (hs : (reps.map (·.1)).Nodup)
    (hi : (reps.map (·.2)).Nodup) (hl : ∀ p ∈ reps, p.2 < m) : Shape m { i with reps := reps } :=
  ⟨h.reqKeys, h.reqLen, hs, hi, hl⟩

theorem shape_deleteRep {m : Nat} {i : Info} (h : Shape m i) (idx : Nat) : Shape m { i with reps := deleteRep idx i.reps } :=
  shape_setReps h _ (h.repSeq.sublist ((deleteRep_sublist idx i.reps).map _))
    (h.repIdx.sublist ((deleteRep_sublist idx i.reps).map _)) (fun p hp => h.repLt p ((deleteRep_sublist idx i.reps).subset hp))

theorem shape_insertRep {m : Nat} {i : Info} (h : Shape m i) (seq idx : Nat) (hlt : idx < m) :
    Shape m { i with reps := insertRep seq idx i.reps } := by
  unfold insertRep
  split
  · exact h
  · rename_i hn
    simp only [List.any_eq_true, not_exists, not_and, Bool.or_eq_true, beq_iff_eq, not_or] at hn
    refine shape_setReps h _ ?_ ?_ ?_
    · rw [List.map_cons, List.nodup_cons]
      refine ⟨?_, h.repSeq⟩
      intro hm
      obtain ⟨q, hq, he⟩ := List.mem_map.1 hm
      exact (hn q hq).1 he
    · rw [List.map_cons, List.nodup_cons]
      refine ⟨?_, h.repIdx⟩
      intro hm
      obtain ⟨q, hq, he⟩ := List.mem_map.1 hm
      exact (hn q hq).2 he
    · intro p hp
      rcases List.mem_cons.1 hp with rfl | hp
      · exact hlt
      · exact h.repLt p hp

theorem shape_store {m : Nat} {i : Info} (h : Shape m i) (seq idx : Nat) (hlt : idx < m) :
    Shape m { i with reps := insertRep seq idx (deleteRep idx i.reps) } :=
  shape_insertRep (shape_deleteRep h idx) seq idx hlt

theorem shape_loadOne {c : Cfg} {pg : Nat → Option Bytes} {id idx : Nat} {i i' : Info} (h : Shape c.maxReqs i)
    (hlt : idx < c.maxReqs) (hl : loadOne c pg id i idx = some i') : Shape c.maxReqs i' := by
  unfold loadOne at hl
  split at hl
  · injection hl with hl; subst hl; exact h
  · split at hl
    · cases hl
    · split at hl
      · cases hl
      · split at hl
        · cases hl
        · injection hl with hl; subst hl
          exact shape_filterReq (shape_store h _ _ hlt) _

theorem loadLoop_ind {c : Cfg} {pg : Nat → Option Bytes} {id : Nat} (P : Nat → Info → Prop)
    (hstep : ∀ idx i i', idx < c.maxReqs → P idx i → loadOne c pg id i idx = some i' → P (idx + 1) i') :
    ∀ k idx i i', idx + k = c.maxReqs → P idx i → loadLoop c pg id idx k i = some i' → P c.maxReqs i' := by
  intro k
  induction k with
  | zero =>
    intro idx i i' he hp hl
    simp only [loadLoop, Option.some.injEq] at hl
    subst hl
    have : idx = c.maxReqs := by omega
    exact this ▸ hp
  | succ k ih =>
    intro idx i i' he hp hl
    simp only [loadLoop] at hl
    split at hl
    · cases hl
    · rename_i i1 h1
      exact ih (idx + 1) i1 i' (by omega) (hstep idx i i1 (by omega) hp h1) hl

/-- what the loop over clients does to each client -/
theorem loadClients_spec {c : Cfg} {pg : Nat → Option Bytes} : ∀ (l : List Nat) (f f' : Nat → Info), l.Nodup →
    loadClients c pg l f = some f' →
    ∀ j, (j ∈ l ∧ j ∉ c.internal → loadLoop c pg j 0 c.maxReqs (f j) = some (f' j)) ∧
         (¬ (j ∈ l ∧ j ∉ c.internal) → f' j = f j) := by
  intro l
  induction l with
  | nil =>
    intro f f' _ h j
    simp only [loadClients, Option.some.injEq] at h
    subst h
    exact ⟨fun h => absurd h.1 (by simp), fun _ => rfl⟩
  | cons a t ih =>
    intro f f' hn h j
    obtain ⟨hn1, hn2⟩ := List.nodup_cons.1 hn
    simp only [loadClients] at h
    split at h
    · rename_i hint
      obtain ⟨h1, h2⟩ := ih f f' hn2 h j
      constructor
      · rintro ⟨hj, hji⟩
        rcases List.mem_cons.1 hj with rfl | hj
        · exact absurd hint hji
        · exact h1 ⟨hj, hji⟩
      · intro hj
        apply h2
        rintro ⟨ha, hb⟩
        exact hj ⟨List.mem_cons_of_mem _ ha, hb⟩
    · rename_i hint
      split at h
      · cases h
      · rename_i i1 hi1
        obtain ⟨h1, h2⟩ := ih _ f' hn2 h j
        by_cases hja : j = a
        · subst hja
          have := h2 (fun hh => hn1 hh.1)
          simp only [if_true] at this
          refine ⟨fun _ => by rw [this]; exact hi1, fun hh => absurd ⟨List.mem_cons_self, hint⟩ hh⟩
        · constructor
          · rintro ⟨hj, hji⟩
            rcases List.mem_cons.1 hj with rfl | hj
            · exact absurd rfl hja
            · have := h1 ⟨hj, hji⟩
              simp only [hja, if_false] at this
              exact this
          · intro hj
            have := h2 (fun hh => hj ⟨List.mem_cons_of_mem _ hh.1, hh.2⟩)
            simp only [hja, if_false] at this
            exact this

/-- all tables have the right shape -/
def Shaped (c : Cfg) (s : St) : Prop := ∀ id, Shape c.maxReqs (s.info id)

theorem shaped_setInfo {c : Cfg} {s : St} (h : Shaped c s) (id : Nat) {i : Info} (hi : Shape c.maxReqs i) : Shaped c (s.setInfo id i) := by
  intro j
  simp only [St.setInfo]
  split
  · exact hi
  · exact h j

theorem shape_emplace {c : Cfg} {s : St} {id seq time : Nat} {cid : Bytes} (h : Shape c.maxReqs (s.info id))
    (hc : canBecomePending c s id seq = true) : Shape c.maxReqs ((s.info id).emplace seq time cid) := by
  unfold canBecomePending at hc
  split at hc; · cases hc
  split at hc; · cases hc
  split at hc; · cases hc
  rename_i h1 h2 h3
  unfold Info.emplace
  rw [if_neg h3]
  refine ⟨?_, ?_, h.repSeq, h.repIdx, h.repLt⟩
  · rw [List.map_cons, List.nodup_cons]
    exact ⟨fun hm => h3 (hasReq_iff.2 hm), h.reqKeys⟩
  · have := h.reqLen
    simp only [List.length_cons]; omega

theorem newReply_some {c : Cfg} {s : St} {id seq primary idx result : Nat} {data : Bytes} {r : St × Option Reply}
    (h : newReply c s id seq primary idx result data = some r) :
    idx < c.maxReqs ∧ ((id ∉ c.ids ∧ r = (s, none)) ∨ (id ∈ c.ids ∧ r =
      ({ (s.setInfo id { s.info id with reps := insertRep seq idx (deleteRep idx (s.info id).reps) }) with
          pages := savePages c (replyPage c id + reqOffset c idx) (encode seq result data) 0
            (numPages c (encode seq result data).length) s.pages }, some ⟨primary, seq, result, data⟩))) := by
  unfold newReply at h
  split at h; · cases h
  rename_i h1
  refine ⟨by omega, ?_⟩
  split at h
  · rename_i h2
    injection h with h
    exact Or.inl ⟨h2, h.symm⟩
  · rename_i h2
    simp only at h
    split at h
    · cases h
    · injection h with h
      exact Or.inr ⟨by simpa using h2, h.symm⟩

theorem step_shaped {c : Cfg} (hn : c.ids.Nodup) {s s' : St} {o : Op} (h : Shaped c s) (hs : step c s o = some s') : Shaped c s' := by
  cases o with
  | add id seq time cid =>
    simp only [step, Option.some.injEq] at hs; subst hs
    unfold addGuarded
    split
    · rename_i hc
      exact shaped_setInfo h id (shape_emplace (h id) hc)
    · exact h
  | mark id seq =>
    simp only [step] at hs
    split at hs <;> (injection hs with hs; subst hs)
    · exact shaped_setInfo h id (shape_mark (h id) seq)
    · exact h
  | outOfBounds id seq =>
    simp only [step] at hs
    split at hs <;> (injection hs with hs; subst hs)
    · refine shaped_setInfo h id ?_
      unfold Info.removeOutOfBounds
      split
      · exact h id
      · split
        · exact shape_filterReq (h id) _
        · exact h id
    · exact h
  | remove id seq =>
    simp only [step] at hs
    split at hs <;> (injection hs with hs; subst hs)
    · exact shaped_setInfo h id (shape_filterReq (h id) _)
    · exact h
  | clear =>
    simp only [step, Option.some.injEq] at hs; subst hs
    intro j
    have := h j
    exact ⟨by simp, by simp, this.repSeq, this.repIdx, this.repLt⟩
  | deleteReply id idx =>
    simp only [step] at hs
    split at hs <;> (injection hs with hs; subst hs)
    · exact shaped_setInfo h id (shape_deleteRep (h id) idx)
    · exact h
  | reply id seq primary idx result data =>
    simp only [step, Option.map_eq_some_iff] at hs
    obtain ⟨r, hr, rfl⟩ := hs
    obtain ⟨hlt, h1 | h1⟩ := newReply_some hr
    · rw [h1.2]; exact h
    · rw [h1.2]
      exact shaped_setInfo h id (shape_store (h id) seq idx hlt)
  | setKey id key =>
    simp only [step] at hs
    split at hs
    · split at hs
      · injection hs with hs; subst hs; exact h
      · cases hs
    · injection hs with hs; subst hs; exact h
  | load pg =>
    simp only [step, loadInfo] at hs
    split at hs
    · cases hs
    · rename_i f hf
      injection hs with hs; subst hs
      intro j
      obtain ⟨h1, h2⟩ := loadClients_spec _ _ _ hn hf j
      by_cases hj : j ∈ c.ids ∧ j ∉ c.internal
      · exact loadLoop_ind (fun _ i => Shape c.maxReqs i) (fun idx i i' hlt hp hl => shape_loadOne hp hlt hl) _ 0 _ _ (by omega)
          (h j) (h1 hj)
      · show Shape c.maxReqs (f j)
        rw [h2 hj]; exact h j

theorem run_ind {c : Cfg} (P : St → Prop) (hstep : ∀ s s' o, P s → step c s o = some s' → P s') :
    ∀ os s s', P s → run c s os = some s' → P s' := by
  intro os
  induction os with
  | nil => intro s s' hp h; simp only [run, Option.some.injEq] at h; exact h ▸ hp
  | cons o os ih =>
    intro s s' hp h
    simp only [run] at h
    split at h
    · cases h
    · rename_i s1 h1
      exact ih s1 s' (hstep s s1 o hp h1) h

theorem run_shaped {c : Cfg} (hn : c.ids.Nodup) {os : List Op} {s : St} (h : run c init os = some s) : Shaped c s :=
  run_ind (Shaped c) (fun _ _ _ hp hs => step_shaped hn hp hs) os init s (fun _ => shape_empty _) h

end Verif.Clients
