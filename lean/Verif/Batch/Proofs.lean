import Verif.Batch.Spec
/-! # Lemmas about the queue, the loops and one attempt to send -/
set_option linter.unusedSimpArgs false
set_option linter.unusedVariables false
namespace Concord.Batch
open Verif

theorem total_nil : total [] = 0 := rfl
theorem total_cons (r : Req) (l : List Req) : total (r :: l) = r.size + total l := by
  unfold total; simp
theorem total_append (a b : List Req) : total (a ++ b) = total a + total b := by
  unfold total; simp

theorem total_sublist {a b : List Req} (h : a.Sublist b) : total a ≤ total b := by
  induction h with
  | slnil => exact Nat.le_refl _
  | cons r _ ih => rw [total_cons]; omega
  | cons_cons r _ ih => rw [total_cons, total_cons]; omega

theorem total_room {a b : List Req} (h : a.Sublist b) {r : Req} (hr : r ∈ b) (hn : r ∉ a) :
    total a + r.size ≤ total b := by
  induction h with
  | slnil => cases hr
  | cons x hs ih =>
    rw [total_cons]
    rcases List.mem_cons.1 hr with rfl | hr
    · have := total_sublist hs; omega
    · have := ih hr hn; omega
  | cons_cons x hs ih =>
    rw [total_cons, total_cons]
    rcases List.mem_cons.1 hr with rfl | hr
    · exact absurd (List.mem_cons_self) hn
    · have := ih hr (fun h => hn (List.mem_cons_of_mem _ h)); omega

/-! ## the clients manager -/

/-- pending, by key -/
abbrev inP (cfg : Cfg) (cm : Clients.St) (k : Nat × Nat) : Bool := Clients.inProcess cfg.clients cm k.1 k.2
/-- answered, by key -/
abbrev hasR (cfg : Cfg) (cm : Clients.St) (k : Nat × Nat) : Bool := Clients.hasReply cfg.clients cm k.1 k.2

theorem admissible_fresh {cfg : Cfg} {cm : Clients.St} {r : Req} (h : admissible cfg cm r = true) :
    inP cfg cm r.key = false ∧ hasR cfg cm r.key = false := by
  unfold admissible Clients.canBecomePending at h
  split at h; · cases h
  split at h; · cases h
  split at h; · cases h
  rename_i h3
  split at h; · cases h
  rename_i h4
  constructor
  · simp only [inP, Clients.inProcess, Req.key, Bool.not_eq_true] at h3 ⊢; rw [h3]; simp
  · simp only [hasR, Clients.hasReply, Req.key, Bool.not_eq_true] at h4 ⊢; rw [h4]; simp

theorem inP_add {cfg : Cfg} {cm : Clients.St} {r : Req} (k : Nat × Nat) (h : admissible cfg cm r = true) :
    inP cfg (addPending cfg cm r) k = true ↔ inP cfg cm k = true ∨ k = r.key := by
  have e := Clients.add_effect (c := cfg.clients) cm r.client r.seq 0 [] k.1 k.2
  unfold admissible at h
  rw [h] at e
  show Clients.inProcess cfg.clients (Clients.addGuarded cfg.clients cm r.client r.seq 0 []) k.1 k.2 = true ↔ _
  rw [e]
  constructor
  · rintro (h | ⟨h1, h2, -⟩)
    · exact Or.inl h
    · exact Or.inr (Prod.ext h1 h2)
  · rintro (h | h)
    · exact Or.inl h
    · subst h; exact Or.inr ⟨rfl, rfl, rfl⟩

theorem hasR_add (cfg : Cfg) (cm : Clients.St) (r : Req) (k : Nat × Nat) :
    hasR cfg (addPending cfg cm r) k = hasR cfg cm k := by
  show (decide (k.1 ∈ cfg.clients.ids) && ((addPending cfg cm r).info k.1).hasRep k.2) = (decide (k.1 ∈ cfg.clients.ids) && (cm.info k.1).hasRep k.2)
  have : ((addPending cfg cm r).info k.1).reps = (cm.info k.1).reps := by
    unfold addPending Clients.addGuarded
    split
    · unfold Clients.St.setInfo
      show (if k.1 = r.client then _ else _ : Clients.Info).reps = _
      split
      · rename_i e; rw [e]; unfold Clients.Info.emplace; split <;> rfl
      · rfl
    · rfl
  unfold Clients.Info.hasRep; rw [this]

/-- adding a request makes nothing admissible that was not -/
theorem admissible_add {cfg : Cfg} {cm : Clients.St} {r x : Req} (h : admissible cfg (addPending cfg cm r) x = true) :
    admissible cfg cm x = true := by
  unfold addPending Clients.addGuarded at h
  split at h
  · rename_i hc
    by_cases e : x.client = r.client
    · have hr : ((cm.info r.client).reqs.length = cfg.clients.maxReqs) → False := by
        intro hl
        unfold Clients.canBecomePending at hc
        split at hc; · cases hc
        try (rw [if_pos hl] at hc)
        cases hc
      have hf := admissible_fresh (r := x) h
      have hn : (cm.info x.client).hasReq x.seq = false := by
        unfold admissible Clients.canBecomePending at h
        split at h; · cases h
        split at h; · cases h
        split at h; · cases h
        rename_i h3
        simp only [Clients.St.setInfo, e, if_true, Bool.not_eq_true] at h3
        rw [e]
        unfold Clients.Info.emplace at h3
        split at h3
        · exact h3
        · unfold Clients.Info.hasReq at h3 ⊢
          simp only [List.any_cons, Bool.or_eq_false_iff] at h3
          exact h3.2
      have hp : (cm.info x.client).hasRep x.seq = false := by
        unfold admissible Clients.canBecomePending at h
        split at h; · cases h
        split at h; · cases h
        split at h; · cases h
        split at h; · cases h
        rename_i h4
        simp only [Clients.St.setInfo, e, if_true, Bool.not_eq_true] at h4
        rw [e]
        unfold Clients.Info.emplace at h4
        split at h4
        · exact h4
        · exact h4
      have hid : x.client ∈ cfg.clients.ids := by
        unfold admissible Clients.canBecomePending at h
        split at h; · cases h
        rename_i h1; simpa using h1
      unfold admissible Clients.canBecomePending
      rw [if_neg (by simpa using hid), if_neg (by rw [e]; exact hr), if_neg (by simp [hn]), if_neg (by simp [hp])]
    · unfold admissible Clients.canBecomePending at h ⊢
      simpa only [Clients.St.setInfo, e, if_false] using h
  · exact h

/-! ## the loops -/

theorem dropDup_spec (cfg : Cfg) (cm : Clients.St) : ∀ (q : List Req) (c : Nat),
    ∃ d, q = d ++ (dropDup cfg cm q c).1 ∧ (dropDup cfg cm q c).2 = c - total d ∧
      (∀ r ∈ d, admissible cfg cm r = false) ∧
      (∀ r l, (dropDup cfg cm q c).1 = r :: l → admissible cfg cm r = true) := by
  intro q
  induction q with
  | nil => intro c; exact ⟨[], rfl, by simp [dropDup, total_nil], by simp, by simp [dropDup]⟩
  | cons r q ih =>
    intro c
    unfold dropDup
    by_cases h : admissible cfg cm r = true
    · rw [if_pos h]
      exact ⟨[], rfl, by simp [total_nil], by simp, by intro r' l e; cases e; exact h⟩
    · rw [if_neg h]
      obtain ⟨d, h1, h2, h3, h4⟩ := ih (c - r.size)
      refine ⟨r :: d, by rw [List.cons_append, ← h1], by rw [h2, total_cons]; omega, ?_, h4⟩
      intro x hx
      rcases List.mem_cons.1 hx with rfl | hx
      · simpa using h
      · exact h3 x hx

/-- what a loop did: popped these requests, added those -/
structure Added (cfg : Cfg) (cap : Nat) (cm cm' : Clients.St) (popped new : List Req) (used : Nat) : Prop where
  sub : new.Sublist popped
  room : used + total new ≤ cap
  pend : ∀ k, inP cfg cm' k = true ↔ inP cfg cm k = true ∨ k ∈ new.map Req.key
  reps : ∀ k, hasR cfg cm' k = hasR cfg cm k
  fresh : ∀ r ∈ new, inP cfg cm r.key = false ∧ hasR cfg cm r.key = false
  nodup : (new.map Req.key).Nodup
  lost : ∀ r ∈ popped, r ∈ new ∨ admissible cfg cm' r = false ∨ cap < used + total new + r.size
  mono : ∀ r, admissible cfg cm' r = true → admissible cfg cm r = true
  same : new = [] → cm' = cm

theorem Added.none (cfg : Cfg) (cap : Nat) (cm : Clients.St) (used : Nat) (h : used ≤ cap) :
    Added cfg cap cm cm [] [] used :=
  ⟨List.Sublist.refl _, h, by simp, by simp, by simp, by simp, by simp, by simp, fun _ => rfl⟩

theorem addLoop_spec (cfg : Cfg) (cap : Nat) (full : Acc → Bool) : ∀ (q : List Req) (a : Acc), a.used ≤ cap →
    ∃ popped new, q = popped ++ (addLoop cfg cap full q a).2 ∧
      (addLoop cfg cap full q a).1.reqs = a.reqs ++ new ∧
      (addLoop cfg cap full q a).1.used = a.used + total new ∧
      (addLoop cfg cap full q a).1.combined = a.combined - total popped ∧
      Added cfg cap a.cm (addLoop cfg cap full q a).1.cm popped new a.used := by
  intro q
  induction q with
  | nil => intro a hu; exact ⟨[], [], rfl, by simp [addLoop], by simp [addLoop, total_nil], by simp [addLoop, total_nil], Added.none _ _ _ _ hu⟩
  | cons r q ih =>
    intro a hu
    unfold addLoop
    by_cases hf : full a = true
    · rw [if_pos hf]
      exact ⟨[], [], rfl, by simp, by simp [total_nil], by simp [total_nil], Added.none _ _ _ _ hu⟩
    · rw [if_neg hf]
      have hu' : (addOne cfg cap a r).used ≤ cap := by
        unfold addOne; split
        · rename_i h; show a.used + r.size ≤ cap; omega
        · exact hu
      obtain ⟨p, n, h1, h2, h3, h4, h5⟩ := ih (addOne cfg cap a r) hu'
      generalize addLoop cfg cap full q (addOne cfg cap a r) = res at *
      by_cases hc : r.size ≤ cap - a.used ∧ admissible cfg a.cm r = true
      · have e : addOne cfg cap a r =
            { cm := addPending cfg a.cm r, reqs := a.reqs ++ [r], used := a.used + r.size, combined := a.combined - r.size } := if_pos hc
        rw [e] at h2 h3 h4 h5
        obtain ⟨f1, f2⟩ := admissible_fresh hc.2
        refine ⟨r :: p, r :: n, by rw [h1]; rfl, by rw [h2]; simp, by rw [h3, total_cons]; show a.used + r.size + _ = _; omega,
          by rw [h4, total_cons]; show a.combined - r.size - _ = _; omega, ?_⟩
        refine ⟨h5.sub.cons_cons r, ?_, ?_, ?_, ?_, ?_, ?_, ?_, ?_⟩
        · have h := h5.room; rw [total_cons]; simp only at h; omega
        · intro k
          rw [h5.pend k, inP_add k hc.2, List.map_cons, List.mem_cons]
          constructor
          · rintro ((h | h) | h)
            · exact Or.inl h
            · exact Or.inr (Or.inl h)
            · exact Or.inr (Or.inr h)
          · rintro (h | h | h)
            · exact Or.inl (Or.inl h)
            · exact Or.inl (Or.inr h)
            · exact Or.inr h
        · intro k; rw [h5.reps k]; exact hasR_add ..
        · intro x hx
          rcases List.mem_cons.1 hx with rfl | hx
          · exact ⟨f1, f2⟩
          · obtain ⟨g1, g2⟩ := h5.fresh x hx
            refine ⟨?_, by rw [← hasR_add cfg a.cm r]; exact g2⟩
            by_cases hz : inP cfg a.cm x.key = true
            · have := (inP_add (r := r) x.key hc.2).2 (Or.inl hz)
              simp only at g1
              rw [g1] at this; cases this
            · simpa using hz
        · rw [List.map_cons, List.nodup_cons]
          refine ⟨?_, h5.nodup⟩
          intro hm
          obtain ⟨x, hx, he⟩ := List.mem_map.1 hm
          have g1 := (h5.fresh x hx).1
          have := (inP_add (r := r) x.key hc.2).2 (Or.inr he)
          simp only at g1
          rw [g1] at this; cases this
        · intro x hx
          rcases List.mem_cons.1 hx with rfl | hx
          · exact Or.inl List.mem_cons_self
          · rcases h5.lost x hx with h | h | h
            · exact Or.inl (List.mem_cons_of_mem _ h)
            · exact Or.inr (Or.inl h)
            · right; right; rw [total_cons]; simp only at h; omega
        · intro x hx; exact admissible_add (h5.mono x hx)
        · intro h; cases h
      · have e : addOne cfg cap a r = { a with
            combined := a.combined - r.size } := if_neg hc
        rw [e] at h2 h3 h4 h5
        refine ⟨r :: p, n, by rw [h1]; rfl, h2, h3,
          by rw [h4, total_cons]; show a.combined - r.size - _ = _; omega, ?_⟩
        refine ⟨h5.sub.cons r, h5.room, h5.pend, h5.reps, h5.fresh, h5.nodup, ?_, h5.mono, h5.same⟩
        intro x hx
        rcases List.mem_cons.1 hx with rfl | hx
        · by_cases hs : x.size ≤ cap - a.used
          · right; left
            have hn : ¬ admissible cfg a.cm x = true := fun h => hc ⟨hs, h⟩
            by_cases hz : admissible cfg res.1.cm x = true
            · exact absurd (h5.mono x hz) hn
            · simpa using hz
          · right; right; omega
        · exact h5.lost x hx

end Concord.Batch
