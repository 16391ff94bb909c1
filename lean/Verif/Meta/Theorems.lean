import Verif.Meta.Sim
set_option linter.unusedSimpArgs false
set_option linter.unusedVariables false
/-!
# Theorems about the metadata storage (C34)
-/
namespace Verif.Meta
open Verif.Bytes

section
variable {g : Cfg}

theorem apply_mono {g : Cfg} (m : Spec.Rec) {u : Upd} (hu : u.Ok g) : (Spec.apply m u).newView.isDefault = true → m.newView.isDefault = true := by
  cases u with
  | newView d => intro h; have h' : d.isDefault = true := h; rw [hu.1] at h'; cases h'
  | _ => exact id

/-- one step of the storage is a step of the specification, with the same answer -/
theorem step_ok (hg : g.Ok) {s : St} {t : Spec.St} (h : Inv g s t) {o : Op} (ho : o.Ok g s) :
    ∃ s' t' r, s.step g o = some (s', r) ∧ Spec.Step g t o t' r ∧ Inv g s' t' := by
  have reboot := h.reboot hg
  cases o with
  | begin =>
    have ho : s.nest < 255 := ho
    refine ⟨s.begin, _, .ok, rfl, .begin, ?_⟩
    have e1 : (s.nest + 1) % 256 = s.nest + 1 := Nat.mod_eq_of_lt (by omega)
    have hview : Spec.St.view { t with depth := t.depth + 1, pend := if t.depth = 0 then [] else t.pend } = t.view := by
      unfold Spec.St.view
      by_cases hd : t.depth = 0
      · simp only [hd, if_true]; rw [(h.out (by rw [h.nest]; exact hd)).2]
      · simp only [hd, if_false]
    refine ⟨?_, ?_, h.cur, h.curWf, h.old, ?_, ?_, by rw [hview]; exact h.wf, ?_, by rw [hview]; exact h.mono⟩
    · show (s.nest + 1) % 256 = t.depth + 1; rw [e1, h.nest]
    · show (s.nest + 1) % 256 < 256; omega
    · intro hx; have hx' : (s.nest + 1) % 256 = 0 := hx; omega
    · intro _
      by_cases hn : s.nest = 0
      · obtain ⟨hb, hp⟩ := h.out hn
        have hv := view_cur h hn
        refine ⟨fun _ => none, ?_, ?_, ?_, rfl, rfl, rfl⟩
        · show (if s.nest = 0 then _ else _) = _; rw [if_pos hn, hb]
        · rw [hview, hv]; exact h.cur
        · show false = List.any (if t.depth = 0 then [] else t.pend) Upd.isUser
          rw [if_pos (by rw [← h.nest]; exact hn)]; rfl
      · obtain ⟨b, hb, hh, hb10, hrest⟩ := h.bat hn
        refine ⟨b, ?_, by rw [hview]; exact hh, ?_, hrest⟩
        · show (if s.nest = 0 then _ else _) = _; rw [if_neg hn, hb]
        · rw [hb10]
          show _ = List.any (if t.depth = 0 then [] else t.pend) Upd.isUser
          rw [if_neg (by rw [← h.nest]; exact hn)]
    · rw [hview]
      have hc := h.cache
      exact ⟨hc.seqB, hc.ckB, hc.lastExec, hc.lastView, hc.hasExit, hc.hasNew, hc.hasExec, hc.execSeq⟩
  | fin y =>
    by_cases h0 : s.nest = 0
    · obtain ⟨s', hb, hi⟩ := reboot
      refine ⟨s', _, .dies, ?_, .noTran (by rw [← h.nest]; exact h0), hi⟩
      have : s.fin y = none := by unfold St.fin; rw [if_pos h0]
      show (match s.fin y with | some s' => _ | none => _) = _
      rw [this]
      dsimp only
      rw [hb]; rfl
    · obtain ⟨b, hb, hh, hb10, hrest⟩ := h.bat h0
      by_cases h1 : s.nest = 1
      · refine ⟨{ s.durable (s.db.over b) y with bat := none, nest := 0 }, _, .ok, ?_, .outer (by rw [← h.nest]; exact h1), ?_⟩
        · have : s.fin y = some { s.durable (s.db.over b) y with bat := none, nest := 0 } := by
            unfold St.fin; rw [if_neg h0, if_pos h1, hb]
          show (match s.fin y with | some s' => _ | none => _) = _
          rw [this]
        · refine ⟨rfl, by show 0 < 256; decide, hh, h.wf, ?_, fun _ => ⟨rfl, rfl⟩, fun hx => absurd rfl hx, h.wf, ?_, id⟩
          · intro d hd
            have hd' : d ∈ (if y then [] else s.db :: s.old) := hd
            cases y with
            | true => cases hd'
            | false =>
              rcases List.mem_cons.1 hd' with rfl | hd'
              · exact ⟨t.cur, by simp, h.rel⟩
              · obtain ⟨m, hm, hr⟩ := h.old d hd'
                exact ⟨m, List.mem_cons_of_mem _ hm, hr⟩
          · have hc := h.cache
            exact ⟨hc.seqB, hc.ckB, hc.lastExec, hc.lastView, hc.hasExit, hc.hasNew, hc.hasExec, hc.execSeq⟩
      · refine ⟨{ s with nest := s.nest - 1 }, { t with depth := t.depth - 1 }, .ok, ?_, .inner (by have := h.nest; omega), ?_⟩
        · have : s.fin y = some { s with nest := s.nest - 1 } := by
            unfold St.fin; rw [if_neg h0, if_neg h1]
          show (match s.fin y with | some s' => _ | none => _) = _
          rw [this]
        · refine ⟨by show s.nest - 1 = t.depth - 1; rw [h.nest], by show s.nest - 1 < 256; have := h.small; omega, h.cur, h.curWf, h.old, ?_, ?_, h.wf, ?_, h.mono⟩
          · intro hx; have hx' : s.nest - 1 = 0 := hx; omega
          · intro _; exact ⟨b, hb, hh, hb10, hrest⟩
          · have hc := h.cache
            exact ⟨hc.seqB, hc.ckB, hc.lastExec, hc.lastView, hc.hasExit, hc.hasNew, hc.hasExec, hc.execSeq⟩
  | set u =>
    have hu : u.Ok g := ho
    by_cases h0 : s.nest = 0
    · obtain ⟨s', hb, hi⟩ := reboot
      refine ⟨s', _, .dies, ?_, .refused (Or.inl (by rw [← h.nest]; exact h0)), hi⟩
      have : s.set g u = none := set_outside h0 (h.out h0).1 u
      show (match s.set g u with | some s' => _ | none => _) = _
      rw [this]
      dsimp only
      rw [hb]; rfl
    · obtain ⟨b, hb, hh, hb10, hrest⟩ := h.bat h0
      cases ha : Spec.accepts g t.view u with
      | true =>
        obtain ⟨s', b', hd⟩ := set_ok hg h0 hb hh h.wf h.cache h.cur h.curWf h.mono hu ha
        have hview : Spec.St.view { t with pend := t.pend ++ [u] } = Spec.apply t.view u := by
          unfold Spec.St.view; rw [List.foldl_append]; rfl
        refine ⟨s', _, .ok, ?_, .set (by rw [← h.nest]; exact h0) ha, ?_⟩
        · show (match s.set g u with | some s' => _ | none => _) = _
          rw [hd.eq]
        · refine ⟨by rw [hd.nest]; exact h.nest, by rw [hd.nest]; exact h.small, by rw [hd.db]; exact h.cur, h.curWf, ?_, ?_, ?_, ?_, ?_, ?_⟩
          · rw [hd.old]; exact h.old
          · intro hx; rw [hd.nest] at hx; exact absurd hx h0
          · intro _
            refine ⟨b', hd.bat, by rw [hd.db, hview]; exact hd.holds, ?_, ?_⟩
            · rw [hd.user, hb10]; simp
            · obtain ⟨s1, s2, s3⟩ := hd.same
              rw [s1, s2, s3]; exact hrest
          · rw [hview]; exact h.wf.apply hu ha
          · rw [hview]; exact hd.cache
          · rw [hview]; intro hx; exact h.mono (apply_mono t.view hu hx)
      | false =>
        obtain ⟨s', hb, hi⟩ := reboot
        refine ⟨s', _, .dies, ?_, .refused (Or.inr ha), hi⟩
        have : s.set g u = none := set_refused hg h0 h.wf h.cache h.cur h.curWf h.mono ha
        show (match s.set g u with | some s' => _ | none => _) = _
        rw [this]
        dsimp only
        rw [hb]; rfl
  | atomic a =>
    refine ⟨_, _, .ok, ?_, .atomic, atomic_inv hg h ho⟩
    show (match s.atomic g a with | some s' => _ | none => _) = _
    rw [atomic_eq hg s ho]
  | get q junk =>
    by_cases hbad : (q.asserts = true ∧ s.nest ≠ 0) ∨ Spec.value t.cur q = none
    · obtain ⟨s', hb, hi⟩ := reboot
      refine ⟨s', _, .dies, ?_, .noGet (by rw [← h.nest]; exact hbad), hi⟩
      show (match s.get g junk q with | some (o, s') => _ | none => _) = _
      rw [get_fails h hbad]
      dsimp only
      rw [hb]; rfl
    · have ha : q.asserts = true → s.nest = 0 := fun x => by
        by_cases hn : s.nest = 0
        · exact hn
        · exact absurd (Or.inl ⟨x, hn⟩) hbad
      cases hv : Spec.value t.cur q with
      | none => exact absurd (Or.inr hv) hbad
      | some o =>
        refine ⟨s, t, o, ?_, .get (by rw [← h.nest]; exact ha) hv, h⟩
        show (match s.get g junk q with | some (o, s') => _ | none => _) = _
        rw [get_ok hg h ho ha hv]
  | crash k =>
    have hrel := bootDb_rel hg h.rel
    have hold : ∀ x ∈ g.bootDb s.db 2 :: g.bootDb s.db 1 :: s.db :: s.old, ∃ m' ∈ (Spec.boot g t.cur t.old).cur :: (Spec.boot g t.cur t.old).old, DbRel g x m' := by
      have hk : ∀ k, ∃ m' ∈ (Spec.boot g t.cur t.old).cur :: (Spec.boot g t.cur t.old).old, DbRel g (g.bootDb s.db k) m' := by
        intro k
        rcases hrel k with h1 | ⟨he, h1⟩
        · exact ⟨_, mem_boot_cur _ _, h1⟩
        · exact ⟨_, mem_boot_init _ he, h1⟩
      intro x hx
      rcases List.mem_cons.1 hx with rfl | hx
      · exact hk 2
      rcases List.mem_cons.1 hx with rfl | hx
      · exact hk 1
      rcases List.mem_cons.1 hx with rfl | hx
      · exact ⟨_, mem_boot_cur _ _, h.rel⟩
      · obtain ⟨m, hm, hr⟩ := h.old x hx
        rcases List.mem_cons.1 hm with rfl | hm
        · exact ⟨_, mem_boot_cur _ _, hr⟩
        · exact ⟨m, mem_boot_old hm, hr⟩
    have done : ∃ s', g.boot (g.bootDb s.db k) (g.bootDb s.db 2 :: g.bootDb s.db 1 :: s.db :: s.old) false = some s' ∧ Inv g s' (Spec.boot g t.cur t.old) := by
      rcases hrel k with h1 | ⟨he, h1⟩
      · exact boot_ok hg h1 hold
      · have e : Spec.boot g t.cur t.old = Spec.boot g (Spec.Rec.init g) (t.cur :: t.old) := by
          unfold Spec.boot; rw [if_pos he]; rfl
        rw [e] at hold ⊢
        exact boot_ok hg h1 hold
    obtain ⟨s', hb, hi⟩ := done
    refine ⟨s', _, .ok, ?_, .crash, hi⟩
    show (g.boot _ _ false).map _ = _
    rw [hb]; rfl
  | power k i =>
    obtain ⟨d, hde⟩ : ∃ d, d = ((s.db :: s.old)[k]?).getD s.db := ⟨_, rfl⟩
    have hmem : d ∈ s.db :: s.old := by
      rw [hde]
      cases hk : (s.db :: s.old)[k]? with
      | none => exact List.mem_cons_self
      | some x => exact List.mem_of_getElem? hk
    obtain ⟨m, hm, hr⟩ : ∃ m ∈ t.cur :: t.old, DbRel g d m := by
      rcases List.mem_cons.1 hmem with rfl | hmem
      · exact ⟨t.cur, List.mem_cons_self, h.rel⟩
      · exact h.old d hmem
    have hrel := bootDb_rel hg hr
    have hold : ∀ x ∈ [g.bootDb d 2, g.bootDb d 1, d], ∃ m' ∈ (Spec.boot g m []).cur :: (Spec.boot g m []).old, DbRel g x m' := by
      have hk : ∀ k, ∃ m' ∈ (Spec.boot g m []).cur :: (Spec.boot g m []).old, DbRel g (g.bootDb d k) m' := by
        intro k
        rcases hrel k with h1 | ⟨he, h1⟩
        · exact ⟨_, mem_boot_cur _ _, h1⟩
        · exact ⟨_, mem_boot_init _ he, h1⟩
      intro x hx
      rcases List.mem_cons.1 hx with rfl | hx
      · exact hk 2
      rcases List.mem_cons.1 hx with rfl | hx
      · exact hk 1
      cases List.mem_singleton.1 hx
      exact ⟨_, mem_boot_cur _ _, hr⟩
    have done : ∃ s', g.boot (g.bootDb d i) [g.bootDb d 2, g.bootDb d 1, d] false = some s' ∧ Inv g s' (Spec.boot g m []) := by
      rcases hrel i with h1 | ⟨he, h1⟩
      · exact boot_ok hg h1 hold
      · have e : Spec.boot g m [] = Spec.boot g (Spec.Rec.init g) [m] := by
          unfold Spec.boot; rw [if_pos he]; rfl
        rw [e] at hold ⊢
        exact boot_ok hg h1 hold
    obtain ⟨s', hb, hi⟩ := done
    refine ⟨s', _, .ok, ?_, .power hm, hi⟩
    show (g.boot (g.bootDb (((s.db :: s.old)[k]?).getD s.db) i) [g.bootDb (((s.db :: s.old)[k]?).getD s.db) 2, g.bootDb (((s.db :: s.old)[k]?).getD s.db) 1, ((s.db :: s.old)[k]?).getD s.db] false).map _ = _
    rw [← hde, hb]; rfl
  | crashIo => exact absurd ho id

theorem run_ok (hg : g.Ok) : ∀ (ops : List Op) {s : St} {t : Spec.St}, Inv g s t → Admissible g s ops →
    ∃ s' t' rs, s.run g ops = some (s', rs) ∧ Spec.Run g t ops t' rs ∧ Inv g s' t'
  | [], s, t, h, _ => ⟨s, t, [], rfl, .nil, h⟩
  | o :: os, s, t, h, ha => by
    obtain ⟨s1, t1, r, h1, h2, h3⟩ := step_ok hg h ha.1
    obtain ⟨s2, t2, rs, h4, h5, h6⟩ := run_ok hg os h3 (ha.2 s1 r h1)
    refine ⟨s2, t2, r :: rs, ?_, .cons h2 h5, h6⟩
    show (match s.step g o with
      | none => none
      | some (s', r) => match St.run g s' os with
        | none => none
        | some (s'', rs) => some (s'', r :: rs)) = _
    rw [h1]
    dsimp only
    rw [h4]

/-- **C34.** A replica starts on an empty store, and whatever is called in whatever order, wherever the process dies and
wherever the machine loses power, the storage always starts again and every answer it gives is an answer of the
specification. -/
theorem metadata_refines (hg : g.Ok) {s : St} (h0 : g.start = some s) {ops : List Op} (ha : Admissible g s ops) :
    ∃ s' t' rs, s.run g ops = some (s', rs) ∧ Spec.Run g (Spec.start g) ops t' rs := by
  obtain ⟨s0, h1, h2⟩ := start_ok hg
  rw [h1] at h0; cases h0
  obtain ⟨s', t', rs, h3, h4, _⟩ := run_ok hg ops h2 ha
  exact ⟨s', t', rs, h3, h4⟩

theorem starts (hg : g.Ok) : ∃ s, g.start = some s := by
  obtain ⟨s, h, _⟩ := start_ok hg; exact ⟨s, h⟩

end
end Verif.Meta
