import Verif.Rp.Serve
set_option linter.unusedVariables false
set_option linter.unusedSimpArgs false
/-!
# Reserved pages and checkpoints: theorems (C41)
-/
namespace Verif.Rp
open Verif.Bytes Verif.St

variable {c : Cfg} {tp : Nat → Snap} {ops : List Op} {s : S} {a : A}

theorem fresh_inv (ok : CfgOk c) {db : Db} (h : Fresh db) : Inv c ⟨⟨[], [], [], 0, 0, false⟩, db, []⟩ A.init := by
  have hst := ok.stored
  have hget : ∀ k : Bytes, k.head? = some 1 → get k db.kv = none := by
    intro k hk
    rw [get_none]
    intro v hv
    exact h.none _ hv hk
  refine ⟨⟨Inc.nil, fun p => rfl, fun p hp => (by cases hp), fun p _ => rfl, ⟨Inc.nil, fun e he => (by cases he)⟩, Inc.nil, fun k d hk => (by cases hk), fun k sn hk => (by cases hk), fun k sn hk => (by cases hk),
    Nat.le_refl _, .inl rfl, rfl, .inl rfl, Nat.two_pow_pos 64, by show 0 < 0 + c.maxStored; omega, fun k hk => absurd rfl hk, rfl, fun g => (by cases g)⟩,
    ⟨h.inc, fun p _ => hget _ rfl, fun p k _ _ => hget _ rfl, fun k _ => hget _ rfl, fun e he hp => ?_⟩, h.first, h.last, h.fetching, fun e he => (by cases he)⟩
  obtain ⟨k, hk⟩ := List.isPrefixOf_iff_prefix.1 hp
  exact absurd (by rw [← hk]; rfl) (h.none e he)

theorem step_inv (ok : CfgOk c) (h : Inv c s a) {op : Op} (hl : Legal c tp s a op) {s' : S} (hs : s.step c op = .ok s') : Inv c s' (a.step c tp (s.accepts c op) op) := by
  cases op with
  | save p b =>
    obtain ⟨x, h1, h2⟩ := save_ok ok h tp (s.accepts c (.save p b)) hl.1 hl.2
    have hs : s.save c p b = .ok s' := hs
    rw [h1] at hs
    cases hs
    exact h2
  | zeroPage p =>
    obtain ⟨x, h1, h2⟩ := zeroPage_ok ok h tp (s.accepts c (.zeroPage p)) hl
    have hs : s.zeroPage c p = .ok s' := hs
    rw [h1] at hs
    cases hs
    exact h2
  | ckpt k mb dg rvb =>
    obtain ⟨l1, l2, l3, l4, l5, l6, l7⟩ := hl
    obtain ⟨x, h1, h2⟩ := ckpt_ok ok h tp (s.accepts c (.ckpt k mb dg rvb)) l1 l2 l3 l4 l5 l6 l7
    have hs : s.ckpt c k mb dg rvb = .ok s' := hs
    rw [h1] at hs
    cases hs
    exact h2
  | collect =>
    have hs : R.ok s.collect = .ok s' := hs
    cases hs
    exact collect_ok ok h tp _
  | finish =>
    have hs : R.ok s.finish = .ok s' := hs
    cases hs
    exact finish_ok h tp _
  | install d v => exact install_inv ok h hl hs
  | fetch mc f =>
    have hs : (s.fetch c mc f >>= fun x => R.ok x.1) = .ok s' := hs
    cases hr : s.fetch c mc f with
    | abort => rw [hr] at hs; cases hs
    | fault => rw [hr] at hs; cases hs
    | ok r =>
      rw [hr] at hs
      have hs : R.ok r.1 = .ok s' := hs
      cases hs
      exact fetch_inv ok h hr hl.2.1
  | restart =>
    obtain ⟨h1, h2⟩ := restart_ok ok h
    have hs : s.restart c = .ok s' := hs
    rw [h1] at hs
    cases hs
    exact h2
  | other k v =>
    have hs : R.ok ({ s with db := s.db.write (.put k v) } : S) = .ok s' := hs
    cases hs
    exact ⟨h.m, h.sync.other hl, h.first, h.last, h.fetching, h.cache⟩

theorem run_inv (ok : CfgOk c) (h : Run c tp ops s a) : Inv c s a := by
  induction h with
  | init hf hs =>
    have := fresh_inv ok hf
    rw [start_ok ok this] at hs
    cases hs
    exact this
  | step _ hl hs ih => exact step_inv ok ih hl hs

/-- A page that is read has the bytes that were saved last, filled up with zeros; whatever checkpoints were made and deleted, and
wherever the replica crashed. -/
theorem load_returns_saved (ok : CfgOk c) (h : Run c tp ops s a) {p len : Nat} (hp : p < c.pages) (h0 : 0 < len) (hl : len ≤ c.pageSize) :
    s.load c p len = .ok ((a.cur p).map (·.take len)) := by
  have hi := run_inv ok h
  have hm := hi.m
  unfold S.load
  rw [require, if_pos hp, require, if_pos hl]
  simp only [bind, R.bind]
  rw [hm.pend]
  cases hd : a.dirty p with
  | true =>
    obtain ⟨_, b, hb, _⟩ := hm.dirty p hd
    rw [if_pos rfl, hb]
    rfl
  | false =>
    rw [if_neg (by simp), hm.clean p hd]
    simp only
    rw [hm.last]
    by_cases e : a.last = 0
    · rw [if_pos e]
      have hn : a.snap a.last = none := by
        cases hs : a.snap a.last with
        | none => rfl
        | some sn => have := (hm.snapOk _ _ hs).1; omega
      have : a.base p = none := by unfold A.base; rw [hn]
      rw [this]
      rfl
    · rw [if_neg e, getResPage_eq hm.pg.inc p a.last (Nat.le_of_eq hm.last.symm), hm.base p]
      simp only
      cases hb : a.base p with
      | none => rfl
      | some x =>
        have := hm.baseWf p x.1 x.2 hb
        simp only [Option.map_some, full]
        rw [require, if_pos h0]
        simp only
        rw [require, if_pos this.2.2.1]

/-- A checkpoint that is among the last ones is a picture of all pages at the moment it was made: its digest and every page of it. -/
theorem checkpoint_is_picture (ok : CfgOk c) (h : Run c tp ops s a) {k : Nat} {sn : Snap × Info} (hs : a.snap k = some sn) (hk : a.last < k + c.maxStored) :
    s.digestOf k = .ok (sn.2.block, sn.2.digest, Snap.digest c sn.1) ∧
      ∀ p, s.mem.getResPage p k = .ok ((sn.1 p).map (fun x => (x.1, c.pageH p x.1 x.2, x.2))) := by
  have hi := run_inv ok h
  have hm := hi.m
  have hf := hm.keep k (by rw [hs]; simp) hk
  have hso := hm.snapOk k sn hs
  have hr := hm.rel k sn hs hf
  have hlt := hm.lastLt
  refine ⟨?_, fun p => ?_⟩
  · unfold S.digestOf
    rw [require, if_pos hso.1, require, if_pos hf, require, if_pos (by rw [hm.last]; exact hso.2.1)]
    simp only [bind, R.bind]
    rw [hasDesc_eq (fun hn => absurd hn hr.1)]
    simp only
    cases hg : get k s.mem.descs with
    | none => exact absurd hg hr.1
    | some d =>
      obtain ⟨_, _, _, sn', a4, a5, a6⟩ := hm.dOk k d hg
      rw [hs] at a4
      cases a4
      rw [show require ((some d).isSome = true) = R.ok () from if_pos (by rfl)]
      simp only [ofOption]
      rw [a5, a6]
  · rw [getResPage_eq hm.pg.inc p k (by rw [hm.last]; exact hso.2.1), hr.2 p]
    rfl

/-- The pages of a checkpoint never change. -/
theorem checkpoint_immutable (ok : CfgOk c) (h : Run c tp ops s a) {s' : S} {a' : A} (hs : Steps c tp s a s' a') {k : Nat} {sn : Snap × Info} (hk : a.snap k = some sn) :
    ∃ i, a'.snap k = some (sn.1, i) := by
  have key : Inv c s' a' ∧ ∃ i, a'.snap k = some (sn.1, i) := by
    induction hs with
    | refl => exact ⟨run_inv ok h, sn.2, hk⟩
    | @step s1 s2 a1 op h1 hl hst ih =>
      obtain ⟨hi, i, hi2⟩ := ih
      refine ⟨step_inv ok hi hl hst, ?_⟩
      have hso := hi.m.snapOk _ _ hi2
      cases op with
      | save p b => show ∃ i, (if a1.fetching then a1 else _ : A).snap k = _; split <;> exact ⟨i, hi2⟩
      | zeroPage p => show ∃ i, (if a1.fetching then a1 else _ : A).snap k = _; split <;> exact ⟨i, hi2⟩
      | ckpt k' mb dg rvb =>
        show ∃ i, (if k' = a1.last then a1 else _ : A).snap k = _
        split
        · exact ⟨i, hi2⟩
        · refine ⟨i, ?_⟩
          show (if k = k' then _ else a1.snap k) = _
          rw [if_neg]
          · exact hi2
          · have := hl.2.2.1
            omega
      | collect => show ∃ i, (if a1.fetching then a1 else _ : A).snap k = _; split <;> exact ⟨i, hi2⟩
      | finish => exact ⟨i, hi2⟩
      | install d v =>
        show ∃ i, (if s1.accepts c (.install d v) then _ else a1 : A).snap k = _
        split
        · show ∃ i, (if k = d.num then some (tp d.num, _) else a1.snap k) = _
          by_cases e : k = d.num
          · obtain ⟨_, _, _, _, _, _, _, _, hc, _⟩ := hl
            have := hc.same _ (by rw [← e]; exact hi2)
            exact ⟨_, by rw [if_pos e, ← this]⟩
          · exact ⟨i, by rw [if_neg e]; exact hi2⟩
        · exact ⟨i, hi2⟩
      | fetch mc f => exact ⟨i, hi2⟩
      | restart => exact ⟨i, hi2⟩
      | other k v => exact ⟨i, hi2⟩
  exact key.2

/-- A start after a crash, at any point of any history, passes all checks and finds exactly what was in memory. -/
theorem restart_restores (ok : CfgOk c) (h : Run c tp ops s a) : s.restart c = .ok ⟨s.mem, s.db, []⟩ := (restart_ok ok (run_inv ok h)).1

/-- No assertion fails. -/
theorem never_aborts (ok : CfgOk c) (h : Run c tp ops s a) {op : Op} (hl : Legal c tp s a op) (h1 : op.isInstall = false) (h2 : ∀ mc f, op ≠ .fetch mc f) : ∃ s', s.step c op = .ok s' := by
  have hi := run_inv ok h
  cases op with
  | save p b => obtain ⟨x, h1, _⟩ := save_ok ok hi tp true hl.1 hl.2; exact ⟨x, h1⟩
  | zeroPage p => obtain ⟨x, h1, _⟩ := zeroPage_ok ok hi tp true hl; exact ⟨x, h1⟩
  | ckpt k mb dg rvb =>
    obtain ⟨l1, l2, l3, l4, l5, l6, l7⟩ := hl
    obtain ⟨x, h1, _⟩ := ckpt_ok ok hi tp true l1 l2 l3 l4 l5 l6 l7
    exact ⟨x, h1⟩
  | collect => exact ⟨_, rfl⟩
  | finish => exact ⟨_, rfl⟩
  | install d v => cases h1
  | fetch mc f => exact absurd rfl (h2 mc f)
  | restart => exact ⟨_, restart_restores ok h⟩
  | other k v => exact ⟨_, rfl⟩

/-! ## Replicas agree -/

theorem run_fold (h : Run c tp ops s a) (hn : ∀ op ∈ ops, op.isInstall = false) : a = ops.foldl (A.step c tp false) A.init := by
  induction h with
  | init => rfl
  | @step ops s s' a op _ hl hs ih =>
    rw [List.foldl_append, ← ih (fun o ho => hn o (List.mem_append_left _ ho))]
    have hop := hn op (List.mem_append_right _ List.mem_cons_self)
    have : s.accepts c op = false := by
      cases op with
      | install d v => cases hop
      | _ => rfl
    rw [this]
    rfl

theorem fold_passive : ∀ (ops : List Op) (a : A), ops.foldl (A.step c tp false) a = (ops.filter (fun o => !o.passive)).foldl (A.step c tp false) a := by
  intro ops
  induction ops with
  | nil => intro a; rfl
  | cons o ops ih =>
    intro a
    rw [List.foldl_cons, ih, List.filter_cons]
    cases ho : o.passive with
    | false => rfl
    | true =>
      have : a.step c tp false o = a := by
        cases o with
        | fetch mc f => rfl
        | restart => rfl
        | other k v => rfl
        | _ => cases ho
      rw [this]
      rfl

/-- Replicas that saved the same pages between the same checkpoints have the same digests and read the same, wherever each of them
crashed and whatever it was asked for. -/
theorem replicas_agree (ok : CfgOk c) {ops2 : List Op} {s2 : S} {a2 : A} (h : Run c tp ops s a) (h2 : Run c tp ops2 s2 a2) (hn : ∀ op ∈ ops, op.isInstall = false) (hn2 : ∀ op ∈ ops2, op.isInstall = false)
    (hs : ops.filter (fun o => !o.passive) = ops2.filter (fun o => !o.passive)) :
    (∀ p len, p < c.pages → 0 < len → len ≤ c.pageSize → s.load c p len = s2.load c p len) ∧
      ∀ k, a.snap k ≠ none → a.last < k + c.maxStored → s.digestOf k = s2.digestOf k := by
  have e : a = a2 := by rw [run_fold h hn, run_fold h2 hn2, fold_passive ops, fold_passive ops2, hs]
  subst e
  refine ⟨fun p len h0 h1 h3 => by rw [load_returns_saved ok h h0 h1 h3, load_returns_saved ok h2 h0 h1 h3], fun k hk hl => ?_⟩
  cases hsn : a.snap k with
  | none => exact absurd hsn hk
  | some sn => rw [(checkpoint_is_picture ok h hsn hl).1, (checkpoint_is_picture ok h2 hsn hl).1]

end Verif.Rp
