import Verif.Meta.Sets3
set_option linter.unusedSimpArgs false
set_option linter.unusedVariables false
/-!
# The start of the process
-/
namespace Verif.Meta
open Verif.Bytes

/-- nothing is stored -/
def Blank (g : Cfg) (d : Db) : Prop := ∀ i, 2 ≤ i → i < g.objs → d i = none

/-- the store represents the record -/
def DbRel (g : Cfg) (d : Db) (m : Spec.Rec) : Prop := (Holds g d m ∧ WF g m) ∨ (Blank g d ∧ m = Spec.Rec.init g)

section
variable {g : Cfg} {d : Db} {m : Spec.Rec}

theorem okExit_empty (g : Cfg) : OkExit g ExitDesc.empty :=
  ⟨by decide, by decide, by decide, by decide, okOpt_none _ _, by decide, by decide, fun _ h => (by cases h), fun _ h => (by cases h)⟩

theorem okNew_empty (g : Cfg) : OkNew g (NewDesc.empty g) := by
  refine ⟨?_, ?_, ?_, okOpt_none _ _, okOpt_none _ _, ?_, ?_⟩
  · show 0 < 2 ^ 63; decide
  · show 0 < 2 ^ 63; decide
  · show 0 < 2 ^ 63; decide
  · simp [NewDesc.empty]
  · intro m hm
    have : m = none := (List.mem_replicate.1 hm).2
    rw [this]; exact okOpt_none _ _

theorem wf_init (g : Cfg) : WF g (Spec.Rec.init g) where
  lastExec := by show 0 < 2 ^ 63; decide
  primary := by show 0 < 2 ^ 63; decide
  lower := by show 0 < 2 ^ 63; decide
  lastView := by show 0 < 2 ^ 63; decide
  lastStable := by show 0 < 2 ^ 63; decide
  aligned := rfl
  exit := okExit_empty g
  newView := okNew_empty g
  exec := okExec_empty
  stable := ⟨⟨by show 0 < 65536; decide, Nat.zero_le _⟩, fun _ h => (by cases h)⟩
  slot := fun _ => okSlot_empty g
  slotOut := fun _ _ => rfl
  ck := fun _ => okOpt_none _ _
  ckOut := fun _ _ => rfl
  user := fun _ h => (by cases h)
  rsi := fun _ _ h => (by cases h)
  dbCk := fun _ h => (by cases h)

theorem DbRel.wf (h : DbRel g d m) : WF g m := by
  rcases h with h | ⟨_, rfl⟩
  · exact h.2
  · exact wf_init g

theorem version_len : 0 < versionBytes.length ∧ versionBytes.length ≤ 80 := by decide

theorem mem_defaults (g : Cfg) : ∀ w ∈ defaults g, ∃ k, KW g k w ∧ enc g (Spec.Rec.init g) k = some (some w.2) := by
  intro w hw
  have h8 := enc8_len 0
  rcases List.mem_append.1 hw with hw | hw
  · simp only [List.mem_cons, List.not_mem_nil, or_false] at hw
    rcases hw with rfl | rfl | rfl | rfl | rfl | rfl
    · exact ⟨.version, ⟨trivial, rfl, version_len.1, version_len.2⟩, rfl⟩
    · exact ⟨.lastExec, ⟨trivial, rfl, h8.1, h8.2⟩, rfl⟩
    · exact ⟨.primary, ⟨trivial, rfl, h8.1, h8.2⟩, rfl⟩
    · exact ⟨.lower, ⟨trivial, rfl, h8.1, h8.2⟩, rfl⟩
    · exact ⟨.lastView, ⟨trivial, rfl, h8.1, h8.2⟩, rfl⟩
    · exact ⟨.lastStable, ⟨trivial, rfl, h8.1, h8.2⟩, rfl⟩
  rcases List.mem_append.1 hw with hw | hw
  · rcases List.mem_cons.1 hw with rfl | hw
    · exact ⟨.seqB, ⟨trivial, rfl, (enc8_len 1).1, (enc8_len 1).2⟩, rfl⟩
    · obtain ⟨i, hi, hwi⟩ := List.mem_flatMap.1 hw
      obtain ⟨p, hp, hkw, hv⟩ := mem_clearSeq (g := g) (List.mem_range.1 hi) w hwi
      refine ⟨.seq i p, hkw, ?_⟩
      show some (some (slotBytes Spec.Slot.empty p)) = _
      rw [hv]
  rcases List.mem_append.1 hw with hw | hw
  · rcases List.mem_cons.1 hw with rfl | hw
    · exact ⟨.ckB, ⟨trivial, rfl, h8.1, h8.2⟩, rfl⟩
    · obtain ⟨i, hi, hwi⟩ := List.mem_flatMap.1 hw
      obtain ⟨p, hp, hkw, hv⟩ := mem_clearCk (g := g) (List.mem_range.1 hi) w hwi
      refine ⟨.ck i p, hkw, ?_⟩
      show some (some (ckBytes Spec.CkSlot.empty p)) = _
      rw [hv]
  rcases List.mem_append.1 hw with hw | hw
  · obtain ⟨k, h1, h2, _⟩ := mem_exitWrites (okExit_empty g) (Spec.Rec.init g) w hw
    exact ⟨k, h1, h2⟩
  rcases List.mem_append.1 hw with hw | hw
  · obtain ⟨k, h1, h2, _⟩ := mem_newWrites (okNew_empty g) (Spec.Rec.init g) w hw
    exact ⟨k, h1, h2⟩
  · simp only [List.mem_cons, List.not_mem_nil, or_false] at hw
    rcases hw with rfl | rfl
    · have := serExec_length okExec_empty
      exact ⟨.exec, ⟨trivial, rfl, this.1, this.2⟩, rfl⟩
    · exact ⟨.stable, ⟨trivial, rfl, serStable_pos _, serStable_le (wf_init g).stable⟩, rfl⟩

theorem cover_defaults (g : Cfg) : ∀ k, k.Valid g → ∀ v, enc g (Spec.Rec.init g) k = some v → (∃ w ∈ defaults g, w.1 = k.id g) ∨ v = none := by
  intro k hk v h
  unfold defaults
  have memA : ∀ {w : Nat × Bytes} {l : List (Nat × Bytes)}, w ∈ [(idVersion, versionBytes), (idLastExec, leEncode 8 0), (idPrimary, leEncode 8 0), (idLower, leEncode 8 0),
      (idLastView, leEncode 8 0), (idLastStable, leEncode 8 0)] → w ∈ [(idVersion, versionBytes), (idLastExec, leEncode 8 0), (idPrimary, leEncode 8 0), (idLower, leEncode 8 0),
      (idLastView, leEncode 8 0), (idLastStable, leEncode 8 0)] ++ l := fun h => List.mem_append.2 (Or.inl h)
  cases k with
  | version => exact Or.inl ⟨(idVersion, versionBytes), memA (by simp), rfl⟩
  | lastExec => exact Or.inl ⟨(idLastExec, leEncode 8 0), memA (by simp), rfl⟩
  | primary => exact Or.inl ⟨(idPrimary, leEncode 8 0), memA (by simp), rfl⟩
  | lower => exact Or.inl ⟨(idLower, leEncode 8 0), memA (by simp), rfl⟩
  | lastView => exact Or.inl ⟨(idLastView, leEncode 8 0), memA (by simp), rfl⟩
  | lastStable => exact Or.inl ⟨(idLastStable, leEncode 8 0), memA (by simp), rfl⟩
  | seqB =>
    refine Or.inl ⟨(idSeq, leEncode 8 1), List.mem_append.2 (Or.inr (List.mem_append.2 (Or.inl ?_))), rfl⟩
    exact List.mem_cons_self
  | seq i p =>
    obtain ⟨w, hw, he⟩ := cover_clearSeq (g := g) i hk.2
    refine Or.inl ⟨w, List.mem_append.2 (Or.inr (List.mem_append.2 (Or.inl ?_))), he⟩
    exact List.mem_cons_of_mem _ (List.mem_flatMap.2 ⟨i, List.mem_range.2 hk.1, hw⟩)
  | ckB =>
    refine Or.inl ⟨(idCk, leEncode 8 0), List.mem_append.2 (Or.inr (List.mem_append.2 (Or.inr (List.mem_append.2 (Or.inl ?_))))), rfl⟩
    exact List.mem_cons_self
  | ck i p =>
    obtain ⟨w, hw, he⟩ := cover_clearCk (g := g) i hk.2
    refine Or.inl ⟨w, List.mem_append.2 (Or.inr (List.mem_append.2 (Or.inr (List.mem_append.2 (Or.inl ?_))))), he⟩
    exact List.mem_cons_of_mem _ (List.mem_flatMap.2 ⟨i, List.mem_range.2 hk.1, hw⟩)
  | exitS =>
    refine Or.inl ⟨_, List.mem_append.2 (Or.inr (List.mem_append.2 (Or.inr (List.mem_append.2 (Or.inr (List.mem_append.2 (Or.inl (List.mem_cons_self)))))))), rfl⟩
  | exitE i => simp only [enc] at h; rw [if_neg (by show ¬ i < 0; omega)] at h; cases h
  | exitC i => simp only [enc] at h; rw [if_neg (by show ¬ i < 0; omega)] at h; cases h
  | newS =>
    refine Or.inl ⟨_, List.mem_append.2 (Or.inr (List.mem_append.2 (Or.inr (List.mem_append.2 (Or.inr (List.mem_append.2 (Or.inr (List.mem_append.2 (Or.inl (List.mem_cons_self)))))))))), rfl⟩
  | newE i =>
    refine Or.inl ⟨_, List.mem_append.2 (Or.inr (List.mem_append.2 (Or.inr (List.mem_append.2 (Or.inr (List.mem_append.2 (Or.inr (List.mem_append.2 (Or.inl (List.mem_cons_of_mem _ (List.mem_map.2 ⟨i, List.mem_range.2 hk, rfl⟩))))))))))), rfl⟩
  | exec =>
    refine Or.inl ⟨(idExec, serExec ExecDesc.empty), List.mem_append.2 (Or.inr (List.mem_append.2 (Or.inr (List.mem_append.2 (Or.inr (List.mem_append.2 (Or.inr (List.mem_append.2 (Or.inr (by simp)))))))))), rfl⟩
  | stable =>
    refine Or.inl ⟨(idStable, serStable []), List.mem_append.2 (Or.inr (List.mem_append.2 (Or.inr (List.mem_append.2 (Or.inr (List.mem_append.2 (Or.inr (List.mem_append.2 (Or.inr (by simp)))))))))), rfl⟩
  | user => right; exact (Option.some.inj h).symm
  | rsi i => right; exact (Option.some.inj h).symm
  | erase => right; exact (Option.some.inj h).symm
  | epoch => cases h
  | dbCk => right; exact (Option.some.inj h).symm

theorem holds_defaults (hg : g.Ok) (hd : Blank g d) (h1 : (d 1).isSome = true) : Holds g (d.putAll (defaults g)) (Spec.Rec.init g) := by
  have hblank : ∀ k : Key, k.Valid g → d (k.id g) = none := fun k hk => hd _ (Key.id_lt hg hk).1 (Key.id_lt hg hk).2
  constructor
  · intro k hv v hvv
    refine putAll_at _ d ?_ ?_
    · intro w hw e
      obtain ⟨k', hk', he'⟩ := mem_defaults g w hw
      have : k' = k := Key.id_inj hk'.valid hv (by rw [← hk'.id, e])
      subst this
      rw [he'] at hvv
      exact Option.some.inj hvv
    · cases cover_defaults g k hv v hvv with
      | inl x => exact Or.inl x
      | inr x => right; rw [x]; exact hblank k hv
  · rw [putAll_ne]
    · exact h1
    · intro w hw e
      obtain ⟨k', hk', _⟩ := mem_defaults g w hw
      have := (Key.id_lt hg hk'.valid).1
      rw [hk'.id] at e; omega
  · left
    rw [putAll_ne]
    · exact ⟨hblank .epoch trivial, rfl⟩
    · intro w hw e
      obtain ⟨k', hk', he'⟩ := mem_defaults g w hw
      have : k' = Key.epoch := Key.id_inj hk'.valid trivial (by rw [← hk'.id, e]; rfl)
      subst this
      cases he'

/-! ## the erase mark and the store after `createReplica` -/

theorem mark_ne (d : Db) {i : Nat} (h : i ≠ 1) : g.mark d i = d i := by
  unfold Cfg.mark; split
  · unfold Db.put; rw [if_neg h]
  · rfl

theorem mark_one (d : Db) : (g.mark d 1).isSome = true := by
  unfold Cfg.mark; split
  · simp [Db.put]
  · next h => cases hd : d 1 with
    | none => rw [hd] at h; exact absurd rfl h
    | some x => rfl

theorem mark_id {d : Db} (h : (d 1).isSome = true) : g.mark d = d := by
  unfold Cfg.mark; rw [if_neg (by cases hd : d 1 <;> simp_all)]

theorem Blank.mark (h : Blank g d) : Blank g (g.mark d) := fun i h1 h2 => by rw [mark_ne d (by omega)]; exact h i h1 h2

theorem DbRel.mark (h : DbRel g d m) : DbRel g (g.mark d) m := by
  rcases h with h | ⟨h, rfl⟩
  · left; rw [mark_id h.1.mark]; exact h
  · right; exact ⟨h.mark, rfl⟩

theorem erase_eq (hg : g.Ok) (h : DbRel g d m) : ((g.mark d) idErase).any (fun v => v.headD 0 != 0) = m.erase := by
  have e : idErase = (Key.erase).id g := rfl
  rw [mark_ne d (by decide), e]
  rcases h with h | ⟨h, rfl⟩
  · rw [h.1.key .erase trivial _ rfl]
    cases m.erase <;> rfl
  · rw [h _ (Key.id_lt hg (k := .erase) trivial).1 (Key.id_lt hg (k := .erase) trivial).2]
    rfl

theorem clean_blank (d : Db) : Blank g (g.clean d) := fun i _ h => by unfold Cfg.clean; rw [if_pos h]

theorem bootDb_keep (hg : g.Ok) (h : DbRel g d m) (he : m.erase = false) (k : Nat) : g.bootDb d k = if k = 0 then d else g.mark d := by
  have h1 := erase_eq hg h
  rw [he] at h1
  match k with
  | 0 => rfl
  | 1 => rfl
  | 2 => show (if _ then _ else _) = _; rw [h1]; rfl
  | k + 3 =>
    show g.mark (if _ then _ else _) = _
    rw [h1]
    show g.mark (g.mark d) = _
    rw [mark_id (mark_one d), if_neg (by omega)]

theorem bootDb_erase (hg : g.Ok) (h : DbRel g d m) (he : m.erase = true) :
    g.bootDb d 2 = g.clean (g.mark d) ∧ ∀ k, g.bootDb d (k + 3) = g.mark (g.clean (g.mark d)) := by
  have h1 := erase_eq hg h
  rw [he] at h1
  constructor
  · show (if _ then _ else _) = _; rw [h1]; rfl
  · intro k; show g.mark (if _ then _ else _) = _; rw [h1]; rfl

/-- the intermediate contents during a start represent the old record or the record of a new replica -/
theorem bootDb_rel (hg : g.Ok) (h : DbRel g d m) (k : Nat) :
    DbRel g (g.bootDb d k) m ∨ (m.erase = true ∧ DbRel g (g.bootDb d k) (Spec.Rec.init g)) := by
  cases he : m.erase with
  | false =>
    left
    rw [bootDb_keep hg h he]
    split
    · exact h
    · exact h.mark
  | true =>
    obtain ⟨e2, e3⟩ := bootDb_erase hg h he
    match k with
    | 0 => exact Or.inl h
    | 1 => exact Or.inl h.mark
    | 2 => right; rw [e2]; exact ⟨rfl, Or.inr ⟨clean_blank _, rfl⟩⟩
    | k + 3 => right; rw [e3]; exact ⟨rfl, Or.inr ⟨(clean_blank _).mark, rfl⟩⟩

theorem mem_boot_cur (m : Spec.Rec) (old : List Spec.Rec) : m ∈ (Spec.boot g m old).cur :: (Spec.boot g m old).old := by
  unfold Spec.boot; split <;> simp

theorem mem_boot_old {m x : Spec.Rec} {old : List Spec.Rec} (h : x ∈ old) : x ∈ (Spec.boot g m old).cur :: (Spec.boot g m old).old := by
  unfold Spec.boot; split <;> simp [h]

theorem mem_boot_init {m : Spec.Rec} (old : List Spec.Rec) (h : m.erase = true) : Spec.Rec.init g ∈ (Spec.boot g m old).cur :: (Spec.boot g m old).old := by
  unfold Spec.boot; rw [if_pos h]; simp

/-! ## `init` and the loader -/

/-- a fresh process over a store that holds the record -/
theorem init_holds (hg : g.Ok) (h : Holds g d m) (w : WF g m) (old : List Db) :
    ∃ s, (fresh d old).init g false = some s ∧ s.db = d ∧ s.old = old ∧ s.bat = none ∧ s.nest = 0 ∧ s.seqB = m.lastStable + 1 ∧ s.ckB = m.lastStable ∧
      s.hasExit = false ∧ s.hasNew = false ∧ s.hasExec = !decide (m.exec = ExecDesc.empty) ∧ (s.hasExec = true → s.execSeq = m.exec.seq) := by
  have hv : d idVersion = some versionBytes := h.key .version trivial _ rfl
  have hs := readNat_key hg h (k := .seqB) trivial (n := m.lastStable + 1) rfl (by have := w.lastStable; omega)
  have hck := readNat_key hg h (k := .ckB) trivial (n := m.lastStable) rfl (by have := w.lastStable; omega)
  have hs' : g.readNat d idSeq = some (m.lastStable + 1) := hs
  have hck' : g.readNat d idCk = some m.lastStable := hck
  have hx := getExec_eq hg h w (fun _ => [])
  have hi : (fresh d old).init g false = some (if m.exec = ExecDesc.empty then { fresh d old with seqB := m.lastStable + 1, ckB := m.lastStable }
      else { fresh d old with seqB := m.lastStable + 1, ckB := m.lastStable, hasExec := true, execSeq := m.exec.seq }) := by
    unfold St.init
    rw [if_neg (by show ¬(false = true ∨ (d idVersion).isNone = true); rw [hv]; simp)]
    rw [if_pos (by exact hv)]
    show (match g.readNat d idSeq, g.readNat d idCk, g.getExec d (fun _ => []) with
      | some sb, some cb, some e => _
      | _, _, _ => none) = _
    rw [hs', hck', hx]
  by_cases he : m.exec = ExecDesc.empty
  · rw [if_pos he] at hi
    exact ⟨_, hi, rfl, rfl, rfl, rfl, rfl, rfl, rfl, rfl, by simp [he, fresh], fun h => (by cases h)⟩
  · rw [if_neg he] at hi
    exact ⟨_, hi, rfl, rfl, rfl, rfl, rfl, rfl, rfl, rfl, by simp [he], fun _ => rfl⟩

theorem load_ok (hg : g.Ok) {s : St} (h : Holds g s.db m) (w : WF g m) (hn : s.nest = 0) (hx : s.hasExit = false) (hv : s.hasNew = false) :
    s.load g = some { s with
      hasExit := !m.exit.isDefault
      hasNew := !m.newView.isDefault
      lastExec := m.lastExec
      lastView := m.lastView } := by
  have h1 : s.hasExitDesc g = some (!m.exit.isDefault, { s with hasExit := !m.exit.isDefault }) := by
    unfold St.hasExitDesc
    rw [if_neg (by rw [hx]; decide), if_neg (by omega), getExit_eq hg h w]; rfl
  have h2 : ({ s with hasExit := !m.exit.isDefault } : St).hasNewDesc g =
      some (!m.newView.isDefault, { s with hasExit := !m.exit.isDefault, hasNew := !m.newView.isDefault }) := by
    unfold St.hasNewDesc
    rw [if_neg (by show ¬ s.hasNew = true; rw [hv]; decide)]
    show (g.getNew s.db (fun _ => [])).map _ = _
    rw [getNew_eq hg h w]; rfl
  have h3 : g.readNat s.db idLastExec = some m.lastExec := readNat_key hg h (k := .lastExec) trivial rfl (by have := w.lastExec; omega)
  have h4 : g.readNat s.db idLastView = some m.lastView := readNat_key hg h (k := .lastView) trivial rfl (by have := w.lastView; omega)
  unfold St.load
  rw [h1]
  dsimp only
  rw [h2]
  dsimp only
  rw [h3, h4]

theorem fin_fresh (d b : Db) (old : List Db) :
    ({ ({ ({ fresh d old with bat := some (fun _ => none), nest := 1 } : St) with bat := some b } : St) with seqB := 1, ckB := 0 } : St).fin false =
      some { fresh (d.over b) (d :: old) with seqB := 1, ckB := 0 } := rfl

/-- a fresh process over an empty store -/
theorem init_blank (hg : g.Ok) (hd : Blank g d) (old : List Db) :
    (fresh d old).init g false = some { fresh (d.putAll (defaults g)) (d :: old) with seqB := 1, ckB := 0 } := by
  have hv : d idVersion = none := hd _ (by decide) (by have := hg.le_objs; show 2 < g.objs; omega)
  unfold St.init
  rw [if_pos (by right; show (d idVersion).isNone = true; rw [hv]; rfl)]
  have hb : (fresh d old).begin = { fresh d old with bat := some (fun _ => none), nest := 1 } := rfl
  rw [hb, St.wrAll_eq hg (defaults g) _ (fun _ => none) rfl (fun w hw => by obtain ⟨k, h, _⟩ := mem_defaults g w hw; exact ⟨k, h⟩), Option.bind_some]
  have ho : d.over (Db.putAll (fun _ => none) (defaults g)) = d.putAll (defaults g) := by
    rw [over_putAll]; rfl
  rw [fin_fresh, ho]

end
end Verif.Meta
