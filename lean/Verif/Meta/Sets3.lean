import Verif.Meta.Sets2
set_option linter.unusedSimpArgs false
set_option linter.unusedVariables false
/-!
# Every setter does what the specification says
-/
namespace Verif.Meta
open Verif.Bytes

section
variable {g : Cfg} {s : St} {b : Db} {m cur : Spec.Rec}

theorem hasNewDesc_eq (hg : g.Ok) (hc : Cache s m) (hcur : Holds g s.db cur) (wcur : WF g cur)
    (hmono : m.newView.isDefault = true → cur.newView.isDefault = true) : s.hasNewDesc g = some (!m.newView.isDefault, s) := by
  unfold St.hasNewDesc
  by_cases h : s.hasNew = true
  · rw [if_pos h, ← hc.hasNew, h]
  · rw [if_neg h, getNew_eq hg hcur wcur]
    have h0 : s.hasNew = false := by simpa using h
    have h1 : m.newView.isDefault = true := by have := hc.hasNew; rw [h0] at this; simpa using this.symm
    have h2 := hmono h1
    simp only [Option.map_some, h1, h2, Bool.not_true]
    congr 2
    cases s; cases h0; rfl

theorem stable_done (hg : g.Ok) (hb : s.bat = some b) (hh : Holds g (s.db.over b) m) (hw : WF g m) (hc : Cache s m) {n : Nat} (hn : n < 2 ^ 63)
    (h1 : n % 150 = 0) (h2 : m.lastStable ≤ n) : ∃ s' b', Done g s b m (.lastStable n) s' b' := by
  obtain ⟨cs, hcs, hcm⟩ := advance_ck (old := s.ckB) (new := n) (by rw [hc.ckB]; exact hw.aligned) h1 (by rw [hc.ckB]; exact h2)
  obtain ⟨ss, hss, hsm⟩ := advance_seq (old := s.seqB) (new := n + 1) (by rw [hc.seqB]; omega)
  rw [hc.ckB] at hcm
  rw [hc.seqB] at hsm
  have hwr := wr_eq hg hb (k := .lastStable) trivial (enc8_len n).1 (enc8_len n).2
  obtain ⟨ws, hws⟩ : ∃ ws, ws = (idLastStable, leEncode 8 n) :: (idCk, leEncode 8 n) :: (idSeq, leEncode 8 (n + 1)) ::
      (cs.flatMap clearCk ++ ss.flatMap clearSeq) := ⟨_, rfl⟩
  have hk : ∀ w ∈ ws, ∃ k, KW g k w ∧ enc g (Spec.apply m (.lastStable n)) k = some (some w.2) ∧ k.plain = true := by
    intro w hw'
    rw [hws] at hw'
    rcases List.mem_cons.1 hw' with rfl | hw'
    · exact ⟨.lastStable, ⟨trivial, rfl, (enc8_len n).1, (enc8_len n).2⟩, rfl, rfl⟩
    rcases List.mem_cons.1 hw' with rfl | hw'
    · exact ⟨.ckB, ⟨trivial, rfl, (enc8_len n).1, (enc8_len n).2⟩, rfl, rfl⟩
    rcases List.mem_cons.1 hw' with rfl | hw'
    · exact ⟨.seqB, ⟨trivial, rfl, (enc8_len _).1, (enc8_len _).2⟩, rfl, rfl⟩
    rcases List.mem_append.1 hw' with hw' | hw'
    · obtain ⟨i, hi, hwi⟩ := List.mem_flatMap.1 hw'
      obtain ⟨hi3, hev⟩ := (hcm i).1 hi
      obtain ⟨p, hp, hkw, hv⟩ := mem_clearCk (g := g) hi3 w hwi
      refine ⟨.ck i p, hkw, ?_, rfl⟩
      have hr := ckAt_range h1 i
      have hempty : m.ck (ckAt n i) = Spec.CkSlot.empty :=
        hw.ckOut _ (by have := ckAt_evicted hw.aligned h1 h2 hev; omega)
      show some (some (ckBytes (if ckAt n i < n then Spec.CkSlot.empty else m.ck (ckAt n i)) p)) = _
      rw [if_neg (by omega), hempty, hv]
    · obtain ⟨i, hi, hwi⟩ := List.mem_flatMap.1 hw'
      obtain ⟨hi3, hev⟩ := (hsm i).1 hi
      obtain ⟨p, hp, hkw, hv⟩ := mem_clearSeq (g := g) hi3 w hwi
      refine ⟨.seq i p, hkw, ?_, rfl⟩
      have hr := seqAt_range (n + 1) i
      have hempty : m.slot (seqAt (n + 1) i) = Spec.Slot.empty :=
        hw.slotOut _ (by have := seqAt_evicted (by omega) hev; omega)
      show some (some (slotBytes (if seqAt (n + 1) i ≤ n then Spec.Slot.empty else m.slot (seqAt (n + 1) i)) p)) = _
      rw [if_neg (by omega), hempty, hv]
  have hr : ∀ k, k.Valid g → ∀ v, enc g (Spec.apply m (.lastStable n)) k = some v → (∃ w ∈ ws, w.1 = k.id g) ∨ enc g m k = some v := by
    intro k hv v h
    rw [hws]
    cases k with
    | lastStable => exact Or.inl ⟨_, List.mem_cons_self, rfl⟩
    | ckB => exact Or.inl ⟨(idCk, leEncode 8 n), by simp, rfl⟩
    | seqB => exact Or.inl ⟨(idSeq, leEncode 8 (n + 1)), by simp, rfl⟩
    | ck i p =>
      by_cases hi : ckAt m.lastStable i < n
      · obtain ⟨w, hw', he⟩ := cover_clearCk (g := g) i hv.2
        refine Or.inl ⟨w, ?_, he⟩
        have : w ∈ cs.flatMap clearCk := List.mem_flatMap.2 ⟨i, (hcm i).2 ⟨hv.1, hi⟩, hw'⟩
        simp [this]
      · right
        have hr := ckAt_range h1 i
        have h' : some (some (ckBytes (if ckAt n i < n then Spec.CkSlot.empty else m.ck (ckAt n i)) p)) = some v := h
        rw [if_neg (by omega), ckAt_kept hw.aligned h1 h2 hi] at h'
        exact h'
    | seq i p =>
      by_cases hi : seqAt (m.lastStable + 1) i < n + 1
      · obtain ⟨w, hw', he⟩ := cover_clearSeq (g := g) i hv.2
        refine Or.inl ⟨w, ?_, he⟩
        have : w ∈ ss.flatMap clearSeq := List.mem_flatMap.2 ⟨i, (hsm i).2 ⟨hv.1, hi⟩, hw'⟩
        simp [this]
      · right
        have hr := seqAt_range (n + 1) i
        have h' : some (some (slotBytes (if seqAt (n + 1) i ≤ n then Spec.Slot.empty else m.slot (seqAt (n + 1) i)) p)) = some v := h
        rw [if_neg (by omega), seqAt_kept (by omega) hi] at h'
        exact h'
    | _ => exact Or.inr h
  obtain ⟨r1, r2, r3, r4⟩ := many_done hg hb hh hk hr rfl
  refine ⟨{ s with bat := some (b.putAll ws), ckB := n, seqB := n + 1 }, b.putAll ws, ?_, rfl, rfl, rfl, rfl, r2, ?_, ?_, r4⟩
  · have hid : (Key.lastStable).id g = idLastStable := rfl
    rw [hid] at hwr
    show (match s.wr g idLastStable (leEncode 8 n) with
      | none => none
      | some s => match advance CW ckItems s.ckB n, advance 1 W s.seqB (n + 1) with
        | some cs, some ss =>
          ({ s with ckB := n, seqB := n + 1 } : St).wrAll g
            ((idCk, leEncode 8 n) :: (idSeq, leEncode 8 (n + 1)) :: (cs.flatMap clearCk ++ ss.flatMap clearSeq))
        | _, _ => none) = _
    rw [hwr]
    dsimp only
    rw [hcs, hss]
    dsimp only
    rw [St.wrAll_eq hg _ _ (b.put idLastStable (leEncode 8 n)) rfl]
    · rw [hws]; rfl
    · intro w hw'
      obtain ⟨k, h1, _⟩ := hk w (by rw [hws]; exact List.mem_cons_of_mem _ hw')
      exact ⟨k, h1⟩
  · exact ⟨rfl, rfl, hc.lastExec, hc.lastView, hc.hasExit, hc.hasNew, hc.hasExec, hc.execSeq⟩
  · rw [r3]; simp [Upd.isUser]

theorem clear_done (hg : g.Ok) (hb : s.bat = some b) (hh : Holds g (s.db.over b) m) (hc : Cache s m) :
    ∃ s' b', Done g s b m .clearWindow s' b' := by
  have hk : ∀ w ∈ seqDefaults s.seqB, ∃ k, KW g k w ∧ enc g (Spec.apply m .clearWindow) k = some (some w.2) ∧ k.plain = true := by
    intro w hw
    rcases List.mem_cons.1 hw with rfl | hw
    · refine ⟨.seqB, ⟨trivial, rfl, (enc8_len _).1, (enc8_len _).2⟩, ?_, rfl⟩
      rw [hc.seqB]; rfl
    · obtain ⟨i, hi, hwi⟩ := List.mem_flatMap.1 hw
      obtain ⟨p, hp, hkw, hv⟩ := mem_clearSeq (g := g) (List.mem_range.1 hi) w hwi
      refine ⟨.seq i p, hkw, ?_, rfl⟩
      show some (some (slotBytes Spec.Slot.empty p)) = _
      rw [hv]
  have hr : ∀ k, k.Valid g → ∀ v, enc g (Spec.apply m .clearWindow) k = some v → (∃ w ∈ seqDefaults s.seqB, w.1 = k.id g) ∨ enc g m k = some v := by
    intro k hv v h
    cases k with
    | seq i p =>
      obtain ⟨w, hw', he⟩ := cover_clearSeq (g := g) i hv.2
      exact Or.inl ⟨w, List.mem_cons_of_mem _ (List.mem_flatMap.2 ⟨i, List.mem_range.2 hv.1, hw'⟩), he⟩
    | _ => exact Or.inr h
  obtain ⟨r1, r2, r3, r4⟩ := many_done hg hb hh hk hr rfl
  refine ⟨_, _, r1, rfl, rfl, rfl, rfl, r2, ?_, by rw [r3]; simp [Upd.isUser], r4⟩
  exact ⟨hc.seqB, hc.ckB, hc.lastExec, hc.lastView, hc.hasExit, hc.hasNew, hc.hasExec, hc.execSeq⟩

theorem inBuf_le {a n : Nat} {x : Option Msg} (h : OkOpt g n x) (ha : inBuf n + 1 ≤ a) : 0 < (serMsg x).length ∧ (serMsg x).length ≤ a :=
  ⟨serMsg_pos x, Nat.le_trans (serMsg_le h) ha⟩

theorem set_ok (hg : g.Ok) (hn : s.nest ≠ 0) (hb : s.bat = some b) (hh : Holds g (s.db.over b) m) (hw : WF g m) (hc : Cache s m)
    (hcur : Holds g s.db cur) (wcur : WF g cur) (hmono : m.newView.isDefault = true → cur.newView.isDefault = true)
    {u : Upd} (hu : u.Ok g) (ha : Spec.accepts g m u = true) : ∃ s' b', Done g s b m u s' b' := by
  have hne := nonExec_eq hn hc
  have hsz : (Key.seq 0 0).size g = (inBuf g.maxExt + 1) + (inBuf g.maxFcp + 1) + (inBuf g.maxFull + 1) + (inBuf g.maxFull + 1) + 2 := rfl
  have hcz : (Key.ck 0 0).size g = inBuf (g.maxExt + 1024) + 1 + 1 := rfl
  cases u with
  | lastExec n =>
    simp only [Spec.accepts, decide_eq_true_eq] at ha
    refine ⟨{ s with bat := some (b.put ((Key.lastExec).id g) (leEncode 8 n)), lastExec := n }, _,
      one_done hg hb hh (k := .lastExec) trivial rfl (enc8_len n).1 (enc8_len n).2 rfl ?_ rfl rfl ?_⟩
    · intro k' _ hne v' h; cases k' <;> first | exact h | exact absurd rfl hne
    · intro hw
      refine ⟨?_, rfl, rfl, rfl, rfl, hc.seqB, hc.ckB, rfl, hc.lastView, hc.hasExit, hc.hasNew, hc.hasExec, hc.execSeq⟩
      show (if s.nest ≠ 0 ∧ s.lastExec ≤ n then (s.wr g idLastExec (leEncode 8 n)).map (fun s => { s with lastExec := n }) else none) = _
      rw [if_pos ⟨hn, by rw [hc.lastExec]; exact ha⟩, show s.wr g idLastExec (leEncode 8 n) = _ from wr_of hw]
      rfl
  | primary n =>
    refine ⟨{ s with bat := some (b.put ((Key.primary).id g) (leEncode 8 n)) }, _,
      one_done hg hb hh (k := .primary) trivial rfl (enc8_len n).1 (enc8_len n).2 rfl ?_ rfl rfl ?_⟩
    · intro k' _ hne v' h; cases k' <;> first | exact h | exact absurd rfl hne
    · intro hw
      refine ⟨?_, rfl, rfl, rfl, rfl, hc.seqB, hc.ckB, hc.lastExec, hc.lastView, hc.hasExit, hc.hasNew, hc.hasExec, hc.execSeq⟩
      show (if s.nonExec then s.wr g idPrimary (leEncode 8 n) else none) = _
      rw [hne, if_pos (show Spec.notAhead m = true from ha)]
      exact wr_of hw
  | lower n =>
    refine ⟨{ s with bat := some (b.put ((Key.lower).id g) (leEncode 8 n)) }, _,
      one_done hg hb hh (k := .lower) trivial rfl (enc8_len n).1 (enc8_len n).2 rfl ?_ rfl rfl ?_⟩
    · intro k' _ hne v' h; cases k' <;> first | exact h | exact absurd rfl hne
    · intro hw
      refine ⟨?_, rfl, rfl, rfl, rfl, hc.seqB, hc.ckB, hc.lastExec, hc.lastView, hc.hasExit, hc.hasNew, hc.hasExec, hc.execSeq⟩
      show (if s.nonExec then s.wr g idLower (leEncode 8 n) else none) = _
      rw [hne, if_pos (show Spec.notAhead m = true from ha)]
      exact wr_of hw
  | lastView n =>
    simp only [Spec.accepts, Bool.and_eq_true, decide_eq_true_eq] at ha
    refine ⟨{ s with bat := some (b.put ((Key.lastView).id g) (leEncode 8 n)), lastView := n }, _,
      one_done hg hb hh (k := .lastView) trivial rfl (enc8_len n).1 (enc8_len n).2 rfl ?_ rfl rfl ?_⟩
    · intro k' _ hne v' h; cases k' <;> first | exact h | exact absurd rfl hne
    · intro hw
      refine ⟨?_, rfl, rfl, rfl, rfl, hc.seqB, hc.ckB, hc.lastExec, rfl, hc.hasExit, hc.hasNew, hc.hasExec, hc.execSeq⟩
      show (if s.nonExec = true ∧ s.lastView ≤ n then (s.wr g idLastView (leEncode 8 n)).map (fun s => { s with lastView := n }) else none) = _
      rw [hne, hc.lastView, if_pos ha, show s.wr g idLastView (leEncode 8 n) = _ from wr_of hw]
      rfl
  | exit d =>
    simp only [Spec.accepts, Bool.and_eq_true, Bool.or_eq_true, decide_eq_true_eq] at ha
    have ho := hu.2 ha.1.2
    obtain ⟨r1, r2, r3, r4⟩ := many_done hg hb hh (mem_exitWrites ho m) (cover_exitWrites d m) rfl
    refine ⟨{ s with bat := some (b.putAll (exitWrites g d)), hasExit := true }, _, ?_, rfl, rfl, rfl, rfl, r2, ?_, by rw [r3]; simp [Upd.isUser], r4⟩
    · have hk := ho.k
      have e1 : W = 300 := rfl
      show (if s.nest = 0 then none
        else match s.hasNewDesc g with
          | none => none
          | some (h, s) =>
            if (h = true ∨ d.view = 0) ∧ d.elements.length ≤ W ∧ d.elements.all (prevOk g d.view) = true ∧ d.complaints.length ≤ 301 then
              (s.wrAll g (exitWrites g d)).map (fun s => { s with hasExit := true })
            else none) = _
      rw [if_neg hn, hasNewDesc_eq hg hc hcur wcur hmono]
      dsimp only
      rw [if_pos ⟨ha.1.1, ha.1.2, ha.2, by omega⟩, r1]
      rfl
    · refine ⟨hc.seqB, hc.ckB, hc.lastExec, hc.lastView, ?_, hc.hasNew, hc.hasExec, hc.execSeq⟩
      show true = !d.isDefault
      rw [hu.1]; rfl
  | newView d =>
    have ha0 := ha
    simp only [Spec.accepts, Bool.and_eq_true] at ha
    have hlen : d.vcs.length = g.vcNum := by
      have h2 := ha.2
      unfold newOk at h2
      cases hd : d.newView with
      | none => rw [hd] at h2; cases h2
      | some x => rw [hd] at h2; simp only [Bool.and_eq_true, decide_eq_true_eq] at h2; exact h2.1.2
    have ho := hu.2 hlen
    obtain ⟨r1, r2, r3, r4⟩ := many_done hg hb hh (mem_newWrites ho m) (cover_newWrites d m) rfl
    refine ⟨{ s with bat := some (b.putAll (newWrites g d)), hasNew := true }, _, ?_, rfl, rfl, rfl, rfl, r2, ?_, by rw [r3]; simp [Upd.isUser], r4⟩
    · have hx : s.hasExit = true := by rw [hc.hasExit]; exact ha.1
      have hd : s.hasExitDesc g = some (true, s) := by unfold St.hasExitDesc; rw [if_pos hx]
      show (if s.nest = 0 then none
        else match s.hasExitDesc g with
          | none => none
          | some (h, s) =>
            if h = true ∧ newOk g d = true then (s.wrAll g (newWrites g d)).map (fun s => { s with hasNew := true }) else none) = _
      rw [if_neg hn, hd]
      dsimp only
      rw [if_pos ⟨rfl, ha.2⟩, r1]
      rfl
    · refine ⟨hc.seqB, hc.ckB, hc.lastExec, hc.lastView, hc.hasExit, ?_, hc.hasExec, hc.execSeq⟩
      show true = !d.isDefault
      rw [hu.1]; rfl
  | exec d =>
    simp only [Spec.accepts, Bool.and_eq_true, Bool.or_eq_true, decide_eq_true_eq] at ha
    have ho := serExec_length (hu ha.2)
    refine ⟨{ s with bat := some (b.put ((Key.exec).id g) (serExec d)), hasExec := true, execSeq := d.seq }, _,
      one_done hg hb hh (k := .exec) trivial rfl ho.1 ho.2 rfl ?_ rfl rfl ?_⟩
    · intro k' _ hne v' h; cases k' <;> first | exact h | exact absurd rfl hne
    · intro hw
      refine ⟨?_, rfl, rfl, rfl, rfl, hc.seqB, hc.ckB, hc.lastExec, hc.lastView, hc.hasExit, hc.hasNew, ?_, fun _ => rfl⟩
      · show (if s.nest ≠ 0 ∧ (s.hasExec = false ∨ s.execSeq < d.seq) ∧ s.lastExec + 1 = d.seq ∧ 1 ≤ d.bits.n ∧ d.bits.n ≤ 4096 then
          (s.wr g idExec (serExec d)).map (fun s => { s with hasExec := true, execSeq := d.seq }) else none) = _
        have hq : s.hasExec = false ∨ s.execSeq < d.seq := by
          rcases ha.1.1.1 with h | h
          · left; rw [hc.hasExec, h]; simp
          · by_cases he : s.hasExec = true
            · right; rw [hc.execSeq he]; exact h
            · left; simpa using he
        rw [if_pos ⟨hn, hq, by rw [hc.lastExec]; omega, ha.1.2, ha.2⟩, show s.wr g idExec (serExec d) = _ from wr_of hw]
        rfl
      · show true = !decide (d = ExecDesc.empty)
        have : d ≠ ExecDesc.empty := by
          intro e; rw [e] at ha; have := ha.1.2; simp [ExecDesc.empty] at this
        simp [this]
  | stable l =>
    refine ⟨{ s with bat := some (b.put ((Key.stable).id g) (serStable l)) }, _,
      one_done hg hb hh (k := .stable) trivial rfl (serStable_pos l) (serStable_le hu) rfl ?_ rfl rfl ?_⟩
    · intro k' _ hne v' h; cases k' <;> first | exact h | exact absurd rfl hne
    · intro hw
      exact ⟨wr_of hw, rfl, rfl, rfl, rfl, hc.seqB, hc.ckB, hc.lastExec, hc.lastView, hc.hasExit, hc.hasNew, hc.hasExec, hc.execSeq⟩
  | lastStable n =>
    simp only [Spec.accepts, Bool.and_eq_true, decide_eq_true_eq] at ha
    exact stable_done hg hb hh hw hc hu ha.1 ha.2
  | prePrepare n x =>
    refine slot_done hg hb hh hc (p := 0) (v := serMsg x) (f := fun s => { s with prePrepare := x }) ha (by decide) (fun _ => rfl) ?_ rfl rfl (inBuf_le hu (by omega)) rfl
    intro s q hq hne
    rcases (by omega : q = 1 ∨ q = 2 ∨ q = 3 ∨ q = 4 ∨ q = 5) with rfl | rfl | rfl | rfl | rfl <;> rfl
  | fullCommitProof n x =>
    refine slot_done hg hb hh hc (p := 1) (v := serMsg x) (f := fun s => { s with fullCommitProof := x }) ha (by decide) (fun _ => rfl) ?_ rfl rfl (inBuf_le hu (by omega)) rfl
    intro s q hq hne
    rcases (by omega : q = 0 ∨ q = 2 ∨ q = 3 ∨ q = 4 ∨ q = 5) with rfl | rfl | rfl | rfl | rfl <;> rfl
  | prepareFull n x =>
    refine slot_done hg hb hh hc (p := 2) (v := serMsg x) (f := fun s => { s with prepareFull := x }) ha (by decide) (fun _ => rfl) ?_ rfl rfl (inBuf_le hu (by omega)) rfl
    intro s q hq hne
    rcases (by omega : q = 0 ∨ q = 1 ∨ q = 3 ∨ q = 4 ∨ q = 5) with rfl | rfl | rfl | rfl | rfl <;> rfl
  | commitFull n x =>
    refine slot_done hg hb hh hc (p := 3) (v := serMsg x) (f := fun s => { s with commitFull := x }) ha (by decide) (fun _ => rfl) ?_ rfl rfl (inBuf_le hu (by omega)) rfl
    intro s q hq hne
    rcases (by omega : q = 0 ∨ q = 1 ∨ q = 2 ∨ q = 4 ∨ q = 5) with rfl | rfl | rfl | rfl | rfl <;> rfl
  | forceCompleted n x =>
    refine slot_done hg hb hh hc (p := 4) (v := serBool x) (f := fun s => { s with forceCompleted := x }) ha (by decide) (fun _ => rfl) ?_ rfl rfl ⟨by rw [serBool_length]; decide, by rw [serBool_length]; omega⟩ rfl
    intro s q hq hne
    rcases (by omega : q = 0 ∨ q = 1 ∨ q = 2 ∨ q = 3 ∨ q = 5) with rfl | rfl | rfl | rfl | rfl <;> rfl
  | slowStarted n x =>
    refine slot_done hg hb hh hc (p := 5) (v := serBool x) (f := fun s => { s with slowStarted := x }) ha (by decide) (fun _ => rfl) ?_ rfl rfl ⟨by rw [serBool_length]; decide, by rw [serBool_length]; omega⟩ rfl
    intro s q hq hne
    rcases (by omega : q = 0 ∨ q = 1 ∨ q = 2 ∨ q = 3 ∨ q = 4) with rfl | rfl | rfl | rfl | rfl <;> rfl
  | ckMsg n x =>
    refine ck_done hg hb hh hw hc (p := 0) (v := serMsg x) (f := fun s => { s with msg := x }) ha (by decide) (fun _ => rfl) ?_ rfl rfl (inBuf_le hu (by omega)) rfl
    intro s q hq hne
    rcases (by omega : q = 1) with rfl; rfl
  | completed n x =>
    simp only [Spec.accepts, Bool.and_eq_true] at ha
    refine ck_done hg hb hh hw hc (p := 1) (v := serBool x) (f := fun s => { s with completed := x }) ha.2 (by decide) (fun _ => rfl) ?_ rfl rfl ⟨by rw [serBool_length]; decide, by rw [serBool_length]; omega⟩ ?_
    · intro s q hq hne
      rcases (by omega : q = 0) with rfl; rfl
    · show (if x then _ else none) = _
      rw [if_pos ha.1]
  | clearWindow => exact clear_done hg hb hh hc
  | user v =>
    have hwr := wr_eq hg hb (k := .user) trivial hu.1 hu.2
    refine ⟨{ s with bat := some (b.put 10 v) }, b.put 10 v, ?_, rfl, rfl, rfl, rfl, ?_, ?_, ?_, put_ne b (by decide) v, put_ne b (by decide) v, put_ne b (by decide) v⟩
    · show (if s.nest ≠ 0 ∧ v.length ≤ 256 then s.wr g idUser v else none) = _
      rw [if_pos ⟨hn, hu.2⟩]; exact hwr
    · rw [over_put]
      refine put_holds hg hh (k := .user) trivial hu.1 hu.2 rfl ?_ rfl
      intro k' _ hne v' h; cases k' <;> first | exact h | exact absurd rfl hne
    · exact ⟨hc.seqB, hc.ckB, hc.lastExec, hc.lastView, hc.hasExit, hc.hasNew, hc.hasExec, hc.execSeq⟩
    · simp [Db.put, Upd.isUser]
  | rsi i v =>
    refine ⟨{ s with bat := some (b.put ((Key.rsi i).id g) v) }, _,
      one_done hg hb hh (k := .rsi i) hu.1 rfl hu.2.1 hu.2.2 ?_ ?_ rfl rfl ?_⟩
    · show some (if i = i then some v else m.rsi i) = _
      rw [if_pos rfl]
    · intro k' _ hne v' h
      cases k' with
      | rsi j =>
        have h' : some (if j = i then some v else m.rsi j) = some v' := h
        rw [if_neg (fun e => hne (by rw [e]))] at h'
        exact h'
      | _ => exact h
    · intro hw
      exact ⟨wr_of hw, rfl, rfl, rfl, rfl, hc.seqB, hc.ckB, hc.lastExec, hc.lastView, hc.hasExit, hc.hasNew, hc.hasExec, hc.execSeq⟩

theorem wr_none {id : Nat} {v : Bytes} (hb : s.bat = none) : s.wr g id v = none := by
  unfold St.wr
  rw [hb]; split <;> rfl

theorem wrAll_none {w : Nat × Bytes} {ws : List (Nat × Bytes)} (hb : s.bat = none) : s.wrAll g (w :: ws) = none := by
  show (s.wr g w.1 w.2).bind _ = none
  rw [wr_none hb]; rfl

theorem bind_none {α β : Type} {o : Option α} {f : α → Option β} (h : ∀ x, f x = none) : o.bind f = none := by
  cases o <;> simp [h]

/-- outside a transaction every setter fails -/
theorem set_outside (hn : s.nest = 0) (hb : s.bat = none) (u : Upd) : s.set g u = none := by
  have hx : s.nonExec = false := by unfold St.nonExec; simp [hn]
  cases u with
  | lastExec n => show (if s.nest ≠ 0 ∧ _ then _ else none) = none; rw [if_neg (fun h => h.1 hn)]
  | primary n => show (if s.nonExec then _ else none) = none; rw [hx]; rfl
  | lower n => show (if s.nonExec then _ else none) = none; rw [hx]; rfl
  | lastView n => show (if s.nonExec = true ∧ _ then _ else none) = none; rw [hx, if_neg (fun h => by cases h.1)]
  | exit d => show (if s.nest = 0 then none else _) = none; rw [if_pos hn]
  | newView d => show (if s.nest = 0 then none else _) = none; rw [if_pos hn]
  | exec d => show (if s.nest ≠ 0 ∧ _ then _ else none) = none; rw [if_neg (fun h => h.1 hn)]
  | stable l => exact wr_none hb
  | lastStable n =>
    show (match s.wr g idLastStable (leEncode 8 n) with
      | none => none
      | some s => match advance CW ckItems s.ckB n, advance 1 W s.seqB (n + 1) with
        | some cs, some ss =>
          ({ s with ckB := n, seqB := n + 1 } : St).wrAll g
            ((idCk, leEncode 8 n) :: (idSeq, leEncode 8 (n + 1)) :: (cs.flatMap clearCk ++ ss.flatMap clearSeq))
        | _, _ => none) = none
    rw [wr_none hb]
  | prePrepare n x => exact bind_none (fun _ => wr_none hb)
  | fullCommitProof n x => exact bind_none (fun _ => wr_none hb)
  | prepareFull n x => exact bind_none (fun _ => wr_none hb)
  | commitFull n x => exact bind_none (fun _ => wr_none hb)
  | forceCompleted n x => exact bind_none (fun _ => wr_none hb)
  | slowStarted n x => exact bind_none (fun _ => wr_none hb)
  | ckMsg n x => exact bind_none (fun _ => wr_none hb)
  | completed n x =>
    show (if x then (s.ckId n 2).bind _ else none) = none
    split
    · exact bind_none (fun _ => wr_none hb)
    · rfl
  | clearWindow =>
    show s.wrAll g ((idSeq, leEncode 8 s.seqB) :: (List.range W).flatMap clearSeq) = none
    exact wrAll_none hb
  | user v => show (if s.nest ≠ 0 ∧ _ then _ else none) = none; rw [if_neg (fun h => h.1 hn)]
  | rsi i v => exact wr_none hb

/-- an update that is not accepted fails -/
theorem set_refused (hg : g.Ok) (hn : s.nest ≠ 0) (hw : WF g m) (hc : Cache s m)
    (hcur : Holds g s.db cur) (wcur : WF g cur) (hmono : m.newView.isDefault = true → cur.newView.isDefault = true)
    {u : Upd} (ha : Spec.accepts g m u = false) : s.set g u = none := by
  have hne := nonExec_eq hn hc
  cases u with
  | lastExec n =>
    simp only [Spec.accepts, decide_eq_false_iff_not] at ha
    show (if s.nest ≠ 0 ∧ s.lastExec ≤ n then _ else none) = none
    rw [if_neg (by rw [hc.lastExec]; exact fun h => ha h.2)]
  | primary n => show (if s.nonExec then _ else none) = none; rw [hne, show Spec.notAhead m = false from ha]; rfl
  | lower n => show (if s.nonExec then _ else none) = none; rw [hne, show Spec.notAhead m = false from ha]; rfl
  | lastView n =>
    show (if s.nonExec = true ∧ s.lastView ≤ n then _ else none) = none
    rw [hne, hc.lastView, if_neg]
    rintro ⟨h1, h2⟩
    simp [Spec.accepts, h1, h2] at ha
  | exit d =>
    have e1 : W = 300 := rfl
    show (if s.nest = 0 then none
        else match s.hasNewDesc g with
          | none => none
          | some (h, s) =>
            if (h = true ∨ d.view = 0) ∧ d.elements.length ≤ W ∧ d.elements.all (prevOk g d.view) = true ∧ d.complaints.length ≤ 301 then
              (s.wrAll g (exitWrites g d)).map (fun s => { s with hasExit := true })
            else none) = none
    rw [if_neg hn, hasNewDesc_eq hg hc hcur wcur hmono]
    dsimp only
    rw [if_neg]
    rintro ⟨h1, h2, h3, _⟩
    rw [e1] at h2
    have : Spec.accepts g m (.exit d) = true := by
      simp only [Spec.accepts, Bool.and_eq_true, Bool.or_eq_true, decide_eq_true_eq]
      exact ⟨⟨h1, h2⟩, h3⟩
    rw [this] at ha; cases ha
  | newView d =>
    show (if s.nest = 0 then none
        else match s.hasExitDesc g with
          | none => none
          | some (h, s) =>
            if h = true ∧ newOk g d = true then (s.wrAll g (newWrites g d)).map (fun s => { s with hasNew := true }) else none) = none
    rw [if_neg hn]
    unfold St.hasExitDesc
    by_cases hx : s.hasExit = true
    · rw [if_pos hx]
      dsimp only
      rw [if_neg]
      rintro ⟨_, h⟩
      have : Spec.accepts g m (.newView d) = true := by
        simp only [Spec.accepts, Bool.and_eq_true]
        exact ⟨by rw [← hc.hasExit]; exact hx, h⟩
      rw [this] at ha; cases ha
    · rw [if_neg hx, if_pos hn]
  | exec d =>
    show (if s.nest ≠ 0 ∧ (s.hasExec = false ∨ s.execSeq < d.seq) ∧ s.lastExec + 1 = d.seq ∧ 1 ≤ d.bits.n ∧ d.bits.n ≤ 4096 then
          (s.wr g idExec (serExec d)).map (fun s => { s with hasExec := true, execSeq := d.seq }) else none) = none
    rw [if_neg]
    rintro ⟨_, h1, h2, h3, h4⟩
    have : Spec.accepts g m (.exec d) = true := by
      simp only [Spec.accepts, Bool.and_eq_true, Bool.or_eq_true, decide_eq_true_eq]
      rw [hc.lastExec] at h2
      refine ⟨⟨⟨?_, h2.symm⟩, h3⟩, h4⟩
      by_cases he : s.hasExec = true
      · right
        rcases h1 with h1 | h1
        · rw [he] at h1; cases h1
        · rw [← hc.execSeq he]; exact h1
      · left
        have h0 : s.hasExec = false := by simpa using he
        have := hc.hasExec; rw [h0] at this; simpa using this.symm
    rw [this] at ha; cases ha
  | stable l => cases ha
  | lastStable n =>
    show (match s.wr g idLastStable (leEncode 8 n) with
      | none => none
      | some s => match advance CW ckItems s.ckB n, advance 1 W s.seqB (n + 1) with
        | some cs, some ss =>
          ({ s with ckB := n, seqB := n + 1 } : St).wrAll g
            ((idCk, leEncode 8 n) :: (idSeq, leEncode 8 (n + 1)) :: (cs.flatMap clearCk ++ ss.flatMap clearSeq))
        | _, _ => none) = none
    cases hwr : s.wr g idLastStable (leEncode 8 n) with
    | none => rfl
    | some s1 =>
      dsimp only
      have hs1 : s1.ckB = s.ckB := by
        unfold St.wr at hwr
        split at hwr
        · split at hwr
          · cases hwr
          · cases hwr; rfl
        · cases hwr
      rw [hs1, advance_bad]
      rintro ⟨h1, h2⟩
      have e1 : CW = 150 := rfl
      rw [hc.ckB] at h2
      rw [e1] at h1
      simp [Spec.accepts, h1, h2] at ha
  | prePrepare n x =>
    show (s.seqId n (0 + 1)).bind _ = none
    rw [seqId_eq (g := g) hc (by decide), if_neg (by rw [show Spec.inWindow m n = false from ha]; decide)]; rfl
  | fullCommitProof n x =>
    show (s.seqId n (1 + 1)).bind _ = none
    rw [seqId_eq (g := g) hc (by decide), if_neg (by rw [show Spec.inWindow m n = false from ha]; decide)]; rfl
  | prepareFull n x =>
    show (s.seqId n (2 + 1)).bind _ = none
    rw [seqId_eq (g := g) hc (by decide), if_neg (by rw [show Spec.inWindow m n = false from ha]; decide)]; rfl
  | commitFull n x =>
    show (s.seqId n (3 + 1)).bind _ = none
    rw [seqId_eq (g := g) hc (by decide), if_neg (by rw [show Spec.inWindow m n = false from ha]; decide)]; rfl
  | forceCompleted n x =>
    show (s.seqId n (4 + 1)).bind _ = none
    rw [seqId_eq (g := g) hc (by decide), if_neg (by rw [show Spec.inWindow m n = false from ha]; decide)]; rfl
  | slowStarted n x =>
    show (s.seqId n (5 + 1)).bind _ = none
    rw [seqId_eq (g := g) hc (by decide), if_neg (by rw [show Spec.inWindow m n = false from ha]; decide)]; rfl
  | ckMsg n x =>
    show (s.ckId n (0 + 1)).bind _ = none
    rw [ckId_eq (g := g) hc (by decide), if_neg (by rw [show Spec.inCkWindow m n = false from ha]; decide)]; rfl
  | completed n x =>
    show (if x then (s.ckId n (1 + 1)).bind _ else none) = none
    by_cases hx : x = true
    · subst hx
      have : Spec.inCkWindow m n = false := by simpa [Spec.accepts] using ha
      rw [if_pos rfl, ckId_eq (g := g) hc (by decide), if_neg (by rw [this]; decide)]; rfl
    · rw [if_neg hx]
  | clearWindow => cases ha
  | user v => cases ha
  | rsi i v => cases ha

end
end Verif.Meta
