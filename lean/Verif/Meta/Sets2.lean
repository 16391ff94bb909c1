import Verif.Meta.Sets
set_option linter.unusedSimpArgs false
set_option linter.unusedVariables false
/-!
# The setters inside a transaction
-/
namespace Verif.Meta
open Verif.Bytes

/-- the members agree with the record -/
structure Cache (s : St) (m : Spec.Rec) : Prop where
  seqB : s.seqB = m.lastStable + 1
  ckB : s.ckB = m.lastStable
  lastExec : s.lastExec = m.lastExec
  lastView : s.lastView = m.lastView
  hasExit : s.hasExit = !m.exit.isDefault
  hasNew : s.hasNew = !m.newView.isDefault
  hasExec : s.hasExec = !decide (m.exec = ExecDesc.empty)
  execSeq : s.hasExec = true → s.execSeq = m.exec.seq

def Upd.isUser : Upd → Bool
  | .user _ => true
  | _ => false

theorem wr_eq {g : Cfg} (hg : g.Ok) {s : St} {b : Db} (hb : s.bat = some b) {k : Key} (hk : k.Valid g) {v : Bytes} (h1 : 0 < v.length)
    (h2 : v.length ≤ k.size g) : s.wr g (k.id g) v = some { s with bat := some (b.put (k.id g) v) } := by
  unfold St.wr
  rw [if_pos (Key.writable hg hk h1 h2), hb]

/-- the objects that are written only through the transaction -/
def Key.plain : Key → Bool
  | .user | .erase | .epoch | .dbCk => false
  | _ => true

theorem plain_ne {g : Cfg} {k : Key} (hk : k.Valid g) (h : k.plain = true) : k.id g ≠ 10 ∧ k.id g ≠ 9 ∧ k.id g ≠ 11 ∧ k.id g ≠ 12 := by
  refine ⟨fun e => ?_, fun e => ?_, fun e => ?_, fun e => ?_⟩
  · rw [Key.id_inj (k' := .user) hk trivial e] at h; cases h
  · rw [Key.id_inj (k' := .erase) hk trivial e] at h; cases h
  · rw [Key.id_inj (k' := .epoch) hk trivial e] at h; cases h
  · rw [Key.id_inj (k' := .dbCk) hk trivial e] at h; cases h

/-- the two batches agree on the objects that are also written outside the transaction -/
def Same (b b' : Db) : Prop := b' 9 = b 9 ∧ b' 11 = b 11 ∧ b' 12 = b 12

theorem putAll_user {g : Cfg} {ws : List (Nat × Bytes)} (b : Db) (h : ∀ w ∈ ws, ∃ k, KW g k w ∧ k.plain = true) :
    b.putAll ws 10 = b 10 ∧ Same b (b.putAll ws) := by
  have key : ∀ w ∈ ws, w.1 ≠ 10 ∧ w.1 ≠ 9 ∧ w.1 ≠ 11 ∧ w.1 ≠ 12 := fun w hw => by
    obtain ⟨k, hk, hn⟩ := h w hw
    rw [hk.id]; exact plain_ne hk.valid hn
  exact ⟨putAll_ne ws b (fun w hw => (key w hw).1), putAll_ne ws b (fun w hw => (key w hw).2.1), putAll_ne ws b (fun w hw => (key w hw).2.2.1),
    putAll_ne ws b (fun w hw => (key w hw).2.2.2)⟩

theorem put_holds {g : Cfg} (hg : g.Ok) {d : Db} {m m' : Spec.Rec} (h : Holds g d m) {k : Key} (hk : k.Valid g) {v : Bytes} (h1 : 0 < v.length)
    (h2 : v.length ≤ k.size g) (he : enc g m' k = some (some v))
    (hr : ∀ k', k'.Valid g → k' ≠ k → ∀ v', enc g m' k' = some v' → enc g m k' = some v') (hp : m'.epoch = m.epoch) :
    Holds g (d.put (k.id g) v) m' := by
  refine h.putAll hg (ws := [(k.id g, v)]) ?_ ?_ hp
  · intro w hw
    cases List.mem_singleton.1 hw
    exact ⟨k, ⟨hk, rfl, h1, h2⟩, he⟩
  · intro k' hv v' hv'
    by_cases e : k' = k
    · subst e; exact Or.inl ⟨_, List.mem_singleton.2 rfl, rfl⟩
    · exact Or.inr (hr k' hv e v' hv')

/-- what a setter has to do in a transaction -/
structure Done (g : Cfg) (s : St) (b : Db) (m : Spec.Rec) (u : Upd) (s' : St) (b' : Db) : Prop where
  eq : s.set g u = some s'
  db : s'.db = s.db
  old : s'.old = s.old
  nest : s'.nest = s.nest
  bat : s'.bat = some b'
  holds : Holds g (s.db.over b') (Spec.apply m u)
  cache : Cache s' (Spec.apply m u)
  user : (b' 10).isSome = ((b 10).isSome || u.isUser)
  same : Same b b'

theorem put_ne (b : Db) {id i : Nat} (h : id ≠ i) (v : Bytes) : (b.put id v) i = b i := by
  unfold Db.put; rw [if_neg (fun e => h e.symm)]

theorem put_user {g : Cfg} (b : Db) {k : Key} (hk : k.Valid g) (hn : k.plain = true) (v : Bytes) :
    (b.put (k.id g) v) 10 = b 10 ∧ Same b (b.put (k.id g) v) := by
  obtain ⟨h1, h2, h3, h4⟩ := plain_ne hk hn
  exact ⟨put_ne b h1 v, put_ne b h2 v, put_ne b h3 v, put_ne b h4 v⟩

section
variable {g : Cfg} {s : St} {b : Db} {m : Spec.Rec}

/-- one object written, no member changed -/
theorem one_done (hg : g.Ok) (hb : s.bat = some b) (hh : Holds g (s.db.over b) m) {u : Upd} {k : Key} (hk : k.Valid g) (hn : k.plain = true)
    {v : Bytes} (h1 : 0 < v.length) (h2 : v.length ≤ k.size g) (he : enc g (Spec.apply m u) k = some (some v))
    (hr : ∀ k', k'.Valid g → k' ≠ k → ∀ v', enc g (Spec.apply m u) k' = some v' → enc g m k' = some v')
    (hp : (Spec.apply m u).epoch = m.epoch) (hu : u.isUser = false) {s' : St}
    (hs : (s.wr g (k.id g) v).map id = some { s with bat := some (b.put (k.id g) v) } →
      s.set g u = some s' ∧ s'.db = s.db ∧ s'.old = s.old ∧ s'.nest = s.nest ∧ s'.bat = some (b.put (k.id g) v) ∧ Cache s' (Spec.apply m u)) :
    Done g s b m u s' (b.put (k.id g) v) := by
  have hw := wr_eq hg hb hk h1 h2
  obtain ⟨a1, a2, a3, a4, a5, a6⟩ := hs (by rw [hw]; rfl)
  refine ⟨a1, a2, a3, a4, a5, ?_, a6, ?_, (put_user b hk hn v).2⟩
  · rw [over_put]; exact put_holds hg hh hk h1 h2 he hr hp
  · rw [(put_user b hk hn v).1, hu, Bool.or_false]

theorem wr_of {id : Nat} {v : Bytes} {s' : St} (h : (s.wr g id v).map _root_.id = some s') : s.wr g id v = some s' := by
  rw [Option.map_id] at h; exact h

theorem enc8_len (n : Nat) : 0 < (leEncode 8 n).length ∧ (leEncode 8 n).length ≤ 8 := by simp

theorem nonExec_eq (hn : s.nest ≠ 0) (hc : Cache s m) : s.nonExec = Spec.notAhead m := by
  unfold St.nonExec Spec.notAhead
  rw [hc.hasExec, hc.lastExec]
  by_cases h : m.exec = ExecDesc.empty
  · simp [h, hn]
  · have he : s.hasExec = true := by rw [hc.hasExec]; simp [h]
    rw [hc.execSeq he]; simp [h, hn]

theorem slot_enc {p n : Nat} {f : Spec.Slot → Spec.Slot} {v : Bytes} (hn : Spec.inWindow m n = true) (hp : p < 6)
    (h1 : ∀ s, slotBytes (f s) p = v) (h2 : ∀ s q, q < 6 → q ≠ p → slotBytes (f s) q = slotBytes s q) :
    enc g (Spec.setSlot m n f) (.seq (n % 300) p) = some (some v) ∧
    ∀ k', k'.Valid g → k' ≠ .seq (n % 300) p → ∀ v', enc g (Spec.setSlot m n f) k' = some v' → enc g m k' = some v' := by
  simp only [Spec.inWindow, Bool.and_eq_true, decide_eq_true_eq] at hn
  have hat : seqAt (m.lastStable + 1) (n % 300) = n := seqAt_eq (by omega) (by omega)
  constructor
  · show some (some (slotBytes (if seqAt (m.lastStable + 1) (n % 300) = n then _ else _) p)) = _
    rw [hat, if_pos rfl, h1]
  · intro k' hk hne v' h
    cases k' with
    | seq i q =>
      have h' : some (some (slotBytes (if seqAt (m.lastStable + 1) i = n then f (m.slot (seqAt (m.lastStable + 1) i)) else m.slot (seqAt (m.lastStable + 1) i)) q)) = some v' := h
      show some (some (slotBytes (m.slot (seqAt (m.lastStable + 1) i)) q)) = some v'
      by_cases e : seqAt (m.lastStable + 1) i = n
      · have hi : i = n % 300 := (seqAt_iff (by omega) (by omega) hk.1).1 e
        have hq : q ≠ p := fun hq => hne (by rw [hi, hq])
        rw [if_pos e, h2 _ q hk.2 hq] at h'
        exact h'
      · rw [if_neg e] at h'; exact h'
    | _ => exact h

theorem ck_enc {p n : Nat} {f : Spec.CkSlot → Spec.CkSlot} {v : Bytes} (ha : m.lastStable % 150 = 0) (hn : Spec.inCkWindow m n = true) (hp : p < 2)
    (h1 : ∀ s, ckBytes (f s) p = v) (h2 : ∀ s q, q < 2 → q ≠ p → ckBytes (f s) q = ckBytes s q) :
    enc g (Spec.setCk m n f) (.ck (n / 150 % 3) p) = some (some v) ∧
    ∀ k', k'.Valid g → k' ≠ .ck (n / 150 % 3) p → ∀ v', enc g (Spec.setCk m n f) k' = some v' → enc g m k' = some v' := by
  simp only [Spec.inCkWindow, Bool.and_eq_true, decide_eq_true_eq] at hn
  have hat : ckAt m.lastStable (n / 150 % 3) = n := ckAt_eq ha hn.1.1 (by omega) (by omega)
  constructor
  · show some (some (ckBytes (if ckAt m.lastStable (n / 150 % 3) = n then _ else _) p)) = _
    rw [hat, if_pos rfl, h1]
  · intro k' hk hne v' h
    cases k' with
    | ck i q =>
      have h' : some (some (ckBytes (if ckAt m.lastStable i = n then f (m.ck (ckAt m.lastStable i)) else m.ck (ckAt m.lastStable i)) q)) = some v' := h
      show some (some (ckBytes (m.ck (ckAt m.lastStable i)) q)) = some v'
      by_cases e : ckAt m.lastStable i = n
      · have hi : i = n / 150 % 3 := (ckAt_iff ha hn.1.1 (by omega) (by omega) hk.1).1 e
        have hq : q ≠ p := fun hq => hne (by rw [hi, hq])
        rw [if_pos e, h2 _ q hk.2 hq] at h'
        exact h'
      · rw [if_neg e] at h'; exact h'
    | _ => exact h

theorem seqId_eq (hc : Cache s m) {n p : Nat} (hp : p < 6) :
    s.seqId n (p + 1) = if Spec.inWindow m n = true then some ((Key.seq (n % 300) p).id g) else none := by
  have e1 : W = 300 := rfl
  have e2 : idSeq = 512 := rfl
  have e3 : idCk = 2313 := rfl
  unfold St.seqId convert
  rw [hc.seqB, e1, e2, e3]
  by_cases h : Spec.inWindow m n = true
  · rw [if_pos h]
    simp only [Spec.inWindow, Bool.and_eq_true, decide_eq_true_eq] at h
    rw [if_pos ⟨Nat.mod_one _, by omega, by omega⟩]
    dsimp only
    rw [Nat.div_one, if_pos (by omega)]
    simp only [Key.id]; congr 1; omega
  · rw [if_neg h]
    simp only [Spec.inWindow, Bool.and_eq_true, decide_eq_true_eq] at h
    rw [if_neg (by omega)]

theorem ckId_eq (hc : Cache s m) {n p : Nat} (hp : p < 2) :
    s.ckId n (p + 1) = if Spec.inCkWindow m n = true then some ((Key.ck (n / 150 % 3) p).id g) else none := by
  have e1 : CW = 150 := rfl
  have e0 : ckItems = 3 := rfl
  have e2 : idCk = 2313 := rfl
  have e3 : idWinEnd = 2320 := rfl
  unfold St.ckId convert
  rw [hc.ckB, e1, e0, e2, e3]
  by_cases h : Spec.inCkWindow m n = true
  · rw [if_pos h]
    simp only [Spec.inCkWindow, Bool.and_eq_true, decide_eq_true_eq] at h
    rw [if_pos ⟨by omega, by omega, by omega⟩]
    dsimp only
    rw [if_pos (by omega)]
    simp only [Key.id]; congr 1; omega
  · rw [if_neg h]
    simp only [Spec.inCkWindow, Bool.and_eq_true, decide_eq_true_eq] at h
    rw [if_neg (by omega)]

theorem slot_cache (hc : Cache s m) (x : Option Db) (n : Nat) (f : Spec.Slot → Spec.Slot) : Cache { s with bat := x } (Spec.setSlot m n f) :=
  ⟨hc.seqB, hc.ckB, hc.lastExec, hc.lastView, hc.hasExit, hc.hasNew, hc.hasExec, hc.execSeq⟩

theorem ck_cache (hc : Cache s m) (x : Option Db) (n : Nat) (f : Spec.CkSlot → Spec.CkSlot) : Cache { s with bat := x } (Spec.setCk m n f) :=
  ⟨hc.seqB, hc.ckB, hc.lastExec, hc.lastView, hc.hasExit, hc.hasNew, hc.hasExec, hc.execSeq⟩

theorem slot_done (hg : g.Ok) (hb : s.bat = some b) (hh : Holds g (s.db.over b) m) (hc : Cache s m) {u : Upd} {p n : Nat} {f : Spec.Slot → Spec.Slot}
    {v : Bytes} (hn : Spec.inWindow m n = true) (hp : p < 6) (h1 : ∀ s, slotBytes (f s) p = v)
    (h2 : ∀ s q, q < 6 → q ≠ p → slotBytes (f s) q = slotBytes s q) (hu : u.isUser = false) (ha : Spec.apply m u = Spec.setSlot m n f)
    (hv : 0 < v.length ∧ v.length ≤ (Key.seq 0 0).size g) (hs : s.set g u = (s.seqId n (p + 1)).bind fun id => s.wr g id v) :
    ∃ s' b', Done g s b m u s' b' := by
  have hk : (Key.seq (n % 300) p).Valid g := ⟨Nat.mod_lt _ (by decide), hp⟩
  obtain ⟨e1, e2⟩ := slot_enc (g := g) (m := m) hn hp h1 h2
  refine ⟨{ s with bat := some (b.put ((Key.seq (n % 300) p).id g) v) }, _,
    one_done hg hb hh hk rfl hv.1 hv.2 (by rw [ha]; exact e1) (by rw [ha]; exact e2) (by rw [ha]; rfl) hu ?_⟩
  intro hw
  refine ⟨?_, rfl, rfl, rfl, rfl, by rw [ha]; exact slot_cache hc _ _ _⟩
  rw [hs, seqId_eq (g := g) hc hp, if_pos hn, Option.bind_some]
  exact wr_of hw

theorem ck_done (hg : g.Ok) (hb : s.bat = some b) (hh : Holds g (s.db.over b) m) (hw : WF g m) (hc : Cache s m) {u : Upd} {p n : Nat}
    {f : Spec.CkSlot → Spec.CkSlot}
    {v : Bytes} (hn : Spec.inCkWindow m n = true) (hp : p < 2) (h1 : ∀ s, ckBytes (f s) p = v)
    (h2 : ∀ s q, q < 2 → q ≠ p → ckBytes (f s) q = ckBytes s q) (hu : u.isUser = false) (ha : Spec.apply m u = Spec.setCk m n f)
    (hv : 0 < v.length ∧ v.length ≤ (Key.ck 0 0).size g) (hs : s.set g u = (s.ckId n (p + 1)).bind fun id => s.wr g id v) :
    ∃ s' b', Done g s b m u s' b' := by
  have hk : (Key.ck (n / 150 % 3) p).Valid g := ⟨Nat.mod_lt _ (by decide), hp⟩
  obtain ⟨e1, e2⟩ := ck_enc (g := g) (m := m) hw.aligned hn hp h1 h2
  refine ⟨{ s with bat := some (b.put ((Key.ck (n / 150 % 3) p).id g) v) }, _,
    one_done hg hb hh hk rfl hv.1 hv.2 (by rw [ha]; exact e1) (by rw [ha]; exact e2) (by rw [ha]; rfl) hu ?_⟩
  intro hw
  refine ⟨?_, rfl, rfl, rfl, rfl, by rw [ha]; exact ck_cache hc _ _ _⟩
  rw [hs, ckId_eq (g := g) hc hp, if_pos hn, Option.bind_some]
  exact wr_of hw

/-- many objects written -/
theorem many_done (hg : g.Ok) (hb : s.bat = some b) (hh : Holds g (s.db.over b) m) {m' : Spec.Rec} {ws : List (Nat × Bytes)}
    (hk : ∀ w ∈ ws, ∃ k, KW g k w ∧ enc g m' k = some (some w.2) ∧ k.plain = true)
    (hr : ∀ k, k.Valid g → ∀ v, enc g m' k = some v → (∃ w ∈ ws, w.1 = k.id g) ∨ enc g m k = some v)
    (he : m'.epoch = m.epoch) :
    s.wrAll g ws = some { s with bat := some (b.putAll ws) } ∧ Holds g (s.db.over (b.putAll ws)) m' ∧ (b.putAll ws) 10 = b 10 ∧ Same b (b.putAll ws) := by
  refine ⟨St.wrAll_eq hg ws s b hb (fun w hw => ?_), ?_, ?_⟩
  · obtain ⟨k, h, _⟩ := hk w hw; exact ⟨k, h⟩
  · rw [over_putAll]
    exact hh.putAll hg (fun w hw => by obtain ⟨k, h1, h2, _⟩ := hk w hw; exact ⟨k, h1, h2⟩) hr he
  · exact putAll_user b (fun w hw => by obtain ⟨k, h1, _, h2⟩ := hk w hw; exact ⟨k, h1, h2⟩)

theorem mem_exitWrites {d : ExitDesc} (ho : OkExit g d) (m : Spec.Rec) : ∀ w ∈ exitWrites g d, ∃ k, KW g k w ∧ enc g { m with exit := d } k = some (some w.2) ∧ k.plain = true := by
  intro w hw
  have hn := ho.n
  have hk := ho.k
  rcases List.mem_cons.1 hw with rfl | hw
  · refine ⟨.exitS, ⟨trivial, rfl, ?_, ?_⟩, rfl, rfl⟩
    · show 0 < (pad _ _).length
      rw [pad_length (serExitSimple_le ho)]; unfold Cfg.exitSimple; omega
    · show (pad _ _).length ≤ g.exitSimple
      rw [pad_length (serExitSimple_le ho)]; exact Nat.le_refl _
  · rcases List.mem_append.1 hw with hw | hw
    · obtain ⟨i, hi, rfl⟩ := List.mem_map.1 hw
      have hi := List.mem_range.1 hi
      refine ⟨.exitE i, ⟨(by show i < 300; omega), rfl, serElem_pos _, serElem_le (ho.els _ (getD_mem _ hi))⟩, ?_, rfl⟩
      simp only [enc]; rw [if_pos hi]
    · obtain ⟨i, hi, rfl⟩ := List.mem_map.1 hw
      have hi := List.mem_range.1 hi
      refine ⟨.exitC i, ⟨(by show i < 300; omega), rfl, serMsg_pos _, serMsg_ext (ho.cs _ (getD_mem _ hi))⟩, ?_, rfl⟩
      simp only [enc]; rw [if_pos hi]

theorem cover_exitWrites (d : ExitDesc) (m : Spec.Rec) : ∀ k, k.Valid g → ∀ v, enc g { m with exit := d } k = some v →
    (∃ w ∈ exitWrites g d, w.1 = k.id g) ∨ enc g m k = some v := by
  intro k hk v h
  cases k with
  | exitS => exact Or.inl ⟨_, List.mem_cons_self, rfl⟩
  | exitE i =>
    simp only [enc] at h
    by_cases hi : i < d.elements.length
    · exact Or.inl ⟨_, List.mem_cons_of_mem _ (List.mem_append.2 (Or.inl (List.mem_map.2 ⟨i, List.mem_range.2 hi, rfl⟩))), rfl⟩
    · rw [if_neg hi] at h; cases h
  | exitC i =>
    simp only [enc] at h
    by_cases hi : i < d.complaints.length
    · exact Or.inl ⟨_, List.mem_cons_of_mem _ (List.mem_append.2 (Or.inr (List.mem_map.2 ⟨i, List.mem_range.2 hi, rfl⟩))), rfl⟩
    · rw [if_neg hi] at h; cases h
  | _ => exact Or.inr h

theorem mem_newWrites {d : NewDesc} (ho : OkNew g d) (m : Spec.Rec) : ∀ w ∈ newWrites g d, ∃ k, KW g k w ∧ enc g { m with newView := d } k = some (some w.2) ∧ k.plain = true := by
  intro w hw
  obtain ⟨h1, h2⟩ := serNewSimple_le ho
  rcases List.mem_cons.1 hw with rfl | hw
  · exact ⟨.newS, ⟨trivial, rfl, h1, h2⟩, rfl, rfl⟩
  · obtain ⟨i, hi, rfl⟩ := List.mem_map.1 hw
    have hi := List.mem_range.1 hi
    have hm := serMsg_le (ho.vcs _ (getD_mem none (by rw [ho.n]; exact hi)))
    refine ⟨.newE i, ⟨hi, rfl, serMsg_pos _, ?_⟩, rfl, rfl⟩
    show (serMsg _).length ≤ g.maxVc
    unfold Cfg.maxVc; omega

theorem cover_newWrites (d : NewDesc) (m : Spec.Rec) : ∀ k, k.Valid g → ∀ v, enc g { m with newView := d } k = some v →
    (∃ w ∈ newWrites g d, w.1 = k.id g) ∨ enc g m k = some v := by
  intro k hk v h
  cases k with
  | newS => exact Or.inl ⟨_, List.mem_cons_self, rfl⟩
  | newE i => exact Or.inl ⟨_, List.mem_cons_of_mem _ (List.mem_map.2 ⟨i, List.mem_range.2 hk, rfl⟩), rfl⟩
  | _ => exact Or.inr h

theorem mem_clearSeq {i : Nat} (hi : i < 300) : ∀ w ∈ clearSeq i, ∃ p, p < 6 ∧ KW g (.seq i p) w ∧ w.2 = slotBytes Spec.Slot.empty p := by
  intro w hw
  have hl : ∀ v : Bytes, v.length = 1 → 0 < v.length ∧ v.length ≤ (Key.seq i 0).size g := by
    intro v hv; simp only [Key.size]; omega
  simp only [clearSeq, List.mem_cons, List.not_mem_nil, or_false] at hw
  rcases hw with rfl | rfl | rfl | rfl | rfl | rfl
  · exact ⟨0, by decide, ⟨⟨hi, by decide⟩, rfl, (hl _ rfl).1, (hl _ rfl).2⟩, rfl⟩
  · exact ⟨1, by decide, ⟨⟨hi, by decide⟩, rfl, (hl _ rfl).1, (hl _ rfl).2⟩, rfl⟩
  · exact ⟨2, by decide, ⟨⟨hi, by decide⟩, rfl, (hl _ rfl).1, (hl _ rfl).2⟩, rfl⟩
  · exact ⟨3, by decide, ⟨⟨hi, by decide⟩, rfl, (hl _ rfl).1, (hl _ rfl).2⟩, rfl⟩
  · exact ⟨4, by decide, ⟨⟨hi, by decide⟩, rfl, (hl _ rfl).1, (hl _ rfl).2⟩, rfl⟩
  · exact ⟨5, by decide, ⟨⟨hi, by decide⟩, rfl, (hl _ rfl).1, (hl _ rfl).2⟩, rfl⟩

theorem cover_clearSeq (i : Nat) {p : Nat} (hp : p < 6) : ∃ w ∈ clearSeq i, w.1 = (Key.seq i p).id g := by
  rcases (by omega : p = 0 ∨ p = 1 ∨ p = 2 ∨ p = 3 ∨ p = 4 ∨ p = 5) with rfl | rfl | rfl | rfl | rfl | rfl
  · exact ⟨(idSeq + 1 + i * 6, serMsg none), by simp [clearSeq], rfl⟩
  · exact ⟨(idSeq + 2 + i * 6, serMsg none), by simp [clearSeq], rfl⟩
  · exact ⟨(idSeq + 3 + i * 6, serMsg none), by simp [clearSeq], rfl⟩
  · exact ⟨(idSeq + 4 + i * 6, serMsg none), by simp [clearSeq], rfl⟩
  · exact ⟨(idSeq + 5 + i * 6, [0]), by simp [clearSeq], rfl⟩
  · exact ⟨(idSeq + 6 + i * 6, [0]), by simp [clearSeq], rfl⟩

theorem mem_clearCk {i : Nat} (hi : i < 3) : ∀ w ∈ clearCk i, ∃ p, p < 2 ∧ KW g (.ck i p) w ∧ w.2 = ckBytes Spec.CkSlot.empty p := by
  intro w hw
  have hl : ∀ v : Bytes, v.length = 1 → 0 < v.length ∧ v.length ≤ (Key.ck i 0).size g := by
    intro v hv; simp only [Key.size]; omega
  simp only [clearCk, List.mem_cons, List.not_mem_nil, or_false] at hw
  rcases hw with rfl | rfl
  · exact ⟨0, by decide, ⟨⟨hi, by decide⟩, rfl, (hl _ rfl).1, (hl _ rfl).2⟩, rfl⟩
  · exact ⟨1, by decide, ⟨⟨hi, by decide⟩, rfl, (hl _ rfl).1, (hl _ rfl).2⟩, rfl⟩

theorem cover_clearCk (i : Nat) {p : Nat} (hp : p < 2) : ∃ w ∈ clearCk i, w.1 = (Key.ck i p).id g := by
  rcases (by omega : p = 0 ∨ p = 1) with rfl | rfl
  · exact ⟨_, List.mem_cons_self, rfl⟩
  · exact ⟨_, List.mem_cons_of_mem _ List.mem_cons_self, rfl⟩

theorem seqAt_evicted {old new i : Nat} (h : old ≤ new) (h1 : seqAt old i < new) : old + 300 ≤ seqAt new i := by
  unfold seqAt at *; omega
theorem seqAt_kept {old new i : Nat} (h : old ≤ new) (h1 : ¬seqAt old i < new) : seqAt new i = seqAt old i := by
  unfold seqAt at *; omega
theorem ckAt_evicted {old new i : Nat} (ho : old % 150 = 0) (hn : new % 150 = 0) (h : old ≤ new) (h1 : ckAt old i < new) : old + 450 ≤ ckAt new i := by
  unfold ckAt at *; omega
theorem ckAt_kept {old new i : Nat} (ho : old % 150 = 0) (hn : new % 150 = 0) (h : old ≤ new) (h1 : ¬ckAt old i < new) : ckAt new i = ckAt old i := by
  unfold ckAt at *; omega

end
end Verif.Meta
