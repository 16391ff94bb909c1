import Verif.Ckpt.CertLemmas
/-!
C42: the invariant of a replica's checkpoint state.  `H m`: the message `m` was received.
-/
set_option linter.unusedSimpArgs false
set_option linter.unusedVariables false
namespace Verif.Ckpt
open Concord Concord.Cert

variable {g : Cfg} {H : Msg → Prop}

/-- a stored message: of the replica it is stored under, for that checkpoint, received or signed -/
structure MsgOk (g : Cfg) (H : Msg → Prop) (signed : List (Nat × Content)) (s id : Nat) (m : Msg) : Prop where
  gen : m.gen = id
  lt : id < g.n
  seq : m.seq = s
  self : id = g.self → (s, m.content) ∈ signed ∧ m.sender = g.self
  peer : id ≠ g.self → H m

theorem MsgOk.mono {s1 s2 : List (Nat × Content)} {s id m} (h : MsgOk g H s1 s id m) (hs : ∀ x ∈ s1, x ∈ s2) :
    MsgOk g H s2 s id m :=
  ⟨h.gen, h.lt, h.seq, fun e => ⟨hs _ (h.self e).1, (h.self e).2⟩, h.peer⟩

/-- Everything but the relation of `lastExec` to the window. `x` is the checkpoint whose certificate may have been
forced although it is not stable yet (0: none). -/
structure Core (g : Cfg) (H : Msg → Prop) (x : Nat) (a : St) : Prop where
  lsm : a.lastStable % cpw = 0
  le1 : a.lastStable ≤ a.lastExec
  bm : a.begin % cpw = 0
  b1 : a.begin ≤ a.lastStable
  b2 : a.lastStable ≤ a.begin + cpw
  out : ∀ s, a.inside s = false → a.slots s = {}
  good : ∀ s, Good g (a.slots s).cert
  exact : ∀ s, a.lastStable < s → s ≠ x → Base g (a.slots s).cert
  msgs : ∀ s id m, (id, m) ∈ (a.slots s).cert.msgs → MsgOk g H a.signed s id m
  own : ∀ s c, (s, c) ∈ a.signed → a.begin ≤ s → ∃ m, (g.self, m) ∈ (a.slots s).cert.msgs
  sle : ∀ s c, (s, c) ∈ a.signed → s % cpw = 0 ∧ 0 < s ∧ s ≤ a.lastExec
  su : ∀ s c c', (s, c) ∈ a.signed → (s, c') ∈ a.signed → c = c'
  exe : ∀ s, (a.slots s).executed = true → s ≤ a.lastExec
  ost : ∀ s, (a.slots s).ownStable = true → s ≤ a.lastStable
  ost2 : ∀ c, (a.lastStable, c) ∈ a.signed → (a.slots a.lastStable).ownStable = true
  psLS : a.ps.lastStable = a.lastStable
  psLE : a.ps.lastExec = a.lastExec
  chk : ∀ s m, a.ps.check s = some m → a.lastStable ≤ s ∧ MsgOk g H a.signed s g.self m ∧
    (s = a.lastStable → m.stable = true) ∧ (a.lastStable < s → m.stable = false)
  chk2 : ∀ s c, (s, c) ∈ a.signed → a.lastStable ≤ s → (a.ps.check s).isSome = true
  mrk : ∀ s, a.ps.mark s = true → s = a.lastStable
  dsc : ∀ e ∈ a.ps.desc, MsgOk g H a.signed a.lastStable e.1 e.2 ∧ (e.1 = g.self → e.2.stable = true)
  dsk : keysNodup a.ps.desc
  dsc2 : ∀ c, (a.lastStable, c) ∈ a.signed → ∃ m, (g.self, m) ∈ a.ps.desc

/-- the table of stable checkpoints -/
structure TabOk (g : Cfg) (H : Msg → Prop) (t : List (Nat × Msg)) : Prop where
  keys : keysNodup t
  ent : ∀ e ∈ t, e.2.gen = e.1 ∧ e.2.stable = true ∧ H e.2

/-- The invariant between events -/
structure Inv (g : Cfg) (H : Msg → Prop) (a : St) : Prop where
  core : Core g H 0 a
  tab : TabOk g H a.table
  le2 : a.lastExec ≤ a.lastStable + wws
  flr : 0 < a.lastExec / cpw * cpw → ∃ c, (a.lastExec / cpw * cpw, c) ∈ a.signed
  lsg : a.lastStable = 0 ∨ (∃ c, (a.lastStable, c) ∈ a.signed) ∨ a.lastStable + wws = a.lastExec

theorem inside_iff {a : St} {s : Nat} : a.inside s = true ↔ a.begin ≤ s ∧ s < a.begin + clw := by
  simp [St.inside]

theorem inside_false {a : St} {s : Nat} : a.inside s = false ↔ s < a.begin ∨ a.begin + clw ≤ s := by
  have := inside_iff (a := a) (s := s)
  cases h : a.inside s
  · rw [h] at this; simp at this
    simp
    by_cases h1 : a.begin ≤ s
    · right; exact this h1
    · left; omega
  · rw [h] at this; simp at this
    simp; omega

theorem getOk_iff {a : St} {s : Nat} : a.getOk s = true ↔ s % cpw = 0 ∧ a.begin ≤ s ∧ s < a.begin + clw := by
  unfold St.getOk
  rw [Bool.and_eq_true, inside_iff, beq_iff_eq]

theorem init_inv (hg : g.Ok) : Inv g H {} where
  core :=
    { lsm := rfl, le1 := by simp, bm := rfl, b1 := by simp, b2 := by simp, out := fun _ _ => rfl
      good := fun _ => good_of_base (base_init hg), exact := fun _ _ _ => base_init hg
      msgs := by simp, own := by simp, sle := by simp, su := by simp, exe := by simp, ost := by simp, ost2 := by simp
      psLS := rfl, psLE := rfl, chk := by simp, chk2 := by simp, mrk := by simp, dsc := by simp
      dsk := by simp [keysNodup], dsc2 := by simp }
  tab := ⟨by simp [keysNodup], by simp⟩
  le2 := by simp
  flr := by simp
  lsg := .inl rfl

theorem core_super {x s : Nat} {a : St} (h : Core g H x a) : Core g H x (superAt s a).1 := by
  unfold superAt
  split
  · exact h
  · cases h; constructor <;> assumption

theorem core_x0 {a : St} (h : Core g H 0 a) (x : Nat) : Core g H x a := by
  have he := h.exact
  cases h
  constructor <;> first | assumption | skip
  intro s hs _
  exact he s hs (by omega)

theorem core_table {x : Nat} {a : St} (h : Core g H x a) (t : List (Nat × Msg)) : Core g H x { a with table := t } := by
  cases h; constructor <;> assumption

theorem core_le {x k : Nat} {a : St} (h : Core g H x a) (hk : a.lastExec ≤ k) :
    Core g H x { a with lastExec := k, ps := { a.ps with lastExec := k } } := by
  have h1 := h.le1
  have h2 := h.sle
  have h3 := h.exe
  cases h
  constructor <;> first | assumption | skip
  · show a.lastStable ≤ k; omega
  · intro s c hs
    obtain ⟨p, q, r⟩ := h2 s c hs
    exact ⟨p, q, show s ≤ k by omega⟩
  · intro s hs
    have := h3 s hs
    show s ≤ k
    omega
  · rfl

/-- replacing a slot -/
theorem core_slot {x x' s : Nat} {a : St} {c : Slot} (h : Core g H x a) (hin : a.inside s = true)
    (hgood : Good g c.cert) (hex : a.lastStable < s → s ≠ x' → Base g c.cert) (hx : ∀ t, t ≠ s → t ≠ x' → t ≠ 0 → t ≠ x)
    (hm : ∀ id m, (id, m) ∈ c.cert.msgs → MsgOk g H a.signed s id m)
    (ho : ∀ m, (g.self, m) ∈ (a.slots s).cert.msgs → ∃ m', (g.self, m') ∈ c.cert.msgs)
    (he : c.executed = true → s ≤ a.lastExec) (hs : c.ownStable = true → s ≤ a.lastStable)
    (hs2 : ∀ k, (a.lastStable, k) ∈ a.signed → s = a.lastStable → c.ownStable = true) :
    Core g H x' (a.setSlot s c) := by
  have sl : ∀ t, (a.setSlot s c).slots t = if t = s then c else a.slots t := fun _ => rfl
  constructor
  · exact h.lsm
  · exact h.le1
  · exact h.bm
  · exact h.b1
  · exact h.b2
  · intro t ht
    have ht2 : a.inside t = false := ht
    rw [sl, if_neg (by intro e; rw [e, hin] at ht2; cases ht2)]
    exact h.out t ht2
  · intro t; rw [sl]; split
    · exact hgood
    · exact h.good t
  · intro t ht hne; rw [sl]; split
    · rename_i e; subst e; exact hex ht hne
    · rename_i e
      exact h.exact t ht (hx t e hne (by rintro rfl; exact absurd ht (by omega)))
  · intro t id m; rw [sl]; split
    · rename_i e; subst e; exact hm id m
    · exact h.msgs t id m
  · intro t k ht hb
    obtain ⟨m, hm1⟩ := h.own t k ht hb
    rw [sl]; split
    · rename_i e; subst e; exact ho m hm1
    · exact ⟨m, hm1⟩
  · exact h.sle
  · exact h.su
  · intro t; rw [sl]; split
    · rename_i e; subst e; exact he
    · exact h.exe t
  · intro t; rw [sl]; split
    · rename_i e; subst e; exact hs
    · exact h.ost t
  · intro k hk
    rw [sl]; split
    · rename_i e; exact hs2 k hk e.symm
    · exact h.ost2 k hk
  · exact h.psLS
  · exact h.psLE
  · exact h.chk
  · exact h.chk2
  · exact h.mrk
  · exact h.dsc
  · exact h.dsk
  · exact h.dsc2

theorem own_some {c : Slot} {m : Msg} (hk : keysNodup c.cert.msgs) (hm : (g.self, m) ∈ c.cert.msgs) :
    c.own g = some { m with stable := c.ownStable } := by
  unfold Slot.own
  rw [(msgOf_iff hk).2 hm]; rfl

theorem own_none {c : Slot} (hk : keysNodup c.cert.msgs) (h : ∀ m, (g.self, m) ∉ c.cert.msgs) : c.own g = none := by
  unfold Slot.own
  cases hh : c.cert.msgOf g.self with
  | none => rfl
  | some m => exact absurd ((msgOf_iff hk).1 hh) (h m)

theorem own_mem {c : Slot} {m : Msg} (hk : keysNodup c.cert.msgs) (h : c.own g = some m) :
    ∃ m0, (g.self, m0) ∈ c.cert.msgs ∧ m = { m0 with stable := c.ownStable } := by
  unfold Slot.own at h
  cases hh : c.cert.msgOf g.self with
  | none => rw [hh] at h; cases h
  | some m0 =>
    rw [hh] at h
    exact ⟨m0, (msgOf_iff hk).1 hh, (Option.some.inj h).symm⟩

theorem msgs_in {x : Nat} {a : St} (h : Core g H x a) {s id m} (hm : (id, m) ∈ (a.slots s).cert.msgs) : a.inside s = true := by
  cases hi : a.inside s
  · rw [h.out s hi] at hm; cases hm
  · rfl

/-- adding a received message -/
theorem core_add (hg : g.Ok) {x : Nat} {a : St} {m : Msg} (h : Core g H x a) (hin : a.inside m.seq = true)
    (hgen : m.gen < g.n) (hH : H m) (hself : m.gen = g.self → (m.seq, m.content) ∈ a.signed) :
    Core g H x (a.setSlot m.seq ((a.slots m.seq).add g m.gen m).1) := by
  have hb := (inside_iff.1 hin).1
  apply core_slot h hin
  · exact good_add hg (h.good _) m hgen
  · intro h1 h2
    exact base_add hg (h.exact _ h1 h2) m hgen
  · intro t _ ht _; exact ht
  · intro id m' hm'
    have hm' : (id, m') ∈ ((a.slots m.seq).cert.addMsg g.p m.gen m).1.msgs := hm'
    rcases addMsg_cases (g := g) (a.slots m.seq).cert m.gen m with ⟨h1, h2⟩ | ⟨h1, h2, h3⟩
    · rw [h2] at hm'; exact h.msgs _ _ _ hm'
    · rw [h2, List.mem_append, List.mem_singleton] at hm'
      rcases hm' with hm' | hm'
      · exact h.msgs _ _ _ hm'
      · cases hm'
        refine ⟨rfl, hgen, rfl, fun e => ?_, fun _ => hH⟩
        exfalso
        obtain ⟨mo, hmo⟩ := h.own _ _ (hself e) hb
        rw [hasMsg_iff.2 ⟨mo, by rw [e]; exact hmo⟩] at h1
        cases h1
  · intro m' hm'
    refine ⟨m', ?_⟩
    show _ ∈ ((a.slots m.seq).cert.addMsg g.p m.gen m).1.msgs
    rcases addMsg_cases (g := g) (a.slots m.seq).cert m.gen m with ⟨h1, h2⟩ | ⟨h1, h2, h3⟩
    · rw [h2]; exact hm'
    · rw [h2]; exact List.mem_append_left _ hm'
  · exact h.exe _
  · exact h.ost _
  · intro k hk e
    have := h.ost2 k hk
    rw [← e] at this
    exact this

/-- signing the own checkpoint message for a new sequence number -/
theorem core_sign (hg : g.Ok) {a : St} {v : Env} {s : Nat} {c : Content} (sent : Bool) (h : Core g H 0 a)
    (hs : s % cpw = 0) (h0 : 0 < s) (hle : s ≤ a.lastExec) (hls : a.lastStable < s)
    (hnew : ∀ t c, (t, c) ∈ a.signed → t < s) (hin : a.inside s = true) (hc : c = v.dg (s / cpw)) :
    Core g H 0 { (a.setSlot s { ((a.slots s).add g g.self (ownMsg g v s false)).1 with sent := sent }) with
      signed := a.signed ++ [(s, c)]
      ps := a.ps.setCheck s (ownMsg g v s false) } := by
  subst hc
  have hnoown : ∀ m, (g.self, m) ∉ (a.slots s).cert.msgs := by
    intro m hm
    have := hnew _ _ ((h.msgs _ _ _ hm).self rfl).1
    omega
  have hmsgs : ((a.slots s).cert.addMsg g.p g.self (ownMsg g v s false)).1.msgs =
      (a.slots s).cert.msgs ++ [(g.self, ownMsg g v s false)] := by
    rcases addMsg_cases (g := g) (a.slots s).cert g.self (ownMsg g v s false) with ⟨h1, h2⟩ | ⟨h1, h2, h3⟩
    · obtain ⟨m, hm⟩ := hasMsg_iff.1 h1
      exact absurd hm (hnoown m)
    · exact h2
  have hmem : ∀ x, x ∈ a.signed → x ∈ a.signed ++ [(s, v.dg (s / cpw))] := fun x hx => List.mem_append_left _ hx
  have hown : MsgOk g H (a.signed ++ [(s, v.dg (s / cpw))]) s g.self (ownMsg g v s false) :=
    ⟨rfl, hg.self, rfl, fun _ => ⟨by simp [ownMsg], rfl⟩, fun e => absurd rfl e⟩
  have sl : ∀ t, ({ (a.setSlot s { ((a.slots s).add g g.self (ownMsg g v s false)).1 with sent := sent }) with
      signed := a.signed ++ [(s, v.dg (s / cpw))], ps := a.ps.setCheck s (ownMsg g v s false) } : St).slots t =
      if t = s then { ((a.slots s).add g g.self (ownMsg g v s false)).1 with sent := sent } else a.slots t := fun _ => rfl
  have hsg : ∀ t k, (t, k) ∈ a.signed ++ [(s, v.dg (s / cpw))] → (t, k) ∈ a.signed ∨ (t = s ∧ k = v.dg (s / cpw)) := by
    intro t k ht
    rw [List.mem_append, List.mem_singleton] at ht
    rcases ht with ht | ht
    · exact .inl ht
    · cases ht; exact .inr ⟨rfl, rfl⟩
  constructor
  · exact h.lsm
  · exact h.le1
  · exact h.bm
  · exact h.b1
  · exact h.b2
  · intro t ht
    have ht2 : a.inside t = false := ht
    rw [sl, if_neg (by intro e; rw [e, hin] at ht2; cases ht2)]
    exact h.out t ht2
  · intro t; rw [sl]; split
    · exact good_add hg (h.good _) _ hg.self
    · exact h.good t
  · intro t ht hne; rw [sl]; split
    · rename_i e; subst e; exact base_add hg (h.exact _ hls (by omega)) _ hg.self
    · exact h.exact t ht hne
  · intro t id m; rw [sl]; split
    · rename_i e; subst e
      intro hm
      have hm : (id, m) ∈ ((a.slots t).cert.addMsg g.p g.self (ownMsg g v t false)).1.msgs := hm
      rw [hmsgs, List.mem_append, List.mem_singleton] at hm
      rcases hm with hm | hm
      · exact (h.msgs _ _ _ hm).mono hmem
      · cases hm; exact hown
    · intro hm; exact (h.msgs _ _ _ hm).mono hmem
  · intro t k ht hb
    rw [sl]; split
    · refine ⟨ownMsg g v s false, ?_⟩
      show _ ∈ ((a.slots s).cert.addMsg g.p g.self (ownMsg g v s false)).1.msgs
      rw [hmsgs]; simp
    · rename_i e
      rcases hsg t k ht with h1 | h1
      · exact h.own t k h1 hb
      · exact absurd h1.1 e
  · intro t k ht
    rcases hsg t k ht with h1 | h1
    · exact h.sle t k h1
    · rw [h1.1]; exact ⟨hs, h0, hle⟩
  · intro t k k' ht ht'
    rcases hsg t k ht with h1 | h1 <;> rcases hsg t k' ht' with h2 | h2
    · exact h.su t k k' h1 h2
    · have := hnew _ _ h1; omega
    · have := hnew _ _ h2; omega
    · rw [h1.2, h2.2]
  · intro t; rw [sl]; split
    · rename_i e; subst e; intro _; exact hle
    · exact h.exe t
  · intro t; rw [sl]; split
    · rename_i e; subst e; exact h.ost t
    · exact h.ost t
  · intro k hk
    rcases hsg _ k hk with h1 | h1
    · rw [sl]; split
      · rename_i e
        have e : a.lastStable = s := e
        omega
      · exact h.ost2 k h1
    · have e : a.lastStable = s := h1.1
      omega
  · exact h.psLS
  · exact h.psLE
  · intro t m ht
    have ht : (if t = s then some (ownMsg g v s false) else a.ps.check t) = some m := ht
    by_cases e : t = s
    · rw [if_pos e] at ht
      cases ht; subst e
      refine ⟨Nat.le_of_lt hls, hown, fun e => ?_, fun _ => rfl⟩
      have e : t = a.lastStable := e
      omega
    · rw [if_neg e] at ht
      obtain ⟨p, q, r⟩ := h.chk t m ht
      exact ⟨p, q.mono hmem, r⟩
  · intro t k ht hl
    show (if t = s then some (ownMsg g v s false) else a.ps.check t).isSome = true
    by_cases e : t = s
    · rw [if_pos e]; rfl
    · rw [if_neg e]
      rcases hsg t k ht with h1 | h1
      · exact h.chk2 t k h1 hl
      · exact absurd h1.1 e
  · exact h.mrk
  · intro e he
    obtain ⟨p, q⟩ := h.dsc e he
    exact ⟨p.mono hmem, q⟩
  · exact h.dsk
  · intro k hk
    rcases hsg _ k hk with h1 | h1
    · exact h.dsc2 k h1
    · have e : a.lastStable = s := h1.1
      omega

end Verif.Ckpt
