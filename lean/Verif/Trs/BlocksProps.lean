import Verif.Trs.Blocks
set_option linter.unusedVariables false
set_option linter.unusedSimpArgs false
/-!
# C32: every subscriber receives consecutive blocks
-/
namespace Verif.Trs

variable {D F : Type} {W : World D F}

theorem bufAt_push {b : Buf (Nat × D)} {p a : Nat} (h : BufAt W b p a) : BufAt W (b.push (·.1) (p + 1, W.C (p + 1))) (p + 1) a := by
  obtain ⟨len, h1, h2, h3, h4⟩ := h
  rw [Buf.push]
  split
  · rename_i ht
    exact ⟨len, h1, fun h => (by have h : b.tooSlow = false := h; rw [ht] at h; cases h), (by omega), fun h => ⟨by show a + len ≤ p + 1; omega, Nat.le_refl _⟩⟩
  · rename_i ht
    have ht : b.tooSlow = false := by simpa using ht
    have h2 := h2 ht
    split
    · refine ⟨len + 1, ?_, fun _ => by omega, by omega, fun _ => ⟨by show _ ≤ p + 1; omega, Nat.le_refl _⟩⟩
      show b.queue ++ _ = _
      rw [h1, List.range'_concat]
      simp only [List.map_append, List.map_cons, List.map_nil, Nat.one_mul]
      rw [show a + 1 + len = p + 1 by omega]
    · exact ⟨len, h1, fun h => (by cases h), (by omega), fun h => ⟨(h4 h).1, by have := (h4 h).2; show b.newest ≤ _; omega⟩⟩

theorem bufAt_first {b : Buf (Nat × D)} {q : Nat} (hq : b.queue = []) (ht : b.tooSlow = false) (h0 : 0 < q) :
    ∃ a, BufAt W (b.push (·.1) (q, W.C q)) q a := by
  refine ⟨q - 1, ?_⟩
  rw [Buf.push, if_neg (by rw [ht]; decide)]
  split
  · refine ⟨1, ?_, fun _ => by omega, by omega, fun _ => ⟨by show _ ≤ q; omega, Nat.le_refl _⟩⟩
    show b.queue ++ _ = _
    rw [hq]
    show [(q, W.C q)] = [(q - 1 + 1, W.C (q - 1 + 1))]
    rw [show q - 1 + 1 = q by omega]
  · exact ⟨0, hq, fun h => (by cases h), by omega, fun h => absurd rfl h⟩

theorem bufAt_pop {b b' : Buf (Nat × D)} {p a : Nat} {u : Nat × D} (h : BufAt W b p a) (hp : b.pop = (b', .got u)) :
    u = (a + 1, W.C (a + 1)) ∧ BufAt W b' p (a + 1) := by
  obtain ⟨len, h1, h2, h3, h4⟩ := h
  rw [Buf.pop] at hp
  split at hp
  · cases hp
  · cases len with
    | zero => rw [show b.queue = [] from h1] at hp; cases hp
    | succ len =>
      rw [List.range'_succ, List.map_cons] at h1
      rw [h1] at hp
      simp only [Prod.mk.injEq, PopRes.got.injEq] at hp
      obtain ⟨rfl, rfl⟩ := hp
      exact ⟨rfl, len, rfl, fun h => by have := h2 h; omega, by omega, fun h => by
        have := h4 (by omega)
        exact ⟨by show _ ≤ b.newest; omega, this.2⟩⟩

theorem bufAt_front {b : Buf (Nat × D)} {p a : Nat} {u : Nat × D} (h : BufAt W b p a) (hf : b.front = some u) :
    u.1 = a + 1 ∧ u.1 ≤ b.newest ∧ b.newest ≤ p ∧ b.newestId = some b.newest := by
  obtain ⟨len, h1, h2, h3, h4⟩ := h
  cases len with
  | zero => rw [Buf.front, show b.queue = [] from h1] at hf; cases hf
  | succ len =>
    rw [List.range'_succ, List.map_cons] at h1
    rw [Buf.front, h1] at hf
    cases hf
    have := h4 (by omega)
    refine ⟨rfl, by show a + 1 ≤ _; omega, this.2, ?_⟩
    rw [Buf.newestId, if_neg (by rw [h1]; simp)]

theorem blocksFrom_succ (a n : Nat) : blocksFrom W a (n + 1) = blocksFrom W a n ++ [(a + n, W.flt (W.C (a + n)))] := by
  rw [blocksFrom, List.range'_concat]
  simp [blocksFrom]

/-- a step of the producer keeps everything that was known about the buffer -/
theorem bufAt_pushTo {s : Sys D F} {q a : Nat} (ha : s.attached = true) (hf : s.fresh = false) (hq : q = s.pushed + 1)
    (h : BufAt W s.buf s.pushed a) : BufAt W (pushTo W s q).buf (pushTo W s q).pushed a := by
  rw [pushTo, if_pos ha]
  subst hq
  exact bufAt_push h

theorem pcInv_pushTo {s : Sys D F} {q : Nat} (h : PcInv W s) (hf : s.attached = true → s.fresh = false → q = s.pushed + 1) :
    PcInv W (pushTo W s q) := by
  by_cases ha : s.attached = true
  · have e1 : (pushTo W s q).pc = s.pc := by rw [pushTo, if_pos ha]
    have e2 : (pushTo W s q).sent = s.sent := by rw [pushTo, if_pos ha]
    have e3 : (pushTo W s q).req = s.req := by rw [pushTo, if_pos ha]
    have e4 : (pushTo W s q).last = s.last := by rw [pushTo, if_pos ha]
    have e5 : (pushTo W s q).attached = s.attached := by rw [pushTo, if_pos ha]
    have e6 : (pushTo W s q).fresh = false := by rw [pushTo, if_pos ha]
    rw [PcInv] at h ⊢
    rw [e1, e2, e3, e4, e5, e6]
    cases hp : s.pc <;> rw [hp] at h <;> dsimp only at h ⊢
    case read i e gap =>
      obtain ⟨h1, h2, h3, h4, h5, h6, h7⟩ := h
      refine ⟨h1, h2, h3, h4, h5, h6, fun hg => ⟨rfl, ?_⟩⟩
      obtain ⟨h8, a, h9, h10⟩ := h7 hg
      exact ⟨a, bufAt_pushTo ha h8 (hf ha h8) h9, h10⟩
    case overlap e =>
      obtain ⟨h1, h2, h3, h4, h5, h8, a, h9, h10⟩ := h
      exact ⟨h1, h2, h3, h4, h5, rfl, a, bufAt_pushTo ha h8 (hf ha h8) h9, h10⟩
    case live =>
      obtain ⟨h1, h8, k, h2, h9, h3⟩ := h
      exact ⟨h1, rfl, k, h2, bufAt_pushTo ha h8 (hf ha h8) h9, h3⟩
    all_goals exact h
  · have e : pushTo W s q = { s with pushed := q } := by rw [pushTo, if_neg ha]
    rw [e]
    rw [PcInv] at h ⊢
    cases hp : s.pc <;> rw [hp] at h <;> simp only [hp] at h ⊢
    case read i e gap => exact absurd h.1 ha
    case overlap e => exact absurd h.1 ha
    case live => exact absurd h.1 ha
    all_goals exact h

theorem done_of_pc {s : Sys D F} (h : PcInv W s) : ∃ k, s.sent = blocksFrom W s.req k := by
  rw [PcInv] at h
  cases hp : s.pc <;> rw [hp] at h <;> simp only at h
  case init => exact ⟨0, h.1⟩
  case pruneCheck => exact ⟨0, h.1⟩
  case subscribe => exact ⟨0, h.1⟩
  case egCheck => exact ⟨0, h.1⟩
  case readLast => exact ⟨0, h.1⟩
  case waitNew => exact ⟨0, h.1⟩
  case sync0 => exact ⟨0, h.1⟩
  case sync1 => exact ⟨0, h.1⟩
  case read => exact ⟨_, h.2.2.1⟩
  case wait1 => exact ⟨_, h.2.2.1⟩
  case overlap => exact ⟨_, h.2.2.1⟩
  case live => obtain ⟨_, _, k, h, _⟩ := h; exact ⟨k, h⟩
  case done => exact h

theorem to_done {s : Sys D F} (h : BInv W s) (st : Status) : BInv W { s with pc := .done st } := by
  obtain ⟨k, hk⟩ := done_of_pc h.pc
  exact ⟨h.pushed_le, h.buf, ⟨k, hk⟩, h.sent_le, Or.inr (Or.inl ⟨st, rfl⟩)⟩

theorem binv_sub {s s' : Sys D F} (h : BInv W s) (hs : subStep W s = some s') : BInv W s' := by
  have hd : ∀ st, BInv W { s with pc := .done st } := to_done h
  obtain ⟨i1, i2, i3, i4, i5⟩ := h
  rw [subStep] at hs
  rw [PcInv] at i3
  -- the buffer of an attached subscriber with a first element
  have hfr : s.attached = true → ∀ u, s.buf.front = some u → s.fresh = false ∧ ∃ a, BufAt W s.buf s.pushed a := by
    intro ha u hu
    cases hf : s.fresh with
    | true =>
      have := ((i2 ha).1 hf).1
      rw [Buf.front, this] at hu
      cases hu
    | false => exact ⟨rfl, (i2 ha).2 hf⟩
  have hpop : ∀ b u, s.buf.pop = (b, .got u) → s.buf.front = some u := by
    intro b u hb
    rw [Buf.pop] at hb
    split at hb
    · cases hb
    · split at hb
      · cases hb
      · rename_i he
        simp only [Prod.mk.injEq, PopRes.got.injEq] at hb
        rw [Buf.front, he, hb.2]; rfl
  -- removing an element keeps the shape of the buffer
  have hbuf : s.attached = true → ∀ b u, s.buf.pop = (b, .got u) →
      (s.fresh = true → b.queue = [] ∧ b.tooSlow = false) ∧ (s.fresh = false → ∃ a, BufAt W b s.pushed a) := by
    intro ha b u hb
    obtain ⟨h1, a, h2⟩ := hfr ha u (hpop b u hb)
    exact ⟨fun h => (by rw [h1] at h; cases h), fun _ => ⟨_, (bufAt_pop h2 hb).2⟩⟩
  cases hp : s.pc <;> rw [hp] at hs i3 <;> dsimp only at hs i3
  case init =>
    split at hs
    · cases hs; exact hd _
    · cases hs; exact ⟨i1, i2, i3, i4, Or.inr (Or.inr (by show s.req ≤ s.last + 1; omega))⟩
  case pruneCheck =>
    rw [hp] at i5
    have i5 : s.req ≤ s.last + 1 := by simpa using i5
    split at hs
    · cases hs; exact hd _
    · cases hs; exact ⟨i1, i2, i3, i4, Or.inr (Or.inr i5)⟩
  case subscribe =>
    rw [hp] at i5
    have i5 : s.req ≤ s.last + 1 := by simpa using i5
    cases hs
    exact ⟨i1, fun _ => ⟨fun _ => ⟨rfl, rfl⟩, fun h => (by cases h)⟩, ⟨i3.1, rfl, fun h => (by cases h)⟩, i4, Or.inr (Or.inr i5)⟩
  case egCheck =>
    rw [hp] at i5
    have i5 : s.req ≤ s.last + 1 := by simpa using i5
    split at hs
    · split at hs
      · cases hs; exact hd _
      · cases hs; exact ⟨i1, i2, ⟨i3.1, i3.2.1, fun h => (by cases h)⟩, i4, Or.inr (Or.inr i5)⟩
    · cases hs; exact ⟨i1, i2, ⟨i3.1, i3.2.1, fun h => (by cases h)⟩, i4, Or.inr (Or.inr i5)⟩
  case readLast =>
    rw [hp] at i5
    have i5 : s.req ≤ s.last + 1 := by simpa using i5
    split at hs
    · cases hs; exact ⟨i1, i2, ⟨i3.1, i3.2.1, by assumption⟩, i4, Or.inr (Or.inr i5)⟩
    · cases hs; exact ⟨i1, i2, ⟨i3.1, i3.2.1, fun _ => (by show s.req ≤ s.last; omega)⟩, i4, Or.inr (Or.inr i5)⟩
  case waitNew l =>
    rw [hp] at i5
    have i5 : s.req ≤ s.last + 1 := by simpa using i5
    obtain ⟨j1, j2, j3⟩ := i3
    split at hs
    · cases hs
    · rename_i u hu
      obtain ⟨f1, a, f2⟩ := hfr j2 u hu
      have f3 := bufAt_front f2 hu
      split at hs
      · split at hs
        · rename_i b v hb
          cases hs
          refine ⟨i1, fun _ => hbuf j2 b v hb, ?_, i4, Or.inr (Or.inr i5)⟩
          exact ⟨j1, j2, j3⟩
        · cases hs; exact hd _
        · cases hs
      · cases hs
        refine ⟨i1, i2, ⟨j1, j2, fun _ => ?_⟩, i4, Or.inr (Or.inr i5)⟩
        show s.req ≤ s.last
        omega
  case sync0 =>
    rw [hp] at i5
    have i5 : s.req ≤ s.last + 1 := by simpa using i5
    split at hs
    · cases hs; exact hd _
    · split at hs
      · cases hs; exact hd _
      · cases hs; exact ⟨i1, i2, ⟨i3.1, i3.2.1, i3.2.2 rfl, by assumption⟩, i4, Or.inr (Or.inr i5)⟩
  case sync1 =>
    obtain ⟨j1, j2, j3, j4⟩ := i3
    rw [if_pos j3] at hs
    cases hs
    refine ⟨i1, i2, ⟨j2, j4, ?_, Nat.le_refl _, j3, Nat.le_refl _, fun h => (by cases h)⟩, i4, Or.inr (Or.inr (by show s.req ≤ s.last + 1; omega))⟩
    show s.sent = blocksFrom W s.req (s.req - s.req)
    rw [Nat.sub_self]; exact j1
  case read i e gap =>
    obtain ⟨j1, j2, j3, j4, j5, j6, j7⟩ := i3
    split at hs
    · cases hs; exact hd _
    · split at hs
      · cases hs; exact hd _
      · split at hs
        · cases hs; exact hd _
        · cases hs
          have hsent : s.sent ++ [(i, W.flt (W.C i))] = blocksFrom W s.req (i + 1 - s.req) := by
            rw [show i + 1 - s.req = (i - s.req) + 1 by omega, blocksFrom_succ, j3, show s.req + (i - s.req) = i by omega]
          refine ⟨i1, i2, ?_, ?_, Or.inr (Or.inr (by show s.req ≤ s.last + 1; omega))⟩
          · rw [PcInv]
            dsimp only
            by_cases hie : i < e
            · rw [if_pos hie]
              dsimp only
              exact ⟨j1, j2, hsent, by omega, by omega, j6, j7⟩
            · rw [if_neg hie]
              have he : i = e := by omega
              subst he
              cases gap with
              | true =>
                rw [if_pos rfl]
                dsimp only
                exact ⟨j1, j2, hsent, j4, j6, j7 rfl⟩
              | false =>
                rw [if_neg (by decide)]
                dsimp only
                exact ⟨j1, j2, hsent, j4, j6⟩
          · intro x hx
            rcases List.mem_append.1 hx with hx | hx
            · exact i4 x hx
            · rw [List.mem_singleton] at hx
              subst hx
              show i ≤ s.last
              omega
  case wait1 e =>
    obtain ⟨j1, j2, j3, j4, j5⟩ := i3
    have hr : s.req ≤ s.last + 1 := by omega
    split at hs
    · split at hs
      · cases hs; exact hd _
      · cases hs
    · rename_i u hu
      obtain ⟨f1, a, f2⟩ := hfr j1 u hu
      have f3 := bufAt_front f2 hu
      split at hs
      · cases hs; exact hd _
      · split at hs
        · rename_i hue
          cases hs
          refine ⟨i1, i2, ⟨j1, f1, e + 1 - s.req, j3, ?_, ?_, j2⟩, i4, Or.inr (Or.inr hr)⟩
          · show BufAt W s.buf s.pushed (s.req + (e + 1 - s.req) - 1)
            rw [show s.req + (e + 1 - s.req) - 1 = a by omega]
            exact f2
          · show 0 < e + 1 - s.req
            omega
        · split at hs
          · rw [f3.2.2.2] at hs
            cases hs
            exact ⟨i1, i2, ⟨j1, j2, j3, by show s.req ≤ e + 1; omega, by show e + 1 ≤ _; omega, by show _ ≤ s.last; omega,
              fun _ => ⟨f1, a, f2, by omega⟩⟩, i4, Or.inr (Or.inr hr)⟩
          · cases hs
            exact ⟨i1, i2, ⟨j1, j2, j3, j4, j5, f1, a, f2, by omega⟩, i4, Or.inr (Or.inr hr)⟩
  case overlap e =>
    obtain ⟨j1, j2, j3, j4, j5, j6, a, j7, j8⟩ := i3
    have hr : s.req ≤ s.last + 1 := by omega
    split at hs
    · cases hs
    · cases hs; exact hd _
    · rename_i b u hb
      cases hs
      obtain ⟨g1, g2⟩ := bufAt_pop j7 hb
      refine ⟨i1, fun _ => hbuf j1 b u hb, ?_, i4, Or.inr (Or.inr hr)⟩
      rw [PcInv]
      dsimp only
      have g3 : u.1 = a + 1 := by rw [g1]
      by_cases hue : u.1 < e
      · rw [if_pos hue]
        dsimp only
        exact ⟨j1, j2, j3, j4, j5, j6, a + 1, g2, by omega⟩
      · rw [if_neg hue]
        dsimp only
        refine ⟨j1, j6, e + 1 - s.req, j3, ?_, by omega, j2⟩
        rw [show s.req + (e + 1 - s.req) - 1 = a + 1 by omega]
        exact g2
  case live =>
    obtain ⟨j1, j2, k, j3, j4, j5, j6⟩ := i3
    split at hs
    · cases hs
    · cases hs; exact hd _
    · rename_i b u hb
      cases hs
      obtain ⟨g1, g2⟩ := bufAt_pop j4 hb
      have e1 : s.req + k - 1 + 1 = s.req + k := by omega
      rw [e1] at g1 g2
      have f3 := bufAt_front j4 (hpop b u hb)
      refine ⟨i1, fun _ => hbuf j1 b u hb, ⟨j1, j2, k + 1, ?_, ?_, by omega, j6⟩, ?_, Or.inr (Or.inr ?_)⟩
      · show s.sent ++ _ = _
        rw [j3, blocksFrom_succ, g1]
      · show BufAt W b s.pushed (s.req + (k + 1) - 1)
        rw [show s.req + (k + 1) - 1 = s.req + k by omega]
        exact g2
      · intro x hx
        rcases List.mem_append.1 hx with hx | hx
        · exact i4 x hx
        · rw [List.mem_singleton] at hx
          subst hx
          show u.1 ≤ s.last
          omega
      · show s.req ≤ s.last + 1
        omega
  case done => cases hs

theorem binv_step {s s' : Sys D F} (h : BInv W s) {l : Lbl} (hs : step W s l = some s') : BInv W s' := by
  obtain ⟨i1, i2, i3, i4, i5⟩ := id h
  cases l with
  | sub => exact binv_sub h hs
  | write =>
    cases hs
    refine ⟨by show s.pushed ≤ s.last + 1; omega, i2, ?_, fun x hx => Nat.le_succ_of_le (i4 x hx), ?_⟩
    · rw [PcInv] at i3 ⊢
      cases hp : s.pc <;> rw [hp] at i3 <;> dsimp only at i3 ⊢ <;> try exact i3
      case sync0 => exact ⟨i3.1, i3.2.1, fun h => Nat.le_succ_of_le (i3.2.2 h)⟩
      case egCheck => exact ⟨i3.1, i3.2.1, fun h => (by cases h)⟩
      case readLast => exact ⟨i3.1, i3.2.1, fun h => (by cases h)⟩
      case sync1 => exact ⟨i3.1, i3.2.1, Nat.le_succ_of_le i3.2.2.1, i3.2.2.2⟩
      case read =>
        obtain ⟨j1, j2, j3, j4, j5, j6, j7⟩ := i3
        exact ⟨j1, j2, j3, j4, j5, Nat.le_succ_of_le j6, j7⟩
      case wait1 =>
        obtain ⟨j1, j2, j3, j4, j5⟩ := i3
        exact ⟨j1, j2, j3, j4, Nat.le_succ_of_le j5⟩
      case overlap =>
        obtain ⟨j1, j2, j3, j4, j5, j6⟩ := i3
        exact ⟨j1, j2, j3, j4, Nat.le_succ_of_le j5, j6⟩
    · rcases i5 with h | h | h
      · exact Or.inl h
      · exact Or.inr (Or.inl h)
      · exact Or.inr (Or.inr (Nat.le_succ_of_le h))
  | push q =>
    rw [step] at hs
    split at hs
    · rename_i hq
      obtain ⟨q1, q2, q3⟩ := hq
      cases hs
      by_cases ha : s.attached = true
      · have hp := pcInv_pushTo (q := q) i3 (fun h1 h2 => q3 ⟨h1, h2⟩)
        have hb : ∃ a, BufAt W (pushTo W s q).buf (pushTo W s q).pushed a := by
          cases hf : s.fresh with
          | true =>
            obtain ⟨h1, h2⟩ := (i2 ha).1 hf
            rw [pushTo, if_pos ha]
            exact bufAt_first h1 h2 (by omega)
          | false =>
            obtain ⟨a, h1⟩ := (i2 ha).2 hf
            exact ⟨a, bufAt_pushTo ha hf (q3 ⟨ha, hf⟩) h1⟩
        rw [pushTo, if_pos ha] at hp hb ⊢
        exact ⟨q2, fun _ => ⟨fun h => (by cases h), fun _ => hb⟩, hp, i4, i5⟩
      · have hp := pcInv_pushTo (q := q) i3 (fun h1 h2 => q3 ⟨h1, h2⟩)
        rw [pushTo, if_neg ha] at hp ⊢
        exact ⟨q2, fun h => absurd h ha, hp, i4, i5⟩
    · cases hs
  | prune g =>
    rw [step] at hs
    split at hs
    · cases hs; exact ⟨i1, i2, i3, i4, i5⟩
    · cases hs
  | egOn => cases hs; exact ⟨i1, i2, i3, i4, i5⟩
  | cancel =>
    rw [step] at hs
    split at hs
    · cases hs
    · cases hs; exact to_done h _

theorem binv_run {ls : List Lbl} : ∀ {s s' : Sys D F}, BInv W s → runL W s ls = some s' → BInv W s' := by
  induction ls with
  | nil => intro s s' h hs; cases hs; exact h
  | cons l ls ih =>
    intro s s' h hs
    rw [runL] at hs
    cases hl : step W s l with
    | none => rw [hl] at hs; cases hs
    | some t => rw [hl] at hs; exact ih (binv_step h hl) hs

theorem binv_start {genesis last pushed req : Nat} {eg : Option Nat} (hp : pushed ≤ last) :
    BInv W (Sys.start genesis last pushed req eg) :=
  ⟨hp, fun h => (by cases h), ⟨rfl, rfl⟩, fun x hx => (by cases hx), Or.inl rfl⟩

theorem req_step {s s' : Sys D F} {l : Lbl} (hs : step W s l = some s') : s'.req = s.req := by
  cases l with
  | sub =>
    have hs : subStep W s = some s' := hs
    rw [subStep] at hs
    cases hp : s.pc <;> rw [hp] at hs <;> dsimp only at hs
    all_goals (repeat' split at hs)
    all_goals first
      | (cases hs; rfl)
      | (cases hs)
  | write => cases hs; rfl
  | push q =>
    rw [step] at hs
    split at hs
    · cases hs; rw [pushTo]; split <;> rfl
    · cases hs
  | prune g =>
    rw [step] at hs
    split at hs
    · cases hs; rfl
    · cases hs
  | egOn => cases hs; rfl
  | cancel =>
    rw [step] at hs
    split at hs
    · cases hs
    · cases hs; rfl

theorem req_run {ls : List Lbl} : ∀ {s s' : Sys D F}, runL W s ls = some s' → s'.req = s.req := by
  induction ls with
  | nil => intro s s' hs; cases hs; rfl
  | cons l ls ih =>
    intro s s' hs
    rw [runL] at hs
    cases hl : step W s l with
    | none => rw [hl] at hs; cases hs
    | some t => rw [hl] at hs; exact (ih hs).trans (req_step hl)

/-- **C32.** Whatever the interleaving with the writer, with pruning, with the start of event groups and with cancellation: what a
subscriber has received is blocks `req, req+1, req+2, …` without a gap or a repetition, each as this client may see it, and all of
them written. -/
theorem stream_contiguous {genesis last pushed req : Nat} {eg : Option Nat} (hp : pushed ≤ last) {ls : List Lbl} {s : Sys D F}
    (h : runL W (Sys.start genesis last pushed req eg) ls = some s) :
    s.sent = blocksFrom W req s.sent.length ∧ ∀ x ∈ s.sent, x.1 ≤ s.last := by
  have hi := binv_run (binv_start hp) h
  have hr : s.req = req := req_run h
  obtain ⟨k, hk⟩ := done_of_pc hi.pc
  refine ⟨?_, hi.sent_le⟩
  rw [hr] at hk
  have : s.sent.length = k := by rw [hk, blocksFrom]; simp
  rw [this]
  exact hk

/-- **C32.** A subscriber in the live phase misses nothing: the blocks sent and the blocks in its buffer are all blocks from the
requested one to the last one pushed, unless the buffer overran. -/
theorem live_complete {genesis last pushed req : Nat} {eg : Option Nat} (hp : pushed ≤ last) {ls : List Lbl} {s : Sys D F}
    (h : runL W (Sys.start genesis last pushed req eg) ls = some s) (hl : s.pc = .live) (ht : s.buf.tooSlow = false) :
    s.sent ++ s.buf.queue.map (fun u => (u.1, W.flt u.2)) = blocksFrom W req (s.pushed + 1 - req) ∧ req ≤ s.pushed := by
  have hi := binv_run (binv_start hp) h
  have hr : s.req = req := req_run h
  have h3 := hi.pc
  rw [PcInv, hl] at h3
  dsimp only at h3
  obtain ⟨j1, j2, k, j3, ⟨len, j4, j5, j6, j7⟩, j8, j9⟩ := h3
  have j5 := j5 ht
  rw [hr] at j3 j4 j5 j9
  refine ⟨?_, by omega⟩
  rw [j3, j4, List.map_map]
  have : s.pushed + 1 - req = k + len := by omega
  rw [this, blocksFrom, blocksFrom, ← List.range'_append_1, List.map_append]
  rw [show req + k - 1 + 1 = req + k by omega]
  rfl

/-- no assertion fails -/
theorem sub_no_abort {s s' : Sys D F} (h : BInv W s) (hr : s.req ≠ 0) (hs : subStep W s = some s') (hd : s'.pc = .done .aborted) :
    False := by
  obtain ⟨i1, i2, i3, i4, i5⟩ := h
  rw [subStep] at hs
  rw [PcInv] at i3
  cases hp : s.pc <;> rw [hp] at hs i3 <;> dsimp only at hs i3
  case init => split at hs <;> cases hs <;> cases hd
  case pruneCheck => split at hs <;> cases hs <;> cases hd
  case subscribe => cases hs; cases hd
  case egCheck =>
    split at hs
    · split at hs <;> cases hs <;> cases hd
    · cases hs; cases hd
  case readLast => split at hs <;> cases hs <;> cases hd
  case waitNew l =>
    split at hs
    · cases hs
    · split at hs
      · split at hs
        · cases hs; cases hd
        · cases hs; cases hd
        · cases hs
      · cases hs; cases hd
  case sync0 =>
    rw [if_neg hr] at hs
    split at hs <;> cases hs <;> cases hd
  case sync1 =>
    rw [if_pos i3.2.2.1] at hs
    cases hs; cases hd
  case read i e gap =>
    split at hs
    · cases hs; cases hd
    · split at hs
      · cases hs; cases hd
      · split at hs
        · cases hs; cases hd
        · cases hs
          dsimp only at hd
          split at hd
          · cases hd
          · split at hd <;> cases hd
  case wait1 e =>
    obtain ⟨j1, j2, j3, j4, j5⟩ := i3
    split at hs
    · split at hs
      · cases hs; cases hd
      · cases hs
    · rename_i u hu
      split at hs
      · cases hs; cases hd
      · split at hs
        · cases hs; cases hd
        · split at hs
          · have : s.buf.newestId = some s.buf.newest := by
              rw [Buf.newestId, if_neg]
              intro hq
              rw [Buf.front, hq] at hu
              cases hu
            rw [this] at hs
            cases hs; cases hd
          · cases hs; cases hd
  case overlap e =>
    split at hs
    · cases hs
    · cases hs; cases hd
    · cases hs
      dsimp only at hd
      split at hd <;> cases hd
  case live =>
    split at hs
    · cases hs
    · cases hs; cases hd
    · cases hs
      cases hd
  case done => cases hs

/-- **C32.** Serving a subscription to a block other than block 0 never fails an assertion. -/
theorem stream_never_aborts {genesis last pushed req : Nat} {eg : Option Nat} (hp : pushed ≤ last) (hreq : req ≠ 0) {ls : List Lbl}
    {s : Sys D F} (h : runL W (Sys.start genesis last pushed req eg) ls = some s) : s.pc ≠ .done .aborted := by
  have key : ∀ (ls : List Lbl) (s s' : Sys D F), BInv W s → s.req = req → s.pc ≠ .done .aborted → runL W s ls = some s' →
      s'.pc ≠ .done .aborted := by
    intro ls
    induction ls with
    | nil => intro s s' _ _ hn hs; cases hs; exact hn
    | cons l ls ih =>
      intro s s' hi hr hn hs
      rw [runL] at hs
      cases hl : step W s l with
      | none => rw [hl] at hs; cases hs
      | some t =>
        rw [hl] at hs
        refine ih t s' (binv_step hi hl) ((req_step hl).trans hr) ?_ hs
        cases l with
        | sub => exact fun hd => sub_no_abort hi (by rw [hr]; exact hreq) hl hd
        | write => cases hl; exact hn
        | push q =>
          rw [step] at hl
          split at hl
          · cases hl; rw [pushTo]; split <;> exact hn
          · cases hl
        | prune g =>
          rw [step] at hl
          split at hl
          · cases hl; exact hn
          · cases hl
        | egOn => cases hl; exact hn
        | cancel =>
          rw [step] at hl
          split at hl
          · cases hl
          · cases hl; intro h; cases h
  exact key ls _ s (binv_start hp) rfl (by intro h; cases h) h

/-- **C32.** While the subscriber drops the overlap, it never waits for a block that will not come: when its buffer is empty and
has not overrun, a block up to `e` is written but not yet pushed. -/
theorem overlap_waits_for_owed {genesis last pushed req : Nat} {eg : Option Nat} (hp : pushed ≤ last) {ls : List Lbl} {s : Sys D F}
    (h : runL W (Sys.start genesis last pushed req eg) ls = some s) {e : Nat} (hl : s.pc = .overlap e) (ht : s.buf.tooSlow = false)
    (hq : s.buf.queue = []) : s.pushed < e ∧ e ≤ s.last := by
  have hi := binv_run (binv_start hp) h
  have h3 := hi.pc
  rw [PcInv, hl] at h3
  dsimp only at h3
  obtain ⟨j1, j2, j3, j4, j5, j6, a, ⟨len, k1, k2, k3, k4⟩, j8⟩ := h3
  have hlen : len = 0 := by
    rw [hq] at k1
    have := congrArg List.length k1
    simpa using this.symm
  subst hlen
  have := k2 ht
  exact ⟨by omega, j5⟩

end Verif.Trs
