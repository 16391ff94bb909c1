import Verif.Ckpt.Inv
/-!
C42: `onSeqNumIsStable` keeps the invariant and never fails where it is called.
-/
set_option linter.unusedSimpArgs false
set_option linter.unusedVariables false
namespace Verif.Ckpt
open Concord Concord.Cert

variable {g : Cfg} {H : Msg → Prop}

/-- the slot of a checkpoint that has become stable -/
def stSlot (c : Slot) : Slot := { c with cert := { c.cert with complete := true }, ownStable := true }

theorem superIf_fields (f : Bool) (s : Nat) (a : St) : ∃ k, (superIf f s a).1 = { a with lastSuper := k } ∧
    ∀ y ∈ (superIf f s a).2, y = .superStable s ∧ f = true := by
  unfold superIf superAt
  by_cases hf : f = true
  · rw [if_pos hf]
    split
    · exact ⟨a.lastSuper, rfl, by simp⟩
    · exact ⟨s, rfl, by simp [hf]⟩
  · rw [if_neg hf]
    exact ⟨a.lastSuper, rfl, by simp⟩

theorem withState_eq {v : Env} {s : Nat} {a : St} {mo : Msg} (hk : keysNodup (a.slots s).cert.msgs)
    (hmo : (g.self, mo) ∈ (a.slots s).cert.msgs) (hle : s ≤ a.lastExec) (hok : a.getOk s = true) :
    withState g v s a =
      (let r := superIf (a.slots s).cert.full s
          { (({ a with ps := { a.ps with lastExec := a.lastExec } } : St).setSlot s (stSlot (a.slots s))) with
            signed := a.signed ++ [] }
      some ({ r.1 with ps := (r.1.ps.setCheck s { mo with stable := true }).setMark s }, r.2)) := by
  unfold withState
  rw [if_neg (by omega : ¬ a.lastExec < s)]
  simp only
  have hok' : ({ a with ps := { a.ps with lastExec := a.lastExec } } : St).getOk s = true := hok
  rw [if_neg (by rw [hok']; simp)]
  have hown := own_some (g := g) hk hmo
  rw [hown]
  simp only
  have hc : (if ({ a.slots s with ownStable := true } : Slot).cert.complete = true then ({ a.slots s with ownStable := true } : Slot)
      else ({ a.slots s with ownStable := true } : Slot).mark g) = stSlot (a.slots s) := by
    by_cases hcc : (a.slots s).cert.complete = true
    · rw [if_pos hcc]
      unfold stSlot
      rw [← hcc]
    · rw [if_neg hcc]
      unfold Slot.mark stSlot
      simp only
      rw [tryComplete_self (g := g) hmo]
  rw [hc]
  have hcomp : (stSlot (a.slots s)).cert.complete = true := rfl
  rw [if_neg (by rw [hcomp]; simp)]
  have hown2 : (stSlot (a.slots s)).own g = some { mo with stable := true } :=
    own_some (g := g) (c := stSlot (a.slots s)) hk hmo
  rw [hown2]
  have hful : (stSlot (a.slots s)).cert.full = (a.slots s).cert.full := rfl
  rw [hful]

/-- the state once `s` is stable, with state information -/
def stabSt (g : Cfg) (s k : Nat) (mo : Msg) (a : St) : St :=
  { a with
    lastStable := s
    lastSuper := k
    begin := newBegin a s
    slots := fun i => if i = s then stSlot (a.slots s) else if i < newBegin a s then {} else a.slots i
    ps :=
      { lastStable := s
        lastExec := a.lastExec
        desc := (stSlot (a.slots s)).all g
        check := fun i => if i = s then some { mo with stable := true } else if i < s then none else a.ps.check i
        mark := fun i => if i = s then true else if i < s then false else a.ps.mark i } }

theorem newBegin_facts {x s : Nat} {a : St} (h : Core g H x a) (hs : s % cpw = 0) (hls : a.lastStable < s) :
    newBegin a s % cpw = 0 ∧ newBegin a s ≤ s ∧ s ≤ newBegin a s + cpw ∧ a.begin ≤ newBegin a s := by
  have h1 := h.bm
  have h2 := h.b1
  have h3 := h.lsm
  unfold newBegin
  unfold cpw at *
  by_cases hi : a.inside (s - 150) = true
  · rw [if_pos hi]
    have := inside_iff.1 hi
    omega
  · rw [if_neg hi]
    have hi : a.inside (s - 150) = false := by simpa using hi
    have := inside_false.1 hi
    omega

theorem stSlot_all_keys {c : Slot} (hk : keysNodup c.cert.msgs) : keysNodup (c.all g) := by
  unfold Slot.all keysNodup at *
  rw [List.map_map]
  have : ((fun x : Nat × Msg => x.1) ∘ fun e : Nat × Msg => if e.1 = g.self then (e.1, { e.2 with stable := c.ownStable }) else e) =
      (fun x => x.1) := by
    funext e
    simp only [Function.comp]
    split <;> rfl
  rw [this]; exact hk

theorem stableAt_eq {x s : Nat} {v : Env} {a : St} {old : Bool} {mo : Msg} (h : Core g H x a) (hs : s % cpw = 0)
    (hls : a.lastStable < s) (hle : s ≤ a.lastExec) (hmo : (g.self, mo) ∈ (a.slots s).cert.msgs) :
    ∃ k o, stableAt g v s true old a = some (stabSt g s k mo a, o ++ [.stable s]) ∧
      ∀ y ∈ o, y = .superStable s ∧ (a.slots s).cert.full = true := by
  obtain ⟨n1, n2, n3, n4⟩ := newBegin_facts h hs hls
  have hk := good_keys (h.good s)
  unfold stableAt
  rw [if_neg (by simp), if_neg (by simpa using hs), if_neg (by omega)]
  rw [if_neg (show ¬ newBegin a s < a.begin by omega), if_pos rfl]
  have hsl : (moveTo s a).slots s = a.slots s := by
    show (if s < newBegin a s then ({} : Slot) else a.slots s) = a.slots s
    rw [if_neg (by omega)]
  have hgo : ∀ b : St, b.begin = newBegin a s → b.getOk s = true := by
    intro b hb
    rw [getOk_iff, hb]
    unfold clw; unfold cpw at *
    omega
  rw [withState_eq (a := moveTo s a) (mo := mo) (by rw [hsl]; exact hk) (by rw [hsl]; exact hmo) hle (hgo _ rfl)]
  rw [hsl]
  obtain ⟨k, e1, e2⟩ := superIf_fields (a.slots s).cert.full s
    { (({ moveTo s a with ps := { (moveTo s a).ps with lastExec := (moveTo s a).lastExec } } : St).setSlot s (stSlot (a.slots s))) with
            signed := (moveTo s a).signed ++ [] }
  simp only
  refine ⟨k, _, ?_, e2⟩
  rw [e1]
  rw [if_neg (by rw [hgo _ rfl]; simp)]
  congr 1
  congr 1
  unfold stabSt
  congr 1
  · show Ps.mk _ _ (((if s = s then stSlot (a.slots s) else _) : Slot).all g) _ _ = Ps.mk _ _ _ _ _
    rw [if_pos rfl]
    rfl
  · exact List.append_nil _

theorem stab_core (hg : g.Ok) {x s k : Nat} {a : St} {mo : Msg} (h : Core g H x a) (hx : x = 0 ∨ x = s)
    (hs : s % cpw = 0) (hls : a.lastStable < s) (hle : s ≤ a.lastExec) (hmo : (g.self, mo) ∈ (a.slots s).cert.msgs) :
    Core g H 0 (stabSt g s k mo a) := by
  obtain ⟨n1, n2, n3, n4⟩ := newBegin_facts h hs hls
  have hk := good_keys (h.good s)
  have hin := inside_iff.1 (msgs_in h hmo)
  have sl : ∀ t, (stabSt g s k mo a).slots t =
    if t = s then stSlot (a.slots s) else if t < newBegin a s then {} else a.slots t := fun _ => rfl
  have hmok := h.msgs _ _ _ hmo
  have hmok' : MsgOk g H a.signed s g.self { mo with stable := true } :=
    ⟨hmok.gen, hmok.lt, hmok.seq, hmok.self, fun e => absurd rfl e⟩
  constructor
  · exact hs
  · exact hle
  · exact n1
  · exact n2
  · exact n3
  · intro t ht
    have ht : t < newBegin a s ∨ newBegin a s + clw ≤ t := inside_false.1 ht
    rw [sl]
    have hne : t ≠ s := by unfold clw at ht; unfold cpw at *; omega
    rw [if_neg hne]
    split
    · rfl
    · rename_i hh
      apply h.out
      rw [inside_false]; omega
  · intro t; rw [sl]; split
    · obtain ⟨c0, y, hb, he, hy⟩ := h.good s
      refine ⟨c0, true, hb, ?_, fun _ => rfl⟩
      show ({ (a.slots s).cert with complete := true } : Cert.St Msg) = _
      rw [he]
    · split
      · exact good_of_base (base_init hg)
      · exact h.good t
  · intro t ht hne
    have ht : s < t := ht
    rw [sl, if_neg (by omega), if_neg (by omega)]
    exact h.exact t (by omega) (by omega)
  · intro t id m
    rw [sl]; split
    · rename_i e; subst e; exact h.msgs t id m
    · split
      · intro hm; cases hm
      · exact h.msgs t id m
  · intro t c ht hb
    have hb : newBegin a s ≤ t := hb
    rw [sl]; split
    · rename_i e; subst e; exact ⟨mo, hmo⟩
    · rw [if_neg (by omega)]
      exact h.own t c ht (by omega)
  · exact h.sle
  · exact h.su
  · intro t; rw [sl]; split
    · rename_i e; subst e; exact h.exe t
    · split
      · intro hh; cases hh
      · exact h.exe t
  · intro t; rw [sl]; split
    · rename_i e; subst e; intro _; exact Nat.le_refl _
    · split
      · intro hh; cases hh
      · intro hh
        have := h.ost t hh
        show t ≤ s
        omega
  · intro c _
    show ((stabSt g s k mo a).slots s).ownStable = true
    rw [sl, if_pos rfl]; rfl
  · rfl
  · rfl
  · intro t m ht
    have ht : (if t = s then some { mo with stable := true } else if t < s then none else a.ps.check t) = some m := ht
    show s ≤ t ∧ _ ∧ (t = s → _) ∧ (s < t → _)
    by_cases e : t = s
    · rw [if_pos e] at ht; cases ht; subst e
      exact ⟨Nat.le_refl _, hmok', fun _ => rfl, fun e => absurd e (by omega)⟩
    · rw [if_neg e] at ht
      by_cases e2 : t < s
      · rw [if_pos e2] at ht; cases ht
      · rw [if_neg e2] at ht
        obtain ⟨p, q, r1, r2⟩ := h.chk t m ht
        exact ⟨by omega, q, fun e' => absurd e' e, fun _ => r2 (by omega)⟩
  · intro t c ht hl
    have hl : s ≤ t := hl
    show (if t = s then some { mo with stable := true } else if t < s then none else a.ps.check t).isSome = true
    by_cases e : t = s
    · rw [if_pos e]; rfl
    · rw [if_neg e, if_neg (by omega)]
      exact h.chk2 t c ht (by omega)
  · intro t ht
    have ht : (if t = s then true else if t < s then false else a.ps.mark t) = true := ht
    show t = s
    by_cases e : t = s
    · exact e
    · rw [if_neg e] at ht
      by_cases e2 : t < s
      · rw [if_pos e2] at ht; cases ht
      · rw [if_neg e2] at ht
        have := h.mrk t ht
        omega
  · intro e he
    have he : e ∈ (stSlot (a.slots s)).all g := he
    unfold Slot.all at he
    obtain ⟨e0, h1, h2⟩ := List.mem_map.1 he
    obtain ⟨i0, m0⟩ := e0
    have h1 : (i0, m0) ∈ (a.slots s).cert.msgs := h1
    have h3 := h.msgs _ _ _ h1
    by_cases hi : i0 = g.self
    · rw [if_pos hi] at h2
      subst h2
      exact ⟨⟨h3.gen, h3.lt, h3.seq, h3.self, fun e => absurd hi e⟩, fun _ => rfl⟩
    · rw [if_neg hi] at h2
      subst h2
      exact ⟨h3, fun e => absurd e hi⟩
  · exact stSlot_all_keys (c := stSlot (a.slots s)) hk
  · intro c _
    refine ⟨{ mo with stable := true }, ?_⟩
    show _ ∈ (stSlot (a.slots s)).all g
    unfold Slot.all
    exact List.mem_map.2 ⟨(g.self, mo), hmo, by rw [if_pos rfl]; rfl⟩

/-- the state once `s` is declared stable after state transfer, without state information -/
def stabSt0 (g : Cfg) (s : Nat) (a : St) : St :=
  { a with
    lastStable := s
    begin := newBegin a s
    slots := fun i => if i < newBegin a s then {} else a.slots i
    ps :=
      { lastStable := s
        lastExec := a.ps.lastExec
        desc := (a.slots s).all g
        check := fun i => if i < s then none else a.ps.check i
        mark := fun i => if i < s then false else a.ps.mark i } }

theorem stableAt_eq0 {x s : Nat} {v : Env} {a : St} (h : Core g H x a) (hs : s % cpw = 0)
    (hls : a.lastStable < s) : stableAt g v s false true a = some (stabSt0 g s a, [.stable s]) := by
  obtain ⟨n1, n2, n3, n4⟩ := newBegin_facts h hs hls
  unfold stableAt
  rw [if_neg (by simp), if_neg (by simpa using hs), if_neg (by omega)]
  rw [if_neg (show ¬ newBegin a s < a.begin by omega), if_neg (by simp)]
  have hsl : (moveTo s a).slots s = a.slots s := by
    show (if s < newBegin a s then ({} : Slot) else a.slots s) = a.slots s
    rw [if_neg (by omega)]
  have hgo : (moveTo s a).getOk s = true := by
    rw [getOk_iff]
    show s % cpw = 0 ∧ newBegin a s ≤ s ∧ s < newBegin a s + clw
    unfold clw; unfold cpw at *
    omega
  simp only
  rw [if_neg (by rw [hgo]; simp), hsl]
  rfl

theorem stab0_core (hg : g.Ok) {s : Nat} {a : St} (h : Core g H 0 a)
    (hs : s % cpw = 0) (hls : a.lastStable < s) (hle : s ≤ a.lastExec) (hno : ∀ c, (s, c) ∉ a.signed) :
    Core g H 0 (stabSt0 g s a) := by
  obtain ⟨n1, n2, n3, n4⟩ := newBegin_facts h hs hls
  have hk := good_keys (h.good s)
  have sl : ∀ t, (stabSt0 g s a).slots t = if t < newBegin a s then {} else a.slots t := fun _ => rfl
  have hcs : a.ps.check s = none := by
    cases hc : a.ps.check s with
    | none => rfl
    | some m => exact absurd ((h.chk s m hc).2.1.self rfl).1 (hno _)
  constructor
  · exact hs
  · exact hle
  · exact n1
  · exact n2
  · exact n3
  · intro t ht
    have ht : t < newBegin a s ∨ newBegin a s + clw ≤ t := inside_false.1 ht
    rw [sl]
    split
    · rfl
    · rename_i hh
      apply h.out
      rw [inside_false]; omega
  · intro t; rw [sl]; split
    · exact good_of_base (base_init hg)
    · exact h.good t
  · intro t ht hne
    have ht : s < t := ht
    rw [sl, if_neg (by omega)]
    exact h.exact t (by omega) (by omega)
  · intro t id m
    rw [sl]; split
    · intro hm; cases hm
    · exact h.msgs t id m
  · intro t c ht hb
    have hb : newBegin a s ≤ t := hb
    rw [sl, if_neg (by omega)]
    exact h.own t c ht (by omega)
  · exact h.sle
  · exact h.su
  · intro t; rw [sl]; split
    · intro hh; cases hh
    · exact h.exe t
  · intro t; rw [sl]; split
    · intro hh; cases hh
    · intro hh
      have := h.ost t hh
      show t ≤ s
      omega
  · intro c hc; exact absurd hc (hno c)
  · rfl
  · exact h.psLE
  · intro t m ht
    have ht : (if t < s then none else a.ps.check t) = some m := ht
    show s ≤ t ∧ _ ∧ (t = s → _) ∧ (s < t → _)
    by_cases e2 : t < s
    · rw [if_pos e2] at ht; cases ht
    · rw [if_neg e2] at ht
      obtain ⟨p, q, r1, r2⟩ := h.chk t m ht
      refine ⟨by omega, q, fun e' => ?_, fun _ => r2 (by omega)⟩
      rw [e', hcs] at ht; cases ht
  · intro t c ht hl
    have hl : s ≤ t := hl
    show (if t < s then none else a.ps.check t).isSome = true
    rw [if_neg (by omega)]
    exact h.chk2 t c ht (by omega)
  · intro t ht
    have ht : (if t < s then false else a.ps.mark t) = true := ht
    by_cases e2 : t < s
    · rw [if_pos e2] at ht; cases ht
    · rw [if_neg e2] at ht
      have := h.mrk t ht
      omega
  · intro e he
    have he : e ∈ (a.slots s).all g := he
    unfold Slot.all at he
    obtain ⟨e0, h1, h2⟩ := List.mem_map.1 he
    obtain ⟨i0, m0⟩ := e0
    have h3 := h.msgs _ _ _ h1
    by_cases hi : i0 = g.self
    · exact absurd (h3.self hi).1 (hno _)
    · rw [if_neg hi] at h2
      subst h2
      exact ⟨h3, fun e => absurd e hi⟩
  · exact stSlot_all_keys hk
  · intro c hc; exact absurd hc (hno c)

end Verif.Ckpt
