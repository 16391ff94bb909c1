import Verif.Meta.Boot
set_option linter.unusedSimpArgs false
set_option linter.unusedVariables false
/-!
# The storage refines the specification
-/
namespace Verif.Meta
open Verif.Bytes

structure Inv (g : Cfg) (s : St) (t : Spec.St) : Prop where
  nest : s.nest = t.depth
  small : s.nest < 256
  cur : Holds g s.db t.cur
  curWf : WF g t.cur
  old : ∀ d ∈ s.old, ∃ m ∈ t.cur :: t.old, DbRel g d m
  out : s.nest = 0 → s.bat = none ∧ t.pend = []
  bat : s.nest ≠ 0 → ∃ b, s.bat = some b ∧ Holds g (s.db.over b) t.view ∧ (b 10).isSome = t.pend.any Upd.isUser ∧
    b 9 = none ∧ b 11 = none ∧ b 12 = none
  wf : WF g t.view
  cache : Cache s t.view
  mono : t.view.newView.isDefault = true → t.cur.newView.isDefault = true

section
variable {g : Cfg}

theorem cache_init {s : St} (h1 : s.seqB = 1) (h2 : s.ckB = 0) (h3 : s.lastExec = 0) (h4 : s.lastView = 0) (h5 : s.hasExit = false)
    (h6 : s.hasNew = false) (h7 : s.hasExec = false) : Cache s (Spec.Rec.init g) :=
  ⟨h1, h2, h3, h4, h5, h6, by rw [h7]; rfl, fun h => (by rw [h7] at h; cases h)⟩

/-- a start over a store that represents a record gives the record (or the record of a new replica) -/
theorem boot_ok (hg : g.Ok) {d : Db} {m : Spec.Rec} {old : List Db} {mold : List Spec.Rec} (h : DbRel g d m)
    (ho : ∀ x ∈ old, ∃ m' ∈ (Spec.boot g m mold).cur :: (Spec.boot g m mold).old, DbRel g x m') :
    ∃ s, g.boot d old false = some s ∧ Inv g s (Spec.boot g m mold) := by
  have hold : ∀ x ∈ g.bootDb d 2 :: g.bootDb d 1 :: d :: old, ∃ m' ∈ (Spec.boot g m mold).cur :: (Spec.boot g m mold).old, DbRel g x m' := by
    have hk : ∀ k, ∃ m' ∈ (Spec.boot g m mold).cur :: (Spec.boot g m mold).old, DbRel g (g.bootDb d k) m' := by
      intro k
      rcases bootDb_rel hg h k with h1 | ⟨he, h1⟩
      · exact ⟨m, mem_boot_cur m mold, h1⟩
      · exact ⟨_, mem_boot_init mold he, h1⟩
    intro x hx
    rcases List.mem_cons.1 hx with rfl | hx
    · exact hk 2
    rcases List.mem_cons.1 hx with rfl | hx
    · exact hk 1
    rcases List.mem_cons.1 hx with rfl | hx
    · exact ⟨m, mem_boot_cur m mold, h⟩
    · exact ho x hx
  have hisnew := erase_eq hg h
  -- the case of a store without contents after the preparation
  have blank : ∀ d3, g.bootDb d 3 = d3 → Blank g d3 → (d3 1).isSome = true → Spec.Rec.init g = (Spec.boot g m mold).cur →
      (Spec.boot g m mold).depth = 0 → (Spec.boot g m mold).pend = [] → ∃ s, g.boot d old false = some s ∧ Inv g s (Spec.boot g m mold) := by
    intro d3 e3 hb h1 hcur hdep hpend
    have hh := holds_defaults hg hb h1
    have hview : (Spec.boot g m mold).view = Spec.Rec.init g := by unfold Spec.St.view; rw [hpend, ← hcur]; rfl
    have hinv : ∀ s : St, s.db = d3.putAll (defaults g) → s.old = d3 :: (g.bootDb d 2 :: g.bootDb d 1 :: d :: old) → s.bat = none → s.nest = 0 →
        Cache s (Spec.Rec.init g) → Inv g s (Spec.boot g m mold) := by
      intro s q1 q2 q3 q4 q5
      refine ⟨by rw [q4, hdep], by omega, by rw [q1, ← hcur]; exact hh, by rw [← hcur]; exact wf_init g, ?_, fun _ => ⟨q3, hpend⟩,
        fun h => absurd q4 h, by rw [hview]; exact wf_init g, by rw [hview]; exact q5, by rw [hview, ← hcur]; exact id⟩
      intro x hx
      rw [q2] at hx
      rcases List.mem_cons.1 hx with rfl | hx
      · exact ⟨Spec.Rec.init g, by rw [hcur]; exact List.mem_cons_self, Or.inr ⟨hb, rfl⟩⟩
      · exact hold x hx
    unfold Cfg.boot
    dsimp only
    rw [e3, init_blank hg hb]
    dsimp only
    generalize d3.putAll (defaults g) = d4 at hh hinv
    split
    · exact ⟨_, rfl, hinv _ rfl rfl rfl rfl (cache_init rfl rfl rfl rfl rfl rfl rfl)⟩
    · rw [load_ok hg (m := Spec.Rec.init g) hh (wf_init g) rfl rfl rfl]
      exact ⟨_, rfl, hinv _ rfl rfl rfl rfl (cache_init rfl rfl rfl rfl rfl rfl rfl)⟩
  cases he : m.erase with
  | true =>
    obtain ⟨_, e3⟩ := bootDb_erase hg h he
    have hb : Spec.boot g m mold = ⟨Spec.Rec.init g, m :: mold, 0, []⟩ := by unfold Spec.boot; rw [if_pos he]
    exact blank _ (e3 0) (clean_blank _).mark (mark_one _) (by rw [hb]) (by rw [hb]) (by rw [hb])
  | false =>
    have e3 := bootDb_keep hg h he 3
    rw [if_neg (by decide)] at e3
    have hb : Spec.boot g m mold = ⟨m, mold, 0, []⟩ := by unfold Spec.boot; rw [he]; rfl
    rcases h with ⟨hh, hw⟩ | ⟨hbl, rfl⟩
    · have hm : g.mark d = d := mark_id hh.mark
      rw [hm] at e3
      obtain ⟨s, hi, q1, q2, q3, q4, q5, q6, q7, q8, q9, q10⟩ := init_holds hg hh hw (g.bootDb d 2 :: g.bootDb d 1 :: d :: old)
      have hl := load_ok hg (s := s) (by rw [q1]; exact hh) hw q4 q7 q8
      refine ⟨{ s with
        hasExit := !m.exit.isDefault
        hasNew := !m.newView.isDefault
        lastExec := m.lastExec
        lastView := m.lastView }, ?_, ?_⟩
      · unfold Cfg.boot
        dsimp only
        rw [e3, hi]
        dsimp only
        have hnew : ((d 1).isNone || (g.mark d idErase).any (fun v => v.headD 0 != 0)) = false := by
          have := hh.mark
          rw [hisnew, he]
          cases hd : d 1 with
          | none => rw [hd] at this; cases this
          | some x => rfl
        rw [hnew]
        exact hl
      · rw [hb]
        rw [hb] at hold
        refine ⟨q4, by show s.nest < 256; omega, by show Holds g s.db m; rw [q1]; exact hh, hw, ?_, fun _ => ⟨q3, rfl⟩, fun h => absurd q4 h, hw, ?_, id⟩
        · intro x hx
          have hx' : x ∈ s.old := hx
          rw [q2] at hx'
          exact hold x hx'
        · exact ⟨q5, q6, rfl, rfl, rfl, rfl, q9, q10⟩
    · exact blank _ e3 hbl.mark (mark_one _) (by rw [hb]) (by rw [hb]) (by rw [hb])

theorem start_ok (hg : g.Ok) : ∃ s, g.start = some s ∧ Inv g s (Spec.start g) :=
  boot_ok hg (m := Spec.Rec.init g) (mold := []) (Or.inr ⟨fun _ _ _ => rfl, rfl⟩) (fun x hx => (by cases hx))

/-- an operation the theorems are about: admissible arguments, fewer than 255 open transactions, no
`getDescriptorOfLastExecution` inside a transaction, no failing read during a start -/
def Op.Ok (g : Cfg) (s : St) : Op → Prop
  | .begin => s.nest < 255
  | .set u => u.Ok g
  | .atomic a => a.Ok g
  | .get .exec _ => s.nest = 0
  | .get (.rsi i) _ => i < g.numPrinc * g.batch ∧ g.idRsi + i < g.objs
  | .crashIo => False
  | _ => True

/-- every operation of the run is admissible -/
def Admissible (g : Cfg) : St → List Op → Prop
  | _, [] => True
  | s, o :: os => o.Ok g s ∧ ∀ s' r, s.step g o = some (s', r) → Admissible g s' os

theorem Inv.rel {s : St} {t : Spec.St} (h : Inv g s t) : DbRel g s.db t.cur := Or.inl ⟨h.cur, h.curWf⟩

theorem Inv.reboot (hg : g.Ok) {s : St} {t : Spec.St} (h : Inv g s t) : ∃ s', g.boot s.db s.old false = some s' ∧ Inv g s' (Spec.boot g t.cur t.old) := by
  refine boot_ok hg h.rel ?_
  intro x hx
  obtain ⟨m, hm, hr⟩ := h.old x hx
  rcases List.mem_cons.1 hm with rfl | hm
  · exact ⟨_, mem_boot_cur _ _, hr⟩
  · exact ⟨m, mem_boot_old hm, hr⟩

/-! ## getters -/

theorem view_cur {s : St} {t : Spec.St} (h : Inv g s t) (hn : s.nest = 0) : t.view = t.cur := by
  unfold Spec.St.view; rw [(h.out hn).2]; rfl

theorem get_ok (hg : g.Ok) {s : St} {t : Spec.St} (h : Inv g s t) {q : Get} {junk : Nat → Bytes} (hq : (Op.get q junk).Ok g s)
    (ha : q.asserts = true → s.nest = 0) {o : Out} (hv : Spec.value t.cur q = some o) : s.get g junk q = some (o, s) := by
  have w := h.curWf
  have hd := h.cur
  have hns : ¬(q.asserts = true ∧ s.nest ≠ 0) := fun x => x.2 (ha x.1)
  unfold St.get
  rw [if_neg hns]
  have slot : ∀ {p n : Nat} (hp : p < 6) (hw : Spec.inWindow t.cur n = true), s.nest = 0 → s.seqId n (p + 1) = some ((Key.seq (n % 300) p).id g) := by
    intro p n hp hw hn
    rw [seqId_eq (g := g) (m := t.cur) (by have := h.cache; rw [view_cur h hn] at this; exact this) hp, if_pos hw]
  have cks : ∀ {p n : Nat} (hp : p < 2) (hw : Spec.inCkWindow t.cur n = true), s.nest = 0 → s.ckId n (p + 1) = some ((Key.ck (n / 150 % 3) p).id g) := by
    intro p n hp hw hn
    rw [ckId_eq (g := g) (m := t.cur) (by have := h.cache; rw [view_cur h hn] at this; exact this) hp, if_pos hw]
  have sk : ∀ {n p : Nat}, p < 6 → (Key.seq (n % 300) p).Valid g := fun hp => ⟨Nat.mod_lt _ (by decide), hp⟩
  have ck : ∀ {n p : Nat}, p < 2 → (Key.ck (n / 150 % 3) p).Valid g := fun hp => ⟨Nat.mod_lt _ (by decide), hp⟩
  have sat : ∀ {n : Nat}, Spec.inWindow t.cur n = true → seqAt (t.cur.lastStable + 1) (n % 300) = n := by
    intro n hw
    simp only [Spec.inWindow, Bool.and_eq_true, decide_eq_true_eq] at hw
    exact seqAt_eq (by omega) (by omega)
  have cat : ∀ {n : Nat}, Spec.inCkWindow t.cur n = true → ckAt t.cur.lastStable (n / 150 % 3) = n := by
    intro n hw
    simp only [Spec.inCkWindow, Bool.and_eq_true, decide_eq_true_eq] at hw
    exact ckAt_eq w.aligned hw.1.1 (by omega) (by omega)
  have senc : ∀ {n p : Nat}, Spec.inWindow t.cur n = true → enc g t.cur (.seq (n % 300) p) = some (some (slotBytes (t.cur.slot n) p)) := by
    intro n p hw
    show some (some (slotBytes (t.cur.slot (seqAt (t.cur.lastStable + 1) (n % 300))) p)) = _
    rw [sat hw]
  have cenc : ∀ {n p : Nat}, Spec.inCkWindow t.cur n = true → enc g t.cur (.ck (n / 150 % 3) p) = some (some (ckBytes (t.cur.ck n) p)) := by
    intro n p hw
    show some (some (ckBytes (t.cur.ck (ckAt t.cur.lastStable (n / 150 % 3))) p)) = _
    rw [cat hw]
  cases q with
  | lastExec =>
    cases hv
    have hn := ha rfl
    have hc := h.cache.lastExec
    rw [view_cur h hn] at hc
    have := readNat_key hg hd (k := .lastExec) trivial (n := t.cur.lastExec) rfl (by have := w.lastExec; omega)
    show (g.readNat s.db ((Key.lastExec).id g)).map _ = _
    rw [this, ← hc]; rfl
  | primary =>
    cases hv
    have := readNat_key hg hd (k := .primary) trivial (n := t.cur.primary) rfl (by have := w.primary; omega)
    show (g.readNat s.db ((Key.primary).id g)).map _ = _
    rw [this]; rfl
  | lower =>
    cases hv
    have := readNat_key hg hd (k := .lower) trivial (n := t.cur.lower) rfl (by have := w.lower; omega)
    show (g.readNat s.db ((Key.lower).id g)).map _ = _
    rw [this]; rfl
  | lastView =>
    cases hv
    have hn := ha rfl
    have hc := h.cache.lastView
    rw [view_cur h hn] at hc
    have := readNat_key hg hd (k := .lastView) trivial (n := t.cur.lastView) rfl (by have := w.lastView; omega)
    show (g.readNat s.db ((Key.lastView).id g)).map _ = _
    rw [this, ← hc]; rfl
  | lastStable =>
    cases hv
    have := readNat_key hg hd (k := .lastStable) trivial (n := t.cur.lastStable) rfl (by have := w.lastStable; omega)
    show (g.readNat s.db ((Key.lastStable).id g)).map _ = _
    rw [this]; rfl
  | exit => cases hv; show (g.getExit s.db junk).map _ = _; rw [getExit_eq hg hd w]; rfl
  | newView => cases hv; show (g.getNew s.db junk).map _ = _; rw [getNew_eq hg hd w]; rfl
  | exec =>
    cases hv
    have hn : s.nest = 0 := hq
    have hc := h.cache
    rw [view_cur h hn] at hc
    show (g.getExec s.db junk).map _ = _
    rw [getExec_eq hg hd w, Option.map_some]
    by_cases he : t.cur.exec = ExecDesc.empty
    · rw [if_pos he]
    · have h1 : s.hasExec = true := by rw [hc.hasExec]; simp [he]
      have h2 := hc.execSeq h1
      rw [if_neg he, ← h2, ← h1]
  | stable => cases hv; show (g.getStable s.db junk).map _ = _; rw [getStable_eq hg hd w]; rfl
  | prePrepare n =>
    simp only [Spec.value] at hv
    split at hv
    · next hw =>
      cases hv
      show (s.seqId n (0 + 1)).bind _ = _
      rw [slot (by decide) hw (ha rfl), Option.bind_some, readMsg_key hg hd (sk (by decide)) (senc hw) (w.slot n).pp (Nat.le_refl _)]; rfl
    · cases hv
  | fullCommitProof n =>
    simp only [Spec.value] at hv
    split at hv
    · next hw =>
      cases hv
      show (s.seqId n (1 + 1)).bind _ = _
      rw [slot (by decide) hw (ha rfl), Option.bind_some, readMsg_key hg hd (sk (by decide)) (senc hw) (w.slot n).fcp (Nat.le_refl _)]; rfl
    · cases hv
  | prepareFull n =>
    simp only [Spec.value] at hv
    split at hv
    · next hw =>
      cases hv
      show (s.seqId n (2 + 1)).bind _ = _
      rw [slot (by decide) hw (ha rfl), Option.bind_some, readMsg_key hg hd (sk (by decide)) (senc hw) (w.slot n).pf (Nat.le_refl _)]; rfl
    · cases hv
  | commitFull n =>
    simp only [Spec.value] at hv
    split at hv
    · next hw =>
      cases hv
      show (s.seqId n (3 + 1)).bind _ = _
      rw [slot (by decide) hw (ha rfl), Option.bind_some, readMsg_key hg hd (sk (by decide)) (senc hw) (w.slot n).cf (Nat.le_refl _)]; rfl
    · cases hv
  | forceCompleted n =>
    simp only [Spec.value] at hv
    split at hv
    · next hw =>
      cases hv
      show (s.seqId n (4 + 1)).bind _ = _
      rw [slot (by decide) hw (ha rfl), Option.bind_some, readByte_key hg hd (sk (by decide)) (senc hw)]; rfl
    · cases hv
  | slowStarted n =>
    simp only [Spec.value] at hv
    split at hv
    · next hw =>
      cases hv
      show (s.seqId n (5 + 1)).bind _ = _
      rw [slot (by decide) hw (ha rfl), Option.bind_some, readByte_key hg hd (sk (by decide)) (senc hw)]; rfl
    · cases hv
  | ckMsg n =>
    simp only [Spec.value] at hv
    split at hv
    · next hw =>
      cases hv
      show (s.ckId n (0 + 1)).bind _ = _
      rw [cks (by decide) hw (ha rfl), Option.bind_some, readMsg_key hg hd (ck (by decide)) (cenc hw) (w.ck n) (Nat.le_succ _)]; rfl
    · cases hv
  | completed n =>
    simp only [Spec.value] at hv
    split at hv
    · next hw =>
      cases hv
      show (s.ckId n (1 + 1)).bind _ = _
      rw [cks (by decide) hw (ha rfl), Option.bind_some, readByte_key hg hd (ck (by decide)) (cenc hw)]; rfl
    · cases hv
  | user =>
    cases hv
    show (g.readBytes s.db ((Key.user).id g) 256).map _ = _
    rw [readBytes_key hg hd (k := .user) trivial rfl (by decide) w.user]; rfl
  | rsi i =>
    cases hv
    show (g.readBytes s.db ((Key.rsi i).id g) (24 + 1024 * 1024)).map _ = _
    rw [readBytes_key hg hd (k := .rsi i) hq rfl (by decide) (w.rsi i)]; rfl
  | erase =>
    cases hv
    show (g.readByte s.db ((Key.erase).id g)).map _ = _
    cases he : t.cur.erase with
    | true =>
      rw [readByte_key hg hd (k := .erase) trivial (x := true) (by simp only [enc]; rw [he]; rfl)]; rfl
    | false =>
      unfold Cfg.readByte
      rw [read_none hg hd (k := .erase) trivial (by simp only [enc]; rw [he]; rfl) (by decide)]; rfl
  | epoch =>
    cases hv
    have hl : g.limit 11 = some 1 := Key.limit hg (k := .epoch) trivial
    show (g.readByte s.db 11).map _ = _
    unfold Cfg.readByte Cfg.read
    rw [if_neg (by rw [hl]; simp)]
    rcases hd.epoch with ⟨e1, e2⟩ | e
    · rw [e1, e2]; rfl
    · rw [e]
      cases t.cur.epoch <;> rfl
  | dbCk =>
    cases hv
    show (g.readBytes s.db ((Key.dbCk).id g) g.maxDbCk).map _ = _
    rw [readBytes_key hg hd (k := .dbCk) trivial rfl (by have := hg.dbCk; omega) w.dbCk]; rfl

theorem get_fails {s : St} {t : Spec.St} (h : Inv g s t) {q : Get} {junk : Nat → Bytes}
    (hv : (q.asserts = true ∧ s.nest ≠ 0) ∨ Spec.value t.cur q = none) : s.get g junk q = none := by
  unfold St.get
  by_cases ha : q.asserts = true ∧ s.nest ≠ 0
  · rw [if_pos ha]
  · rw [if_neg ha]
    have hv : Spec.value t.cur q = none := by
      rcases hv with hv | hv
      · exact absurd hv ha
      · exact hv
    have slot : ∀ {p n : Nat} (hp : p < 6), Spec.inWindow t.cur n = false → s.nest = 0 → s.seqId n (p + 1) = none := by
      intro p n hp hw hn
      rw [seqId_eq (g := g) (m := t.cur) (by have := h.cache; rw [view_cur h hn] at this; exact this) hp, if_neg (by rw [hw]; decide)]
    have cks : ∀ {p n : Nat} (hp : p < 2), Spec.inCkWindow t.cur n = false → s.nest = 0 → s.ckId n (p + 1) = none := by
      intro p n hp hw hn
      rw [ckId_eq (g := g) (m := t.cur) (by have := h.cache; rw [view_cur h hn] at this; exact this) hp, if_neg (by rw [hw]; decide)]
    have z : q.asserts = true → s.nest = 0 := fun x => by
      by_cases hn : s.nest = 0
      · exact hn
      · exact absurd ⟨x, hn⟩ ha
    cases q with
    | prePrepare n =>
      simp only [Spec.value] at hv; split at hv; · cases hv
      next hw => show (s.seqId n (0 + 1)).bind _ = none; rw [slot (by decide) (by simpa using hw) (z rfl)]; rfl
    | fullCommitProof n =>
      simp only [Spec.value] at hv; split at hv; · cases hv
      next hw => show (s.seqId n (1 + 1)).bind _ = none; rw [slot (by decide) (by simpa using hw) (z rfl)]; rfl
    | prepareFull n =>
      simp only [Spec.value] at hv; split at hv; · cases hv
      next hw => show (s.seqId n (2 + 1)).bind _ = none; rw [slot (by decide) (by simpa using hw) (z rfl)]; rfl
    | commitFull n =>
      simp only [Spec.value] at hv; split at hv; · cases hv
      next hw => show (s.seqId n (3 + 1)).bind _ = none; rw [slot (by decide) (by simpa using hw) (z rfl)]; rfl
    | forceCompleted n =>
      simp only [Spec.value] at hv; split at hv; · cases hv
      next hw => show (s.seqId n (4 + 1)).bind _ = none; rw [slot (by decide) (by simpa using hw) (z rfl)]; rfl
    | slowStarted n =>
      simp only [Spec.value] at hv; split at hv; · cases hv
      next hw => show (s.seqId n (5 + 1)).bind _ = none; rw [slot (by decide) (by simpa using hw) (z rfl)]; rfl
    | ckMsg n =>
      simp only [Spec.value] at hv; split at hv; · cases hv
      next hw => show (s.ckId n (0 + 1)).bind _ = none; rw [cks (by decide) (by simpa using hw) (z rfl)]; rfl
    | completed n =>
      simp only [Spec.value] at hv; split at hv; · cases hv
      next hw => show (s.ckId n (1 + 1)).bind _ = none; rw [cks (by decide) (by simpa using hw) (z rfl)]; rfl
    | _ => cases hv

/-! ## setters that do not use the transaction -/

def Atom.key (g : Cfg) : Atom → Key × Bytes
  | .user v => (.user, v)
  | .erase => (.erase, [1])
  | .epoch b => (.epoch, serBool b)
  | .dbCk v => (.dbCk, v)

theorem atomicWrite_eq (hg : g.Ok) (s : St) {k : Key} (hk : k.Valid g) {v : Bytes} (h1 : 0 < v.length) (h2 : v.length ≤ k.size g) :
    s.atomicWrite g (k.id g) v = some (s.durable (s.db.put (k.id g) v) false) := by
  unfold St.atomicWrite
  rw [if_pos (Key.writable hg hk h1 h2)]

theorem atomic_eq (hg : g.Ok) (s : St) {a : Atom} (ha : a.Ok g) :
    s.atomic g a = some (s.durable (s.db.put ((a.key g).1.id g) (a.key g).2) false) := by
  cases a with
  | user v =>
    show (if v.length ≤ 256 then s.atomicWrite g idUser v else none) = _
    rw [if_pos ha.2]
    exact atomicWrite_eq hg s (k := .user) trivial ha.1 ha.2
  | erase => exact atomicWrite_eq hg s (k := .erase) (v := [1]) trivial (by decide) (Nat.le_refl 1)
  | epoch b =>
    exact atomicWrite_eq hg s (k := .epoch) (v := serBool b) trivial (by rw [serBool_length]; decide) (by rw [serBool_length]; exact Nat.le_refl 1)
  | dbCk v => exact atomicWrite_eq hg s (k := .dbCk) (v := v) trivial ha.1 ha.2

theorem atomic_holds (hg : g.Ok) {d : Db} {m : Spec.Rec} (h : Holds g d m) {a : Atom} (ha : a.Ok g) :
    Holds g (d.put ((a.key g).1.id g) (a.key g).2) (Spec.atomic m a) := by
  cases a with
  | user v =>
    refine put_holds hg h (k := .user) trivial ha.1 ha.2 rfl ?_ rfl
    intro k' _ hne v' h; cases k' <;> first | exact h | exact absurd rfl hne
  | erase =>
    refine put_holds hg h (k := .erase) (v := [1]) trivial (by decide) (Nat.le_refl 1) rfl ?_ rfl
    intro k' _ hne v' h; cases k' <;> first | exact h | exact absurd rfl hne
  | epoch b =>
    constructor
    · intro k hv v hvv
      by_cases e : k = .epoch
      · subst e; cases hvv
      · show d.put ((Key.epoch).id g) (serBool b) (k.id g) = v
        rw [put_ne d (fun x => e (Key.id_inj (k' := .epoch) hv trivial x.symm))]
        exact h.key k hv v (by cases k <;> first | exact hvv | exact absurd rfl e)
    · show (d.put 11 (serBool b) 1).isSome = true
      rw [put_ne d (by decide)]
      exact h.mark
    · right; show d.put 11 (serBool b) 11 = _; unfold Db.put; rw [if_pos rfl]; rfl
  | dbCk v =>
    refine put_holds hg h (k := .dbCk) trivial ha.1 ha.2 rfl ?_ rfl
    intro k' _ hne v' h; cases k' <;> first | exact h | exact absurd rfl hne

theorem atomic_wf {m : Spec.Rec} (w : WF g m) {a : Atom} (ha : a.Ok g) : WF g (Spec.atomic m a) := by
  cases a with
  | user v => exact { w with user := fun b hb => by cases hb; exact ha }
  | erase => exact { w with }
  | epoch b => exact { w with }
  | dbCk v => exact { w with dbCk := fun b hb => by cases hb; exact ha }

theorem atomic_cache {s : St} {m : Spec.Rec} (hc : Cache s m) (a : Atom) (d : Db) : Cache (s.durable d false) (Spec.atomic m a) := by
  cases a <;> exact ⟨hc.seqB, hc.ckB, hc.lastExec, hc.lastView, hc.hasExit, hc.hasNew, hc.hasExec, hc.execSeq⟩

theorem over_atomic (d b : Db) (id : Nat) (v : Bytes) (h : b id = none) : (d.put id v).over b = (d.over b).put id v := by
  funext i
  unfold Db.over Db.put
  by_cases e : i = id
  · subst e; simp [h]
  · simp [e]

theorem over_hidden (d b : Db) (id : Nat) (v : Bytes) (h : (b id).isSome = true) : (d.put id v).over b = d.over b := by
  funext i
  unfold Db.over Db.put
  by_cases e : i = id
  · subst e
    cases hb : b i with
    | none => rw [hb] at h; cases h
    | some x => rfl
  · simp [e]

/-- the effect of an update does not depend on what the atomic setters wrote, except that a later update of the user data
hides it -/
theorem foldl_atomic (a : Atom) : ∀ (l : List Upd) (m : Spec.Rec), (∀ v, a = .user v → l.any Upd.isUser = false) →
    l.foldl Spec.apply (Spec.atomic m a) = Spec.atomic (l.foldl Spec.apply m) a
  | [], _, _ => rfl
  | u :: l, m, h => by
    have hc : Spec.apply (Spec.atomic m a) u = Spec.atomic (Spec.apply m u) a := by
      cases a <;> cases u <;> first | rfl | (exact absurd (h _ rfl) (by simp [Upd.isUser]))
    show l.foldl Spec.apply (Spec.apply (Spec.atomic m a) u) = Spec.atomic (l.foldl Spec.apply (Spec.apply m u)) a
    rw [hc]
    exact foldl_atomic a l _ (fun v hv => by have := h v hv; simp only [List.any_cons, Bool.or_eq_false_iff] at this; exact this.2)

theorem foldl_hidden (v : Bytes) : ∀ (l : List Upd) (m : Spec.Rec), l.any Upd.isUser = true →
    l.foldl Spec.apply (Spec.atomic m (.user v)) = l.foldl Spec.apply m
  | u :: l, m, h => by
    show l.foldl Spec.apply (Spec.apply (Spec.atomic m (.user v)) u) = l.foldl Spec.apply (Spec.apply m u)
    by_cases hu : u.isUser = true
    · have : Spec.apply (Spec.atomic m (.user v)) u = Spec.apply m u := by
        cases u <;> first | rfl | cases hu
      rw [this]
    · have hc : Spec.apply (Spec.atomic m (.user v)) u = Spec.atomic (Spec.apply m u) (.user v) := by
        cases u <;> first | rfl | exact absurd rfl hu
      rw [hc]
      refine foldl_hidden v l _ ?_
      simp only [List.any_cons, Bool.or_eq_true] at h
      rcases h with h | h
      · exact absurd h hu
      · exact h

theorem atomic_inv (hg : g.Ok) {s : St} {t : Spec.St} (h : Inv g s t) {a : Atom} (ha : a.Ok g) :
    Inv g (s.durable (s.db.put ((a.key g).1.id g) (a.key g).2) false) { t with cur := Spec.atomic t.cur a, old := t.cur :: t.old } := by
  have hold : ∀ d ∈ s.db :: s.old, ∃ m ∈ Spec.atomic t.cur a :: (t.cur :: t.old), DbRel g d m := by
    intro d hd
    rcases List.mem_cons.1 hd with rfl | hd
    · exact ⟨t.cur, by simp, h.rel⟩
    · obtain ⟨m, hm, hr⟩ := h.old d hd
      exact ⟨m, List.mem_cons_of_mem _ hm, hr⟩
  have hnd : (Spec.atomic t.cur a).newView = t.cur.newView := by cases a <;> rfl
  have view' : Spec.St.view { t with cur := Spec.atomic t.cur a, old := t.cur :: t.old } = t.pend.foldl Spec.apply (Spec.atomic t.cur a) := rfl
  have hcache : ∀ m, Cache s m → Cache (s.durable (s.db.put ((a.key g).1.id g) (a.key g).2) false) m := fun m hc =>
    ⟨hc.seqB, hc.ckB, hc.lastExec, hc.lastView, hc.hasExit, hc.hasNew, hc.hasExec, hc.execSeq⟩
  by_cases hu : ∃ v, a = .user v ∧ t.pend.any Upd.isUser = true
  · obtain ⟨v, rfl, hp⟩ := hu
    have hv : t.pend.foldl Spec.apply (Spec.atomic t.cur (.user v)) = t.view := foldl_hidden v _ _ hp
    refine ⟨h.nest, h.small, atomic_holds hg h.cur ha, atomic_wf h.curWf ha, hold, ?_, ?_, ?_, ?_, ?_⟩
    · exact h.out
    · intro hn
      obtain ⟨b, hb, hh, hb10, hb9, hb11, hb12⟩ := h.bat hn
      refine ⟨b, hb, ?_, hb10, hb9, hb11, hb12⟩
      show Holds g ((s.db.put 10 v).over b) (t.pend.foldl Spec.apply (Spec.atomic t.cur (.user v)))
      rw [hv, over_hidden _ _ _ _ (by rw [hb10]; exact hp)]
      exact hh
    · rw [view', hv]; exact h.wf
    · rw [view', hv]; exact hcache _ h.cache
    · rw [view', hv]; exact h.mono
  · have hp : ∀ v, a = .user v → t.pend.any Upd.isUser = false := fun v e => by
      cases hx : t.pend.any Upd.isUser with
      | false => rfl
      | true => exact absurd ⟨v, e, hx⟩ hu
    have hv : t.pend.foldl Spec.apply (Spec.atomic t.cur a) = Spec.atomic t.view a := foldl_atomic a _ _ hp
    refine ⟨h.nest, h.small, atomic_holds hg h.cur ha, atomic_wf h.curWf ha, hold, ?_, ?_, ?_, ?_, ?_⟩
    · exact h.out
    · intro hn
      obtain ⟨b, hb, hh, hb10, hb9, hb11, hb12⟩ := h.bat hn
      refine ⟨b, hb, ?_, hb10, hb9, hb11, hb12⟩
      show Holds g ((s.db.put ((a.key g).1.id g) (a.key g).2).over b) (t.pend.foldl Spec.apply (Spec.atomic t.cur a))
      rw [hv]
      have key := atomic_holds hg hh ha
      have hbk : b ((a.key g).1.id g) = none := by
        cases a with
        | user v =>
          have := hp v rfl
          rw [← hb10] at this
          show b 10 = none
          cases hx : b 10 with
          | none => rfl
          | some x => rw [hx] at this; cases this
        | erase => exact hb9
        | epoch x => exact hb11
        | dbCk v => exact hb12
      rw [over_atomic _ _ _ _ hbk]; exact key
    · rw [view', hv]; exact atomic_wf h.wf ha
    · rw [view', hv]; exact atomic_cache h.cache a _
    · rw [view', hv]
      intro hx
      have : (Spec.atomic t.view a).newView = t.view.newView := by cases a <;> rfl
      rw [this] at hx
      rw [show ({ t with cur := Spec.atomic t.cur a, old := t.cur :: t.old } : Spec.St).cur.newView = t.cur.newView from hnd]
      exact h.mono hx

end
end Verif.Meta
