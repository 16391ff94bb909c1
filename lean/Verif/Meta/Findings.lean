import Verif.Meta.Corollaries
set_option linter.unusedSimpArgs false
set_option linter.unusedVariables false
/-!
# Where the metadata storage does not do what C34 says
-/
namespace Verif.Meta
open Verif.Bytes

section
variable {g : Cfg}

/-! ## a failed read during the start -/

/-- what is left when the defaults are written over a record -/
def wiped (g : Cfg) (m : Spec.Rec) : Spec.Rec :=
  { Spec.Rec.init g with
    user := m.user
    rsi := m.rsi
    erase := m.erase
    epoch := m.epoch
    dbCk := m.dbCk }

theorem wiped_wf {m : Spec.Rec} (w : WF g m) : WF g (wiped g m) := { wf_init g with user := w.user, rsi := w.rsi, dbCk := w.dbCk }

theorem wiped_holds (hg : g.Ok) {d : Db} {m : Spec.Rec} (h : Holds g d m) : Holds g (d.putAll (defaults g)) (wiped g m) := by
  refine Holds.putAll hg h ?_ ?_ rfl
  · intro w hw
    obtain ⟨k, h1, h2⟩ := mem_defaults g w hw
    refine ⟨k, h1, ?_⟩
    cases k with
    | user => cases h2
    | rsi i => cases h2
    | erase => cases h2
    | dbCk => cases h2
    | _ => exact h2
  · intro k hk v hv
    cases k with
    | user => right; exact hv
    | rsi i => right; exact hv
    | erase => right; exact hv
    | epoch => cases hv
    | dbCk => right; exact hv
    | exitE i =>
      have h0 : enc g (Spec.Rec.init g) (.exitE i) = some v := hv
      simp only [enc] at h0; rw [if_neg (by show ¬ i < 0; omega)] at h0; cases h0
    | exitC i =>
      have h0 : enc g (Spec.Rec.init g) (.exitC i) = some v := hv
      simp only [enc] at h0; rw [if_neg (by show ¬ i < 0; omega)] at h0; cases h0
    | _ =>
      rcases cover_defaults g _ hk v hv with x | x
      · exact Or.inl x
      · subst x; cases hv

theorem init_io (hg : g.Ok) (d : Db) (old : List Db) :
    (fresh d old).init g true = some { fresh (d.putAll (defaults g)) (d :: old) with seqB := 1, ckB := 0 } := by
  unfold St.init
  rw [if_pos (Or.inl rfl)]
  have hb : (fresh d old).begin = { fresh d old with bat := some (fun _ => none), nest := 1 } := rfl
  rw [hb, St.wrAll_eq hg (defaults g) _ (fun _ => none) rfl (fun w hw => by obtain ⟨k, h, _⟩ := mem_defaults g w hw; exact ⟨k, h⟩), Option.bind_some]
  have ho : d.over (Db.putAll (fun _ => none) (defaults g)) = d.putAll (defaults g) := by
    rw [over_putAll]; rfl
  rw [fin_fresh, ho]

/-- **One failed read during a start erases the metadata** (PersistentStorageImp.cpp:57-72: `init` catches every
`runtime_error` and then writes the defaults).  The replica comes up without an error; the last executed and the
last stable sequence number, the view descriptors and every message of the window are those of a new replica. -/
theorem failed_read_erases (hg : g.Ok) {s : St} (h : Reach g s) (hn : s.nest = 0) {junk : Nat → Bytes}
    (he : answer g s .erase junk = some (.bool false)) :
    ∃ s', s.step g .crashIo = some (s', .ok) ∧
      (∀ q, q.Ok g → (match q with | .user | .rsi _ | .epoch | .dbCk => False | _ => True) →
        ∀ j, answer g s' q j = Spec.value (Spec.Rec.init g) q) ∧
      (∀ q, q.Ok g → (match q with | .user | .rsi _ | .epoch | .dbCk => True | _ => False) →
        ∀ j j', answer g s' q j = answer g s q j') := by
  obtain ⟨t, hi⟩ := h.inv hg
  have e0 := inv_erase hg hi hn he
  have hh := wiped_holds hg hi.cur
  have hw := wiped_wf (g := g) hi.curWf
  have e3 := bootDb_keep hg hi.rel e0 3
  rw [if_neg (by decide), mark_id hi.cur.mark] at e3
  have hnew : ((s.db 1).isNone || (g.mark s.db idErase).any (fun v => v.headD 0 != 0)) = false := by
    rw [erase_eq hg hi.rel, e0]
    have := hi.cur.mark
    cases hd : s.db 1 with
    | none => rw [hd] at this; cases this
    | some x => rfl
  have key : ∃ s' : St, g.boot s.db s.old true = some s' ∧ Inv g s' ⟨wiped g t.cur, t.cur :: t.old, 0, []⟩ := by
    have hold : ∀ x ∈ s.db :: (g.bootDb s.db 2 :: g.bootDb s.db 1 :: s.db :: s.old), ∃ m ∈ t.cur :: t.old, DbRel g x m := by
      intro x hx
      have hb : ∀ k, DbRel g (g.bootDb s.db k) t.cur := by
        intro k
        rw [bootDb_keep hg hi.rel e0 k]
        split
        · exact hi.rel
        · exact hi.rel.mark
      simp only [List.mem_cons] at hx
      rcases hx with rfl | rfl | rfl | rfl | hx
      · exact ⟨_, List.mem_cons_self, hi.rel⟩
      · exact ⟨_, List.mem_cons_self, hb 2⟩
      · exact ⟨_, List.mem_cons_self, hb 1⟩
      · exact ⟨_, List.mem_cons_self, hi.rel⟩
      · exact hi.old x hx
    unfold Cfg.boot
    dsimp only
    rw [e3, init_io hg]
    dsimp only
    rw [hnew]
    generalize s.db.putAll (defaults g) = d4 at hh ⊢
    rw [if_neg (by decide), load_ok hg (m := wiped g t.cur) hh hw rfl rfl rfl]
    refine ⟨_, rfl, rfl, by show 0 < 256; decide, hh, hw, ?_, fun _ => ⟨rfl, rfl⟩, fun h => absurd rfl h, hw, ?_, id⟩
    · intro x hx
      obtain ⟨m, hm, hr⟩ := hold x hx
      exact ⟨m, List.mem_cons_of_mem _ hm, hr⟩
    · exact ⟨rfl, rfl, rfl, rfl, rfl, rfl, rfl, fun h => (by cases h)⟩
  obtain ⟨s', h1, h2⟩ := key
  refine ⟨s', by show (g.boot s.db s.old true).map _ = _; rw [h1]; rfl, ?_, ?_⟩
  · intro q hq hk j
    rw [answer_eq hg h2 h2.nest hq]
    cases q with
    | erase => show some (Out.bool t.cur.erase) = _; rw [e0]; rfl
    | user => exact absurd hk id
    | rsi i => exact absurd hk id
    | epoch => exact absurd hk id
    | dbCk => exact absurd hk id
    | _ => rfl
  · intro q hq hk j j'
    rw [answer_eq hg h2 h2.nest hq, answer_eq hg hi hn hq]
    cases q <;> first | rfl | exact absurd hk id

/-! ## nested transactions -/

theorem begins (s : St) (b : Db) : ∀ n k, s.nest = k → s.bat = some b → 0 < k → k < 256 → k + n = 256 →
    ∃ s', s.run g (List.replicate n .begin) = some (s', List.replicate n .ok) ∧ s'.nest = 0 ∧ s'.db = s.db ∧ s'.bat = some b
  | 0, k, _, _, _, hk, h => absurd h (by omega)
  | 1, k, hk, hb, h0, _, h => by
    refine ⟨s.begin, rfl, by show (s.nest + 1) % 256 = 0; omega, rfl, ?_⟩
    show (if s.nest = 0 then _ else s.bat) = _
    rw [if_neg (by omega)]; exact hb
  | n + 2, k, hk, hb, h0, _, h => by
    obtain ⟨s', h1, h2⟩ := begins s.begin b (n + 1) (k + 1) (by show (s.nest + 1) % 256 = k + 1; omega)
      (by show (if s.nest = 0 then _ else s.bat) = _; rw [if_neg (by omega)]; exact hb) (by omega) (by omega) (by omega)
    refine ⟨s', ?_, h2⟩
    show (match St.run g s.begin (List.replicate (n + 1) .begin) with | none => none | some (s'', rs) => some (s'', Out.ok :: rs)) = _
    rw [h1]; rfl

/-- **256 nested transactions are none** (`numOfNestedTransactions_` is a `uint8_t`, PersistentStorageImp.hpp:253,
PersistentStorageImp.cpp:151-164): after them every setter that checks for a transaction and every `endWriteTran` ends the
process, and what was set in the open transaction is lost. -/
theorem nesting_wraps {s : St} (hn : s.nest = 0) :
    ∃ s', s.run g (List.replicate 256 .begin) = some (s', List.replicate 256 .ok) ∧ (∀ y, s'.fin y = none) ∧ ∀ n, s'.set g (.lastExec n) = none := by
  obtain ⟨b, hb⟩ : ∃ b, s.begin.bat = some b := by
    show ∃ b, (if s.nest = 0 then _ else s.bat) = some b
    rw [if_pos hn]
    cases s.bat with
    | none => exact ⟨_, rfl⟩
    | some b => exact ⟨b, rfl⟩
  obtain ⟨s', h1, h2, h3, h4⟩ := begins (g := g) s.begin b 255 1 (by show (s.nest + 1) % 256 = 1; omega) hb (by decide) (by decide) rfl
  refine ⟨s', ?_, fun y => by unfold St.fin; rw [if_pos h2], ?_⟩
  · have hc : ∀ n, s.run g (List.replicate (n + 1) .begin) =
        (match St.run g s.begin (List.replicate n .begin) with | none => none | some (s'', rs) => some (s'', Out.ok :: rs)) := fun n => rfl
    rw [hc 255, h1]
    exact congrArg some (congrArg (Prod.mk s') List.replicate_succ.symm)
  · intro n
    show (if s'.nest ≠ 0 ∧ s'.lastExec ≤ n then _ else none) = none
    rw [if_neg (fun h => h.1 h2)]

/-- **`sync` of an inner transaction is dropped**: `endWriteTran(true)` returns, the outer transaction commits without
`sync`, and a power failure brings back the metadata of before the transaction. -/
theorem inner_sync_lost (hg : g.Ok) {s : St} (h : Reach g s) (hn : s.nest = 0) {junk : Nat → Bytes}
    (he : answer g s .erase junk = some (.bool false)) {us : List Upd} (hu : ∀ u ∈ us, u.Ok g) {s1 : St} {rs : List Out}
    (hr : s.run g (.begin :: .begin :: us.map .set) = some (s1, rs)) (hok : ∀ r ∈ rs, r = .ok) :
    ∃ s2 rs2, s1.run g [.fin true, .fin false, .power 1 0] = some (s2, rs2) ∧ (∀ r ∈ rs2, r = .ok) ∧
      ∀ q, q.Ok g → ∀ j j', answer g s2 q j = answer g s q j' := by
  obtain ⟨t, hi⟩ := h.inv hg
  have e0 := inv_erase hg hi hn he
  have hdep : t.depth = 0 := by rw [← hi.nest]; exact hn
  have had : Admissible g s (.begin :: .begin :: us.map .set) := by
    have : ∀ (us : List Upd), (∀ u ∈ us, u.Ok g) → ∀ s', Admissible g s' (us.map .set) := by
      intro us
      induction us with
      | nil => intro _ s'; trivial
      | cons u us ih => intro hu s'; exact ⟨hu u List.mem_cons_self, fun s'' r _ => ih (fun x hx => hu x (List.mem_cons_of_mem _ hx)) s''⟩
    refine ⟨by show s.nest < 255; omega, fun s' r h1 => ⟨?_, fun s'' r' _ => this us hu s''⟩⟩
    have h1' : some (s.begin, Out.ok) = some (s', r) := h1
    cases h1'
    show (s.nest + 1) % 256 < 255
    omega
  obtain ⟨s1', t1, rs', e1, e2, e3⟩ := run_ok hg _ hi had
  rw [hr] at e1; cases e1
  -- nothing was committed, so the store is as it was
  have hdb : ∀ (ops : List Upd) (s s' : St) (rs : List Out), s.run g (ops.map .set) = some (s', rs) → (∀ r ∈ rs, r = .ok) → s.nest ≠ 0 →
      (∃ t, Inv g s t) → (∀ u ∈ ops, u.Ok g) → s'.db = s.db ∧ s'.nest = s.nest := by
    intro ops
    induction ops with
    | nil => intro s s' rs hh _ _ _ _; cases hh; exact ⟨rfl, rfl⟩
    | cons u us ih =>
      intro s s' rs hh hok h0 ⟨t, ht⟩ hu
      obtain ⟨b, hb, hh2, _⟩ := ht.bat h0
      have hh' : (match s.step g (.set u) with | none => none | some (s', r) => match St.run g s' (us.map .set) with | none => none | some (s'', rs) => some (s'', r :: rs)) = some (s', rs) := hh
      obtain ⟨sx, tx, rx, f1, f2, f3⟩ := step_ok hg ht (o := .set u) (hu u List.mem_cons_self)
      rw [f1] at hh'
      dsimp only at hh'
      cases hrest : St.run g sx (us.map .set) with
      | none => rw [hrest] at hh'; cases hh'
      | some y =>
        rw [hrest] at hh'
        obtain ⟨s3, rs3⟩ := y
        cases hh'
        have hrx : rx = .ok := hok _ List.mem_cons_self
        subst hrx
        have hacc : Spec.accepts g t.view u = true := by
          cases hacc : Spec.accepts g t.view u with
          | true => rfl
          | false =>
            cases f2 with
            | set _ ha => rw [hacc] at ha; cases ha
        obtain ⟨s4, b4, hd⟩ := set_ok hg h0 hb hh2 ht.wf ht.cache ht.cur ht.curWf ht.mono (hu u List.mem_cons_self) hacc
        have : s.step g (.set u) = some (s4, .ok) := by
          show (match s.set g u with | some s' => _ | none => _) = _
          rw [hd.eq]
        rw [f1] at this
        cases this
        obtain ⟨a, b⟩ := ih _ _ _ hrest (fun r hr => hok r (List.mem_cons_of_mem _ hr)) (by rw [hd.nest]; exact h0) ⟨_, f3⟩ (fun x hx => hu x (List.mem_cons_of_mem _ hx))
        exact ⟨a.trans hd.db, b.trans hd.nest⟩
  have hbeg : ∃ rs0, St.run g s.begin.begin (us.map .set) = some (s1, rs0) ∧ (∀ r ∈ rs0, r = .ok) ∧ ∃ t, Inv g s.begin.begin t := by
    have hh' : (match (match St.run g s.begin.begin (us.map .set) with | none => none | some (s'', rs) => some (s'', Out.ok :: rs)) with
      | none => none | some (s'', rs) => some (s'', Out.ok :: rs)) = some (s1, _) := hr
    cases hrest : St.run g s.begin.begin (us.map .set) with
    | none => rw [hrest] at hh'; cases hh'
    | some y =>
      rw [hrest] at hh'
      obtain ⟨s3, rs3⟩ := y
      cases hh'
      refine ⟨rs3, rfl, fun r hr => hok r (List.mem_cons_of_mem _ (List.mem_cons_of_mem _ hr)), ?_⟩
      obtain ⟨sa, ta, ra, a1, a2, a3⟩ := step_ok hg hi (o := .begin) (by show s.nest < 255; omega)
      have : some (s.begin, Out.ok) = some (sa, ra) := a1
      cases this
      obtain ⟨sb, tb, rb, b1, b2, b3⟩ := step_ok hg a3 (o := .begin) (by show (s.nest + 1) % 256 < 255; omega)
      have : some (s.begin.begin, Out.ok) = some (sb, rb) := b1
      cases this
      exact ⟨tb, b3⟩
  obtain ⟨rs0, hb1, hb2, tb, hb3⟩ := hbeg
  have hn2 : s.begin.begin.nest = 2 := by show ((s.nest + 1) % 256 + 1) % 256 = 2; omega
  obtain ⟨d1, d2⟩ := hdb us _ _ _ hb1 hb2 (by omega) ⟨tb, hb3⟩ hu
  have d1 : s1.db = s.db := d1
  obtain ⟨b, hbat, _⟩ := e3.bat (by omega)
  -- the two ends and the power failure
  have hn1 : s1.nest = 2 := by omega
  have f1 : s1.step g (.fin true) = some ({ s1 with nest := 1 }, .ok) := by
    have : s1.fin true = some { s1 with nest := 1 } := by
      unfold St.fin
      rw [if_neg (by omega), if_neg (by omega), hn1]
    show (match s1.fin true with | some s' => _ | none => _) = _
    rw [this]
  have f2 : ({ s1 with nest := 1 } : St).step g (.fin false) =
      some ({ s1 with db := s1.db.over b, old := s1.db :: s1.old, bat := none, nest := 0 }, .ok) := by
    have : ({ s1 with nest := 1 } : St).fin false = some { s1 with db := s1.db.over b, old := s1.db :: s1.old, bat := none, nest := 0 } := by
      unfold St.fin
      rw [if_neg (by show ¬ 1 = 0; decide), if_pos rfl]
      dsimp only
      rw [hbat]; rfl
    show (match ({ s1 with nest := 1 } : St).fin false with | some s' => _ | none => _) = _
    rw [this]
  have hold : ∀ x ∈ [g.bootDb s.db 2, g.bootDb s.db 1, s.db], ∃ m' ∈ (Spec.boot g t.cur []).cur :: (Spec.boot g t.cur []).old, DbRel g x m' := by
    intro x hx
    have hb : ∀ k, DbRel g (g.bootDb s.db k) t.cur := by
      intro k
      rw [bootDb_keep hg hi.rel e0 k]
      split
      · exact hi.rel
      · exact hi.rel.mark
    refine ⟨t.cur, mem_boot_cur _ _, ?_⟩
    simp only [List.mem_cons, List.not_mem_nil, or_false] at hx
    rcases hx with rfl | rfl | rfl
    · exact hb 2
    · exact hb 1
    · exact hi.rel
  obtain ⟨s2, g1, g2⟩ := boot_ok hg hi.rel hold
  have f3 : ({ s1 with db := s1.db.over b, old := s1.db :: s1.old, bat := none, nest := 0 } : St).step g (.power 1 0) = some (s2, .ok) := by
    show (g.boot (g.bootDb s1.db 0) [g.bootDb s1.db 2, g.bootDb s1.db 1, s1.db] false).map _ = _
    rw [d1]
    show (g.boot s.db [g.bootDb s.db 2, g.bootDb s.db 1, s.db] false).map _ = _
    rw [g1]; rfl
  refine ⟨s2, [.ok, .ok, .ok], ?_, by simp, ?_⟩
  · show (match s1.step g (.fin true) with | none => none | some (s', r) => match St.run g s' [.fin false, .power 1 0] with | none => none | some (s'', rs) => some (s'', r :: rs)) = _
    rw [f1]
    dsimp only
    have : ({ s1 with nest := 1 } : St).run g [.fin false, .power 1 0] = some (s2, [.ok, .ok]) := by
      show (match ({ s1 with nest := 1 } : St).step g (.fin false) with | none => none | some (s', r) => match St.run g s' [.power 1 0] with | none => none | some (s'', rs) => some (s'', r :: rs)) = _
      rw [f2]
      dsimp only
      have : ({ s1 with db := s1.db.over b, old := s1.db :: s1.old, bat := none, nest := 0 } : St).run g [.power 1 0] = some (s2, [.ok]) := by
        show (match ({ s1 with db := s1.db.over b, old := s1.db :: s1.old, bat := none, nest := 0 } : St).step g (.power 1 0) with | none => none | some (s', r) => match St.run g s' [] with | none => none | some (s'', rs) => some (s'', r :: rs)) = _
        rw [f3]; rfl
      rw [this]
    rw [this]
  · rw [boot_keep e0] at g2
    intro q hq j j'
    rw [answer_eq hg g2 g2.nest hq, answer_eq hg hi hn hq]

/-! ## object ids -/

/-- **The last replica specific objects do not exist.**  When the objects end above id 9999, the number given to the
storage is too small by 4 - 2 (PersistentStorageImp.cpp:147, DbMetadataStorage.cpp:49-57): writing one of the last four
ends the process. -/
theorem last_rsi_refused (h1 : 10000 ≤ g.idRsi + g.numPrinc * g.batch) (h2 : g.idRsi + g.numPrinc * g.batch < 65540) {i : Nat}
    (hi : i < g.numPrinc * g.batch) (hl : g.numPrinc * g.batch ≤ i + 4) (s : St) (v : Bytes) : s.set g (.rsi i v) = none := by
  have ho : g.objs = g.idRsi + g.numPrinc * g.batch - 4 := by
    unfold Cfg.objs
    rw [Nat.max_eq_right h1, Nat.mod_eq_of_lt (by omega)]; omega
  have h5 : 5000 ≤ g.idRsi := by unfold Cfg.idRsi idNew idStable idExec idComplaints idExit idWinEnd idCk idSeq W; omega
  have hlim : g.limit (g.idRsi + i) = none := by
    unfold Cfg.limit
    rw [if_neg (by omega)]
  show s.wr g (g.idRsi + i) v = none
  unfold St.wr Cfg.writable
  rw [hlim]; rfl

/-- **With too many principals the replica does not start**: the number of objects is a `uint16_t`. -/
theorem object_count_wraps (h1 : g.idRsi + g.numPrinc * g.batch = 65540) : g.start = none := by
  have ho : g.objs = 0 := by
    unfold Cfg.objs
    rw [h1]; decide
  have hlim : g.limit idVersion = none := by
    unfold Cfg.limit
    rw [if_neg (by rw [ho]; decide)]
  unfold Cfg.start Cfg.boot
  dsimp only
  have : ∀ d old, d idVersion = none → (fresh d old).init g false = none := by
    intro d old hd
    unfold St.init
    rw [if_pos (Or.inr (by show (d idVersion).isNone = true; rw [hd]; rfl))]
    have : (fresh d old).begin.wrAll g (defaults g) = none := by
      unfold defaults St.wrAll
      rw [List.cons_append, List.foldlM_cons]
      have : (fresh d old).begin.wr g idVersion versionBytes = none := by
        unfold St.wr Cfg.writable
        rw [hlim]; rfl
      rw [this]; rfl
    rw [this]; rfl
  rw [this _ _ (by
    have hm : ∀ d : Db, d idVersion = none → g.mark d idVersion = none := fun d h => by rw [mark_ne d (by decide)]; exact h
    show g.mark (if _ then g.clean _ else g.mark _) idVersion = none
    apply hm
    split
    · unfold Cfg.clean; dsimp only; split
      · rfl
      · exact hm _ rfl
    · exact hm _ rfl)]

end
end Verif.Meta
