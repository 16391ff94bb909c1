import Verif.St.Pages
import Verif.St.Theorems
set_option linter.unusedVariables false
set_option linter.unusedSimpArgs false
/-!
# State transfer: reserved pages in every run (C35)
-/
namespace Verif.St
open Verif.Bytes

variable {c : Cfg} {evs : List Ev} {s : S} {tl : Nat → List (Nat × Nat × Bytes)} {d : Desc} {r : Nat}

def isComplete : Out → Bool
  | .complete .. => true
  | _ => false

/-- the pages are left alone -/
structure Rel (s s' : S) : Prop where
  pages : s'.pages = s.pages
  last : s'.lastStored = s.lastStored
  log : ∃ x, s'.log = s.log ++ x ∧ ∀ o ∈ x, isComplete o = false

theorem Rel.refl (s : S) : Rel s s := ⟨rfl, rfl, [], by simp, fun o h => (by cases h)⟩

theorem Rel.trans {a b e : S} (h : Rel a b) (g : Rel b e) : Rel a e := by
  obtain ⟨x, hx, hx'⟩ := h.log
  obtain ⟨y, hy, hy'⟩ := g.log
  refine ⟨by rw [g.pages, h.pages], by rw [g.last, h.last], x ++ y, by rw [hy, hx, List.append_assoc], fun o ho => ?_⟩
  rcases List.mem_append.1 ho with h | h
  · exact hx' o h
  · exact hy' o h

/-- only other fields differ -/
theorem Rel.of {a b : S} (h1 : b.pages = a.pages) (h2 : b.lastStored = a.lastStored) (h3 : b.log = a.log) : Rel a b := ⟨h1, h2, [], by rw [h3]; simp, fun o h => (by cases h)⟩

theorem Rel.one {a b : S} {o : Out} (h1 : b.pages = a.pages) (h2 : b.lastStored = a.lastStored) (h3 : b.log = a.log ++ [o]) (ho : isComplete o = false) : Rel a b :=
  ⟨h1, h2, [o], h3, fun x hx => by rw [List.mem_singleton.1 hx]; exact ho⟩

theorem rel_finLoop : ∀ (k : Nat) (s : S), (s.finLoop k).All (Rel s) := by
  intro k
  induction k with
  | zero => intro s; rw [S.finLoop, all_ok]; exact .refl s
  | succ k ih =>
    intro s
    rw [S.finLoop]
    cases hio : s.io with
    | nil => exact all_ok.2 (.refl s)
    | cons b io =>
      dsimp only
      refine all_ite.2 ⟨fun _ => all_abort, fun hb => all_ite.2 ⟨fun _ => all_ite.2 ⟨fun _ => all_ok.2 (.one rfl rfl rfl rfl), fun _ => all_abort⟩, fun _ => (ih _).mono fun s' h => ?_⟩⟩
      refine Rel.trans ?_ h
      exact Rel.one (o := .done b) rfl rfl rfl rfl

theorem rel_finalize (k : Nat) (s : S) : (s.finalize k).All (Rel s) := finalize_loop (rel_finLoop k s)

theorem rel_trySend (s : S) (o : Ora) : (s.trySend c o).All (Rel s) := by
  unfold S.trySend
  refine all_ite.2 ⟨fun _ => all_abort, fun _ => all_ite.2 ⟨fun _ => all_ok.2 (.of rfl rfl rfl), fun _ => all_bind.2 fun _ _ => all_ok.2 (.of rfl rfl rfl)⟩⟩

theorem rel_takeDigests (s : S) (rvb : Nat) : (s.takeDigests c rvb).All (fun o => Rel s o.2) := by
  unfold S.takeDigests
  refine all_ite.2 ⟨fun _ => all_ok.2 (.refl s), fun _ => all_bind.2 fun o _ => ?_⟩
  cases o with
  | none => exact all_ok.2 (.refl s)
  | some x => exact all_ok.2 (.one rfl rfl rfl rfl)

theorem rel_enterPages (s : S) (d : Desc) : (s.enterPages d).All (Rel s) := all_bind.2 (all_require.2 fun _ => all_ok.2 (.of rfl rfl rfl))

theorem rel_enterBlocks (s : S) (rv : Rvbm) (d : Desc) : (s.enterBlocks c rv d).All (Rel s) :=
  all_bind.2 (all_require.2 fun _ => all_bind.2 fun _ _ => all_ok.2 (.of rfl rfl rfl))

theorem rel_endBlocks (s : S) (d : Desc) : (s.endBlocks d).All (Rel s) := (rel_enterPages _ d).mono fun s' h => by
  refine Rel.trans ?_ h
  exact Rel.of rfl rfl rfl

theorem rel_putNext (s : S) (o : Ora) (b : Bytes) (send : Bool) : (s.putNext c o b send).All (fun x => Rel s x.2) := by
  unfold S.putNext
  refine all_ite.2 ⟨fun _ => all_abort, fun _ => all_ite.2 ⟨fun _ => all_fault, fun _ => ?_⟩⟩
  cases clearBlock s.fetch.next s.pending with
  | none => exact all_fault
  | some pend =>
    dsimp only
    refine all_bind.2 (R.All.mono (p := Rel s) (all_ite.2 ⟨fun hn => ?_, fun hn => all_ok.2 (.one rfl rfl rfl rfl)⟩) fun s2 h2 => ?_)
    · refine all_bind.2 (all_require.2 fun _ => all_bind.2 ((rel_finalize _ _).mono fun s2 h2 => all_bind.2 fun bt _ => all_ok.2 ?_))
      refine Rel.trans (Rel.trans ?_ h2) (Rel.of rfl rfl rfl)
      exact Rel.one rfl rfl rfl rfl
    · exact all_ite.2 ⟨fun _ => all_bind.2 ((rel_trySend s2 o).mono fun s3 h3 => all_ok.2 (h2.trans h3)), fun _ => all_ok.2 h2⟩

theorem rel_putLast (s : S) (o : Ora) (b : Bytes) : (s.putLast c o b).All (fun x => Rel s x.2) := by
  unfold S.putLast
  refine all_bind.2 ((rel_finalize _ s).mono fun s1 h1 => all_bind.2 (all_require.2 fun _ => all_bind.2 (all_require.2 fun _ => all_bind.2 (all_option.2 fun d _ => all_bind.2 ?_))))
  refine (rel_endBlocks _ d).mono fun s2 h2 => all_ok.2 ?_
  have h3 : Rel s1 { s1 with log := s1.log ++ [.put s1.fetch.next b, .done s1.fetch.next] } := by
    refine ⟨rfl, rfl, [.put s1.fetch.next b, .done s1.fetch.next], rfl, fun o ho => ?_⟩
    rcases List.mem_cons.1 ho with rfl | ho
    · rfl
    · rw [List.mem_singleton.1 ho]; rfl
  exact ((h1.trans h3).trans h2).trans (.of rfl rfl rfl)

theorem rel_onBlock (s : S) (o : Ora) (blk : Bytes) (rvb : Nat) (send : Bool) : (s.onBlock c o blk rvb send).All (fun x => Rel s x.2) := by
  unfold S.onBlock
  refine all_bind.2 ((rel_takeDigests s rvb).mono ?_)
  rintro ⟨good, s1⟩ h1
  have h1 : Rel s s1 := h1
  refine all_ite.2 ⟨fun _ => all_ok.2 h1, fun _ => all_ite.2 ⟨fun _ => all_fault, fun _ => all_bind.2 fun ok _ => all_ite.2 ⟨fun _ => ?_, fun _ => all_ok.2 h1⟩⟩⟩
  unfold S.putBlock
  refine all_bind.2 ((rel_finalize _ s1).mono fun s2 h2 => all_ite.2 ⟨fun _ => (rel_putLast s2 o _).mono fun x hx => (h1.trans h2).trans hx, fun _ => (rel_putNext s2 o _ send).mono fun x hx => (h1.trans h2).trans hx⟩)

theorem rel_reset (s : S) (b : Bool) : (s.reset b).All (Rel s) := by
  unfold S.reset
  refine all_bind.2 (R.All.mono (p := Rel s) (all_ite.2 ⟨fun _ => rel_finalize _ s, fun _ => all_ok.2 (.refl s)⟩) fun s1 h1 => all_ok.2 (h1.trans (.of rfl rfl rfl)))

theorem rel_start (s : S) (q : Nat) : (s.start q).All (Rel s) :=
  all_bind.2 ((rel_reset s true).mono fun s1 h1 => all_bind.2 (all_require.2 fun _ => all_ok.2 (h1.trans (.of rfl rfl rfl))))

theorem rel_restartCycle (s : S) (q : Nat) : (s.restartCycle q).All (Rel s) :=
  all_bind.2 (all_require.2 fun _ => (rel_start _ q).mono fun s1 h1 => by
    refine Rel.trans ?_ h1
    exact Rel.of rfl rfl rfl)

/-! ## The invariant -/

/-- pages are right, or the log shows why not -/
def Q (c : Cfg) (tl : Nat → List (Nat × Nat × Bytes)) (s : S) : Prop :=
  PagesCollision c tl s.log ∨ Conflict s.log ∨ (Sto c s.pages s.lastStored ∧ ∀ o ∈ s.log, PagesOk c o)

theorem bad_mono {l m : List Out} (h : ∀ x ∈ l, x ∈ m) : (PagesCollision c tl l → PagesCollision c tl m) ∧ (Conflict l → Conflict m) := by
  constructor
  · rintro ⟨d, b, L, a, h1, h2⟩
    exact ⟨d, b, L, a, h _ h1, h2⟩
  · rintro ⟨d, b, L, a, p, k, dg, x, h1, h2⟩
    exact ⟨d, b, L, a, p, k, dg, x, h _ h1, h2⟩

theorem Q.rel {s s' : S} (h : Q c tl s) (g : Rel s s') : Q c tl s' := by
  obtain ⟨x, hx, hx'⟩ := g.log
  have hsub : ∀ o ∈ s.log, o ∈ s'.log := fun o ho => by rw [hx]; exact List.mem_append_left _ ho
  rcases h with h | h | ⟨h1, h2⟩
  · exact .inl ((bad_mono hsub).1 h)
  · exact .inr (.inl ((bad_mono (c := c) (tl := tl) hsub).2 h))
  · refine .inr (.inr ⟨by rw [g.pages, g.last]; exact h1, fun o ho => ?_⟩)
    rw [hx] at ho
    rcases List.mem_append.1 ho with ho | ho
    · exact h2 o ho
    · have := hx' o ho
      cases o <;> first | exact trivial | cases this

theorem Pg.true_pages (h : Pg c evs d r s) (hh : ∀ d, Vouched c evs d → TruePages c tl d) : TruePages c tl d := by
  obtain ⟨pre, post, _, hv⟩ := ok_of_mem h.good (adopt_mem h.cyc)
  exact hh d hv

/-- installing pages -/
theorem Pg.q_install (hr : c.resPages = true) (hms : 1 ≤ c.maxStored) (h : Pg c evs d r s) (ht : TruePages c tl d) (hq : Q c tl s) {es : List Elem} {L : List (Nat × Nat × Bytes)} {v : Bytes}
    (hc : checkV c s.pages s.lastStored s.dnext v = .ok (some (es, L))) : (s.install c es L).All (Q c tl) := by
  unfold S.install
  refine all_bind.2 (fun m' hm' => all_bind.2 (all_option.2 fun d' _ => all_bind.2 (all_require.2 fun hle => all_bind.2 (all_require.2 fun _ => all_bind.2 (all_require.2 fun _ =>
    all_bind.2 (all_require.2 fun _ => all_bind.2 (all_require.2 fun _ => all_ok.2 ?_)))))))
  rw [if_pos hr] at hm'
  have hdig : c.descH L = c.descH (tl d.num) := by
    rw [← ht.digest, ← h.dn]
    exact checkV_spec c _ _ _ v _ hc _ _ rfl
  obtain ⟨z1, z2, z3⟩ := deleteOld_pages hms { s with
    pages := m'
    descs := fun i => if i = s.target.num then some s.target else s.descs i
    cbf := none } s.target.num
  have htg := h.target
  generalize hs1 : S.deleteOld c { s with
    pages := m'
    descs := fun i => if i = s.target.num then some s.target else s.descs i
    cbf := none } s.target.num = s1 at z1 z2 z3 ⊢
  dsimp only at z1 z2 z3
  have hin : Out.complete s.target s.pages L s1.pages ∈ s.log ++ [.complete s.target s.pages L s1.pages] := List.mem_append_right _ (List.mem_singleton.2 rfl)
  have hsub : ∀ o ∈ s.log, o ∈ s.log ++ [.complete s.target s.pages L s1.pages] := fun o ho => List.mem_append_left _ ho
  by_cases hLt : L = tl d.num
  · rcases hq with hq | hq | ⟨q1, q2⟩
    · exact .inl ((bad_mono hsub).1 hq)
    · exact .inr (.inl ((bad_mono (c := c) (tl := tl) hsub).2 hq))
    · by_cases hcf : Conflict (s.log ++ [.complete s.target s.pages L s1.pages])
      · exact .inr (.inl hcf)
      · refine .inr (.inr ?_)
        have hno : ∀ p k dg x, (p, k, dg) ∈ L → s.pages p k = some x → x.1 = dg := by
          intro p k dg x h1 h2
          refine Classical.byContradiction fun hne => hcf ⟨_, _, _, _, p, k, dg, x, hin, h1, h2, hne⟩
        have hup : ∀ x ∈ L, x.2.1 ≤ s.target.num := by rw [htg, hLt]; exact ht.upto
        obtain ⟨w1, w2, w3⟩ := checkV_install hc q1 hle hup hno hm'
        have hsto : Sto c s1.pages s.target.num := fun p k x hx => w3 p k x (z2 p k x hx)
        refine ⟨?_, fun o ho => ?_⟩
        · show Sto c s1.pages s1.lastStored
          rw [z1]; exact hsto
        · rcases List.mem_append.1 ho with ho | ho
          · exact q2 o ho
          · rw [List.mem_singleton.1 ho]
            refine ⟨?_, hsto⟩
            apply List.ext_getElem?
            intro p
            unfold Store.desc
            by_cases hp : p < c.pages
            · rw [List.getElem?_map, List.getElem?_range hp, ← w1 s.target.num (Nat.le_refl _) p hp]
              have : s1.pages.line s.target.num p = m'.line s.target.num p := by
                unfold Store.line
                rw [z3 p _ (Nat.le_refl _)]
              rw [← this]
              rfl
            · rw [List.getElem?_eq_none (by simp; omega), List.getElem?_eq_none (by omega)]
  · exact .inl ⟨_, _, _, _, hin, by rw [htg]; exact hLt, by rw [htg]; exact hdig⟩

theorem Pg.q_onPages (hr : c.resPages = true) (hms : 1 ≤ c.maxStored) (h : Pg c evs d r s) (ht : TruePages c tl d) (hq : Q c tl s) (v : Bytes) : (s.onPages c v).All (fun x => Q c tl x.2) := by
  unfold S.onPages
  refine all_ite.2 ⟨fun hp => ?_, fun _ => all_bind.2 fun o ho => ?_⟩
  · rw [hr] at hp; cases hp
  · match o, ho with
    | none, _ => exact all_ok.2 hq
    | some (es, lines), ho => exact all_bind.2 ((h.q_install hr hms ht hq ho).mono fun s1 h1 => all_ok.2 h1)

theorem rel_iter_blocks (s : S) (last : Bool) (rvb : Nat) (o : Ora) (bad : Bool) : (s.iter c true last rvb o bad).All (fun x => Rel s x.2) := by
  unfold S.iter
  dsimp only
  generalize (if s.src = none ∨ bad = true then 1 else o.mode) = mode
  refine all_ite.2 ⟨fun e => absurd e.2.1 (by decide), fun _ => ?_⟩
  refine all_bind.2 (R.All.mono (p := Rel s) (all_ite.2 ⟨fun _ => updateSource_spec o (fun a b => .of rfl rfl rfl), fun _ => all_ok.2 (.refl s)⟩) fun s1 h1 => ?_)
  have h2 : Rel s (if mode = 1 then { s1 with pending := [] } else s1) := by
    split
    · exact h1.trans (.of rfl rfl rfl)
    · exact h1
  generalize (if mode = 1 then { s1 with pending := [] } else s1) = s2 at h2 ⊢
  refine all_bind.2 (all_require.2 fun _ => all_bind.2 (R.All.mono (p := fun x => Rel s x.2) (nextFull_spec true (fun _ => h2) (fun _ _ _ => h2.trans (.of rfl rfl rfl))) ?_))
  rintro ⟨nx, s3⟩ h3
  have h3 : Rel s s3 := h3
  cases nx with
  | bad => exact all_ok.2 h3
  | full blk => exact (rel_onBlock s3 o blk rvb _).mono fun x hx => h3.trans hx
  | part =>
    refine all_ite.2 ⟨fun _ => ?_, fun _ => all_ok.2 h3⟩
    refine all_ite.2 ⟨fun _ => ?_, fun e => absurd rfl e⟩
    refine all_bind.2 ((rel_finalize _ s3).mono fun s4 h4 => all_bind.2 ((rel_trySend s4 o).mono fun s5 h5 => all_ok.2 ((h3.trans h4).trans h5)))

theorem Pg.q_iter (hr : c.resPages = true) (hms : 1 ≤ c.maxStored) (h : Pg c evs d r s) (ht : TruePages c tl d) (hq : Q c tl s) (last : Bool) (rvb : Nat) (o : Ora) (bad : Bool) :
    (s.iter c false last rvb o bad).All (fun x => Q c tl x.2) := by
  unfold S.iter
  dsimp only
  generalize (if s.src = none ∨ bad = true then 1 else o.mode) = mode
  refine all_ite.2 ⟨fun e => ?_, fun _ => ?_⟩
  · exact all_bind.2 ((rel_restartCycle s _).mono fun s1 h1 => all_ok.2 (hq.rel h1))
  refine all_bind.2 (R.All.mono (p := fun s' => Pg c evs d r s' ∧ Q c tl s') (all_ite.2 ⟨fun _ => updateSource_spec o (fun a b => ⟨h.other .., hq.rel (.of rfl rfl rfl)⟩), fun _ => all_ok.2 ⟨h, hq⟩⟩) fun s1 h1 => ?_)
  have h2 : (fun s' => Pg c evs d r s' ∧ Q c tl s') (if mode = 1 then { s1 with pending := [] } else s1) := by
    split
    · exact ⟨h1.1.other .., h1.2.rel (.of rfl rfl rfl)⟩
    · exact h1
  generalize (if mode = 1 then { s1 with pending := [] } else s1) = s2 at h2 ⊢
  refine all_bind.2 (all_require.2 fun _ => all_bind.2 (R.All.mono (p := fun x => Pg c evs d r x.2 ∧ Q c tl x.2)
    (nextFull_spec false (fun _ => h2) (fun _ _ _ => ⟨h2.1.other .., h2.2.rel (.of rfl rfl rfl)⟩)) ?_))
  rintro ⟨nx, s3⟩ h3
  have h3 : Pg c evs d r s3 ∧ Q c tl s3 := h3
  cases nx with
  | bad => exact all_ok.2 h3.2
  | full blk => exact h3.1.q_onPages hr hms ht h3.2 blk
  | part =>
    refine all_ite.2 ⟨fun _ => ?_, fun _ => all_ok.2 h3.2⟩
    refine all_ite.2 ⟨fun e => (by cases e), fun _ => all_ok.2 (h3.2.rel (.of rfl rfl rfl))⟩

theorem rel_loop_blocks (last : Bool) (rvb : Nat) (o : Nat → Ora) : ∀ (cut : Nat) (bad : Bool) (s : S), (S.loop c true last rvb o cut bad s).All (Rel s) := by
  intro cut
  induction cut with
  | zero => intro bad s; exact all_ok.2 (.refl s)
  | succ cut ih =>
    intro bad s
    rw [S.loop]
    refine all_bind.2 ((rel_iter_blocks s last rvb (o cut) bad).mono ?_)
    rintro ⟨k, s1⟩ h1
    cases k with
    | stop => exact all_ok.2 h1
    | again bad => exact (ih bad s1).mono fun s2 h2 => Rel.trans h1 h2

theorem Pg.q_loop (hr : c.resPages = true) (hms : 1 ≤ c.maxStored) (ht : TruePages c tl d) (last : Bool) (rvb : Nat) (o : Nat → Ora) : ∀ (cut : Nat) (bad : Bool) (s : S),
    Pg c evs d r s → Q c tl s → (S.loop c false last rvb o cut bad s).All (Q c tl) := by
  intro cut
  induction cut with
  | zero => intro bad s _ hq; exact all_ok.2 hq
  | succ cut ih =>
    intro bad s h hq
    rw [S.loop]
    refine all_bind.2 (((h.q_iter hr hms ht hq last rvb (o cut) bad).and (h.iter last rvb (o cut) bad)).mono ?_)
    rintro ⟨k, s1⟩ ⟨h1, h2⟩
    cases k with
    | stop => exact all_ok.2 h1
    | again bad =>
      rcases h2 with h2 | ⟨h2, _⟩
      · exact ih bad _ h2 h1
      · cases h2

theorem Inv.q_process (hr : c.resPages = true) (hms : 1 ≤ c.maxStored) (hh : ∀ d, Vouched c evs d → TruePages c tl d) (h : Inv c evs s) (hq : Q c tl s) (last : Bool) (rvb : Nat) (o : Nat → Ora) (cut : Nat) :
    (s.process c last rvb o cut).All (Q c tl) := by
  unfold S.process
  rcases h with g | ⟨d, r, g⟩ | ⟨d, r, g⟩
  · have := g.fs
    split
    · exact absurd (by assumption) this.1
    · exact absurd (by assumption) this.2
    · exact all_abort
  · rw [g.fs]
    exact all_ite.2 ⟨fun _ => all_abort, fun _ => (rel_loop_blocks last rvb o cut false s).mono fun s1 h1 => hq.rel h1⟩
  · rw [g.fs]
    exact all_ite.2 ⟨fun _ => all_abort, fun _ => Pg.q_loop hr hms (g.true_pages hh) last rvb o cut false s g hq⟩

theorem q_adopt (hf : 0 < c.fetch) (hr : c.resPages = true) (hms : 1 ≤ c.maxStored) (hh : ∀ d, Vouched c evs d → TruePages c tl d) (h : N c evs s) (hfs : s.fs = .summaries) (hq : Q c tl s)
    {ct : Concord.Cert.St Summary} (hct : CertOk c evs ct) (reach : Nat) (o : Nat → Ora) (cut : Nat) : (s.adopt c ct reach o cut).All (Q c tl) := by
  unfold S.adopt
  refine all_bind.2 (all_option.2 fun m _ => all_bind.2 (all_require.2 fun hz => ?_))
  cases hsd : s.rv.setData c m.desc.rvb (reach + 1) m.desc.maxBlock with
  | none => exact (rel_restartCycle s _).mono fun s1 h1 => hq.rel h1
  | some rv =>
    dsimp only
    refine all_bind.2 (all_require.2 fun hb => all_bind.2 (all_require.2 fun _ => ?_))
    have hv := vouched_of hct hb
    obtain ⟨ht, hst⟩ := setData_spec hf rfl hsd (h.sums hfs)
    have hc := cycle_adopt s.log m.desc reach
    have hgood : Good c evs (s.log ++ [.adopt m.desc reach]) := h.good.snoc hv
    have hon : s.fetching = true ∧ s.finalizing = false := by
      unfold S.fs at hfs
      split at hfs
      · cases hfs
      · rename_i h1
        split at hfs
        · cases hfs
        · rename_i h2
          exact ⟨by simpa using h2, by simpa using h1⟩
    refine all_ite.2 ⟨fun hlt => all_bind.2 ?_, fun hge => all_bind.2 (all_require.2 fun hzz => all_bind.2 ?_)⟩
    · unfold S.enterBlocks
      refine all_bind.2 (all_require.2 fun _ => all_bind.2 ((nextBatch_spec _ _).mono fun b hb => all_ok.2 ?_))
      refine Inv.q_process (evs := evs) hr hms hh (.inr (.inl ⟨m.desc, reach, ?_⟩)) ?_ false 0 o cut
      · refine B.ofBatch (fs := reach + 1) rfl rfl hon.1 hon.2 hgood (CertsOk.none c evs) ?_ rfl ?_ ?_ ht ?_ hb (by omega) hz.2.2.2.2.2 ?_ ?_
        · show (cycle _).head? = _
          rw [hc]; rfl
        · show 0 < m.desc.maxBlock
          omega
        · show reach < reach + 1
          omega
        · intro e he
          have he : e ∈ rv.stored := he
          rw [hst] at he; cases he
        · intro j q1 q2
          have q2 : j < reach + 1 := q2
          omega
        · intro j q1 q2; omega
      · exact hq.rel (Rel.one (o := .adopt m.desc reach) rfl rfl rfl rfl)
    · unfold S.enterPages
      refine all_bind.2 (all_require.2 fun hz' => all_ok.2 ?_)
      refine Inv.q_process (evs := evs) hr hms hh (.inr (.inr ⟨m.desc, reach, ?_⟩)) ?_ false 0 o cut
      · refine ⟨rfl, hon.1, hon.2, hgood, CertsOk.none c evs, ?_, rfl, hzz.2, hzz.1, hz.2.2.2.2.2, rfl, ?_⟩
        · show (cycle _).head? = _
          rw [hc]; rfl
        · intro j q1 q2; omega
      · exact hq.rel (Rel.one (o := .adopt m.desc reach) rfl rfl rfl rfl)

theorem q_onSummary (hf : 0 < c.fetch) (hr : c.resPages = true) (hms : 1 ≤ c.maxStored) (hh : ∀ d, Vouched c evs d → TruePages c tl d) (h : Inv c evs s) (hq : Q c tl s) {r : Nat} {m : Summary} {reach : Nat}
    {o : Nat → Ora} {cut : Nat} (hrs : r ≠ c.self) (he : Ev.summary r m reach o cut ∈ evs) : (s.onSummary c r m reach o cut).All (Q c tl) := by
  unfold S.onSummary
  refine all_ite.2 ⟨fun _ => all_ok.2 hq, fun hfs => all_ite.2 ⟨fun _ => all_ok.2 hq, fun _ => all_ite.2 ⟨fun _ => all_ok.2 hq, fun _ => all_ite.2 ⟨fun _ => all_ok.2 hq, fun _ => ?_⟩⟩⟩⟩
  have hfs : s.fs = .summaries := Decidable.not_not.1 hfs
  have hn : N c evs s := by
    rcases h with g | ⟨d, r, g⟩ | ⟨d, r, g⟩
    · exact g
    · rw [g.fs] at hfs; cases hfs
    · rw [g.fs] at hfs; cases hfs
  have hct : CertOk c evs ((s.certs m.desc.num).getD {}) := by
    cases hc : s.certs m.desc.num with
    | none => intro e hm; exact absurd hm (by simp)
    | some ct => exact hn.certs _ _ hc
  have hct' := addMsg_ok hct hrs he
  have hn1 : N c evs (s.addSummary c r m).1 := by
    refine ⟨hn.cbf, hn.good, ?_, hn.io, hn.sums⟩
    intro k ct hk
    have hk : (if k = m.desc.num then some (((s.certs m.desc.num).getD {}).addMsg c.cert r m).1 else s.certs k) = some ct := hk
    split at hk
    · cases hk; exact hct'
    · exact hn.certs k ct hk
  have hq1 : Q c tl (s.addSummary c r m).1 := hq.rel (Rel.of rfl rfl rfl)
  show (if _ then _ else _ : R S).All _
  exact all_ite.2 ⟨fun _ => all_ok.2 hq1, fun _ => q_adopt hf hr hms hh hn1 hfs hq1 hct' reach o cut⟩

theorem associate_sto {num ls : Nat} (hn : ls ≤ num) : ∀ (l : List (Nat × Bytes)) (m : Store), Sto c m num → (associate c num m l).All (fun m' => Sto c m' num) := by
  intro l
  induction l with
  | nil => intro m h; exact all_ok.2 h
  | cons e l ih =>
    intro m h
    obtain ⟨p, b⟩ := e
    rw [associate]
    refine all_ite.2 ⟨fun _ => all_abort, fun _ => ?_⟩
    cases m p num with
    | some x => exact all_abort
    | none =>
      refine ih _ fun p' k' x hx => ?_
      unfold Store.set at hx
      split at hx
      · rename_i e
        cases hx
        exact ⟨by omega, by rw [e.1, e.2]⟩
      · exact h p' k' x hx

theorem q_step (hf : 0 < c.fetch) (hr : c.resPages = true) (hms : 1 ≤ c.maxStored) (e : Ev) (hh : ∀ d, Vouched c (evs ++ [e]) d → TruePages c tl d) (h : Inv c evs s) (hq : Q c tl s) : (s.step c e).All (Q c tl) := by
  have h' : Inv c (evs ++ [e]) s := h.mono (fun x hx => List.mem_append_left _ hx)
  have he : e ∈ evs ++ [e] := List.mem_append_right _ (List.mem_singleton.2 rfl)
  cases e with
  | start q => exact all_ite.2 ⟨fun _ => (rel_start s q).mono fun s1 h1 => hq.rel h1, fun _ => all_ok.2 hq⟩
  | summary r m reach o cut => exact all_ite.2 ⟨fun hr' => q_onSummary hf hr hms hh h' hq (of_decide_eq_true hr').2 he, fun _ => all_ok.2 hq⟩
  | item r m o cut =>
    refine all_ite.2 ⟨fun _ => ?_, fun _ => all_ok.2 hq⟩
    unfold S.onItem
    refine all_ite.2 ⟨fun _ => all_ok.2 hq, fun _ => all_ite.2 ⟨fun _ => all_ok.2 hq, fun _ => all_ite.2 ⟨fun _ => all_ok.2 hq, fun _ => all_ite.2 ⟨fun _ => all_abort, fun _ =>
      all_ite.2 ⟨fun _ => all_ok.2 hq, fun _ => ?_⟩⟩⟩⟩⟩
    cases insertItem m s.pending with
    | none => exact all_ok.2 hq
    | some l =>
      refine Inv.q_process hr hms hh ?_ ?_ _ _ o cut
      on_goal 2 => exact hq.rel (Rel.of rfl rfl rfl)
      rcases h' with g | ⟨d, r, g⟩ | ⟨d, r, g⟩
      · exact .inl ⟨g.cbf, g.good, g.certs, g.io, g.sums⟩
      · exact .inr (.inl ⟨d, r, g.other ..⟩)
      · exact .inr (.inr ⟨d, r, g.other ..⟩)
  | reject r q nf o cut =>
    refine all_ite.2 ⟨fun _ => ?_, fun _ => all_ok.2 hq⟩
    unfold S.onReject
    refine all_ite.2 ⟨fun _ => all_ok.2 hq, fun _ => all_ite.2 ⟨fun _ => all_ok.2 hq, fun _ => all_ite.2 ⟨fun hp => ?_, fun _ => ?_⟩⟩⟩
    · refine (rel_restartCycle _ _).mono fun s1 h1 => hq.rel (Rel.trans ?_ h1)
      exact Rel.of rfl rfl rfl
    · refine Inv.q_process hr hms hh ?_ ?_ _ _ o cut
      on_goal 2 => exact hq.rel (Rel.of rfl rfl rfl)
      rcases h' with g | ⟨d, r, g⟩ | ⟨d, r, g⟩
      · exact .inl ⟨g.cbf, g.good, g.certs, g.io, g.sums⟩
      · exact .inr (.inl ⟨d, r, g.other ..⟩)
      · exact .inr (.inr ⟨d, r, g.other ..⟩)
  | timer go clear o cut =>
    show (s.onTimer c go clear o cut).All _
    unfold S.onTimer
    cases hfs : s.fs with
    | blocks => exact Inv.q_process hr hms hh h' hq _ _ o cut
    | pages => exact Inv.q_process hr hms hh h' hq _ _ o cut
    | idle => exact all_ok.2 hq
    | finalizing =>
      refine all_ite.2 ⟨fun _ => ?_, fun _ => all_ok.2 hq⟩
      unfold S.finish
      refine all_bind.2 ((rel_reset _ false).mono fun s1 h1 => all_bind.2 (all_require.2 fun _ => all_ok.2 (hq.rel ?_)))
      refine Rel.trans (Rel.trans ?_ h1) (Rel.of rfl rfl rfl)
      exact Rel.of rfl rfl rfl
    | summaries =>
      refine all_ok.2 (hq.rel ?_)
      split
      · exact Rel.of rfl rfl rfl
      · exact Rel.refl s
  | crash reach tree rubbish early =>
    show (s.crash c reach tree rubbish early).All _
    unfold S.crash
    refine all_ite.2 ⟨fun _ => all_abort, fun _ => ?_⟩
    dsimp only
    have hb : Rel s (s.boot c tree rubbish reach) := Rel.one (o := .restart reach) rfl rfl rfl rfl
    generalize s.boot c tree rubbish reach = s1 at hb ⊢
    have h1 : R.All (R.ok s1) (Q c tl) := all_ok.2 (hq.rel hb)
    cases s1.fs <;> cases s1.cbf <;> dsimp only <;> try exact h1
    · refine all_bind.2 ((rel_enterBlocks _ _ _).mono fun s2 h2 => all_bind.2 (all_require.2 fun _ => all_ite.2 ⟨fun _ => ?_, fun _ => all_ok.2 (hq.rel ?_)⟩))
      · refine (rel_endBlocks _ _).mono fun s3 h3 => hq.rel (Rel.trans (Rel.trans (hb.trans h2) ?_) h3)
        exact Rel.of rfl rfl rfl
      · refine Rel.trans (hb.trans h2) ?_
        exact Rel.of rfl rfl rfl
    · refine all_bind.2 ((rel_enterPages _ _).mono fun s2 h2 => all_ok.2 (hq.rel ?_))
      exact Rel.trans (hb.trans h2) (Rel.of rfl rfl rfl)
  | checkpoint num mb md rvb tree upd =>
    show (s.checkpoint c num mb md rvb tree upd).All _
    unfold S.checkpoint
    refine all_ite.2 ⟨fun _ => all_abort, fun hn => all_ite.2 ⟨fun _ => all_ok.2 hq, fun _ => all_ite.2 ⟨fun _ => all_abort, fun hlt => all_bind.2 fun pages hp => all_bind.2 (all_require.2 fun _ => all_ok.2 ?_)⟩⟩⟩
    rcases hq with hq | hq | ⟨q1, q2⟩
    · exact .inl hq
    · exact .inr (.inl hq)
    · refine .inr (.inr ⟨?_, q2⟩)
      have hs : Sto c s.pages num := fun p k x hx => ⟨by have := (q1 p k x hx).1; omega, (q1 p k x hx).2⟩
      have hs' : Sto c pages num := associate_sto (Nat.le_refl num) upd s.pages hs _ hp
      obtain ⟨z1, z2, _⟩ := deleteOld_pages hms { s with
        pages := pages
        descs := fun i => if i = num then some ⟨num, mb, md, c.descH (pages.desc c.pages num), rvb⟩ else s.descs i
        rv := { s.rv with tree := tree } } num
      exact fun p k x hx => hs' p k x (z2 p k x hx)

theorem q_run (hf : 0 < c.fetch) (hr : c.resPages = true) (hms : 1 ≤ c.maxStored) : ∀ (es : List Ev) {evs : List Ev} {s : S}, (∀ d, Vouched c (evs ++ es) d → TruePages c tl d) → Inv c evs s → Q c tl s →
    (s.run c es).All (Q c tl) := by
  intro es
  induction es with
  | nil => intro evs s _ _ hq; exact all_ok.2 hq
  | cons e es ih =>
    intro evs s hh h hq
    show ((s.step c e) >>= (fun s => s.run c es)).All _
    have hh' : ∀ d, Vouched c (evs ++ [e]) d → TruePages c tl d := by
      rintro d ⟨ids, h1, h2, h3⟩
      refine hh d ⟨ids, h1, h2, fun r hr => ?_⟩
      obtain ⟨g1, g2, m, reach, o, cut, g3, g4⟩ := h3 r hr
      refine ⟨g1, g2, m, reach, o, cut, ?_, g4⟩
      rcases List.mem_append.1 g3 with g | g
      · exact List.mem_append_left _ g
      · exact List.mem_append_right _ (by rw [List.mem_singleton.1 g]; exact List.mem_cons_self ..)
    refine all_bind.2 (((q_step hf hr hms e hh' h hq).and (h.step hf e)).mono fun s1 h1 => ?_)
    exact ih (by rw [List.append_assoc]; exact hh) h1.2 h1.1

/-- **Pages.** With at most `f` faulty replicas, in every run: when a transfer ends, the descriptor of the reserved pages that are then
stored is the one of the correct replicas for that checkpoint, and every stored digest is that of the stored content; unless the
log shows two different lists of pages with the same digest, or this replica had a page, for the same checkpoint, of other content. -/
theorem pages_true (hf : 0 < c.fetch) (hr : c.resPages = true) (hms : 1 ≤ c.maxStored) {buf : Bytes} (h : (S.init c buf).run c evs = .ok s) {faulty : List Nat} (hh : Honest c evs faulty (TruePages c tl))
    {d : Desc} {before after : Store} {lines : List (Nat × Nat × Bytes)} (hx : Out.complete d before lines after ∈ s.log) :
    (after.desc c.pages d.num = tl d.num ∧ ∀ p k x, after p k = some x → k ≤ d.num ∧ x.1 = c.pageH p k x.2) ∨ PagesCollision c tl s.log ∨ Conflict s.log := by
  have hq : Q c tl (S.init c buf) := .inr (.inr ⟨fun p k x hx => (by cases hx), fun o ho => (by cases ho)⟩)
  have := q_run hf hr hms evs (evs := []) (by rw [List.nil_append]; exact fun d hd => hh.of_vouched hd) (Inv.init c buf) hq s h
  rcases this with g | g | ⟨_, g⟩
  · exact .inr (.inl g)
  · exact .inr (.inr g)
  · obtain ⟨g1, g2⟩ := g _ hx
    by_cases hl : lines = tl d.num
    · exact .inl ⟨by rw [g1, hl], g2⟩
    · refine .inr (.inl ⟨d, before, lines, after, hx, hl, ?_⟩)
      obtain ⟨pre, post, e, ⟨r, h1, _⟩, h2⟩ := ok_of_mem (log_justified hf h) hx
      have hv : Vouched c evs d := chosen_is_vouched hf h (r := r) (by rw [e]; exact List.mem_append_left _ (adopt_mem h1))
      rw [h2 hr, (hh.of_vouched hv).digest]

end Verif.St
