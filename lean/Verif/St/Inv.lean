import Verif.St.Blocks
import Verif.Cert.Proofs2
set_option linter.unusedVariables false
set_option linter.unusedSimpArgs false
/-!
# State transfer: the invariant
-/
namespace Verif.St
open Verif.Bytes

variable {c : Cfg} {evs : List Ev} {d : Desc} {r : Nat} {s : S}

/-- while pages are fetched -/
structure Pg (c : Cfg) (evs : List Ev) (d : Desc) (r : Nat) (s : S) : Prop where
  cbf : s.cbf = some d
  on : s.fetching = true
  fin : s.finalizing = false
  good : Good c evs s.log
  certs : CertsOk c evs s.certs
  cyc : (cycle s.log).head? = some (.adopt d r)
  target : s.target = d
  last : s.last = 0
  first : s.first = 0
  io : s.io = []
  dn : s.dnext = d.pagesDigest
  all : ∀ j, r < j → j ≤ d.maxBlock → Settled (cycle s.log) j

/-- while no checkpoint is chosen -/
structure N (c : Cfg) (evs : List Ev) (s : S) : Prop where
  cbf : s.cbf = none
  good : Good c evs s.log
  certs : CertsOk c evs s.certs
  io : s.io = []
  sums : s.fs = .summaries → s.rv.stored = []

def Inv (c : Cfg) (evs : List Ev) (s : S) : Prop := N c evs s ∨ (∃ d r, B c evs d r s) ∨ ∃ d r, Pg c evs d r s

theorem Pg.other (h : Pg c evs d r s) (a1 a2 a3 a4 a5 a6 a7 a8 a9 a10 a11) : Pg c evs d r { s with
    firstStored := a1
    lastStored := a2
    descs := a3
    pages := a4
    counts := a5
    seq := a6
    pending := a7
    buf := a8
    src := a9
    pref := a10
    postponed := a11 } :=
  ⟨h.cbf, h.on, h.fin, h.good, h.certs, h.cyc, h.target, h.last, h.first, h.io, h.dn, h.all⟩

theorem CertsOk.mono {evs evs' : List Ev} (h : ∀ e ∈ evs, e ∈ evs') {f} (g : CertsOk c evs f) : CertsOk c evs' f := by
  intro k ct hk e he
  obtain ⟨g1, reach, o, cut, g2⟩ := g k ct hk e he
  exact ⟨g1, reach, o, cut, h _ g2⟩

theorem CertsOk.none (c : Cfg) (evs : List Ev) : CertsOk c evs (fun _ => Option.none) := fun k ct hk => by cases hk

theorem Inv.mono {evs evs' : List Ev} (h : ∀ e ∈ evs, e ∈ evs') (hi : Inv c evs s) : Inv c evs' s := by
  rcases hi with g | ⟨d, r, g⟩ | ⟨d, r, g⟩
  · exact .inl ⟨g.cbf, g.good.mono h, g.certs.mono h, g.io, g.sums⟩
  · exact .inr (.inl ⟨d, r, ⟨g.cbf, g.on, g.fin, g.good.mono h, g.certs.mono h, g.cyc, g.target, g.last, g.pos, g.first, g.tree, g.stored, g.same, g.lo, g.ord, g.dn, g.io, g.ioput, g.d1, g.d2, g.d3⟩⟩)
  · exact .inr (.inr ⟨d, r, ⟨g.cbf, g.on, g.fin, g.good.mono h, g.certs.mono h, g.cyc, g.target, g.last, g.first, g.io, g.dn, g.all⟩⟩)

theorem B.fs (h : B c evs d r s) : s.fs = .blocks := by
  unfold S.fs
  rw [h.fin, h.on, h.cbf]
  simp [h.pos]

theorem Pg.fs (h : Pg c evs d r s) : s.fs = .pages := by
  unfold S.fs
  rw [h.fin, h.on, h.cbf]
  simp [h.last]

theorem N.fs (h : N c evs s) : s.fs ≠ .blocks ∧ s.fs ≠ .pages := by
  unfold S.fs
  rw [h.cbf]
  split
  · exact ⟨by simp, by simp⟩
  · split
    · exact ⟨by simp, by simp⟩
    · exact ⟨by simp, by simp⟩

theorem Inv.good (h : Inv c evs s) : Good c evs s.log := by
  rcases h with g | ⟨d, r, g⟩ | ⟨d, r, g⟩ <;> exact g.good

/-! ## Blocks -/

theorem finalize_all {p : S → Prop} (k : Nat) (hk : s.io.length = k) (hlo : s.commit.lo ≤ s.commit.next) (hl : s.io.length = s.commit.next - s.commit.lo + 1)
    (h : (∀ j, s.commit.lo ≤ j → j ≤ s.commit.next → j ∈ s.io) → p { s with
        io := []
        commit := { s.commit with next := s.commit.lo }
        first := s.commit.hi + 1
        log := s.log ++ s.io.map Out.done }) : (s.finalize k).All p := by
  refine finalize_loop ((finLoop_spec k s hlo).mono ?_)
  rintro s' ⟨t, ht, hk', ⟨rfl, g2, g3, g4⟩ | ⟨rfl, g2, g3⟩⟩
  · omega
  · exact h g3

theorem B.putNext (h : B c evs d r s) (o : Ora) (b : Bytes) (send : Bool) (hch : Chains c d (cycle s.log) s.fetch.next b) : (s.putNext c o b send).All (fun x => B c evs d r x.2) := by
  obtain ⟨o1, o2, o3, o4⟩ := h.ord
  obtain ⟨e1, e2⟩ := h.same
  have hio := h.io
  have hlo := h.lo
  have hlast := h.last
  unfold S.putNext
  refine all_ite.2 ⟨fun _ => all_abort, fun _ => all_ite.2 ⟨fun _ => all_fault, fun _ => ?_⟩⟩
  cases hcl : clearBlock s.fetch.next s.pending with
  | none => exact all_fault
  | some pend =>
    dsimp only
    have hc : cycle (s.log ++ [.put s.fetch.next b]) = cycle s.log ++ [.put s.fetch.next b] := cycle_snoc _ _ rfl
    have hsub : ∀ x ∈ cycle s.log, x ∈ cycle (s.log ++ [.put s.fetch.next b]) := fun x hx => by rw [hc]; exact List.mem_append_left _ hx
    have hin : Out.put s.fetch.next b ∈ cycle (s.log ++ [.put s.fetch.next b]) := by rw [hc]; exact List.mem_append_right _ (List.mem_singleton.2 rfl)
    have hgood : Good c evs (s.log ++ [.put s.fetch.next b]) := h.good.snoc ⟨d, r, h.cyc, by omega, by omega, hch⟩
    have hput : ∀ i ∈ s.io ++ [s.fetch.next], ∃ b', Out.put i b' ∈ cycle (s.log ++ [.put s.fetch.next b]) := by
      intro i hi
      rcases List.mem_append.1 hi with hi | hi
      · obtain ⟨b', hb'⟩ := h.ioput i hi
        exact ⟨b', hsub _ hb'⟩
      · exact ⟨b, by rw [List.mem_singleton.1 hi]; exact hin⟩
    have hst : ∀ e ∈ s.rv.stored, ∃ ds, Out.digests ds ∈ cycle (s.log ++ [.put s.fetch.next b]) ∧ e ∈ ds ∧ GroupOk c d ds := by
      intro e he
      obtain ⟨ds, z1, z2, z3⟩ := h.stored e he
      exact ⟨ds, hsub _ z1, z2, z3⟩
    refine all_bind.2 (R.All.mono (p := B c evs d r) (all_ite.2 ⟨fun hn => ?_, fun hn => all_ok.2 ?_⟩) fun s2 h2 => ?_)
    · refine all_bind.2 (all_require.2 fun hl => all_bind.2 ?_)
      refine finalize_all _ rfl ?_ ?_ ?_
      · show s.commit.lo ≤ s.commit.next
        omega
      · show (s.io ++ [s.fetch.next]).length = s.commit.next - s.commit.lo + 1
        rw [List.length_append, List.length_singleton]; omega
      · intro hall
        have hc2 := cycle_dones (s.log ++ [.put s.fetch.next b]) (s.io ++ [s.fetch.next])
        have hsub2 : ∀ x ∈ cycle (s.log ++ [.put s.fetch.next b]), x ∈ cycle ((s.log ++ [.put s.fetch.next b]) ++ (s.io ++ [s.fetch.next]).map .done) :=
          fun x hx => by rw [hc2]; exact List.mem_append_left _ hx
        have hset : ∀ j, r < j → j < s.fetch.hi + 1 → Settled (cycle ((s.log ++ [.put s.fetch.next b]) ++ (s.io ++ [s.fetch.next]).map .done)) j := by
          intro j q1 q2
          by_cases z : j < s.commit.lo
          · exact (h.d2 j q1 z).mono (fun x hx => hsub2 _ (hsub _ hx))
          · by_cases z' : j ≤ s.commit.next
            · refine .inl ?_
              rw [hc2]
              exact List.mem_append_right _ (List.mem_map.2 ⟨j, hall j (by show s.commit.lo ≤ j; omega) z', rfl⟩)
            · exact (h.d3 j (by omega) (by omega)).mono (fun x hx => hsub2 _ (hsub _ hx))
        refine all_bind.2 ((nextBatch_spec _ _).mono fun bt hbt => all_ok.2 ?_)
        refine B.ofBatch (fs := s.fetch.hi + 1) ?_ h.cbf h.on h.fin ?_ h.certs ?_ h.last h.pos ?_ h.tree ?_ hbt (by omega) rfl ?_ hset
        · exact h.target
        · exact hgood.dones _ hput
        · show (cycle _).head? = _
          rw [hc2, hc]; exact head_append (head_append h.cyc)
        · show r < s.commit.hi + 1
          omega
        · intro e he
          obtain ⟨ds, z1, z2, z3⟩ := hst e he
          exact ⟨ds, hsub2 _ z1, z2, z3⟩
        · intro j q1 q2
          have q2 : j < s.commit.hi + 1 := q2
          exact hset j q1 (by omega)
    · refine ⟨h.cbf, h.on, h.fin, hgood, h.certs, ?_, h.target, h.last, h.pos, h.first, h.tree, hst, h.same, h.lo, ?_, .inr ⟨b, ?_, ?_, rfl⟩, ?_, hput, ?_, ?_, ?_⟩
      · show (cycle _).head? = _
        rw [hc]; exact head_append h.cyc
      · show s.fetch.lo ≤ s.fetch.next - 1 ∧ s.fetch.next - 1 ≤ s.commit.next ∧ s.commit.next ≤ s.fetch.hi ∧ s.fetch.hi ≤ s.last
        omega
      · show Out.put (s.fetch.next - 1 + 1) b ∈ _
        rw [show s.fetch.next - 1 + 1 = s.fetch.next by omega]; exact hin
      · show Chains c d _ (s.fetch.next - 1 + 1) b
        rw [show s.fetch.next - 1 + 1 = s.fetch.next by omega]; exact hch.mono hsub
      · show (s.io ++ [s.fetch.next]).length = s.commit.next - (s.fetch.next - 1)
        rw [List.length_append, List.length_singleton]; omega
      · exact fun j z1 z2 => (h.d1 j z1 z2).mono hsub
      · exact fun j z1 z2 => (h.d2 j z1 z2).mono hsub
      · exact fun j z1 z2 => (h.d3 j z1 z2).mono hsub
    · refine all_ite.2 ⟨fun _ => all_bind.2 ((h2.trySend o).mono fun s3 h3 => all_ok.2 h3), fun _ => all_ok.2 h2⟩

theorem B.endBlocks {s : S} (cbf : s.cbf = some d) (on : s.fetching = true) (fin : s.finalizing = false) (good : Good c evs s.log) (certs : CertsOk c evs s.certs)
    (cyc : (cycle s.log).head? = some (.adopt d r)) (target : s.target = d) (io : s.io = []) (all : ∀ j, r < j → j ≤ d.maxBlock → Settled (cycle s.log) j) :
    (s.endBlocks d).All (Pg c evs d r) := by
  unfold S.endBlocks S.enterPages
  refine all_bind.2 (all_require.2 fun _ => all_ok.2 ?_)
  exact ⟨cbf, on, fin, good, certs, cyc, rfl, rfl, rfl, io, rfl, all⟩

theorem B.putLast (h : B c evs d r s) (o : Ora) (b : Bytes) (hl : s.fetch.next = s.fetch.lo ∧ s.last = s.fetch.hi) (hch : Chains c d (cycle s.log) s.fetch.next b) :
    (s.putLast c o b).All (fun x => x.1 = .stop ∧ Pg c evs d r x.2) := by
  unfold S.putLast
  refine all_bind.2 ((h.finalize s.io.length).mono ?_)
  rintro s1 ⟨h1, hf, _, hsub1, hio⟩
  refine all_bind.2 (all_require.2 fun hfc => all_bind.2 (all_require.2 fun hio => all_bind.2 (all_option.2 fun d' hd' => ?_)))
  have hd : d' = d := by rw [h1.cbf] at hd'; injection hd' with hd'; exact hd'.symm
  subst hd
  obtain ⟨o1, o2, o3, o4⟩ := h1.ord
  have hlo := h1.lo
  have hch1 := hch.mono hsub1
  rw [← hf] at hl hch1
  have hlast := h1.last
  have hls : s1.last = s1.fetch.hi := by
    rw [h1.last, ← h.last]; exact hl.2
  have hc1 : cycle (s1.log ++ [.put s1.fetch.next b]) = cycle s1.log ++ [.put s1.fetch.next b] := cycle_snoc _ _ rfl
  have hc : cycle (s1.log ++ [.put s1.fetch.next b, .done s1.fetch.next]) = cycle s1.log ++ [.put s1.fetch.next b, .done s1.fetch.next] := by
    apply cycle_append
    intro x hx
    rcases List.mem_cons.1 hx with rfl | hx
    · rfl
    · rw [List.mem_singleton.1 hx]; rfl
  have hsub : ∀ x ∈ cycle s1.log, x ∈ cycle (s1.log ++ [.put s1.fetch.next b, .done s1.fetch.next]) := fun x hx => by rw [hc]; exact List.mem_append_left _ hx
  refine all_bind.2 (R.All.mono (B.endBlocks (c := c) (evs := evs) (d := d') (r := r) h1.cbf h1.on h1.fin ?_ h1.certs ?_ h1.target hio ?_) fun s2 h2 => all_ok.2 ⟨rfl, h2.other ..⟩)
  · have e : s1.log ++ [.put s1.fetch.next b, .done s1.fetch.next] = (s1.log ++ [.put s1.fetch.next b]) ++ [.done s1.fetch.next] := by simp
    show Good c evs (s1.log ++ [.put s1.fetch.next b, .done s1.fetch.next])
    rw [e]
    refine Good.snoc (Good.snoc (x := .put s1.fetch.next b) h1.good ⟨d', r, h1.cyc, by omega, by omega, hch1⟩) ⟨b, ?_⟩
    rw [hc1]; exact List.mem_append_right _ (List.mem_singleton.2 rfl)
  · show (cycle _).head? = _
    rw [hc]; exact head_append h1.cyc
  · intro j q1 q2
    show Settled (cycle (s1.log ++ [.put s1.fetch.next b, .done s1.fetch.next])) j
    have hcl : s1.commit.lo = s1.fetch.lo := h1.same.1
    have hch : s1.commit.hi = s1.fetch.hi := h1.same.2
    have hcn : s1.commit.next = s1.fetch.next := by rw [hfc]
    by_cases z : j < s1.commit.lo
    · exact (h1.d2 j q1 z).mono hsub
    · by_cases z' : j = s1.fetch.next
      · refine .inl ?_
        rw [hc, z']
        exact List.mem_append_right _ (List.mem_cons_of_mem _ (List.mem_singleton.2 rfl))
      · exact (h1.d3 j (by omega) (by omega)).mono hsub

theorem B.putBlock (h : B c evs d r s) (o : Ora) (b : Bytes) (send : Bool) (hch : Chains c d (cycle s.log) s.fetch.next b) :
    (s.putBlock c o b send).All (fun x => B c evs d r x.2 ∨ (x.1 = .stop ∧ Pg c evs d r x.2)) := by
  unfold S.putBlock
  refine all_bind.2 ((h.finalize _).mono ?_)
  rintro s1 ⟨h1, hf, _, hsub1, _⟩
  have hch1 := hch.mono hsub1
  refine all_ite.2 ⟨fun hl => ?_, fun _ => ?_⟩
  · unfold S.isLastInCycle at hl
    rw [Bool.and_eq_true] at hl
    refine (h1.putLast o b ?_ (by rw [hf]; exact hch1)).mono fun x hx => .inr hx
    rw [hf, h1.last, ← h.last]
    exact ⟨eq_of_beq hl.1, eq_of_beq hl.2⟩
  · exact (h1.putNext o b send (by rw [hf]; exact hch1)).mono fun x hx => .inl hx

theorem B.onBlock (hf : 0 < c.fetch) (h : B c evs d r s) (o : Ora) (blk : Bytes) (rvb : Nat) (send : Bool) :
    (s.onBlock c o blk rvb send).All (fun x => B c evs d r x.2 ∨ (x.1 = .stop ∧ Pg c evs d r x.2)) := by
  unfold S.onBlock
  refine all_bind.2 ((h.takeDigests hf rvb).mono ?_)
  rintro ⟨good, s1⟩ ⟨h1, hfe⟩
  have h1 : B c evs d r s1 := h1
  refine all_ite.2 ⟨fun _ => all_ok.2 (.inl h1), fun _ => all_ite.2 ⟨fun _ => all_fault, fun _ => ?_⟩⟩
  refine all_bind.2 ((h1.checkBlock (blk.drop rvb)).mono fun ok hok => all_ite.2 ⟨fun e => ?_, fun _ => all_ok.2 (.inl h1)⟩)
  exact h1.putBlock o _ send (hok e)

/-! ## A new cycle -/

theorem reset_eq (hio : s.io = []) (b : Bool) : s.reset b = .ok { s with
    dnext := zero
    pending := []
    certs := fun _ => none
    counts := fun _ => 0
    fetch := .none
    commit := .none
    src := none
    pref := []
    target := .zero
    postponed := false
    seq := 0
    finalizing := false
    io := []
    rv := if b then .empty else s.rv } := by
  have : (if 0 < s.commit.next then s.finalize s.io.length else R.ok s) = .ok s := by
    split
    · unfold S.finalize; rw [if_pos hio]
    · rfl
  unfold S.reset
  rw [this]
  rfl

theorem start_spec (cbf : s.cbf = none) (good : Good c evs s.log) (io : s.io = []) (q : Nat) : (s.start q).All (N c evs) := by
  unfold S.start
  rw [reset_eq io]
  refine all_bind.2 (all_ok.2 (all_bind.2 (all_require.2 fun _ => all_ok.2 ?_)))
  exact ⟨cbf, good, fun k ct hk => (by cases hk), rfl, fun _ => rfl⟩

theorem restartCycle_spec (good : Good c evs s.log) (io : s.io = []) (q : Nat) : (s.restartCycle q).All (N c evs) := by
  unfold S.restartCycle
  refine all_bind.2 (all_require.2 fun _ => ?_)
  exact start_spec (s := { s with
    cbf := none
    first := 0
    last := 0
    fetching := false }) rfl good io q

/-! ## Pages -/

theorem Pg.install (h : Pg c evs d r s) (es : List Elem) (lines : List (Nat × Nat × Bytes)) (hl : c.resPages = true → c.descH lines = d.pagesDigest) : (s.install c es lines).All (N c evs) := by
  unfold S.install
  refine all_bind.2 (fun pages _ => all_bind.2 (all_option.2 fun d' _ => all_bind.2 (all_require.2 fun _ => all_bind.2 (all_require.2 fun _ => all_bind.2 (all_require.2 fun _ =>
    all_bind.2 (all_require.2 fun _ => all_bind.2 (all_require.2 fun _ => all_ok.2 ?_)))))))
  refine ⟨rfl, ?_, h.certs, h.io, ?_⟩
  · refine h.good.snoc ⟨⟨r, ?_, ?_⟩, ?_⟩
    · rw [h.target]; exact h.cyc
    · intro j q1 q2
      rw [h.target] at q2
      exact h.all j q1 q2
    · rw [h.target]; exact hl
  · intro e
    unfold S.fs at e
    rw [if_pos rfl] at e
    cases e

theorem checkV_spec (c : Cfg) (m : Store) (ls : Nat) (want v : Bytes) : (checkV c m ls want v).All (fun o => ∀ es lines, o = some (es, lines) → c.descH lines = want) := by
  unfold checkV
  split
  · exact all_ok.2 (fun _ _ e => by cases e)
  · refine all_ite.2 ⟨fun _ => all_ok.2 (fun _ _ e => by cases e), fun _ => all_bind.2 fun x _ => ?_⟩
    cases x with
    | none => exact all_ok.2 (fun _ _ e => by cases e)
    | some x =>
      refine all_ok.2 fun es lines e => ?_
      split at e
      · cases e; assumption
      · cases e

theorem Pg.onPages (h : Pg c evs d r s) (v : Bytes) : (s.onPages c v).All (fun x => Pg c evs d r x.2 ∨ (x.1 = .stop ∧ N c evs x.2)) := by
  unfold S.onPages
  refine all_ite.2 ⟨fun hp => ?_, fun _ => all_bind.2 ((checkV_spec c s.pages s.lastStored s.dnext v).mono fun o ho => ?_)⟩
  · refine all_bind.2 ((h.install [] [] (fun e => ?_)).mono fun s1 h1 => all_ok.2 (.inr ⟨rfl, h1⟩))
    rw [e] at hp; cases hp
  · match o, ho with
    | none, _ => exact all_ok.2 (.inl h)
    | some (es, lines), ho =>
      refine all_bind.2 ((h.install es lines (fun _ => ?_)).mono fun s1 h1 => all_ok.2 (.inr ⟨rfl, h1⟩))
      rw [ho _ _ rfl, h.dn]

/-! ## The loop -/

theorem updateSource_spec {s : S} {q : S → Prop} (o : Ora) (h : ∀ a b, q { s with
    src := a
    pref := b }) : (s.updateSource c o).All q := by
  unfold S.updateSource
  dsimp only
  generalize hp : (if (match s.src with | some r => s.pref.filter (· ≠ r) | none => s.pref) = [] then c.others else (match s.src with | some r => s.pref.filter (· ≠ r) | none => s.pref)) = p
  cases p[o.pick % p.length]? with
  | none => exact all_abort
  | some r => exact all_ok.2 (h _ _)

theorem nextFull_spec {s : S} {q : Next × S → Prop} (b : Bool) (h0 : ∀ nx, q (nx, s)) (h : ∀ nx p bf, q (nx, { s with
    pending := p
    buf := bf })) : (s.nextFull c b).All q := by
  unfold S.nextFull
  refine all_bind.2 (all_require.2 fun _ => ?_)
  dsimp only
  generalize scan s.fetch.next _ s.pending 0 0 0 = sc
  cases sc with
  | bad => exact all_ok.2 (h0 _)
  | part a => exact all_ok.2 (h0 _)
  | full tot => exact all_bind.2 fun x _ => all_ok.2 (h _ _ _)

theorem B.iter (hf : 0 < c.fetch) (h : B c evs d r s) (last : Bool) (rvb : Nat) (o : Ora) (bad : Bool) :
    (s.iter c true last rvb o bad).All (fun x => B c evs d r x.2 ∨ (x.1 = .stop ∧ Pg c evs d r x.2)) := by
  unfold S.iter
  dsimp only
  generalize (if s.src = none ∨ bad = true then 1 else o.mode) = mode
  refine all_ite.2 ⟨fun e => absurd e.2.1 (by decide), fun _ => ?_⟩
  refine all_bind.2 (R.All.mono (p := B c evs d r) (all_ite.2 ⟨fun _ => updateSource_spec o (fun a b => h.other ..), fun _ => all_ok.2 h⟩) fun s1 h1 => ?_)
  have h2 : B c evs d r (if mode = 1 then { s1 with pending := [] } else s1) := by
    split
    · exact h1.other ..
    · exact h1
  generalize (if mode = 1 then { s1 with pending := [] } else s1) = s2 at h2 ⊢
  refine all_bind.2 (all_require.2 fun _ => all_bind.2 (R.All.mono (p := fun x => B c evs d r x.2) (nextFull_spec true (fun _ => h2) (fun _ _ _ => h2.other ..)) ?_))
  rintro ⟨nx, s3⟩ h3
  have h3 : B c evs d r s3 := h3
  cases nx with
  | bad => exact all_ok.2 (.inl h3)
  | full blk => exact h3.onBlock hf o blk rvb _
  | part =>
    refine all_ite.2 ⟨fun _ => ?_, fun _ => all_ok.2 (.inl h3)⟩
    refine all_ite.2 ⟨fun _ => ?_, fun e => absurd rfl e⟩
    refine all_bind.2 ((h3.finalize _).mono fun s4 h4 => all_bind.2 ((h4.1.trySend o).mono fun s5 h5 => all_ok.2 (.inl h5)))

theorem Pg.iter (h : Pg c evs d r s) (last : Bool) (rvb : Nat) (o : Ora) (bad : Bool) :
    (s.iter c false last rvb o bad).All (fun x => Pg c evs d r x.2 ∨ (x.1 = .stop ∧ N c evs x.2)) := by
  unfold S.iter
  dsimp only
  generalize (if s.src = none ∨ bad = true then 1 else o.mode) = mode
  refine all_ite.2 ⟨fun e => ?_, fun _ => ?_⟩
  · exact all_bind.2 ((restartCycle_spec h.good h.io _).mono fun s1 h1 => all_ok.2 (.inr ⟨rfl, h1⟩))
  refine all_bind.2 (R.All.mono (p := Pg c evs d r) (all_ite.2 ⟨fun _ => updateSource_spec o (fun a b => h.other ..), fun _ => all_ok.2 h⟩) fun s1 h1 => ?_)
  have h2 : Pg c evs d r (if mode = 1 then { s1 with pending := [] } else s1) := by
    split
    · exact h1.other ..
    · exact h1
  generalize (if mode = 1 then { s1 with pending := [] } else s1) = s2 at h2 ⊢
  refine all_bind.2 (all_require.2 fun _ => all_bind.2 (R.All.mono (p := fun x => Pg c evs d r x.2) (nextFull_spec false (fun _ => h2) (fun _ _ _ => h2.other ..)) ?_))
  rintro ⟨nx, s3⟩ h3
  have h3 : Pg c evs d r s3 := h3
  cases nx with
  | bad => exact all_ok.2 (.inl h3)
  | full blk => exact h3.onPages blk
  | part =>
    refine all_ite.2 ⟨fun _ => ?_, fun _ => all_ok.2 (.inl h3)⟩
    refine all_ite.2 ⟨fun e => (by cases e), fun _ => all_ok.2 (.inl (h3.other ..))⟩

theorem B.loop (hf : 0 < c.fetch) (last : Bool) (rvb : Nat) (o : Nat → Ora) : ∀ (cut : Nat) (bad : Bool) (s : S), B c evs d r s → (S.loop c true last rvb o cut bad s).All (Inv c evs) := by
  intro cut
  induction cut with
  | zero => intro bad s h; exact all_ok.2 (.inr (.inl ⟨d, r, h⟩))
  | succ cut ih =>
    intro bad s h
    rw [S.loop]
    refine all_bind.2 ((h.iter hf last rvb (o cut) bad).mono ?_)
    rintro ⟨k, s1⟩ h1
    rcases h1 with h1 | ⟨h1, h2⟩
    · cases k with
      | stop => exact all_ok.2 (.inr (.inl ⟨d, r, h1⟩))
      | again bad => exact ih bad _ h1
    · cases h1
      exact all_ok.2 (.inr (.inr ⟨d, r, h2⟩))

theorem Pg.loop (last : Bool) (rvb : Nat) (o : Nat → Ora) : ∀ (cut : Nat) (bad : Bool) (s : S), Pg c evs d r s → (S.loop c false last rvb o cut bad s).All (Inv c evs) := by
  intro cut
  induction cut with
  | zero => intro bad s h; exact all_ok.2 (.inr (.inr ⟨d, r, h⟩))
  | succ cut ih =>
    intro bad s h
    rw [S.loop]
    refine all_bind.2 ((h.iter last rvb (o cut) bad).mono ?_)
    rintro ⟨k, s1⟩ h1
    rcases h1 with h1 | ⟨h1, h2⟩
    · cases k with
      | stop => exact all_ok.2 (.inr (.inr ⟨d, r, h1⟩))
      | again bad => exact ih bad _ h1
    · cases h1
      exact all_ok.2 (.inl h2)

theorem Inv.process (hf : 0 < c.fetch) (h : Inv c evs s) (last : Bool) (rvb : Nat) (o : Nat → Ora) (cut : Nat) : (s.process c last rvb o cut).All (Inv c evs) := by
  unfold S.process
  rcases h with g | ⟨d, r, g⟩ | ⟨d, r, g⟩
  · have := g.fs
    split
    · exact absurd (by assumption) this.1
    · exact absurd (by assumption) this.2
    · exact all_abort
  · rw [g.fs]
    exact all_ite.2 ⟨fun _ => all_abort, fun _ => g.loop hf last rvb o cut false s⟩
  · rw [g.fs]
    exact all_ite.2 ⟨fun _ => all_abort, fun _ => g.loop last rvb o cut false s⟩

end Verif.St
