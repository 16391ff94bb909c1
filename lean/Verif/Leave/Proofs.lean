import Verif.Leave.Sort
set_option linter.unusedSimpArgs false
set_option linter.unusedVariables false
namespace Concord.Leave

/-! ## monotone facts -/

structure Net.Le (N N' : Net) : Prop where
  c : ∀ k ∈ N.complaints, k ∈ N'.complaints
  v : ∀ m ∈ N.vcs, m ∈ N'.vcs
  l : ∀ e ∈ N.log, e ∈ N'.log

theorem Net.Le.refl (N : Net) : N.Le N := ⟨fun _ h => h, fun _ h => h, fun _ h => h⟩

theorem Net.Le.trans {A B C : Net} (h : A.Le B) (g : B.Le C) : A.Le C :=
  ⟨fun k x => g.c k (h.c k x), fun k x => g.v k (h.v k x), fun k x => g.l k (h.l k x)⟩

theorem Reached.mono {l l' : List Ev} (h : ∀ e ∈ l, e ∈ l') {i w : Nat} (hr : Reached l i w) : Reached l' i w := by
  rcases hr with h0 | ⟨a, b, hm, hw⟩
  · exact Or.inl h0
  · exact Or.inr ⟨a, b, h _ hm, hw⟩

theorem Reached.le {l : List Ev} {i w w' : Nat} (hr : Reached l i w) (h : w' ≤ w) : Reached l i w' := by
  rcases hr with h0 | ⟨a, b, hm, hw⟩
  · exact Or.inl (by omega)
  · exact Or.inr ⟨a, b, hm, by omega⟩

theorem Caused.mono {cfg : Cfg} {l l' : List Ev} (h : ∀ e ∈ l, e ∈ l') {u : Nat} (hc : Caused cfg l u) :
    Caused cfg l' u := by
  rcases hc with ⟨i, why, a, b, c⟩ | ⟨i, u', a, b, c, d, e⟩ | ⟨a, i, b, c, d⟩
  · exact Or.inl ⟨i, why, a, b, h _ c⟩
  · exact Or.inr (Or.inl ⟨i, u', a, b, c, h _ d, h _ e⟩)
  · exact Or.inr (Or.inr ⟨a, i, b, c, h _ d⟩)

theorem Signed.mono {cfg : Cfg} {N N' : Net} (h : N.Le N') {q u : Nat} (hs : Signed cfg N q u) : Signed cfg N' q u := by
  obtain ⟨Q, a, b, c⟩ := hs
  refine ⟨Q, a, b, fun j hj => ⟨(c j hj).1, ?_⟩⟩
  obtain ⟨w, hw, hm⟩ := (c j hj).2
  exact ⟨w, hw, h.v _ hm⟩

theorem Signed.of_list {cfg : Cfg} {N : Net} {q u : Nat} {L : List Nat} (hn : L.Nodup) (hl : q ≤ L.length)
    (h : ∀ j ∈ L, j < cfg.n ∧ ∃ w, u ≤ w ∧ (⟨j, w⟩ : VC) ∈ N.vcs) : Signed cfg N q u :=
  ⟨L.take q, hn.sublist (List.take_sublist _ _), by rw [List.length_take]; omega,
   fun j hj => h j (List.mem_of_mem_take hj)⟩

/-- among more than `f` different replicas one follows the program -/
theorem honest_among {cfg : Cfg} (hf : FewFaulty cfg) {L : List Nat} (hn : L.Nodup) (hl : cfg.f < L.length)
    (h : ∀ j ∈ L, j < cfg.n) : ∃ j ∈ L, cfg.honest j = true := by
  apply Classical.byContradiction
  intro hc
  have := hf L hn (fun j hj => ⟨h j hj, by
    cases hb : cfg.honest j
    · rfl
    · exact absurd ⟨j, hj, hb⟩ hc⟩)
  omega

/-- why a correct replica asked -/
def AskOk (cfg : Cfg) (N : Net) (u : Nat) : Reason → Prop
  | .requestTimeout => u = 0 ∨ Signed cfg N (2 * cfg.f + 2 * cfg.c + 1) u
  | .primaryNotInCharge => u = 0 ∨ Signed cfg N (2 * cfg.f + 2 * cfg.c + 1) u
  | .badBatch s => s < cfg.n ∧ cfg.honest s = false ∧ (cfg.checkSender = true → s = cfg.primary u)

theorem AskOk.mono {cfg : Cfg} {N N' : Net} (h : N.Le N') {u : Nat} : ∀ {why : Reason}, AskOk cfg N u why → AskOk cfg N' u why
  | .requestTimeout, ha => ha.imp id (·.mono h)
  | .primaryNotInCharge, ha => ha.imp id (·.mono h)
  | .badBatch _, ha => ha

/-! ## the invariant -/

structure GInv (cfg : Cfg) (N : Net) : Prop where
  cid : ∀ k ∈ N.complaints, k.gen < cfg.n
  vid : ∀ m ∈ N.vcs, m.gen < cfg.n
  vc : ∀ m ∈ N.vcs, cfg.honest m.gen = true → Reached N.log m.gen m.newView
  cp : ∀ k ∈ N.complaints, cfg.honest k.gen = true → ∃ why, Ev.asked k.gen k.view why ∈ N.log
  asked : ∀ i u why, Ev.asked i u why ∈ N.log → i < cfg.n ∧ cfg.honest i = true ∧ Reached N.log i u ∧ AskOk cfg N u why
  rot : ∀ i u, Ev.rotated i u ∈ N.log → i < cfg.n ∧ cfg.honest i = true ∧ cfg.rotation = true ∧
    (u = 0 ∨ Signed cfg N (2 * cfg.f + 2 * cfg.c + 1) u)
  caused : ∀ i w, i < cfg.n → cfg.honest i = true → Reached N.log i w → ∀ u < w, Caused cfg N.log u
  up : ∀ i a b, Ev.moved i a b ∈ N.log → a < b

structure RInv (cfg : Cfg) (N : Net) (i : Nat) (r : Rep) : Prop where
  pend : r.pend ≤ r.view
  act : r.active = true → r.lastActive = r.view
  inact : r.active = false → r.lastActive < r.view
  nodup : (r.compl.map Complaint.gen).Nodup
  cview : ∀ k ∈ r.compl, k.view = r.view
  csig : ∀ k ∈ r.compl, k ∈ N.complaints
  vsig : ∀ j v, r.vcs j = some v → (⟨j, v⟩ : VC) ∈ N.vcs
  reach : Reached N.log i r.view
  go : r.shouldGo = true → ∃ u, u ≤ r.view ∧ Ev.rotated i u ∈ N.log
  agr : r.agreed = 0 ∨ Signed cfg N (2 * cfg.f + 2 * cfg.c + 1) r.agreed
  lact : r.lastActive = 0 ∨ Signed cfg N (2 * cfg.f + 2 * cfg.c + 1) r.lastActive
  pq : r.pend = 0 ∨ Signed cfg N (2 * cfg.f + 2 * cfg.c + 1) r.pend
  own : r.active = false → (⟨i, r.view⟩ : VC) ∈ N.vcs

/-- what holds between two events, not inside a handler -/
structure LInv (cfg : Cfg) (i : Nat) (r : Rep) : Prop where
  few : quorum cfg r.compl = true → r.shouldTry = true
  lim : (later cfg i r (r.view + 1)).length ≤ cfg.f

theorem RInv.mono {cfg : Cfg} {N N' : Net} (h : N.Le N') {i : Nat} {r : Rep} (hr : RInv cfg N i r) : RInv cfg N' i r where
  pend := hr.pend
  act := hr.act
  inact := hr.inact
  nodup := hr.nodup
  cview := hr.cview
  csig := fun k hk => h.c k (hr.csig k hk)
  vsig := fun j v hv => h.v _ (hr.vsig j v hv)
  reach := hr.reach.mono h.l
  go := fun hg => let ⟨u, a, b⟩ := hr.go hg; ⟨u, a, h.l _ b⟩
  agr := hr.agr.imp id (·.mono h)
  lact := hr.lact.imp id (·.mono h)
  pq := hr.pq.imp id (·.mono h)
  own := fun ha => h.v _ (hr.own ha)

/-! ## complaints -/

theorem has_iff {l : List Complaint} {g : Nat} : has l g = true ↔ g ∈ l.map Complaint.gen := by
  unfold has
  rw [List.any_eq_true, List.mem_map]
  constructor
  · rintro ⟨k, hk, e⟩; exact ⟨k, hk, by simpa using e⟩
  · rintro ⟨k, hk, e⟩; exact ⟨k, hk, by simpa using e⟩

theorem store_mem {l : List Complaint} {k x : Complaint} (h : x ∈ store l k) : x = k ∨ x ∈ l := by
  unfold store at h; split at h
  · exact Or.inr h
  · exact List.mem_cons.1 h

theorem store_nodup {l : List Complaint} {k : Complaint} (h : (l.map Complaint.gen).Nodup) :
    ((store l k).map Complaint.gen).Nodup := by
  unfold store; split
  · exact h
  · next hn =>
    rw [List.map_cons, List.nodup_cons]
    exact ⟨fun hm => hn (has_iff.2 hm), h⟩

/-- a container: complaints of different replicas, all for `view` and signed -/
structure Good (C : List Complaint) (view : Nat) (l : List Complaint) : Prop where
  nodup : (l.map Complaint.gen).Nodup
  cview : ∀ k ∈ l, k.view = view
  csig : ∀ k ∈ l, k ∈ C

theorem Good.nil (C : List Complaint) (v : Nat) : Good C v [] := ⟨List.nodup_nil, fun _ h => (by cases h), fun _ h => (by cases h)⟩

theorem Good.store {C : List Complaint} {v : Nat} {l : List Complaint} {k : Complaint} (h : Good C v l) (hv : k.view = v)
    (hk : k ∈ C) : Good C v (store l k) := by
  refine ⟨store_nodup h.nodup, fun x hx => ?_, fun x hx => ?_⟩
  · rcases store_mem hx with rfl | hx
    · exact hv
    · exact h.cview x hx
  · rcases store_mem hx with rfl | hx
    · exact hk
    · exact h.csig x hx

theorem processOne_good {C : List Complaint} {cur target : Nat} {b : Boxes} {k : Complaint} (hc : Good C cur b.compl)
    (hh : Good C (target - 1) b.higher) (he : target = cur + 1 → b.higher = []) :
    Good C cur (processOne cur target (fun k => decide (k ∈ C)) b k).compl ∧
    Good C (target - 1) (processOne cur target (fun k => decide (k ∈ C)) b k).higher ∧
    (target = cur + 1 → (processOne cur target (fun k => decide (k ∈ C)) b k).higher = []) := by
  unfold processOne
  split
  · next ht =>
    split
    · exact ⟨hc, hh, he⟩
    · split
      · next hk => exact ⟨hc.store hk.1 (by simpa using hk.2), hh, he⟩
      · exact ⟨hc, hh, he⟩
  · next ht =>
    split
    · next hk => exact ⟨hc, hh.store (by omega) (by simpa using hk.2), fun h => absurd h ht⟩
    · exact ⟨hc, hh, he⟩

theorem processAll_good {cfg : Cfg} {C : List Complaint} {cur target : Nat} : ∀ {ks : List Complaint} {m : Nat} {b : Boxes},
    Good C cur b.compl → Good C (target - 1) b.higher → (target = cur + 1 → b.higher = []) →
    (target ≤ cur → b.higher = []) →
    Good C cur (processAll cfg cur target (fun k => decide (k ∈ C)) m ks b).compl ∧
    Good C (target - 1) (processAll cfg cur target (fun k => decide (k ∈ C)) m ks b).higher ∧
    (target ≤ cur + 1 → (processAll cfg cur target (fun k => decide (k ∈ C)) m ks b).higher = [])
  | [], m, b, hc, hh, he, hl => ⟨hc, hh, fun h => by
      by_cases h1 : target = cur + 1
      · exact he h1
      · exact hl (by omega)⟩
  | k :: ks, m, b, hc, hh, he, hl => by
    unfold processAll
    split
    · next hg =>
      obtain ⟨a1, a2, a3⟩ := processOne_good (k := k) hc hh he
      exact processAll_good a1 a2 a3 (fun h => by omega)
    · refine ⟨hc, hh, fun h => ?_⟩
      by_cases h1 : target = cur + 1
      · exact he h1
      · exact hl (by omega)

/-- more than `f` complaints about view `v`: a correct replica asked to leave `v`, from inside `v` -/
theorem Good.suspected {cfg : Cfg} {N : Net} (hf : FewFaulty cfg) (hG : GInv cfg N) {v : Nat} {l : List Complaint}
    (h : Good N.complaints v l) (hq : quorum cfg l = true) :
    Suspected cfg N.log v ∧ ∃ i, i < cfg.n ∧ cfg.honest i = true ∧ Reached N.log i v := by
  unfold quorum at hq
  rw [decide_eq_true_eq] at hq
  obtain ⟨j, hj, hh⟩ := honest_among hf h.nodup (by rw [List.length_map]; omega) (fun j hj => by
    obtain ⟨k, hk, rfl⟩ := List.mem_map.1 hj
    exact hG.cid k (h.csig k hk))
  obtain ⟨k, hk, rfl⟩ := List.mem_map.1 hj
  obtain ⟨why, hw⟩ := hG.cp k (h.csig k hk) hh
  rw [h.cview k hk] at hw
  have := hG.asked _ _ _ hw
  exact ⟨⟨k.gen, why, this.1, this.2.1, hw⟩, k.gen, this.1, this.2.1, this.2.2.1⟩

/-! ## a move -/

theorem le_moved (N : Net) (i next v : Nat) :
    N.Le { N with vcs := ⟨i, next⟩ :: N.vcs, log := .moved i v next :: N.log } :=
  ⟨fun _ h => h, fun _ h => List.mem_cons_of_mem _ h, fun _ h => List.mem_cons_of_mem _ h⟩

/-- the state after a handler part: everything but the limits -/
structure Ok (cfg : Cfg) (i : Nat) (N0 : Net) (s : Net × Rep) : Prop where
  g : GInv cfg s.1
  r : RInv cfg s.1 i s.2
  le : N0.Le s.1

theorem moveTo_ok {cfg : Cfg} {i next : Nat} {N0 : Net} {s : Net × Rep} (hi : i < cfg.n) (hh : cfg.honest i = true)
    (h : Ok cfg i N0 s) (hlt : s.2.view < next)
    (hc : ∀ u, s.2.view ≤ u → u < next → Caused cfg (.moved i s.2.view next :: s.1.log) u) :
    ∃ t, moveTo i next s = some t ∧ Ok cfg i N0 t ∧ t.2.view = next ∧ t.2.compl = [] ∧ t.2.vcs = s.2.vcs ∧
      t.2.pend = s.2.pend ∧ t.2.shouldTry = s.2.shouldTry ∧ t.2.shouldGo = s.2.shouldGo ∧ t.2.active = false ∧
      t.2.executing = s.2.executing := by
  obtain ⟨N, r⟩ := s
  refine ⟨({ N with vcs := ⟨i, next⟩ :: N.vcs, log := .moved i r.view next :: N.log },
    { r with view := next, active := false, compl := [] }), ?_, ?_, rfl, rfl, rfl, rfl, rfl, rfl, rfl, rfl⟩
  · show (if r.view < next then _ else _) = _
    rw [if_pos hlt]
  · have hle := le_moved N i next r.view
    have hG := h.g
    have hR := h.r.mono hle
    have hm : Ev.moved i r.view next ∈ Ev.moved i r.view next :: N.log := List.mem_cons_self
    refine ⟨?_, ?_, h.le.trans hle⟩
    · constructor
      · exact hG.cid
      · intro m hx
        rcases List.mem_cons.1 hx with rfl | hx
        · exact hi
        · exact hG.vid m hx
      · intro m hx hg
        rcases List.mem_cons.1 hx with rfl | hx
        · exact Or.inr ⟨r.view, next, hm, Nat.le_refl _⟩
        · exact (hG.vc m hx hg).mono hle.l
      · intro k hk hg
        obtain ⟨why, hw⟩ := hG.cp k hk hg
        exact ⟨why, hle.l _ hw⟩
      · intro j u why hx
        rcases List.mem_cons.1 hx with h1 | hx
        · cases h1
        · obtain ⟨a, b, c, d⟩ := hG.asked j u why hx
          exact ⟨a, b, c.mono hle.l, d.mono hle⟩
      · intro j u hx
        rcases List.mem_cons.1 hx with h1 | hx
        · cases h1
        · obtain ⟨a, b, c, d⟩ := hG.rot j u hx
          exact ⟨a, b, c, d.imp id (·.mono hle)⟩
      · intro j w hj hjh hr u hu
        rcases hr with h0 | ⟨a, b, hx, hw⟩
        · omega
        · rcases List.mem_cons.1 hx with h1 | hx
          · cases h1
            by_cases hv : u < r.view
            · exact (hG.caused i r.view hi hh h.r.reach u hv).mono hle.l
            · exact hc u (by show r.view ≤ u; omega) (by omega)
          · exact (hG.caused j w hj hjh (Or.inr ⟨a, b, hx, hw⟩) u hu).mono hle.l
      · intro j a b hx
        rcases List.mem_cons.1 hx with h1 | hx
        · cases h1; exact hlt
        · exact hG.up j a b hx
    · have hla : r.lastActive ≤ r.view := by
        cases ha : r.active with
        | true => rw [h.r.act ha]; exact Nat.le_refl _
        | false => exact Nat.le_of_lt (h.r.inact ha)
      have hlt' : r.view < next := hlt
      have hp := h.r.pend
      refine ⟨?_, ?_, ?_, List.nodup_nil, ?_, ?_, hR.vsig, ?_, ?_, hR.agr, hR.lact, hR.pq, ?_⟩
      · show r.pend ≤ next; have : r.pend ≤ r.view := hp; omega
      · intro h1; cases h1
      · intro _; show r.lastActive < next; omega
      · intro k hk; cases hk
      · intro k hk; cases hk
      · exact Or.inr ⟨r.view, next, hm, Nat.le_refl _⟩
      · intro hg
        obtain ⟨u, a, b⟩ := hR.go hg
        exact ⟨u, (by show u ≤ next; have : u ≤ r.view := a; omega), b⟩
      · intro _; exact List.mem_cons_self

end Concord.Leave
