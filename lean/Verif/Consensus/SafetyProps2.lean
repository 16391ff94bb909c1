import Verif.Consensus.SafetyProps
/-!
Property theorems C02 (a committed batch survives a view change) and C03 (order independence).
-/
namespace Concord.VC
open Spec

/-! ## C03 -/

theorem mkIters_perm {lb : Nat} {arr arr' : List (Option VCMsg)} (p : (msgs arr).Perm (msgs arr')) :
    (mkIters lb arr).Perm (mkIters lb arr') := (p.map _).filter _

/-- C03 (partial: assumes that no invalid certificate repeats the view and digest of a valid one; see
`order_matters_with_shadow` for the failure without it).  Messages given in another order yield the same
range and the same restrictions. -/
theorem computeRestrictions_perm_partial (g : Cfg) (arr arr' : List (Option VCMsg)) (lb : Nat)
    (p : (msgs arr).Perm (msgs arr'))
    (hv : ∀ m ∈ msgs arr, ValidVC m) (hq : (msgs arr).length ≤ g.vcQuorum) (hFC : 1 ≤ g.F + g.C)
    (hns : ∀ s, NoShadow g s (reported s (msgs arr))) :
    computeRestrictions g arr lb = computeRestrictions g arr' lb := by
  have hv' : ∀ m ∈ msgs arr', ValidVC m := fun m hm => hv m (p.mem_iff.2 hm)
  have hns' : ∀ s, NoShadow g s (reported s (msgs arr')) := by
    intro s v d hc hsh
    exact hns s v d ((HasCert.perm (reported_perm p)).2 hc) ((Shadowed.perm (reported_perm p)).2 hsh)
  obtain ⟨rs, l, h1, h2, h3, h4⟩ := scan_ok g (lb + 300) _ 300 (lb + 1) _ 0 (by omega)
    (mkIters_ok (lb := lb + 1) (ub := lb + 300) (fun m hm => (hv m hm).sorted))
  obtain ⟨rs', l', h1', h2', h3', h4'⟩ := scan_ok g (lb + 300) _ 300 (lb + 1) _ 0 (by omega)
    (mkIters_ok (lb := lb + 1) (ub := lb + 300) (fun m hm => (hv' m hm).sorted))
  have hrs : rs = rs' := by
    apply List.ext_getElem?
    intro i
    by_cases hi : i < 300
    · obtain ⟨es, pe, he⟩ := h3 i hi
      obtain ⟨es', pe', he'⟩ := h3' i hi
      rw [show (List.map (fun x => x.elems) (List.filterMap id arr)) = (msgs arr).map (·.elems) from rfl,
        at'_eq_reported] at pe
      rw [show (List.map (fun x => x.elems) (List.filterMap id arr')) = (msgs arr').map (·.elems) from rfl,
        at'_eq_reported] at pe'
      have pp : es.Perm es' := pe.trans ((reported_perm p).trans pe'.symm)
      rw [he, he']
      have hns1 : NoShadow g (lb + 1 + i) es := fun v d hc hsh =>
        hns _ v d ((HasCert.perm pe).1 hc) ((Shadowed.perm pe).1 hsh)
      have hns2 : NoShadow g (lb + 1 + i) es' := fun v d hc hsh =>
        hns' _ v d ((HasCert.perm pe').1 hc) ((Shadowed.perm pe').1 hsh)
      have c1 := decideSeq_chosen g (lb + 1 + i) es (fun e h => reported_seq e (pe.mem_iff.1 h)) hFC hns1
      have c2 := decideSeq_chosen g (lb + 1 + i) es' (fun e h => reported_seq e (pe'.mem_iff.1 h)) hFC hns2
      have hl : es'.length ≤ 2 * g.F + 2 * g.C + 1 := by
        have := reported_length (s := lb + 1 + i) hv'
        rw [← pe'.length_eq, ← p.length_eq] at this
        unfold Cfg.vcQuorum at hq; omega
      rw [Chosen.unique hl (Chosen.perm pp c1) c2]
    · rw [List.getElem?_eq_none (by omega), List.getElem?_eq_none (by omega)]
  subst hrs
  have hl : l = l' := by
    rcases h4 with ⟨a, b⟩ | ⟨i, d, a, b, c⟩ <;> rcases h4' with ⟨a', b'⟩ | ⟨i', d', a', b', c'⟩
    · rw [a, a']
    · exact absurd b' (b _ _)
    · exact absurd b (b' _ _)
    · have := c i' d' b'; have := c' i d b; omega
  subst hl
  have hemp : (mkIters (lb + 1) arr).isEmpty = (mkIters (lb + 1) arr').isEmpty := by
    rw [Bool.eq_iff_iff, List.isEmpty_iff_length_eq_zero, List.isEmpty_iff_length_eq_zero,
      (mkIters_perm p).length_eq]
  unfold computeRestrictions
  simp only [kWorkWindowSize, h1, h1', hemp]

/-! ## C02 -/

/-- what the code requires of the set of view-change messages that starts a view
(ViewsManager.cpp:754-865: exactly `2F+2C+1` validated messages of distinct replicas for the same view). -/
structure VCQuorum (g : Cfg) (ms : List VCMsg) : Prop where
  valid : ∀ m ∈ ms, ValidVC m
  nodup : (ms.map (·.sender)).Nodup
  ids : ∀ m ∈ ms, m.sender < g.N
  size : ms.length = g.vcQuorum

/-- at most `F` of the `N` replicas are not honest -/
def FewFaulty (g : Cfg) (honest : Nat → Bool) : Prop :=
  ((List.range g.N).filter (fun x => !honest x)).length ≤ g.F

theorem mem_reported {s : Nat} {ms : List VCMsg} {e : Elem} :
    e ∈ reported s ms ↔ ∃ m ∈ ms, e ∈ m.elems ∧ e.seq = s := by
  unfold reported
  simp only [List.mem_filter, List.mem_flatMap, decide_eq_true_eq]
  constructor
  · rintro ⟨⟨m, hm, he⟩, h⟩; exact ⟨m, hm, he, h⟩
  · rintro ⟨m, hm, he, h⟩; exact ⟨⟨m, hm, he⟩, h⟩

/-- number of messages having an element satisfying `p` at `s` = number of such elements -/
theorem countP_reported {s : Nat} {p : Elem → Bool} : ∀ {ms : List VCMsg}, (∀ m ∈ ms, ValidVC m) →
    (reported s ms).countP p = ms.countP (fun m => m.elems.any (fun e => decide (e.seq = s) && p e))
  | [], _ => by simp [reported]
  | m :: ms, hv => by
    rw [reported_cons, List.countP_append, List.countP_cons,
      countP_reported (fun x hx => hv x (List.mem_cons_of_mem _ hx))]
    have : (at' s m.elems).countP p =
        if (m.elems.any (fun e => decide (e.seq = s) && p e)) = true then 1 else 0 := by
      have hlen := at'_length_le (s := s) (hv m (by simp)).sorted
      have hany : m.elems.any (fun e => decide (e.seq = s) && p e) = (at' s m.elems).any p := by
        unfold at'; rw [List.any_filter]
      rw [hany]
      match hA : at' s m.elems, hlen with
      | [], _ => simp
      | [a], _ => simp [List.countP_cons]
      | _ :: _ :: _, h => simp at h
    omega

/-- quorum size computation over message senders -/
theorem quorum_honest_count {g : Cfg} {ms : List VCMsg} {honest : Nat → Bool} (hq : VCQuorum g ms)
    (hf : FewFaulty g honest) {signers : List Nat} (hn : signers.Nodup) (hs : ∀ x ∈ signers, x < g.N) :
    signers.length ≤ 2 * g.F + ms.countP (fun m => honest m.sender && decide (m.sender ∈ signers)) := by
  -- honest senders among the quorum
  have hids : ∀ x ∈ ms.map (·.sender), x < g.N := by
    intro x hx; obtain ⟨m, hm, rfl⟩ := List.mem_map.1 hx; exact hq.ids m hm
  have h1 := Quorum.filter_length (p := honest) hn hs hf
  have h2 := Quorum.filter_length (p := honest) hq.nodup hids hf
  -- both are sets of honest ids; the number of honest ids is at most N
  have hA : (signers.filter honest).Nodup := hn.filter _
  have hB : ((ms.map (·.sender))).Nodup := hq.nodup
  have h3 := Quorum.inter_length (n := g.N) hA hB
    (fun x hx => hs x (List.mem_filter.1 hx).1) hids
  rw [List.length_map, hq.size] at h3
  have h4 : ((signers.filter honest).filter (fun x => decide (x ∈ ms.map (·.sender)))).length ≤
      ms.countP (fun m => honest m.sender && decide (m.sender ∈ signers)) := by
    rw [List.countP_eq_length_filter]
    have := Quorum.nodup_subset_length
      (l := (signers.filter honest).filter (fun x => decide (x ∈ ms.map (·.sender))))
      (l' := (ms.filter (fun m => honest m.sender && decide (m.sender ∈ signers))).map (·.sender))
      (hA.filter _) (by
        intro x hx
        rw [List.mem_filter, List.mem_filter] at hx
        obtain ⟨⟨hx1, hx2⟩, hx3⟩ := hx
        obtain ⟨m, hm, rfl⟩ := List.mem_map.1 (by simpa using hx3)
        exact List.mem_map.2 ⟨m, List.mem_filter.2 ⟨hm, by simp [hx2, hx1]⟩, rfl⟩)
    rwa [List.length_map] at this
  unfold Cfg.vcQuorum Cfg.N at *
  omega

/-- An honest message is among any `F+1` messages satisfying a property. -/
theorem honest_among {g : Cfg} {ms : List VCMsg} {honest : Nat → Bool} (hq : VCQuorum g ms)
    (hf : FewFaulty g honest) {q : VCMsg → Bool} (h : g.F + 1 ≤ ms.countP q) :
    ∃ m ∈ ms, honest m.sender = true ∧ q m = true := by
  apply Classical.byContradiction
  intro hcon
  have h1 : ms.countP q ≤ ms.countP (fun m => !honest m.sender) := by
    apply List.countP_mono_left
    intro m hm hqm
    cases hh : honest m.sender with
    | false => rfl
    | true => exact absurd ⟨m, hm, hh, hqm⟩ hcon
  have h2 : ms.countP (fun m => !honest m.sender) ≤ g.F := by
    refine Nat.le_trans ?_ hf
    rw [List.countP_eq_length_filter]
    have := Quorum.nodup_subset_length
      (l := (ms.filter (fun m => !honest m.sender)).map (·.sender))
      (l' := (List.range g.N).filter (fun x => !honest x))
      (hq.nodup.sublist (List.filter_sublist.map _)) (by
        intro x hx
        obtain ⟨m, hm, rfl⟩ := List.mem_map.1 hx
        rw [List.mem_filter] at hm
        exact List.mem_filter.2 ⟨List.mem_range.2 (hq.ids m hm.1), hm.2⟩)
    rwa [List.length_map] at this
  omega

/-- What the earlier views guarantee about reports on `s` when digest `d` was committed in view `v`
(proved of the protocol in `Agreement`): valid certificates from view `v` on are for `d`, and so are the
reports of honest replicas from view `v` (fast) or later. -/
structure Locked (g : Cfg) (honest : Nat → Bool) (ms : List VCMsg) (s v d : Nat) : Prop where
  certs : ∀ v' d', v ≤ v' → HasCert g s (reported s ms) v' d' → d' = d
  reports : ∀ m ∈ ms, honest m.sender = true → ∀ e ∈ m.elems, e.seq = s → v < e.originView → e.digest = d

/-- a fast-path majority above view `v` can only be for the locked digest -/
theorem locked_fast {g : Cfg} {honest : Nat → Bool} {ms : List VCMsg} {s v d m d' : Nat}
    (hq : VCQuorum g ms) (hf : FewFaulty g honest) (hl : Locked g honest ms s v d) (hm : v < m)
    (h : g.F + g.C + 1 ≤ fastVotes m d' (reported s ms)) : d' = d := by
  unfold fastVotes at h
  rw [countP_reported hq.valid] at h
  obtain ⟨x, hx, hh, hany⟩ := honest_among hq hf (q := fun m' => m'.elems.any (fun e => decide (e.seq = s) &&
    decide (e.originView ≥ m ∧ e.digest = d'))) (by omega)
  obtain ⟨e, he, hp⟩ := List.any_eq_true.1 hany
  simp only [Bool.and_eq_true, decide_eq_true_eq] at hp
  rw [← hp.2.2]
  exact hl.reports x hx hh e he hp.1 (by omega)

theorem decide_locked_partial {g : Cfg} {honest : Nat → Bool} {ms : List VCMsg} {s v d : Nat} {es : List Elem}
    (p : es.Perm (reported s ms))
    (hq : VCQuorum g ms) (hf : FewFaulty g honest) (hFC : 1 ≤ g.F + g.C) (hl : Locked g honest ms s v d)
    (hex : ∃ v1, v ≤ v1 ∧ HasCert g s (reported s ms) v1 d ∧ ¬ Shadowed g s (reported s ms) v1 d) :
    decideSeq g s es = some d := by
  obtain ⟨v1, hv1, hc1, hns⟩ := hex
  rcases decideSeq_cases g s es (fun e h => reported_seq e (p.mem_iff.1 h)) hFC with
    ⟨v2, d2, hc, hbest, h⟩ | ⟨hno, _⟩
  · have hv2 : v ≤ v2 := by
      rcases hbest v1 d ((HasCert.perm p).2 hc1) with hsh | h | h
      · exact absurd ((Shadowed.perm p).1 hsh) hns
      · omega
      · omega
    rcases h with ⟨d', hd, hvotes⟩ | ⟨hd, _⟩
    · rw [hd, locked_fast (d' := d') hq hf hl (m := v2 + 1) (by omega) (by rw [← fastVotes_perm p]; exact hvotes)]
    · rw [hd, hl.certs v2 d2 hv2 ((HasCert.perm p).1 hc)]
  · exact absurd ((Shadowed.perm p).1 (hno v1 d ((HasCert.perm p).2 hc1))) hns

/-- C02, slow path (partial: assumes `NoShadow`; `slow_commit_lost_with_shadow` shows that the code loses the
batch without it as soon as `F ≥ 2`).  If `2F+C+1` replicas signed the commit of `d` at `(v,s)` — so the
honest ones among them report a valid certificate for `d` of view `≥ v` — then every set of view-change
messages that can start a later view yields the restriction `d` at `s`. -/
theorem slow_commit_survives_partial (g : Cfg) (arr : List (Option VCMsg)) (lb s v d : Nat)
    (honest : Nat → Bool) (signers : List Nat)
    (hq : VCQuorum g (msgs arr)) (hf : FewFaulty g honest) (hFC : 1 ≤ g.F + g.C)
    (hsn : signers.Nodup) (hsi : ∀ x ∈ signers, x < g.N) (hsl : 2 * g.F + g.C + 1 ≤ signers.length)
    (hrep : ∀ m ∈ msgs arr, honest m.sender = true → m.sender ∈ signers →
      ∃ e ∈ m.elems, e.seq = s ∧ e.digest = d ∧ ∃ c, e.cert = some c ∧ v ≤ c.view ∧ g.valid c.view s d c.sig = true)
    (hl : Locked g honest (msgs arr) s v d)
    (hns : NoShadow g s (reported s (msgs arr)))
    (hlo : lb < s) (hhi : s ≤ lb + 300) :
    ∃ r, computeRestrictions g arr lb = some r ∧ r.arr[s - (lb + 1)]? = some (nonNull g (some d)) := by
  obtain ⟨r, hr, _, h⟩ := computeRestrictions_lookup g arr lb hq.valid
  refine ⟨r, hr, ?_⟩
  obtain ⟨es, p, he⟩ := h (s - (lb + 1)) (by omega)
  rw [show lb + 1 + (s - (lb + 1)) = s by omega] at p he
  rw [he, decide_locked_partial p hq hf hFC hl]
  have hcnt := quorum_honest_count hq hf hsn hsi
  have hpos : 0 < (msgs arr).countP (fun m => honest m.sender && decide (m.sender ∈ signers)) := by omega
  obtain ⟨m, hm, hcond⟩ := List.countP_pos_iff.1 hpos
  simp only [Bool.and_eq_true, decide_eq_true_eq] at hcond
  obtain ⟨e, hem, hes, hed, c, hc, hcv, hval⟩ := hrep m hm hcond.1 hcond.2
  have hcert : HasCert g s (reported s (msgs arr)) c.view d :=
    ⟨e, mem_reported.2 ⟨m, hm, hem, hes⟩, hed, c.sig, hc, hval⟩
  exact ⟨c.view, hcv, hcert, hns _ _ hcert⟩

/-- C02, fast path, unconditional in the signatures.  If `3F+C+1` (or all) replicas signed the fast commit of
`d` at `(v,s)` — so the honest ones report `d` from a view `≥ v` — the restriction at `s` is `d`. -/
theorem fast_commit_survives (g : Cfg) (arr : List (Option VCMsg)) (lb s v d : Nat)
    (honest : Nat → Bool) (signers : List Nat)
    (hq : VCQuorum g (msgs arr)) (hf : FewFaulty g honest) (hFC : 1 ≤ g.F + g.C)
    (hsn : signers.Nodup) (hsi : ∀ x ∈ signers, x < g.N) (hsl : 3 * g.F + g.C + 1 ≤ signers.length)
    (hrep : ∀ m ∈ msgs arr, honest m.sender = true → m.sender ∈ signers →
      ∃ e ∈ m.elems, e.seq = s ∧ e.digest = d ∧ v ≤ e.originView)
    (hl : Locked g honest (msgs arr) s v d)
    (hlo : lb < s) (hhi : s ≤ lb + 300) :
    ∃ r, computeRestrictions g arr lb = some r ∧ r.arr[s - (lb + 1)]? = some (nonNull g (some d)) := by
  obtain ⟨r, hr, _, h⟩ := computeRestrictions_lookup g arr lb hq.valid
  refine ⟨r, hr, ?_⟩
  obtain ⟨es, p, he⟩ := h (s - (lb + 1)) (by omega)
  rw [show lb + 1 + (s - (lb + 1)) = s by omega] at p he
  rw [he]
  have hcnt := quorum_honest_count hq hf hsn hsi
  have hlen : es.length < 2 * (g.F + g.C + 1) := by
    have := reported_length (s := s) hq.valid
    rw [← p.length_eq, hq.size] at this
    unfold Cfg.vcQuorum at this; omega
  have hvotes : ∀ m, m ≤ v → g.F + g.C + 1 ≤ fastVotes m d es := by
    intro m hm
    rw [fastVotes_perm p]
    unfold fastVotes
    rw [countP_reported hq.valid]
    refine Nat.le_trans (by omega : g.F + g.C + 1 ≤ _) (List.countP_mono_left ?_ (l := msgs arr)
      (p := fun m => honest m.sender && decide (m.sender ∈ signers)))
    intro x hx hcond
    simp only [Bool.and_eq_true, decide_eq_true_eq] at hcond
    obtain ⟨e, hem, hes, hed, hov⟩ := hrep x hx hcond.1 hcond.2
    refine List.any_eq_true.2 ⟨e, hem, ?_⟩
    simp only [Bool.and_eq_true, decide_eq_true_eq]
    exact ⟨hes, by omega, hed⟩
  congr 2
  rcases decideSeq_cases g s es (fun e h => reported_seq e (p.mem_iff.1 h)) hFC with
    ⟨v2, d2, hc, _, h⟩ | ⟨_, h⟩
  · rcases h with ⟨d', hd, hv⟩ | ⟨hd, hv⟩
    · rw [hd]
      by_cases hlt : v2 + 1 ≤ v
      · rw [fastVotes_unique hlen hv (hvotes _ hlt)]
      · rw [locked_fast (d' := d') hq hf hl (m := v2 + 1) (by omega) (by rw [← fastVotes_perm p]; exact hv)]
    · rw [hd]
      by_cases hlt : v2 + 1 ≤ v
      · have := hv d; have := hvotes _ hlt; omega
      · rw [hl.certs v2 d2 (by omega) ((HasCert.perm p).1 hc)]
  · rcases h with ⟨d', hd, hv⟩ | ⟨hd, hv⟩
    · rw [hd, fastVotes_unique hlen hv (hvotes 0 (by omega))]
    · have := hv d; have := hvotes 0 (by omega); omega

/-- C02, slow path with `F ≤ 1`: no assumption on what faulty replicas put in their certificates. -/
theorem slow_commit_survives_f1 (g : Cfg) (arr : List (Option VCMsg)) (lb s v d : Nat)
    (honest : Nat → Bool) (signers : List Nat) (hF : g.F ≤ 1)
    (hq : VCQuorum g (msgs arr)) (hf : FewFaulty g honest) (hFC : 1 ≤ g.F + g.C)
    (hsn : signers.Nodup) (hsi : ∀ x ∈ signers, x < g.N) (hsl : 2 * g.F + g.C + 1 ≤ signers.length)
    (hrep : ∀ m ∈ msgs arr, honest m.sender = true → m.sender ∈ signers →
      ∃ e ∈ m.elems, e.seq = s ∧ e.digest = d ∧ ∃ c, e.cert = some c ∧ v ≤ c.view ∧ g.valid c.view s d c.sig = true)
    (hhon : ∀ m ∈ msgs arr, honest m.sender = true → ∀ e ∈ m.elems, ∀ c, e.cert = some c →
      g.valid c.view e.seq e.digest c.sig = true)
    (hl : Locked g honest (msgs arr) s v d)
    (hlo : lb < s) (hhi : s ≤ lb + 300) :
    ∃ r, computeRestrictions g arr lb = some r ∧ r.arr[s - (lb + 1)]? = some (nonNull g (some d)) := by
  obtain ⟨r, hr, _, h⟩ := computeRestrictions_lookup g arr lb hq.valid
  refine ⟨r, hr, ?_⟩
  obtain ⟨es, p, he⟩ := h (s - (lb + 1)) (by omega)
  rw [show lb + 1 + (s - (lb + 1)) = s by omega] at p he
  rw [he]
  congr 2
  have hcnt := quorum_honest_count hq hf hsn hsi
  have hpos : 0 < (msgs arr).countP (fun m => honest m.sender && decide (m.sender ∈ signers)) := by omega
  obtain ⟨m1, hm1, hcond1⟩ := List.countP_pos_iff.1 hpos
  simp only [Bool.and_eq_true, decide_eq_true_eq] at hcond1
  obtain ⟨e1, hem1, hes1, hed1, c1, hc1, hcv1, hval1⟩ := hrep m1 hm1 hcond1.1 hcond1.2
  have hcert : HasCert g s (reported s (msgs arr)) c1.view d :=
    ⟨e1, mem_reported.2 ⟨m1, hm1, hem1, hes1⟩, hed1, c1.sig, hc1, hval1⟩
  by_cases hsh : Shadowed g s (reported s (msgs arr)) c1.view d
  · -- a faulty replica also reports `d`, so `d` has a fast majority
    obtain ⟨e0, he0, hed0, sig0, hc0, hval0⟩ := hsh
    obtain ⟨m0, hm0, hem0, hes0⟩ := mem_reported.1 he0
    have hm0f : honest m0.sender = false := by
      cases hh : honest m0.sender with
      | false => rfl
      | true =>
        have := hhon m0 hm0 hh e0 hem0 _ hc0
        simp only [hes0, hed0, hval0] at this
        cases this
    have hlen : es.length < 2 * (g.F + g.C + 1) := by
      have := reported_length (s := s) hq.valid
      rw [← p.length_eq, hq.size] at this
      unfold Cfg.vcQuorum at this; omega
    have hvotes : ∀ m, m ≤ v → g.F + g.C + 1 ≤ fastVotes m d es := by
      intro m hm
      rw [fastVotes_perm p]
      unfold fastVotes
      rw [countP_reported hq.valid]
      -- honest signers plus the shadowing message
      have hmono : (msgs arr).countP (fun x => (honest x.sender && decide (x.sender ∈ signers)) || x == m0) ≤
          (msgs arr).countP (fun x => x.elems.any (fun e => decide (e.seq = s) &&
            decide (e.originView ≥ m ∧ e.digest = d))) := by
        apply List.countP_mono_left
        intro x hx hcond
        rcases Bool.or_eq_true _ _ ▸ hcond with hcond | hcond
        · simp only [Bool.and_eq_true, decide_eq_true_eq] at hcond
          obtain ⟨e, hem, hes, hed, c, hc, hcv, _⟩ := hrep x hx hcond.1 hcond.2
          have := (hq.valid x hx).cert e hem c hc
          refine List.any_eq_true.2 ⟨e, hem, ?_⟩
          simp only [Bool.and_eq_true, decide_eq_true_eq]
          exact ⟨hes, by omega, hed⟩
        · have hxm : x = m0 := by simpa using hcond
          subst hxm
          have := (hq.valid x hx).cert e0 hem0 _ hc0
          simp only at this
          refine List.any_eq_true.2 ⟨e0, hem0, ?_⟩
          simp only [Bool.and_eq_true, decide_eq_true_eq]
          exact ⟨hes0, by omega, hed0⟩
      have hadd : ∀ (l : List VCMsg), m0 ∈ l →
          l.countP (fun x => honest x.sender && decide (x.sender ∈ signers)) + 1 ≤
          l.countP (fun x => (honest x.sender && decide (x.sender ∈ signers)) || x == m0) := by
        intro l
        induction l with
        | nil => simp
        | cons a t ih =>
          intro hmem
          rw [List.countP_cons, List.countP_cons]
          have hmono' : t.countP (fun x => honest x.sender && decide (x.sender ∈ signers)) ≤
              t.countP (fun x => (honest x.sender && decide (x.sender ∈ signers)) || x == m0) := by
            apply List.countP_mono_left
            intro x _ hx; simp only [hx, Bool.true_or]
          rcases List.mem_cons.1 hmem with rfl | hmem
          · simp only [hm0f, Bool.false_and, Bool.false_eq_true, if_false, beq_self_eq_true, Bool.or_true, if_true]
            omega
          · have := ih hmem
            cases hb : (honest a.sender && decide (a.sender ∈ signers)) with
            | true => simp only [Bool.true_or, if_true]; omega
            | false => simp only [Bool.false_eq_true, if_false]; omega
      have := hadd _ hm0
      omega
    rcases decideSeq_cases g s es (fun e h => reported_seq e (p.mem_iff.1 h)) hFC with
      ⟨v2, d2, hc, _, h⟩ | ⟨_, h⟩
    · rcases h with ⟨d', hd, hv⟩ | ⟨hd, hv⟩
      · rw [hd]
        by_cases hlt : v2 + 1 ≤ v
        · rw [fastVotes_unique hlen hv (hvotes _ hlt)]
        · rw [locked_fast (d' := d') hq hf hl (m := v2 + 1) (by omega) (by rw [← fastVotes_perm p]; exact hv)]
      · rw [hd]
        by_cases hlt : v2 + 1 ≤ v
        · have := hv d; have := hvotes _ hlt; omega
        · rw [hl.certs v2 d2 (by omega) ((HasCert.perm p).1 hc)]
    · rcases h with ⟨d', hd, hv⟩ | ⟨hd, hv⟩
      · rw [hd, fastVotes_unique hlen hv (hvotes 0 (by omega))]
      · have := hv d; have := hvotes 0 (by omega); omega
  · exact decide_locked_partial p hq hf hFC hl ⟨c1.view, hcv1, hcert, hsh⟩

end Concord.VC
