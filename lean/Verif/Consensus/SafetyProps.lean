import Verif.Consensus.SafetyRefine
import Verif.Consensus.SafetySpec
import Verif.Consensus.Quorum
/-!
Property theorems about `ViewChangeSafetyLogic` (C02–C05).
-/
namespace Concord.VC
open Spec

/-! ## C05: the lower bound -/

/-- C05.  The computed bound is reported (or exceeded) by at least `F+1` messages, and at most `F` messages exceed it. -/
theorem calcLB_vouched (g : Cfg) (arr : List (Option VCMsg)) (lb : Nat)
    (h : calcLBStableForView g arr = some lb) :
    g.F + 1 ≤ (msgs arr).countP (fun m => decide (m.lastStable ≥ lb)) ∧
    (msgs arr).countP (fun m => decide (m.lastStable > lb)) ≤ g.F ∧
    (∃ m ∈ msgs arr, m.lastStable = lb) := by
  unfold calcLBStableForView at h
  simp only at h
  split at h
  · simp at h
  · rename_i m rest heq
    split at h
    · have hs := sortDesc_sorted ((msgs arr).map (·.lastStable))
      have hp := sortDesc_perm ((msgs arr).map (·.lastStable))
      unfold msgs at *
      have h1 := sorted_count_ge _ hs _ _ h
      have h2 := sorted_count_gt _ hs _ _ h
      rw [hp.countP_eq, List.countP_map] at h1 h2
      refine ⟨by simpa [Function.comp_def] using h1, by simpa [Function.comp_def] using h2, ?_⟩
      have := hp.mem_iff.1 (List.mem_of_getElem? h)
      simpa using this
    · simp at h

/-- C05 corollary: if at most `F` of the senders are faulty and senders are distinct, an honest replica
reported a last stable sequence number of at least the bound. -/
theorem calcLB_honest (g : Cfg) (arr : List (Option VCMsg)) (lb : Nat) (honest : Nat → Bool)
    (h : calcLBStableForView g arr = some lb)
    (hf : (msgs arr).countP (fun m => !honest m.sender) ≤ g.F) :
    ∃ m ∈ msgs arr, honest m.sender = true ∧ lb ≤ m.lastStable := by
  have h1 := (calcLB_vouched g arr lb h).1
  generalize msgs arr = ms at *
  apply Classical.byContradiction
  intro hcon
  have : ms.countP (fun m => decide (m.lastStable ≥ lb)) ≤ ms.countP (fun m => !honest m.sender) := by
    apply List.countP_mono_left
    intro m hm hd
    have hd' : m.lastStable ≥ lb := by simpa using hd
    cases hh : honest m.sender with
    | false => rfl
    | true => exact absurd ⟨m, hm, hh, hd'⟩ hcon
  omega

/-- C05: the bound does not depend on the order of the messages. -/
theorem calcLB_perm (g : Cfg) (arr arr' : List (Option VCMsg)) (h : (msgs arr).Perm (msgs arr')) :
    calcLBStableForView g arr = calcLBStableForView g arr' := by
  have key : ∀ a, calcLBStableForView g a =
      if (∀ m ∈ msgs a, ∀ m' ∈ msgs a, m.newView = m'.newView) ∧ (msgs a).length = g.vcQuorum then
        (sortDesc ((msgs a).map (·.lastStable)))[g.F]? else none := by
    intro a
    unfold calcLBStableForView msgs
    simp only
    split
    · rename_i h0; rw [h0]; simp [Cfg.vcQuorum]
    · rename_i m rest h0
      rw [h0]
      by_cases hc : rest.all (fun m' => m'.newView == m.newView) && ((m :: rest).length == g.vcQuorum)
      · rw [if_pos hc, if_pos]
        · rfl
        · simp only [Bool.and_eq_true, List.all_eq_true, beq_iff_eq] at hc
          refine ⟨?_, hc.2⟩
          have : ∀ x ∈ m :: rest, x.newView = m.newView := by
            intro x hx
            rcases List.mem_cons.1 hx with rfl | hx
            · rfl
            · exact hc.1 x hx
          intro x hx y hy; rw [this x hx, this y hy]
      · rw [if_neg hc, if_neg]
        rintro ⟨h1, h2⟩
        apply hc
        simp only [Bool.and_eq_true, List.all_eq_true, beq_iff_eq]
        exact ⟨fun x hx => h1 x (List.mem_cons_of_mem _ hx) m (by simp), h2⟩
  rw [key, key, h.length_eq, sortDesc_perm_eq (h.map (·.lastStable))]
  have : (∀ m ∈ msgs arr, ∀ m' ∈ msgs arr, m.newView = m'.newView) ↔
      (∀ m ∈ msgs arr', ∀ m' ∈ msgs arr', m.newView = m'.newView) := by
    simp only [h.mem_iff]
  simp only [this]

/-! ## C04: the scan is look-up per sequence number -/

theorem slow?_some {e : Elem} {x : SlowElem} (h : e.slow? = some x) :
    ∃ c, e.cert = some c ∧ x = ⟨e.seq, e.digest, c.view, c.sig⟩ := by
  unfold Elem.slow? at h
  cases hc : e.cert with
  | none => simp [hc] at h
  | some c => simp [hc] at h; exact ⟨c, rfl, h.symm⟩

/-- The selected certificate: a valid one, and any better valid one is shadowed by an invalid one. -/
theorem slow_selected (g : Cfg) (s : Nat) (es : List Elem) (hes : ∀ e ∈ es, e.seq = s) :
    (∀ x, (collectSlow s es).find? (fun x => x.ok g s) = some x → HasCert g s es x.view x.digest) ∧
    (∀ v d, HasCert g s es v d → Shadowed g s es v d ∨
      ∃ x, (collectSlow s es).find? (fun x => x.ok g s) = some x ∧ (v < x.view ∨ (v = x.view ∧ x.digest ≤ d))) := by
  constructor
  · intro x hx
    have hxok : x.ok g s = true := by simpa using List.find?_some hx
    obtain ⟨e, he, _, hsl⟩ := collectSlow_mem (List.mem_of_find?_eq_some hx)
    obtain ⟨c, hc, rfl⟩ := slow?_some hsl
    exact ⟨e, he, rfl, c.sig, hc, hxok⟩
  · rintro v d ⟨e', he', rfl, sig', hc', hval⟩
    obtain ⟨z, hz, hze⟩ := collectSlow_new (cur := es) he' (hes e' he')
      (x := ⟨e'.seq, e'.digest, v, sig'⟩) (by simp [Elem.slow?, hc'])
    obtain ⟨ez, hez, _, hslz⟩ := collectSlow_mem hz
    obtain ⟨cz, hcz, rfl⟩ := slow?_some hslz
    have hze' : cz.view = v ∧ ez.digest = e'.digest := hze
    cases hzok : (SlowElem.mk ez.seq ez.digest cz.view cz.sig).ok g s with
    | false =>
      left
      refine ⟨ez, hez, hze'.2, cz.sig, by rw [hcz, ← hze'.1], ?_⟩
      rw [← hze'.1, ← hze'.2]; exact hzok
    | true =>
      right
      cases hx : (collectSlow s es).find? (fun x => x.ok g s) with
      | none => exact absurd hzok (List.find?_eq_none.1 hx _ hz)
      | some x =>
        refine ⟨x, rfl, ?_⟩
        obtain ⟨_, as, bs, hsplit, hnot⟩ := List.find?_eq_some_iff_append.1 hx
        have hsorted := collectSlow_sorted s es
        rw [hsplit] at hz hsorted
        rcases List.mem_append.1 hz with hz | hz
        · have := hnot _ hz
          simp [hzok] at this
        · rcases List.mem_cons.1 hz with hz | hz
          · right; rw [← hz]; exact ⟨hze'.1.symm, by simp [hze'.2]⟩
          · have := List.rel_of_pairwise_cons ((List.pairwise_append.1 hsorted).2.1) hz
            rw [before_iff] at this
            simp only at this
            rcases this with h | h
            · left; omega
            · right; exact ⟨by omega, by omega⟩

theorem votes_eq (s : Nat) (es : List Elem) (hes : ∀ e ∈ es, e.seq = s) (m d : Nat) :
    votes s m d es = fastVotes m d es := by
  unfold votes fastVotes
  apply List.countP_congr
  intro e he
  simp [hes e he]

/-- Case analysis of the decision function, with no assumption on signatures. -/
theorem decideSeq_cases (g : Cfg) (s : Nat) (es : List Elem) (hes : ∀ e ∈ es, e.seq = s)
    (hFC : 1 ≤ g.F + g.C) :
    (∃ v d, HasCert g s es v d ∧
      (∀ v' d', HasCert g s es v' d' → Shadowed g s es v' d' ∨ v' < v ∨ (v' = v ∧ d ≤ d')) ∧
      ((∃ d', decideSeq g s es = some d' ∧ g.F + g.C + 1 ≤ fastVotes (v + 1) d' es) ∨
       (decideSeq g s es = some d ∧ ∀ d', fastVotes (v + 1) d' es < g.F + g.C + 1))) ∨
    ((∀ v' d', HasCert g s es v' d' → Shadowed g s es v' d') ∧
      ((∃ d', decideSeq g s es = some d' ∧ g.F + g.C + 1 ≤ fastVotes 0 d' es) ∨
       (decideSeq g s es = none ∧ ∀ d', fastVotes 0 d' es < g.F + g.C + 1))) := by
  have hthr : 2 ≤ g.F + g.C + 1 := by omega
  obtain ⟨h1, h2⟩ := slow_selected g s es hes
  unfold decideSeq
  simp only
  cases hf : (collectSlow s es).find? (fun x => x.ok g s) with
  | none =>
    right
    refine ⟨?_, ?_⟩
    · intro v' d' hc
      rcases h2 v' d' hc with h | ⟨x, hx, _⟩
      · exact h
      · rw [hf] at hx; cases hx
    · simp only
      cases hl : fastLoop (g.F + g.C + 1) 0 s es [] with
      | some d => left; exact ⟨d, rfl, by rw [← votes_eq s es hes]; exact fastLoop_some hthr hl⟩
      | none => right; exact ⟨rfl, fun d => by rw [← votes_eq s es hes]; exact fastLoop_none hthr hl d⟩
  | some x =>
    left
    refine ⟨x.view, x.digest, h1 x hf, ?_, ?_⟩
    · intro v' d' hc
      rcases h2 v' d' hc with h | ⟨y, hy, h⟩
      · exact Or.inl h
      · rw [hf] at hy; cases hy; exact Or.inr h
    · simp only
      cases hl : fastLoop (g.F + g.C + 1) (x.view + 1) s es [] with
      | some d => left; exact ⟨d, rfl, by rw [← votes_eq s es hes]; exact fastLoop_some hthr hl⟩
      | none => right; exact ⟨rfl, fun d => by rw [← votes_eq s es hes]; exact fastLoop_none hthr hl d⟩

/-- Any result of the decision function obeys the rule `Chosen`. -/
theorem decideSeq_chosen (g : Cfg) (s : Nat) (es : List Elem) (hes : ∀ e ∈ es, e.seq = s)
    (hFC : 1 ≤ g.F + g.C) (hns : NoShadow g s es) : Chosen g s es (decideSeq g s es) := by
  rcases decideSeq_cases g s es hes hFC with ⟨v, d, hc, hbest, h⟩ | ⟨hno, h⟩
  · have hb : BestCert g s es v d :=
      ⟨hc, fun v' d' hc' => (hbest v' d' hc').resolve_left (hns v' d' hc')⟩
    rcases h with ⟨d', hd, hv⟩ | ⟨hd, hv⟩
    · rw [hd]; exact Chosen.fast_over_cert v d d' hb hv
    · rw [hd]; exact Chosen.cert v d hb hv
  · have hno' : ∀ v d, ¬ HasCert g s es v d := fun v d hc => hns v d hc (hno v d hc)
    rcases h with ⟨d', hd, hv⟩ | ⟨hd, hv⟩
    · rw [hd]; exact Chosen.fast_no_cert d' hno' hv
    · rw [hd]; exact Chosen.free hno' hv

theorem at'_eq_reported (s : Nat) (ms : List VCMsg) : at' s (ms.map (·.elems)).flatten = reported s ms := by
  unfold at' reported; rw [List.flatMap_def]

/-- C04 (totality and look-up, no assumption on signatures).  For validated messages the whole computation
never hits an assertion; it produces 300 entries, and entry `i` is the (null-filtered) decision on exactly
the elements reported for `lb+1+i`, taken in some order. -/
theorem computeRestrictions_lookup (g : Cfg) (arr : List (Option VCMsg)) (lb : Nat)
    (hv : ∀ m ∈ msgs arr, ValidVC m) :
    ∃ r, computeRestrictions g arr lb = some r ∧ r.arr.length = 300 ∧
      ∀ i, i < 300 → ∃ es, es.Perm (reported (lb + 1 + i) (msgs arr)) ∧
        r.arr[i]? = some (nonNull g (decideSeq g (lb + 1 + i) es)) := by
  have hok : ItersOk (lb + 300) (lb + 1) (mkIters (lb + 1) arr) ((msgs arr).map (·.elems)) :=
    mkIters_ok (fun m hm => (hv m hm).sorted)
  obtain ⟨rs, l, h1, h2, h3, _⟩ := scan_ok g (lb + 300) _ 300 (lb + 1) _ 0 (by omega) hok
  unfold computeRestrictions
  simp only [kWorkWindowSize, h1]
  refine ⟨_, rfl, h2, ?_⟩
  intro i hi
  obtain ⟨es, p, q⟩ := h3 i hi
  rw [at'_eq_reported] at p
  exact ⟨es, p, q⟩

theorem reported_seq {s : Nat} {ms : List VCMsg} : ∀ e ∈ reported s ms, e.seq = s := by
  intro e he; unfold reported at he; simpa using (List.mem_filter.1 he).2

theorem HasCert.perm {g : Cfg} {s : Nat} {es es' : List Elem} (p : es.Perm es') {v d : Nat} :
    HasCert g s es v d ↔ HasCert g s es' v d := by
  unfold HasCert; simp only [p.mem_iff]

theorem Shadowed.perm {g : Cfg} {s : Nat} {es es' : List Elem} (p : es.Perm es') {v d : Nat} :
    Shadowed g s es v d ↔ Shadowed g s es' v d := by
  unfold Shadowed; simp only [p.mem_iff]

theorem fastVotes_perm {es es' : List Elem} (p : es.Perm es') (m d : Nat) :
    fastVotes m d es = fastVotes m d es' := p.countP_eq _

theorem BestCert.perm {g : Cfg} {s : Nat} {es es' : List Elem} (p : es.Perm es') {v d : Nat} :
    BestCert g s es v d ↔ BestCert g s es' v d := by
  unfold BestCert; simp only [HasCert.perm p]

theorem Chosen.perm {g : Cfg} {s : Nat} {es es' : List Elem} (p : es.Perm es') {r : Option Nat}
    (h : Chosen g s es r) : Chosen g s es' r := by
  cases h with
  | fast_over_cert v d d' hb hv =>
    exact .fast_over_cert v d d' ((BestCert.perm p).1 hb) (by rw [← fastVotes_perm p]; exact hv)
  | fast_no_cert d' hn hv =>
    exact .fast_no_cert d' (fun v d h => hn v d ((HasCert.perm p).2 h)) (by rw [← fastVotes_perm p]; exact hv)
  | cert v d hb hv => exact .cert v d ((BestCert.perm p).1 hb) (fun d' => by rw [← fastVotes_perm p]; exact hv d')
  | free hn hv =>
    exact .free (fun v d h => hn v d ((HasCert.perm p).2 h)) (fun d' => by rw [← fastVotes_perm p]; exact hv d')

theorem fastVotes_unique {es : List Elem} {m d d' k : Nat} (hlen : es.length < 2 * k)
    (h : k ≤ fastVotes m d es) (h' : k ≤ fastVotes m d' es) : d = d' := by
  apply Classical.byContradiction
  intro hne
  have : fastVotes m d es + fastVotes m d' es ≤ es.length := by
    clear h h' hlen
    induction es with
    | nil => simp [fastVotes]
    | cons e es ih =>
      unfold fastVotes at *
      rw [List.countP_cons, List.countP_cons, List.length_cons]
      by_cases h1 : e.digest = d
      · have h2 : ¬ e.digest = d' := fun h2 => hne (h1.symm.trans h2)
        simp only [h2, and_false, decide_false, Bool.false_eq_true, if_false]
        split <;> omega
      · simp only [h1, and_false, decide_false, Bool.false_eq_true, if_false]
        split <;> omega
  omega

/-- With at most `2F+2C+1` reports the rule determines the result. -/
theorem Chosen.unique {g : Cfg} {s : Nat} {es : List Elem} (hlen : es.length ≤ 2 * g.F + 2 * g.C + 1)
    {r r' : Option Nat} (h : Chosen g s es r) (h' : Chosen g s es r') : r = r' := by
  have hb : ∀ {v d v' d'}, BestCert g s es v d → BestCert g s es v' d' → v = v' ∧ d = d' := by
    intro v d v' d' h1 h2
    have a := h1.2 v' d' h2.1
    have b := h2.2 v d h1.1
    omega
  have hl : es.length < 2 * (g.F + g.C + 1) := by omega
  cases h with
  | fast_over_cert v d d' hbc hv =>
    cases h' with
    | fast_over_cert v2 d2 d2' hbc2 hv2 =>
      obtain ⟨rfl, rfl⟩ := hb hbc hbc2
      rw [fastVotes_unique hl hv hv2]
    | fast_no_cert d2' hn hv2 => exact absurd hbc.1 (hn v d)
    | cert v2 d2 hbc2 hv2 =>
      obtain ⟨rfl, rfl⟩ := hb hbc hbc2
      have := hv2 d'; omega
    | free hn hv2 => exact absurd hbc.1 (hn v d)
  | fast_no_cert d' hn hv =>
    cases h' with
    | fast_over_cert v2 d2 d2' hbc2 hv2 => exact absurd hbc2.1 (hn _ _)
    | fast_no_cert d2' hn2 hv2 => rw [fastVotes_unique hl hv hv2]
    | cert v2 d2 hbc2 hv2 => exact absurd hbc2.1 (hn _ _)
    | free hn2 hv2 => have := hv2 d'; omega
  | cert v d hbc hv =>
    cases h' with
    | fast_over_cert v2 d2 d2' hbc2 hv2 =>
      obtain ⟨rfl, rfl⟩ := hb hbc hbc2
      have := hv d2'; omega
    | fast_no_cert d2' hn hv2 => exact absurd hbc.1 (hn v d)
    | cert v2 d2 hbc2 hv2 => rw [(hb hbc hbc2).2]
    | free hn hv2 => exact absurd hbc.1 (hn v d)
  | free hn hv =>
    cases h' with
    | fast_over_cert v2 d2 d2' hbc2 hv2 => exact absurd hbc2.1 (hn _ _)
    | fast_no_cert d2' hn2 hv2 => have := hv d2'; omega
    | cert v2 d2 hbc2 hv2 => exact absurd hbc2.1 (hn _ _)
    | free hn2 hv2 => rfl

theorem reported_cons (s : Nat) (m : VCMsg) (ms : List VCMsg) :
    reported s (m :: ms) = at' s m.elems ++ reported s ms := by
  simp [reported, at']

theorem at'_length_le {s : Nat} {l : List Elem} (h : Sorted l) : (at' s l).length ≤ 1 := by
  induction l with
  | nil => simp [at']
  | cons a t ih =>
    by_cases hs : a.seq = s
    · have : at' s t = [] := at'_nil_of_gt (fun e he => by
        have := List.rel_of_pairwise_cons h he; omega)
      unfold at' at this ⊢
      rw [List.filter_cons_of_pos (by simpa using hs), this]; simp
    · unfold at' at ih ⊢
      rw [List.filter_cons_of_neg (by simpa using hs)]; exact ih h.of_cons

/-- each validated message reports at most one element per sequence number -/
theorem reported_length {s : Nat} {ms : List VCMsg} (hv : ∀ m ∈ ms, ValidVC m) :
    (reported s ms).length ≤ ms.length := by
  induction ms with
  | nil => simp [reported]
  | cons m ms ih =>
    rw [reported_cons, List.length_append, List.length_cons]
    have h1 := at'_length_le (s := s) (hv m (by simp)).sorted
    have h2 := ih (fun x hx => hv x (List.mem_cons_of_mem _ hx))
    omega

theorem reported_perm {s : Nat} {ms ms' : List VCMsg} (p : ms.Perm ms') : (reported s ms).Perm (reported s ms') :=
  (List.Perm.flatMap_right _ p).filter _

/-- C04.  When no invalid certificate shadows a valid one, every entry obeys the rule on exactly what was reported. -/
theorem computeRestrictions_rule_partial (g : Cfg) (arr : List (Option VCMsg)) (lb : Nat)
    (hv : ∀ m ∈ msgs arr, ValidVC m) (hFC : 1 ≤ g.F + g.C)
    (hns : ∀ s, NoShadow g s (reported s (msgs arr))) :
    ∃ r, computeRestrictions g arr lb = some r ∧ r.arr.length = 300 ∧
      ∀ s, lb < s → s ≤ lb + 300 → ∃ c, Chosen g s (reported s (msgs arr)) c ∧
        r.arr[s - (lb + 1)]? = some (nonNull g c) := by
  obtain ⟨r, hr, hlen, h⟩ := computeRestrictions_lookup g arr lb hv
  refine ⟨r, hr, hlen, ?_⟩
  intro s h1 h2
  obtain ⟨es, p, q⟩ := h (s - (lb + 1)) (by omega)
  rw [show lb + 1 + (s - (lb + 1)) = s by omega] at p q
  refine ⟨decideSeq g s es, ?_, q⟩
  refine Chosen.perm p (decideSeq_chosen g s es ?_ hFC ?_)
  · intro e he; exact reported_seq e (p.mem_iff.1 he)
  · intro v d hc hsh
    exact hns s v d ((HasCert.perm p).1 hc) ((Shadowed.perm p).1 hsh)

end Concord.VC
