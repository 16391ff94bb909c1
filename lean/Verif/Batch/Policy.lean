import Verif.Batch.Theorems
/-! # Property C47, continued: the limits of the policies, and progress -/
set_option linter.unusedSimpArgs false
set_option linter.unusedVariables false
namespace Concord.Batch
open Verif

/-- a batch respects a limit: at most `k` requests; or less than `k` bytes without its last request -/
def Within : Limit → List Req → Prop
  | .all, _ => True
  | .num k, l => l.length ≤ k
  | .bytes k, l => l = [] ∨ total l.dropLast < k

theorem within_loop (cfg : Cfg) (cap : Nat) (lim : Limit) : ∀ (q : List Req) (a : Acc), a.used = total a.reqs → Within lim a.reqs →
    Within lim (addLoop cfg cap lim.full q a).1.reqs := by
  intro q
  induction q with
  | nil => intro a _ h; exact h
  | cons r q ih =>
    intro a hu h
    unfold addLoop
    split
    · exact h
    · rename_i hf
      apply ih
      · unfold addOne; split
        · show a.used + r.size = total (a.reqs ++ [r]); rw [total_append, total_cons, total_nil]; omega
        · exact hu
      · unfold addOne; split
        · cases lim with
          | all => trivial
          | num k =>
            simp only [Limit.full, decide_eq_true_eq] at hf
            show (a.reqs ++ [r]).length ≤ k
            rw [List.length_append]; simp; omega
          | bytes k =>
            simp only [Limit.full, decide_eq_true_eq] at hf
            right
            show total (a.reqs ++ [r]).dropLast < k
            rw [List.dropLast_concat]; omega
        · exact h

theorem build_within (cfg : Cfg) (lim : Limit) (s : St) :
    (build cfg lim s).1.made = s.made ∨ ∃ pp, (build cfg lim s).1.made = s.made ++ [pp] ∧ Within lim pp.reqs := by
  unfold build
  split
  · exact Or.inl rfl
  · rename_i r q hq
    simp only
    have hw : Within lim (addLoop cfg (capacity cfg s.combined (overheadOf (s.lastUsed + 1) r.span)) lim.full (r :: q)
      ⟨s.cm, [], 0, s.combined⟩).1.reqs := by
      apply within_loop
      · rfl
      · cases lim with
        | all => trivial
        | num k => exact Nat.zero_le _
        | bytes k => exact Or.inl rfl
    split
    · exact Or.inl rfl
    · split
      · split
        · exact Or.inr ⟨_, rfl, hw⟩
        · exact Or.inl rfl
      · exact Or.inr ⟨_, rfl, hw⟩

theorem sendBuilt_made {cfg : Cfg} {r : St × Option PP} {t : St} (h : sendBuilt cfg r = some t) : t.made = r.1.made := by
  obtain ⟨s, o⟩ := r
  cases o with
  | none => cases h; rfl
  | some pp => exact (start_made h).1

/-- the limit a policy sets -/
def limitOf (cfg : Cfg) (s : St) : Limit :=
  match cfg.policy with
  | .selfAdjusted => .all
  | .byNum => .num s.maxNum
  | .adaptive => .num s.maxNum
  | .bySize => .bytes cfg.maxBytes

/-- is the queue long enough for the policy -/
def Enough (cfg : Cfg) (s : St) : Prop :=
  match cfg.policy with
  | .selfAdjusted => minBatch cfg s ≤ s.queue.length
  | .byNum => s.maxNum ≤ s.queue.length
  | .adaptive => s.maxNum ≤ s.queue.length
  | .bySize => cfg.maxBytes ≤ s.combined

theorem batchRequests_within {cfg : Cfg} {s : St} {r : St × Option PP} (h : batchRequests cfg s = some r) :
    r.1.made = s.made ∨ ∃ pp, r.1.made = s.made ++ [pp] ∧ Within (limitOf cfg s) pp.reqs ∧ Enough cfg s := by
  have hcb : ∀ lim, checkedBuild cfg lim s = some r → r.1.made = s.made ∨ ∃ pp, r.1.made = s.made ++ [pp] ∧ Within lim pp.reqs := by
    intro lim h
    unfold checkedBuild at h
    split at h
    · cases h
    · cases h; exact Or.inl rfl
    · cases h
      rcases build_within cfg lim (removeDuplicated cfg s) with w | ⟨pp, w1, w2⟩
      · exact Or.inl w
      · exact Or.inr ⟨pp, w1, w2⟩
  unfold batchRequests at h
  unfold limitOf Enough
  split at h
  · cases h; exact Or.inl rfl
  · cases hp : cfg.policy with
    | selfAdjusted =>
      rw [hp] at h
      simp only at h
      split at h
      · cases h; exact Or.inl (adjust_same cfg s).2.2.2.2.1
      · rename_i hl
        cases h
        rcases build_within cfg .all (adjust cfg s) with w | ⟨pp, w1, w2⟩
        · exact Or.inl (w.trans (adjust_same cfg s).2.2.2.2.1)
        · exact Or.inr ⟨pp, by rw [w1, (adjust_same cfg s).2.2.2.2.1], trivial, by omega⟩
    | bySize =>
      rw [hp] at h
      simp only at h
      split at h
      · cases h; exact Or.inl rfl
      · rename_i hl
        rcases hcb _ h with w | ⟨pp, w1, w2⟩
        · exact Or.inl w
        · exact Or.inr ⟨pp, w1, w2, by show cfg.maxBytes ≤ s.combined; omega⟩
    | byNum =>
      rw [hp] at h
      simp only at h
      split at h
      · cases h
      split at h
      · cases h; exact Or.inl rfl
      · rename_i hl
        rcases hcb _ h with w | ⟨pp, w1, w2⟩
        · exact Or.inl w
        · exact Or.inr ⟨pp, w1, w2, by show s.maxNum ≤ s.queue.length; omega⟩
    | adaptive =>
      rw [hp] at h
      simp only at h
      split at h
      · cases h
      split at h
      · cases h; exact Or.inl rfl
      · rename_i hl
        rcases hcb _ h with w | ⟨pp, w1, w2⟩
        · exact Or.inl w
        · exact Or.inr ⟨pp, w1, w2, by show s.maxNum ≤ s.queue.length; omega⟩

/-- the queue without the requests at its front that cannot be accepted any more -/
def trimmedQueue (cfg : Cfg) (cm : Clients.St) (q : List Req) : List Req := q.dropWhile (fun r => !admissible cfg cm r)

theorem dropDup_queue (cfg : Cfg) (cm : Clients.St) : ∀ (q : List Req) (c : Nat), (dropDup cfg cm q c).1 = trimmedQueue cfg cm q := by
  intro q
  induction q with
  | nil => intro c; rfl
  | cons r q ih =>
    intro c
    unfold dropDup trimmedQueue
    by_cases h : admissible cfg cm r = true
    · rw [if_pos h, List.dropWhile_cons, if_neg (by simp [h])]
    · rw [if_neg h, List.dropWhile_cons, if_pos (by simpa using h), ih]; rfl

theorem dropDup_comb {cfg : Cfg} {cm : Clients.St} {q : List Req} : (dropDup cfg cm q (total q)).2 = total (trimmedQueue cfg cm q) := by
  obtain ⟨d, h1, h2, _⟩ := dropDup_spec cfg cm q (total q)
  rw [h2, ← dropDup_queue cfg cm q (total q)]
  have := congrArg total h1
  rw [total_append] at this
  omega

/-- **The limits of the policies.**  A batch built when the policy is asked (a request arrives, an execution ends) has at
most `maxNumOfRequestsInBatch` requests under the policies by number and adaptive, and is built only when the queue,
without the requests at its front that cannot be accepted any more, has that many; under the policy by size, without
its last request it is smaller than `maxBatchSizeInBytes`, and it is built only when the queue reaches that size. -/
theorem policy_limits {cfg : Cfg} (hn : 0 < cfg.maxNum) {s t : St} {as : List Act} (p : Path cfg (Allowed cfg) (init cfg) as s)
    {a : Act} (ha : Allowed cfg s a) (h : step cfg s a = some t) (hreq : a = .retry ∨ ∃ r, a = .request r) {pp : PP}
    (hpp : t.made = s.made ++ [pp]) :
    (cfg.policy = .byNum ∨ cfg.policy = .adaptive →
      pp.reqs.length ≤ s.maxNum ∧ s.maxNum ≤ (trimmedQueue cfg s.cm (queueAt s t)).length) ∧
    (cfg.policy = .bySize →
      total pp.reqs.dropLast < cfg.maxBytes ∧ cfg.maxBytes ≤ total (trimmedQueue cfg s.cm (queueAt s t))) := by
  have hi := inv_path (fun _ _ h => h) p (inv_init cfg hn)
  have hself : ∀ (l : List PP) (pp : PP), l = l ++ [pp] → False := by
    intro l pp e
    have := congrArg List.length e
    rw [List.length_append] at this
    simp at this
  have core : ∀ s0 : St, s0.combined = total s0.queue → s0.made = s.made → s0.cm = s.cm → s0.maxNum = s.maxNum → queueAt s t = s0.queue →
      tryToSend cfg true s0 = some t → Within (limitOf cfg s) pp.reqs ∧ pp.reqs ≠ [] ∧
        Enough cfg (removeDuplicated cfg s0) := by
    intro s0 hc e1 e2 e3 e4 ht
    have hne : pp.reqs ≠ [] := by
      obtain ⟨p, n, ov, o, _, hm⟩ := tryToSend_out ht
      rcases o.went.made_eq with w | ⟨w0, w⟩
      · rw [hpp, e1] at w; exact (hself _ _ w.symm).elim
      · rw [hpp, e1] at w
        have := List.append_cancel_left w
        rw [(List.cons.inj this).1]; exact w0
    unfold tryToSend at ht
    split at ht
    · cases ht
    · cases ht
      rw [e1] at hpp; exact (hself _ _ hpp).elim
    · simp only [if_true] at ht
      split at ht
      · cases ht
      · rename_i r hr
        have hm := sendBuilt_made ht
        rcases batchRequests_within hr with w | ⟨x, w1, w2, w3⟩
        · rw [hm, w] at hpp
          rw [show (removeDuplicated cfg s0).made = s.made from e1] at hpp
          exact (hself _ _ hpp).elim
        · rw [hm, w1] at hpp
          rw [show (removeDuplicated cfg s0).made = s.made from e1] at hpp
          have := (List.cons.inj (List.append_cancel_left hpp)).1
          subst this
          refine ⟨?_, hne, w3⟩
          unfold limitOf at w2 ⊢
          rw [show (removeDuplicated cfg s0).maxNum = s.maxNum from e3] at w2
          exact w2
  have fin : ∀ s0 : St, s0.combined = total s0.queue → s0.cm = s.cm → s0.maxNum = s.maxNum → queueAt s t = s0.queue →
      (Within (limitOf cfg s) pp.reqs ∧ pp.reqs ≠ [] ∧ Enough cfg (removeDuplicated cfg s0)) →
      (cfg.policy = .byNum ∨ cfg.policy = .adaptive →
        pp.reqs.length ≤ s.maxNum ∧ s.maxNum ≤ (trimmedQueue cfg s.cm (queueAt s t)).length) ∧
      (cfg.policy = .bySize →
        total pp.reqs.dropLast < cfg.maxBytes ∧ cfg.maxBytes ≤ total (trimmedQueue cfg s.cm (queueAt s t))) := by
    intro s0 hc e2 e3 e4 ⟨c1, c2, c3⟩
    have hq : (removeDuplicated cfg s0).queue = trimmedQueue cfg s.cm (queueAt s t) := by
      show (dropDup cfg s0.cm s0.queue s0.combined).1 = _
      rw [dropDup_queue, e2, e4]
    have hcb : (removeDuplicated cfg s0).combined = total (trimmedQueue cfg s.cm (queueAt s t)) := by
      show (dropDup cfg s0.cm s0.queue s0.combined).2 = _
      rw [hc, dropDup_comb, e2, e4]
    unfold limitOf at c1
    unfold Enough at c3
    refine ⟨?_, ?_⟩
    · rintro (hp | hp) <;>
      · rw [hp] at c1 c3
        refine ⟨c1, ?_⟩
        rw [← hq, ← e3]; exact c3
    · intro hp
      rw [hp] at c1 c3
      refine ⟨c1.resolve_left c2, ?_⟩
      rw [← hcb]; exact c3
  cases stepped h with
  | same e => rw [e] at hpp; exact (hself _ _ hpp).elim
  | tried logic hne e =>
    rcases hreq with hr | ⟨r, hr⟩
    · subst hr
      have ht : tryToSend cfg true s = some t := by
        change (if _ then _ else _) = _ at h
        split at h
        · exact h
        · cases h; exact (hself _ _ hpp).elim
      have hqa : queueAt s t = s.queue := by
        obtain ⟨p, n, ov, o, _, hm⟩ := tryToSend_out ht
        unfold queueAt; rw [o.frame.acc]; simp
      exact fin s hi.comb rfl rfl hqa (core s hi.comb rfl rfl rfl hqa ht)
    · exact absurd hr (hne r)
  | pushed r hr hl hadm _ _ e =>
    have hqa : queueAt s t = (pushed s r).queue := by
      obtain ⟨p, n, ov, o, _, hm⟩ := tryToSend_out e
      unfold queueAt; rw [o.frame.acc]
      show s.queue ++ (s.accepted ++ [r]).drop s.accepted.length = _
      rw [List.drop_left]; rfl
    subst hr
    have hi' := inv_push hi hl ha
    exact fin (pushed s r) hi'.comb rfl rfl hqa (core (pushed s r) hi'.comb rfl rfl rfl hqa e)
  | landed k x hk hx e => subst hk; rcases hreq with h | ⟨r, h⟩ <;> cases h
  | env he e =>
    rcases hreq with h | ⟨r, h⟩ <;> (subst h; cases he)

/-! ## progress -/

theorem build_progress {cfg : Cfg} {lim : Limit} {s : St} {r : Req} {q : List Req} (hq : s.queue = r :: q)
    (ha : admissible cfg s.cm r = true) (hs : r.size ≤ capacity cfg s.combined (overheadOf (s.lastUsed + 1) r.span))
    (hl : lim.full ⟨s.cm, [], 0, s.combined⟩ = false) (ht : s.transient + 1 < maxTransient) :
    ∃ pp, (build cfg lim s).1.made = s.made ++ [pp] ∧ r ∈ pp.reqs := by
  have hne : r ∈ (addLoop cfg (capacity cfg s.combined (overheadOf (s.lastUsed + 1) r.span)) lim.full (r :: q)
      ⟨s.cm, [], 0, s.combined⟩).1.reqs := by
    unfold addLoop
    rw [if_neg (by simp [hl])]
    have e : addOne cfg (capacity cfg s.combined (overheadOf (s.lastUsed + 1) r.span)) ⟨s.cm, [], 0, s.combined⟩ r =
        { cm := addPending cfg s.cm r, reqs := [r], used := 0 + r.size, combined := s.combined - r.size } :=
      if_pos ⟨by simpa using hs, ha⟩
    rw [e]
    obtain ⟨p, n, _, h2, _⟩ := addLoop_spec cfg (capacity cfg s.combined (overheadOf (s.lastUsed + 1) r.span)) lim.full q
      { cm := addPending cfg s.cm r, reqs := [r], used := 0 + r.size, combined := s.combined - r.size } (by simpa using hs)
    rw [h2]; simp
  unfold build
  rw [hq]
  simp only
  generalize addLoop cfg (capacity cfg s.combined (overheadOf (s.lastUsed + 1) r.span)) lim.full (r :: q)
      ⟨s.cm, [], 0, s.combined⟩ = res at hne
  rw [if_neg (by intro h; have : res.1.reqs = [] := by simpa using h
                 rw [this] at hne; cases hne)]
  by_cases hasy : cfg.async = true
  · rw [if_pos hasy, if_pos ht]; exact ⟨_, rfl, hne⟩
  · rw [if_neg hasy]; exact ⟨_, rfl, hne⟩

theorem trimmed_idem (cfg : Cfg) (cm : Clients.St) {r : Req} {q : List Req} (h : admissible cfg cm r = true) :
    trimmedQueue cfg cm (r :: q) = r :: q := by
  unfold trimmedQueue
  rw [List.dropWhile_cons, if_neg (by simp [h])]

theorem trimmed_head {cfg : Cfg} {cm : Clients.St} {q l : List Req} {r : Req} (h : trimmedQueue cfg cm q = r :: l) :
    admissible cfg cm r = true := by
  induction q with
  | nil => cases h
  | cons x q ih =>
    unfold trimmedQueue at h
    rw [List.dropWhile_cons] at h
    split at h
    · exact ih h
    · rename_i hx; cases h; simpa using hx

theorem minBatch_due {cfg : Cfg} {s : St} (h : s.lastUsed ≤ s.lastExec ∨ cfg.maxInit ≤ s.queue.length) (hq : s.queue ≠ []) :
    minBatch cfg s ≤ s.queue.length := by
  have h1 : 1 ≤ s.queue.length := by
    cases hs : s.queue with
    | nil => exact absurd hs hq
    | cons => simp
  unfold minBatch
  rcases h with h | h
  · rw [if_neg (by omega)]; exact h1
  · split
    · split <;> omega
    · exact h1

/-- **Progress.**  Let the replica be able to propose (`MayPropose`), let some request of the queue be still acceptable,
let every request of the queue fit in a message, and let the batch be due: always when the flush timer expires or a
batch is forced; when the policy is asked, if the queue without the requests at its front that cannot be accepted any
more has reached the limit of the policy — under the self-adjusted policy, if nothing proposed is left to
execute or the queue has `maxInitialBatchSize` requests.  Then a batch is built, with the oldest acceptable request in
it. -/
theorem proposes {cfg : Cfg} (hn : 0 < cfg.maxNum) (hb : 0 < cfg.maxBytes) (hc : cfg.conc ≤ 75) {s : St} {as : List Act}
    (p : Path cfg (Allowed cfg) (init cfg) as s) (hm : MayPropose cfg s) (htr : s.transient + 1 < 65535)
    {r : Req} {l : List Req} (hr : trimmedQueue cfg s.cm s.queue = r :: l)
    (hfit : r.size + overheadOf (s.lastUsed + 1) r.span ≤ cfg.maxMsg)
    {a : Act} (ha : a = .force ∨ (a = .flush ∧ cfg.policy ≠ .selfAdjusted) ∨ (a = .retry ∧ Due cfg s (r :: l)))
    {t : St} (h : step cfg s a = some t) : ∃ pp, t.made = s.made ++ [pp] ∧ r ∈ pp.reqs := by
  have hi := inv_path (fun _ _ h => h) p (inv_init cfg hn)
  have hpr : primary cfg s = true := by simp [primary, hm.primary]
  have hq : s.queue ≠ [] := by intro e; rw [e] at hr; cases hr
  have hck := check_of hm hq hc (hi.exec hpr hm.active)
  have hadm := trimmed_head hr
  -- the state without the duplicates
  have hq1 : (removeDuplicated cfg s).queue = r :: l := by
    show (dropDup cfg s.cm s.queue s.combined).1 = _
    rw [dropDup_queue, hr]
  have hc1 : (removeDuplicated cfg s).combined = total (r :: l) := by
    show (dropDup cfg s.cm s.queue s.combined).2 = _
    rw [hi.comb, dropDup_comb, hr]
  have hcap : ∀ c, c = total (r :: l) → r.size ≤ capacity cfg c (overheadOf (s.lastUsed + 1) r.span) := by
    intro c e
    unfold capacity
    split
    · rw [e, total_cons]; omega
    · omega
  have main : ∀ lim : Limit, lim.full ⟨s.cm, [], 0, (removeDuplicated cfg s).combined⟩ = false →
      ∃ pp, (build cfg lim (removeDuplicated cfg s)).1.made = s.made ++ [pp] ∧ r ∈ pp.reqs :=
    fun lim hl => build_progress (s := removeDuplicated cfg s) hq1 hadm (hcap _ hc1) hl htr
  have done : tryToSend cfg false s = some t → ∃ pp, t.made = s.made ++ [pp] ∧ r ∈ pp.reqs := by
    intro ht
    unfold tryToSend at ht
    rw [hck] at ht
    simp only [Bool.false_eq_true, if_false] at ht
    obtain ⟨pp, h1, h2⟩ := main .all rfl
    exact ⟨pp, by rw [sendBuilt_made ht]; exact h1, h2⟩
  rcases ha with rfl | ⟨rfl, hp⟩ | ⟨rfl, hd⟩
  · exact done h
  · change (if _ then _ else _) = _ at h
    rw [if_pos ⟨hp, hpr⟩] at h
    exact done h
  · change (if _ then _ else _) = _ at h
    rw [if_pos ⟨hpr, hq⟩] at h
    unfold tryToSend at h
    rw [hck] at h
    simp only [if_true] at h
    -- the second check and the second removal of duplicates change nothing
    have hck2 : check cfg (removeDuplicated cfg s) = some true :=
      check_of ⟨hm.primary, hm.active, hm.collecting, hm.pruning, hm.wedged, hm.stop, hm.inWindow, hm.inConc⟩
        (by rw [hq1]; simp) hc (hi.exec hpr hm.active)
    have hq2 : (removeDuplicated cfg (removeDuplicated cfg s)).queue = r :: l := by
      show (dropDup cfg s.cm (removeDuplicated cfg s).queue _).1 = _
      rw [dropDup_queue, hq1, trimmed_idem cfg s.cm hadm]
    have hc2 : (removeDuplicated cfg (removeDuplicated cfg s)).combined = total (r :: l) := by
      show (dropDup cfg s.cm (removeDuplicated cfg s).queue (removeDuplicated cfg s).combined).2 = _
      rw [hq1, hc1, dropDup_comb, trimmed_idem cfg s.cm hadm]
    have main2 : ∀ lim : Limit, lim.full ⟨s.cm, [], 0, (removeDuplicated cfg (removeDuplicated cfg s)).combined⟩ = false →
        ∃ pp, (build cfg lim (removeDuplicated cfg (removeDuplicated cfg s))).1.made = s.made ++ [pp] ∧ r ∈ pp.reqs :=
      fun lim hl => build_progress (s := removeDuplicated cfg (removeDuplicated cfg s)) hq2 hadm (hcap _ hc2) hl htr
    split at h
    · cases h
    · rename_i res hres
      rw [sendBuilt_made h]
      unfold batchRequests at hres
      rw [if_neg (by rw [hq1]; simp)] at hres
      unfold Due at hd
      cases hp : cfg.policy with
      | selfAdjusted =>
        rw [hp] at hres hd
        simp only at hres hd
        rw [if_neg (by
          have := minBatch_due (cfg := cfg) (s := removeDuplicated cfg s) (by rw [hq1]; exact hd) (by rw [hq1]; simp)
          omega)] at hres
        cases hres
        obtain ⟨f, a1, a2, a3, a4, a5, a6, a7, a8⟩ := adjust_same cfg (removeDuplicated cfg s)
        obtain ⟨pp, h1, h2⟩ := build_progress (cfg := cfg) (lim := .all) (s := adjust cfg (removeDuplicated cfg s)) (r := r) (q := l)
          (by rw [a2, hq1]) (by rw [a1]; exact hadm) (by rw [a3, a8]; exact hcap _ hc1) rfl (by rw [a7]; exact htr)
        exact ⟨pp, by rw [h1, a4]; rfl, h2⟩
      | bySize =>
        rw [hp] at hres hd
        simp only at hres hd
        rw [if_neg (by rw [hc1]; omega)] at hres
        unfold checkedBuild at hres
        rw [hck2] at hres
        cases hres
        exact main2 (.bytes cfg.maxBytes) (by simp [Limit.full]; omega)
      | byNum =>
        rw [hp] at hres hd
        simp only at hres hd
        have hnum : (removeDuplicated cfg s).maxNum = s.maxNum := rfl
        have := hi.num
        rw [hnum, if_neg (by omega), if_neg (by rw [hq1]; omega)] at hres
        unfold checkedBuild at hres
        rw [hck2] at hres
        cases hres
        exact main2 (.num s.maxNum) (by simp [Limit.full]; omega)
      | adaptive =>
        rw [hp] at hres hd
        simp only at hres hd
        have hnum : (removeDuplicated cfg s).maxNum = s.maxNum := rfl
        have := hi.num
        rw [hnum, if_neg (by omega), if_neg (by rw [hq1]; omega)] at hres
        unfold checkedBuild at hres
        rw [hck2] at hres
        cases hres
        exact main2 (.num s.maxNum) (by simp [Limit.full]; omega)

end Concord.Batch
