/-
C55: a silent source is replaced in bounded time, one that goes on sending never; how a primary becomes known.
-/
import Verif.Source.Choices

set_option linter.unusedSimpArgs false
set_option linter.unusedVariables false

namespace Verif.Source

theorem sub64_of_le {a b : Nat} (h : b ≤ a) (ha : a < 2 ^ 64) : sub64 a b = a - b := by
  unfold sub64
  have : a + 2 ^ 64 - b = (a - b) + 2 ^ 64 := by omega
  rw [this, Nat.add_mod_right, Nat.mod_eq_of_lt (by omega)]

theorem update_log {c : Cfg} {now rnd : Nat} {s s' : Sel} (h : updateSource c now rnd s = some s') :
    ∃ r, s'.log = s.log ++ [r] := by
  unfold updateSource select at h
  split at h
  · cases h
  · rename_i r _
    cases h
    refine ⟨r, ?_⟩
    show (refill c _).log ++ [r] = _
    rw [refill_rest.2.2.1]; split <;> rfl

theorem tick_log {c : Cfg} {now d rnd : Nat} {s s' : Sel} (h : tick c now d rnd s = some s') :
    s.log.length ≤ s'.log.length := by
  have ha := (ask_rest (c := c) (now := now) (b := false) (l := false) (s := s)).2.2.2
  unfold tick at h
  split at h
  · cases h
  · split at h
    · split at h
      · cases h
      · rename_i s1 hu
        split at h
        · cases h
          obtain ⟨r, hr⟩ := update_log hu
          show s.log.length ≤ s1.log.length
          rw [hr, ha]; simp
        · cases h
    · split at h
      · cases h
      · split at h <;> cases h
        · show s.log.length ≤ (shouldReplace c now false false s).2.log.length
          rw [ha]; exact Nat.le_refl _
        · rw [ha]; exact Nat.le_refl _

theorem ticks_log {c : Cfg} {l : List (Nat × Nat × Nat)} {s s' : Sel} (h : ticks c l s = some s') :
    s.log.length ≤ s'.log.length := by
  induction l generalizing s with
  | nil => cases h; exact Nat.le_refl _
  | cons e l ih =>
    obtain ⟨now, d, rnd⟩ := e
    simp only [ticks] at h
    split at h
    · cases h
    · rename_i s1 h1
      exact Nat.le_trans (tick_log h1) (ih h)

/-- a tick before the answer is overdue does nothing -/
theorem tick_early {c : Cfg} {now d rnd : Nat} {s : Sel} (hp : s.pref ≠ []) (hcur : s.cur ≠ noReplica)
    (hsel : s.selTime > 0) (hm : s.cnt < c.maxRetrans) (hle : s.fts ≤ now) (h64 : now < 2 ^ 64)
    (he : now ≤ s.fts + c.retransTimeout) : tick c now d rnd s = some s := by
  have hx : expired c now s = false := by
    unfold expired
    rw [if_neg hcur]
    split
    · rfl
    · rw [sub64_of_le hle h64]; simp; omega
  have hce : countExpiry c now s = s := by unfold countExpiry; rw [hx]; rfl
  have hd : decideMode c now false s = .doNot := by
    unfold decideMode; rw [if_neg (by omega)]; simp
  have ha : shouldReplace c now false false s = (.doNot, s) := by
    unfold shouldReplace; rw [if_neg hcur]; simp [hce, hd]
  have hhs : hasSource s = true := by unfold hasSource; simp [hcur, hsel]
  unfold tick
  rw [if_neg hp, ha]; simp [hhs, hx]

/-- a tick when the answer is overdue: the request is sent again, or the source is replaced -/
theorem tick_late {c : Cfg} {now d rnd : Nat} {s s' : Sel} (hp : s.pref ≠ []) (hcur : s.cur ≠ noReplica)
    (hsel : s.selTime > 0) (hong : s.ongoing = true) (hf : s.fts > 0) (hle : s.fts ≤ now) (h64 : now < 2 ^ 64)
    (he : s.fts + c.retransTimeout < now) (ht : tick c now d rnd s = some s') :
    s.log.length < s'.log.length ∨
      (s.cnt + 1 < c.maxRetrans ∧ s' = { s with fts := now + d, ongoing := true, cnt := s.cnt + 1 }) := by
  have hx : ∀ t : Sel, t.cur = s.cur → t.fts = s.fts → expired c now t = true := by
    intro t h1 h2
    unfold expired
    rw [h1, if_neg hcur, h2, if_neg (by omega), sub64_of_le hle h64]; simp; omega
  have hce : countExpiry c now s = { s with cnt := s.cnt + 1, ongoing := false } := by
    unfold countExpiry; rw [if_pos (hx s rfl rfl), if_pos hong]
  have ha : shouldReplace c now false false s =
      (decideMode c now false (countExpiry c now s), countExpiry c now s) := by
    unfold shouldReplace; rw [if_neg hcur]; simp
  unfold tick at ht
  rw [if_neg hp, ha] at ht
  simp only [hce] at ht
  by_cases hm : s.cnt + 1 ≥ c.maxRetrans
  · left
    have hd : decideMode c now false { s with cnt := s.cnt + 1, ongoing := false } = .immediate := by
      unfold decideMode; rw [if_pos hm]
    rw [hd] at ht
    rw [if_pos (by simp)] at ht
    split at ht
    · cases ht
    · rename_i s1 hu
      split at ht
      · cases ht
        obtain ⟨r, hr⟩ := update_log hu
        show s.log.length < s1.log.length
        rw [hr]; simp
      · cases ht
  · right
    have hd : decideMode c now false { s with cnt := s.cnt + 1, ongoing := false } = .doNot := by
      unfold decideMode; rw [if_neg hm]; simp
    rw [hd] at ht
    have hhs : hasSource { s with cnt := s.cnt + 1, ongoing := false } = true := by
      unfold hasSource; simp [hcur, hsel]
    have hx' := hx { s with cnt := s.cnt + 1, ongoing := false } rfl rfl
    rw [if_neg (by simp), hhs, if_neg (by simp), if_pos hx'] at ht
    cases ht
    exact ⟨by omega, by simp [setFetching]⟩

theorem silent_aux {c : Cfg} {δ σ : Nat} {l : List (Nat × Nat × Nat)} {s s' : Sel} {prev : Nat}
    (hp : s.pref ≠ []) (hcur : s.cur ≠ noReplica) (hsel : s.selTime > 0) (hong : s.ongoing = true) (hf : s.fts > 0)
    (hm : s.cnt < c.maxRetrans) (h1 : s.fts ≤ prev) (h2 : prev ≤ s.fts + c.retransTimeout + σ)
    (hs : Sched δ σ prev l) (ht : ticks c l s = some s')
    (hl : ∃ e ∈ l, s.fts + (c.maxRetrans - s.cnt) * (c.retransTimeout + δ + 2 * σ) < e.1) :
    s.log.length < s'.log.length := by
  induction l generalizing s prev with
  | nil => obtain ⟨e, he, _⟩ := hl; cases he
  | cons e l ih =>
    obtain ⟨now, d, rnd⟩ := e
    simp only [ticks] at ht
    obtain ⟨a1, a2, a3, a4, a5⟩ := hs
    obtain ⟨k, hk⟩ : ∃ k, c.maxRetrans - s.cnt = k + 1 := ⟨c.maxRetrans - s.cnt - 1, by omega⟩
    have hmul : (k + 1) * (c.retransTimeout + δ + 2 * σ) = k * (c.retransTimeout + δ + 2 * σ) + (c.retransTimeout + δ + 2 * σ) :=
      Nat.succ_mul _ _
    have hrest : ∃ e ∈ l, s.fts + (c.maxRetrans - s.cnt) * (c.retransTimeout + δ + 2 * σ) < e.1 := by
      obtain ⟨e, he, hlt⟩ := hl
      rcases List.mem_cons.1 he with rfl | he'
      · rw [hk, hmul] at hlt; simp only at hlt; omega
      · exact ⟨e, he', hlt⟩
    by_cases he : now ≤ s.fts + c.retransTimeout
    · rw [tick_early hp hcur hsel hm (by omega) a4 he] at ht
      exact ih hp hcur hsel hong hf hm (by omega) (by omega) a5 ht hrest
    · split at ht
      · cases ht
      · rename_i s1 hs1
        rcases tick_late hp hcur hsel hong hf (by omega) a4 (by omega) hs1 with hlog | ⟨hm', e1⟩
        · exact Nat.lt_of_lt_of_le hlog (ticks_log ht)
        · subst e1
          have hk' : c.maxRetrans - (s.cnt + 1) = k := by omega
          refine ih (s := { s with fts := now + d, ongoing := true, cnt := s.cnt + 1 }) (prev := now + d)
            hp hcur hsel rfl ?_ hm' (Nat.le_refl _) ?_ a5 ht ?_
          · show now + d > 0; omega
          · show now + d ≤ now + d + c.retransTimeout + σ; omega
          · obtain ⟨e, he', hlt⟩ := hrest
            refine ⟨e, he', ?_⟩
            show now + d + (c.maxRetrans - (s.cnt + 1)) * (c.retransTimeout + δ + 2 * σ) < e.1
            rw [hk']; rw [hk, hmul] at hlt
            omega

/-- C55: a source that does not answer is replaced: with ticks that come at most `δ` after one another and
take at most `σ`, at the latest after as many times the timeout (with `δ` and `2σ`) as requests may be
sent in vain. -/
theorem silent_source_replaced (c : Cfg) (δ σ t : Nat) (l : List (Nat × Nat × Nat)) (s s' : Sel)
    (hm : 0 < c.maxRetrans) (hw : Waiting t s) (hs : Sched δ σ t l) (ht : ticks c l s = some s')
    (hl : ∃ e ∈ l, t + c.maxRetrans * (c.retransTimeout + δ + 2 * σ) < e.1) :
    s.log.length < s'.log.length := by
  obtain ⟨w1, w2, w3, w4, w5, w6, w7⟩ := hw
  subst w4
  refine silent_aux w1 w2 w3 w6 w5 (by omega) (Nat.le_refl _) (by omega) hs ht ?_
  rw [w7]; exact hl

theorem request_new {c : Cfg} (hc : c.Ok) {s s' : Sel} (h0 : Inv c s) {now d rnd : Nat} (hnow : 0 < now)
    (ht : tick c now d rnd s = some s') (hlog : s.log.length < s'.log.length) :
    Waiting (now + d) s' ∧ s'.log = s.log ++ [s'.cur] := by
  have h : Inv c (shouldReplace c now false false s).2 := h0.step hc (o := .ask now false false) trivial rfl
  have ha := (ask_rest (c := c) (now := now) (b := false) (l := false) (s := s)).2.2.2
  obtain ⟨x, hx, hu⟩ := update_spec hc h now rnd
  obtain ⟨s1, hu, u1, u2, u3, u4, u5⟩ : ∃ s1, updateSource c now rnd (shouldReplace c now false false s).2 = some s1 ∧
      s1.pref = (if rem (shouldReplace c now false false s).2 = [] then full c (shouldReplace c now false false s).2
        else rem (shouldReplace c now false false s).2) ∧ s1.cur = x ∧ s1.selTime = now ∧ s1.cnt = 0 ∧
      s1.log = (shouldReplace c now false false s).2.log ++ [x] := ⟨_, hu, rfl, rfl, rfl, rfl, rfl⟩
  unfold tick at ht
  split at ht
  · cases ht
  · split at ht
    · rw [hu] at ht
      simp only at ht
      split at ht
      · cases ht
        have hxo := next_sub h x hx
        refine ⟨⟨?_, ?_, ?_, rfl, ?_, rfl, ?_⟩, ?_⟩
        · show s1.pref ≠ []
          rw [u1]; intro e; rw [e] at hx; cases hx
        · show s1.cur ≠ noReplica
          rw [u2]; intro e; exact hc.real (e ▸ hxo)
        · show s1.selTime > 0
          rw [u3]; exact hnow
        · show now + d > 0; omega
        · exact u4
        · show s1.log = s.log ++ [s1.cur]
          rw [u5, ha, u2]
      · cases ht
    · split at ht
      · cases ht
      · exfalso
        split at ht <;> cases ht
        · have hlog' : s.log.length < (shouldReplace c now false false s).2.log.length := hlog
          rw [ha] at hlog'; omega
        · rw [ha] at hlog; omega

/-- C55: when a tick replaces the source, the new one has been sent a request, and the counting starts
anew. -/
theorem request_to_new_source (c : Cfg) (hc : c.Ok) (before : List Op) (hf : ∀ o ∈ before, o.Fair c) (s s' : Sel)
    (hs : run c before Sel.init = some s) (now d rnd : Nat) (hnow : 0 < now) (ht : tick c now d rnd s = some s')
    (hlog : s.log.length < s'.log.length) : Waiting (now + d) s' ∧ s'.log = s.log ++ [s'.cur] :=
  request_new hc ((Inv.init c).run hc hf hs) hnow ht hlog

/-- a tick is a sequence of calls -/
theorem tick_ops {c : Cfg} {now d rnd : Nat} {s s' : Sel} (ht : tick c now d rnd s = some s') :
    ∃ ops, (∀ o ∈ ops, o.Plain) ∧ run c ops s = some s' := by
  unfold tick at ht
  split at ht
  · cases ht
  · split at ht
    · split at ht
      · cases ht
      · rename_i s1 hu
        split at ht
        · cases ht
          refine ⟨[.ask now false false, .update now rnd, .stamp (now + d) true], ?_, ?_⟩
          · intro o ho; simp at ho; rcases ho with rfl | rfl | rfl <;> trivial
          · simp only [run, step, hu]
        · cases ht
    · split at ht
      · cases ht
      · split at ht <;> cases ht
        · refine ⟨[.ask now false false, .stamp (now + d) true], ?_, rfl⟩
          intro o ho; simp at ho; rcases ho with rfl | rfl <;> trivial
        · refine ⟨[.ask now false false], ?_, rfl⟩
          intro o ho; simp at ho; rcases ho with rfl; trivial

theorem run_append {c : Cfg} {a b : List Op} {s s1 s2 : Sel} (h1 : run c a s = some s1) (h2 : run c b s1 = some s2) :
    run c (a ++ b) s = some s2 := by
  induction a generalizing s with
  | nil => cases h1; exact h2
  | cons o os ih =>
    simp only [run, List.cons_append] at h1 ⊢
    split at h1
    · cases h1
    · rename_i t ht
      try rw [ht]
      exact ih h1

theorem ticks_ops {c : Cfg} {l : List (Nat × Nat × Nat)} {s s' : Sel} (ht : ticks c l s = some s') :
    ∃ ops, (∀ o ∈ ops, o.Plain) ∧ run c ops s = some s' := by
  induction l generalizing s with
  | nil => cases ht; exact ⟨[], by simp, rfl⟩
  | cons e l ih =>
    obtain ⟨now, d, rnd⟩ := e
    simp only [ticks] at ht
    split at ht
    · cases ht
    · rename_i s1 h1
      obtain ⟨a, ha, ra⟩ := tick_ops h1
      obtain ⟨b, hb, rb⟩ := ih ht
      refine ⟨a ++ b, ?_, run_append ra rb⟩
      intro o ho
      rcases List.mem_append.1 ho with h | h
      · exact ha o h
      · exact hb o h

theorem fetching_of_plain {o : Op} (h : o.Plain) : o.Fetching := by
  cases o <;> first | exact trivial | exact h.elim

theorem fair_of_plain {c : Cfg} {o : Op} (h : o.Plain) : o.Fair c := fair_of_fetching (fetching_of_plain h)

theorem no_changes {c : Cfg} {ops : List Op} {s : Sel} (ho : ∀ o ∈ ops, o.Plain) : changes c ops s = 0 := by
  induction ops generalizing s with
  | nil => rfl
  | cons o os ih =>
    simp only [changes]
    split
    · rfl
    · rename_i s1 h1
      rw [ih (fun o' ho' => ho o' (by simp [ho']))]
      have hp := ho o (by simp)
      have : s1.prim = s.prim := by
        cases o with
        | reset => exact hp.elim
        | add r => exact hp.elim
        | refillAll => exact hp.elim
        | prePrepare p => exact hp.elim
        | removeCurrent => cases h1; simp [removeCurrent, refill_rest.2.1]
        | stamp now b => cases h1; rfl
        | ask now b l => cases h1; exact ask_rest.2.2.1
        | update now rnd =>
          simp only [step, updateSource, select] at h1
          split at h1
          · cases h1
          · cases h1
            show (refill c _).prim = _
            rw [refill_rest.2.1]; split <;> rfl
        | block =>
          simp only [step, validBlock] at h1
          split at h1
          · cases h1
          · split at h1 <;> cases h1 <;> rfl
      simp [this]

theorem many_aux {c : Cfg} (hc : c.Ok) {δ σ : Nat} {l : List (Nat × Nat × Nat)} {s s' : Sel} {prev j : Nat}
    (hinv : Inv c s) (hm0 : 0 < c.maxRetrans) (hp : s.pref ≠ []) (hcur : s.cur ≠ noReplica) (hsel : s.selTime > 0)
    (hong : s.ongoing = true) (hf : s.fts > 0) (hm : s.cnt < c.maxRetrans) (h1 : s.fts ≤ prev)
    (h2 : prev ≤ s.fts + c.retransTimeout + σ) (hs : Sched δ σ prev l) (ht : ticks c l s = some s')
    (hl : ∃ e ∈ l, s.fts + (c.maxRetrans - s.cnt) * (c.retransTimeout + δ + 2 * σ) +
      j * (c.maxRetrans * (c.retransTimeout + δ + 2 * σ)) < e.1) :
    s.log.length + j + 1 ≤ s'.log.length := by
  induction l generalizing s prev j with
  | nil => obtain ⟨e, he, _⟩ := hl; cases he
  | cons e l ih =>
    obtain ⟨now, d, rnd⟩ := e
    simp only [ticks] at ht
    obtain ⟨a1, a2, a3, a4, a5⟩ := hs
    obtain ⟨k, hk⟩ : ∃ k, c.maxRetrans - s.cnt = k + 1 := ⟨c.maxRetrans - s.cnt - 1, by omega⟩
    have hmul : (k + 1) * (c.retransTimeout + δ + 2 * σ) = k * (c.retransTimeout + δ + 2 * σ) + (c.retransTimeout + δ + 2 * σ) :=
      Nat.succ_mul _ _
    have hrest : ∃ e ∈ l, s.fts + (c.maxRetrans - s.cnt) * (c.retransTimeout + δ + 2 * σ) +
        j * (c.maxRetrans * (c.retransTimeout + δ + 2 * σ)) < e.1 := by
      obtain ⟨e, he, hlt⟩ := hl
      rcases List.mem_cons.1 he with rfl | he'
      · rw [hk, hmul] at hlt; simp only at hlt; omega
      · exact ⟨e, he', hlt⟩
    by_cases he : now ≤ s.fts + c.retransTimeout
    · rw [tick_early hp hcur hsel hm (by omega) a4 he] at ht
      exact ih hinv hp hcur hsel hong hf hm (by omega) (by omega) a5 ht hrest
    · split at ht
      · cases ht
      · rename_i s1 hs1
        rcases tick_late hp hcur hsel hong hf (by omega) a4 (by omega) hs1 with hlog | ⟨hm', e1⟩
        · obtain ⟨⟨w1, w2, w3, w4, w5, w6, w7⟩, _⟩ := request_new hc hinv (by omega) hs1 hlog
          have hi1 : Inv c s1 := by
            obtain ⟨ops, hop, hrun⟩ := tick_ops hs1
            exact hinv.run hc (fun o ho => fair_of_plain (hop o ho)) hrun
          cases j with
          | zero => have := ticks_log ht; omega
          | succ j =>
            have := ih (j := j) (prev := now + d) hi1 w1 w2 w3 w6 (by omega) (by omega) (by omega) (by omega) a5 ht (by
              obtain ⟨e, he', hlt⟩ := hrest
              refine ⟨e, he', ?_⟩
              rw [w7, w4, Nat.sub_zero]
              rw [hk, hmul, Nat.succ_mul j] at hlt
              omega)
            omega
        · subst e1
          have hk' : c.maxRetrans - (s.cnt + 1) = k := by omega
          refine ih (s := { s with fts := now + d, ongoing := true, cnt := s.cnt + 1 }) (prev := now + d)
            ⟨hinv.nodup, hinv.peers, hinv.cur, hinv.prim, hinv.log⟩ hp hcur hsel rfl ?_ hm' (Nat.le_refl _) ?_ a5 ht ?_
          · show now + d > 0; omega
          · show now + d ≤ now + d + c.retransTimeout + σ; omega
          · obtain ⟨e, he', hlt⟩ := hrest
            refine ⟨e, he', ?_⟩
            show now + d + (c.maxRetrans - (s.cnt + 1)) * (c.retransTimeout + δ + 2 * σ) + _ < e.1
            rw [hk']; rw [hk, hmul] at hlt
            omega

/-- C55: while every source is silent, a destination turns to a good one in bounded time: if at most `f` of the
other replicas are bad, it has selected one that is not within `2f + 1` times the time that it waits for one
source. -/
theorem good_source_in_time (c : Cfg) (hc : c.Ok) (bad : Nat → Bool) (f : Nat) (hb : badIn bad c.others ≤ f)
    (hl : f + 2 ≤ c.others.length) (hm : 0 < c.maxRetrans) (before : List Op) (s s' : Sel) (hf : ∀ o ∈ before, o.Fair c)
    (hs : run c before Sel.init = some s) (δ σ t : Nat) (hw : Waiting t s) (l : List (Nat × Nat × Nat))
    (hsch : Sched δ σ t l) (ht : ticks c l s = some s')
    (hlate : ∃ e ∈ l, t + (2 * f + 1) * (c.maxRetrans * (c.retransTimeout + δ + 2 * σ)) < e.1) :
    ∃ ks, s'.log = s.log ++ ks ∧ ∃ k ∈ ks, bad k = false := by
  have h := (Inv.init c).run hc hf hs
  obtain ⟨ops, hop, hrun⟩ := ticks_ops ht
  obtain ⟨ks, hk, hg⟩ := good_source_comes c hc bad f hb hl before ops s s' hf hs
    (fun o ho => fetching_of_plain (hop o ho)) hrun
  refine ⟨ks, hk, hg ?_⟩
  rw [no_changes hop, Nat.zero_mul, Nat.add_zero]
  obtain ⟨w1, w2, w3, w4, w5, w6, w7⟩ := hw
  subst w4
  have := many_aux hc (j := 2 * f) h hm w1 w2 w3 w6 w5 (by omega) (Nat.le_refl _) (by omega) hsch ht (by
    obtain ⟨e, he, hlt⟩ := hlate
    refine ⟨e, he, ?_⟩
    rw [w7, Nat.sub_zero]
    rw [Nat.succ_mul] at hlt
    omega)
  rw [hk, List.length_append] at this
  omega

/-- C55, a limit: a source from which a piece of data, however useless, arrives at least once in each timeout
is never replaced at a tick, and no request is sent, however long this goes on. -/
theorem chatty_source_stays (c : Cfg) (l : List Ev) (s : Sel) (hm : 0 < c.maxRetrans) (hp : s.pref ≠ [])
    (hcur : s.cur ≠ noReplica) (hsel : s.selTime > 0) (h0 : s.cnt = 0) (hc : Chatty c s.fts l) :
    ∃ s', evs c l s = some s' ∧ s'.cur = s.cur ∧ s'.log = s.log := by
  induction l generalizing s with
  | nil => exact ⟨s, rfl, rfl, rfl⟩
  | cons e l ih =>
    cases e with
    | data t =>
      obtain ⟨_, _, hc'⟩ := hc
      simp only [evs]
      exact ih (setFetching t false s) hp hcur hsel rfl hc'
    | tick now d rnd =>
      obtain ⟨h1, h2, h3, hc'⟩ := hc
      simp only [evs]
      rw [tick_early hp hcur hsel (by omega) h1 h2 h3]
      exact ih s hp hcur hsel h0 hc'

/-- C55, a limit: with no retransmission allowed (the default of the structure, SimpleBCStateTransfer.hpp:174)
the source is replaced at every tick. -/
theorem no_retransmission_no_patience (c : Cfg) (now d rnd : Nat) (s s' : Sel)
    (hm : c.maxRetrans = 0) (ht : tick c now d rnd s = some s') : s.log.length < s'.log.length := by
  have ha := (ask_rest (c := c) (now := now) (b := false) (l := false) (s := s)).2.2.2
  have hmode : (shouldReplace c now false false s).1 = .immediate := by
    unfold shouldReplace
    split
    · rfl
    · show (if false = true then _ else _ : Mode × Sel).1 = _
      rw [if_neg (by simp)]
      unfold decideMode
      rw [if_pos (by omega)]
  unfold tick at ht
  split at ht
  · cases ht
  · rw [if_pos (by rw [hmode]; simp)] at ht
    split at ht
    · cases ht
    · rename_i s1 hu
      split at ht
      · cases ht
        obtain ⟨r, hr⟩ := update_log hu
        show s.log.length < s1.log.length
        rw [hr, ha]; simp
      · cases ht

theorem removePreferred_ne {c : Cfg} (hc : c.Ok) {p : Nat} {u : Sel} (h : u.pref ≠ []) : (removePreferred c p u).pref ≠ [] := by
  unfold removePreferred; split
  · exact refill_ne hc
  · exact h

/-- C55, a limit: from the first source on the set of preferred sources is never empty while fetching, so
that the new cycle that `processData` starts when none is left (BCStateTran.cpp:3363-3367) is never started. -/
theorem never_out_of_sources (c : Cfg) (hc : c.Ok) (ops : List Op) (s s' : Sel) (hp : s.pref ≠ [])
    (ho : ∀ o ∈ ops, o ≠ .reset) (hr : run c ops s = some s') : s'.pref ≠ [] := by
  induction ops generalizing s with
  | nil => cases hr; exact hp
  | cons o os ih =>
    simp only [run] at hr
    split at hr
    · cases hr
    · rename_i s1 h1
      refine ih s1 ?_ (fun o' ho' => ho o' (by simp [ho'])) hr
      have ho1 := ho o (by simp)
      cases o with
      | reset => exact absurd rfl ho1
      | add r => cases h1; rw [addPreferred_pref]; split <;> simp [hp]
      | refillAll => cases h1; exact refill_ne hc
      | removeCurrent => cases h1; exact refill_ne hc
      | stamp now b => cases h1; exact hp
      | ask now b l => cases h1; rw [ask_rest.1]; exact hp
      | update now rnd =>
        simp only [step, updateSource, select] at h1
        split at h1
        · cases h1
        · cases h1; exact refill_ne hc
      | block =>
        simp only [step, validBlock] at h1
        split at h1
        · cases h1
        · split at h1 <;> cases h1 <;> exact hp
      | prePrepare p =>
        cases h1
        rcases updatePrimary_cases (c := c) (p := p) (s := s) with ⟨n, k, e⟩ | ⟨e, _, _⟩
        · rw [e]; exact hp
        · rw [e]
          show (removePreferred c p _).pref ≠ []
          apply removePreferred_ne hc
          split
          · rw [addPreferred_pref]; split <;> simp [resetNom, hp]
          · exact hp

/-! ## The primary that is known -/

theorem hear_snoc (c : Cfg) (ps : List Nat) (p : Nat) (s : Sel) : hear c (ps ++ [p]) s = updatePrimary c p (hear c ps s) := by
  simp [hear]

theorem nominee_aux {c : Cfg} (hc : c.Ok) {s : Sel} (hn : NoNominee s) {ps : List Nat}
    (hk : ∀ qs, qs <+: ps → (hear c qs s).prim = s.prim) :
    NoNominee (hear c ps s) ∨ ∃ q pre, (hear c ps s).nom = q ∧ q ≠ noReplica ∧ 1 ≤ (hear c ps s).nomCnt ∧
      ps.filter (fun x => !decide (x = s.prim)) = pre ++ List.replicate (hear c ps s).nomCnt q := by
  induction hlen : ps.length generalizing ps with
  | zero =>
    have : ps = [] := List.eq_nil_of_length_eq_zero hlen
    subst this; exact .inl hn
  | succ n ih =>
    obtain ⟨qs, p, rfl⟩ : ∃ qs p, ps = qs ++ [p] := by
      have hne : ps ≠ [] := by intro e; rw [e] at hlen; cases hlen
      exact ⟨ps.dropLast, ps.getLast hne, (List.dropLast_concat_getLast hne).symm⟩
    have hq : qs.length = n := by simpa using hlen
    have hprim := hk qs (List.prefix_append _ _)
    have hprim' := hk (qs ++ [p]) (List.prefix_refl _)
    have hi := ih (ps := qs) (fun rs hrs => hk rs (hrs.trans (List.prefix_append _ _))) hq
    rw [hear_snoc] at hprim' ⊢
    generalize ht : hear c qs s = t at *
    by_cases h1 : t.prim = p
    · have e1 : updatePrimary c p t = t := by unfold updatePrimary; rw [if_pos h1]
      have e2 : (qs ++ [p]).filter (fun x => !decide (x = s.prim)) = qs.filter (fun x => !decide (x = s.prim)) := by
        simp [← h1, hprim]
      rw [e1, e2]; exact hi
    · have hps : p ≠ s.prim := fun e => h1 (hprim.trans e.symm)
      have e2 : (qs ++ [p]).filter (fun x => !decide (x = s.prim)) = qs.filter (fun x => !decide (x = s.prim)) ++ [p] := by
        simp [hps]
      by_cases h2 : isPeer c p = false
      · left; unfold updatePrimary; rw [if_neg h1, if_pos h2]; exact ⟨rfl, rfl⟩
      by_cases h3 : t.nom = noReplica
      · have e1 : updatePrimary c p t = { t with nomCnt := t.nomCnt + 1, nom := p } := by
          unfold updatePrimary; rw [if_neg h1, if_neg h2, if_pos h3]
        have h0 : t.nomCnt = 0 := by
          rcases hi with hi | ⟨q, pre, hi1, hi0, hi2, hi3⟩
          · exact hi.2
          · exact absurd (hi1 ▸ h3) hi0
        right
        rw [e1, e2]
        have hpo : p ∈ c.others := by simpa [isPeer] using h2
        exact ⟨p, qs.filter (fun x => !decide (x = s.prim)), rfl, fun e => hc.real (e ▸ hpo), by simp, by simp [h0]⟩
      by_cases h4 : p ≠ t.nom ∧ t.nomCnt + 1 < c.minPP
      · left; unfold updatePrimary; rw [if_neg h1, if_neg h2, if_neg h3, if_pos h4]; exact ⟨rfl, rfl⟩
      by_cases h5 : t.nomCnt + 1 < c.minPP
      · have e1 : updatePrimary c p t = { t with nomCnt := t.nomCnt + 1 } := by
          unfold updatePrimary; rw [if_neg h1, if_neg h2, if_neg h3, if_neg h4, if_pos h5]
        have hpn : p = t.nom := Classical.byContradiction fun h => h4 ⟨h, h5⟩
        rcases hi with hi | ⟨q, pre, hi1, hi0, hi2, hi3⟩
        · exact absurd hi.1 h3
        · right
          refine ⟨q, pre, by rw [e1]; exact hi1, hi0, by rw [e1]; simp, ?_⟩
          rw [e2, hi3, e1, List.append_assoc]
          show _ = pre ++ List.replicate (t.nomCnt + 1) q
          rw [List.replicate_succ', hpn, hi1]
      · exfalso
        have e1 : updatePrimary c p t = adopt c p t := by
          unfold updatePrimary; rw [if_neg h1, if_neg h2, if_neg h3, if_neg h4, if_neg h5]
        rw [e1, (adopt_rest c p t).2.1] at hprim'
        exact hps hprim'

/-- C55: a primary becomes known only after PrePrepares of one and the same replica, at least one less than the
number that is configured and at least one, with none but those of the primary known before in between, and
one more. -/
theorem primary_needs_support (c : Cfg) (hc : c.Ok) (s : Sel) (hn : NoNominee s) (ps : List Nat) (p : Nat)
    (hk : ∀ qs, qs <+: ps → (hear c qs s).prim = s.prim) (hch : (hear c (ps ++ [p]) s).prim ≠ s.prim) :
    (hear c (ps ++ [p]) s).prim = p ∧ p ∈ c.others ∧ ∃ q pre n, 1 ≤ n ∧ c.minPP ≤ n + 1 ∧
      ps.filter (fun x => !decide (x = s.prim)) = pre ++ List.replicate n q := by
  have hi := nominee_aux hc hn hk
  have hprim := hk ps (List.prefix_refl _)
  rw [hear_snoc] at hch ⊢
  generalize hear c ps s = t at *
  by_cases h1 : t.prim = p
  · unfold updatePrimary at hch; rw [if_pos h1] at hch; exact absurd hprim hch
  by_cases h2 : isPeer c p = false
  · unfold updatePrimary at hch; rw [if_neg h1, if_pos h2] at hch; exact absurd hprim hch
  by_cases h3 : t.nom = noReplica
  · unfold updatePrimary at hch; rw [if_neg h1, if_neg h2, if_pos h3] at hch; exact absurd hprim hch
  by_cases h4 : p ≠ t.nom ∧ t.nomCnt + 1 < c.minPP
  · unfold updatePrimary at hch; rw [if_neg h1, if_neg h2, if_neg h3, if_pos h4] at hch; exact absurd hprim hch
  by_cases h5 : t.nomCnt + 1 < c.minPP
  · unfold updatePrimary at hch; rw [if_neg h1, if_neg h2, if_neg h3, if_neg h4, if_pos h5] at hch; exact absurd hprim hch
  have e1 : updatePrimary c p t = adopt c p t := by
    unfold updatePrimary; rw [if_neg h1, if_neg h2, if_neg h3, if_neg h4, if_neg h5]
  refine ⟨by rw [e1]; exact (adopt_rest c p t).2.1, by simpa [isPeer] using h2, ?_⟩
  rcases hi with hi | ⟨q, pre, hi1, hi0, hi2, hi3⟩
  · exact absurd hi.1 h3
  · exact ⟨q, pre, t.nomCnt, hi2, by omega, hi3⟩

theorem hear_streak {c : Cfg} (hc : c.Ok) {s : Sel} (hn : NoNominee s) {q : Nat} (hq : q ∈ c.others) (hqp : s.prim ≠ q)
    (n : Nat) (hlt : n + 1 < max c.minPP 2) :
    hear c (List.replicate (n + 1) q) s = { s with nom := q, nomCnt := n + 1 } := by
  have hreal : q ≠ noReplica := fun e => hc.real (e ▸ hq)
  have hpeer : ¬ isPeer c q = false := by simp [isPeer, hq]
  induction n with
  | zero =>
    show updatePrimary c q s = _
    unfold updatePrimary
    rw [if_neg hqp, if_neg hpeer, if_pos hn.1, hn.2]
  | succ n ih =>
    rw [List.replicate_succ', hear_snoc, ih (by omega)]
    unfold updatePrimary
    rw [if_neg hqp, if_neg hpeer, if_neg hreal, if_neg (by simp), if_pos (by simp only; omega)]

/-- C55: that many PrePrepares of the same replica make it the primary that is known. -/
theorem support_suffices (c : Cfg) (hc : c.Ok) (s : Sel) (hn : NoNominee s) (q : Nat) (hq : q ∈ c.others)
    (hqp : s.prim ≠ q) : (hear c (List.replicate (max c.minPP 2) q) s).prim = q := by
  obtain ⟨n, hm⟩ : ∃ n, max c.minPP 2 = n + 2 := ⟨max c.minPP 2 - 2, by omega⟩
  rw [hm, List.replicate_succ', hear_snoc, hear_streak hc hn hq hqp n (by omega)]
  have hreal : q ≠ noReplica := fun e => hc.real (e ▸ hq)
  have hpeer : ¬ isPeer c q = false := by simp [isPeer, hq]
  unfold updatePrimary
  rw [if_neg hqp, if_neg hpeer, if_neg hreal, if_neg (by simp), if_neg (by simp only; omega)]
  exact (adopt_rest ..).2.1

/-- C55, a limit: the last of these PrePrepares may come from any other replica, and it is that one that
becomes the primary that is known. -/
theorem one_vote_takes_it (c : Cfg) (hc : c.Ok) (s : Sel) (hn : NoNominee s) (q p : Nat) (hq : q ∈ c.others)
    (hp : p ∈ c.others) (hqp : s.prim ≠ q) (hpp : s.prim ≠ p) :
    (hear c (List.replicate (max c.minPP 2 - 1) q ++ [p]) s).prim = p := by
  obtain ⟨n, hm⟩ : ∃ n, max c.minPP 2 = n + 2 := ⟨max c.minPP 2 - 2, by omega⟩
  rw [show max c.minPP 2 - 1 = n + 1 by omega, hear_snoc, hear_streak hc hn hq hqp n (by omega)]
  have hreal : q ≠ noReplica := fun e => hc.real (e ▸ hq)
  have hpeer : ¬ isPeer c p = false := by simp [isPeer, hp]
  unfold updatePrimary
  rw [if_neg hpp, if_neg hpeer, if_neg hreal, if_neg (by simp only; omega), if_neg (by simp only; omega)]
  exact (adopt_rest ..).2.1

/-- C55: the primary that has just become known is not among the preferred sources, if one was known before. -/
theorem new_primary_not_preferred (c : Cfg) (s : Sel) (p : Nat) (hn : s.pref.Nodup) (h0 : s.prim ≠ noReplica)
    (h1 : s.prim ≠ p) : p ∉ (adopt c p s).pref := by
  have hq : s.prim ∈ (addPreferred s.prim (resetNom s)).pref := by
    rw [addPreferred_pref]; split
    · simp_all [resetNom]
    · simp
  have hnd : (addPreferred s.prim (resetNom s)).pref.Nodup := by
    rw [addPreferred_pref]; split
    · exact hn
    · rename_i h; exact List.nodup_cons.2 ⟨by simpa using h, hn⟩
  show p ∉ (removePreferred c p _).pref
  rw [if_pos h0]
  unfold removePreferred
  split
  · rw [refill_pref, if_neg]
    · exact fun hm => (hnd.mem_erase_iff.1 hm).1 rfl
    · intro e
      have := (List.mem_erase_of_ne h1).2 hq
      have e : (addPreferred s.prim (resetNom s)).pref.erase p = [] := e
      rw [e] at this; cases this
  · rename_i h; simpa using h

/-- C55, a limit: if none was known before, and the new primary is the only preferred source left, then it
is among the preferred sources again. -/
theorem first_primary_preferred (c : Cfg) (s : Sel) (p : Nat) (h0 : s.prim = noReplica) (h1 : s.pref = [p])
    (hp : p ∈ c.others) : p ∈ (adopt c p s).pref := by
  show p ∈ (removePreferred c p _).pref
  rw [if_neg (by simp [h0])]
  unfold removePreferred
  rw [if_pos (by simp [resetNom, h1]), refill_pref, if_pos (by simp [resetNom, h1])]
  simp [full, resetNom, h0, hp]

end Verif.Source
