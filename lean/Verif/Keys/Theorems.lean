import Verif.Keys.Basic
/-!
# Keys in force
-/
set_option linter.unusedSimpArgs false
set_option linter.unusedVariables false
namespace Verif.Keys
open Verif.Bytes

/-- **Every replica verifies with the keys of the history.**  After any run with restarts and state transfers in which the exchanges are executed
in the order of their numbers, the key with which the replica verifies the shares of another replica `r` at sequence number `q` is the one
of the last exchange of `r` that is in force at `q`.  Missing: exchanges executed out of order (false, `crossed_exchanges_diverge`) and the key of
the replica itself after a restart (`restart_forgets_secret`). -/
theorem keys_follow_history_partial {c : Cfg} {s : St} {h : List (Nat × Ex)} (hr : Run c s h) (hps : c.pageSize < 2 ^ 63)
    (ho : InOrder (h.map (·.2))) (r q : Nat) (hme : r ≠ c.me) :
    ∃ y, sysAt s.mgr q = some y ∧ y.vk r = keyAt c.init.vk (h.map (·.2)) r q := by
  have hi := run_inv hr hps ho
  exact sysAt_key hi.struct (hi.vk r hme) q

/-- **A replica starts again with its pages and secrets.** -/
theorem restart_works {c : Cfg} {s : St} {h : List (Nat × Ex)} (hr : Run c s h) (hps : c.pageSize < 2 ^ 63)
    (ho : InOrder (h.map (·.2))) : ∃ s', restart c s = .ok s' ∧ Run c s' h := by
  obtain ⟨s', e, _⟩ := restart_inv (run_inv hr hps ho) hps ho
  exact ⟨s', e, .restart hr e⟩

/-- **State transfer brings the keys of the source**, unless the assertion on the number of keys fails. -/
theorem transfer_works {c c' : Cfg} {s s2 : St} {h h2 : List (Nat × Ex)} (hr : Run c s h) (hr2 : Run c' s2 h2) (hpre : h <+: h2)
    (hps : c.pageSize < 2 ^ 63) (hn : c'.n = c.n) (hp : c'.pageSize = c.pageSize) (ho : InOrder (h2.map (·.2)))
    (ha : c.exchangeOnStart = false ∨ numExchanged c.n s2.store ≥ c.liveSize) :
    ∃ s', transferred c s s2.pages = .ok s' ∧ Run c s' h2 := by
  obtain ⟨x, rfl⟩ := hpre
  have i2 := run_inv hr2 (by omega) ho
  have hst := i2.store
  rw [List.map_append] at ho i2 hst
  have i1 := run_inv hr hps (inOrder_prefix ho)
  rcases transfer_inv i1 i2 hps hn hp ho with ⟨hk, _⟩ | ⟨s', e, _⟩
  · exfalso
    unfold KeysAssert at hk
    rw [← hst] at hk
    rcases ha with h1 | h1
    · simp [h1] at hk
    · have : ¬ numExchanged c.n s2.store < c.liveSize := by omega
      simp [this] at hk
  · exact ⟨s', e, .transfer hr hr2 ⟨x, rfl⟩ hn hp e⟩

/-! ## Replicas at different points of the same history -/

/-- an exchange that was taken over was not generated before the work window of the batch -/
theorem run_gen {c : Cfg} {s : St} {h : List (Nat × Ex)} (hr : Run c s h) : ∀ x ∈ h, x.1 / 300 * 300 ≤ x.2.sn := by
  induction hr with
  | start c => simp
  | gen sn fresh _ ih => exact ih
  | exec client m req _ hsn ha hx ih =>
    intro x hx'
    rw [List.mem_append] at hx'
    rcases hx' with h1 | h1
    · exact ih x h1
    · simp at h1
      subst h1
      unfold accepts at ha
      rw [Bool.and_eq_true, Bool.and_eq_true] at ha
      have h2 := ha.1.2
      rw [Bool.not_eq_true', decide_eq_false_iff_not] at h2
      have h3 : ¬ m.sn < req / 300 * 300 := h2
      show req / 300 * 300 ≤ m.sn
      omega
  | ignore client m req _ ha hx ih => exact ih
  | restart _ hx ih => exact ih
  | transfer _ _ hpre hn hp hx ih1 ih2 => exact ih2

theorem keyAt_later {c : Cfg} {s : St} {h x : List (Nat × Ex)} (hr : Run c s (h ++ x)) (init : Nat → Key) (r q : Nat)
    (hx : ∀ e ∈ x, (q - 1) / 150 < e.1 / 300 * 300 / 150 + 2) :
    keyAt init ((h ++ x).map (·.2)) r q = keyAt init (h.map (·.2)) r q := by
  rw [keyAt_eq, keyAt_eq, List.map_append]
  apply lastKey_append
  intro e he _
  obtain ⟨y, hy, ey⟩ := List.mem_map.1 he
  have h1 := hx y hy
  have h2 := run_gen hr y (by simp [hy])
  rw [ey] at h2
  have h3 : y.1 / 300 * 300 / 150 ≤ e.sn / 150 := Nat.div_le_div_right h2
  show (q - 1) / 150 < e.sn / 150 + 2
  omega

/-- **Keys do not change under a replica that is behind.**  A replica has executed a part of the history of another one, what it lacks was executed in batches
after the stable checkpoint `L`.  Then the two verify with the same keys up to `L + 150`, and up to `L + 300`, the whole window, when `L` is
a multiple of 300.  Missing: the rest of the window otherwise (false, `early_key`). -/
theorem window_keys_agree_partial {c1 c2 : Cfg} {s1 s2 : St} {h x : List (Nat × Ex)} (h1 : Run c1 s1 h) (h2 : Run c2 s2 (h ++ x))
    (hp1 : c1.pageSize < 2 ^ 63) (hp2 : c2.pageSize < 2 ^ 63) (hinit : c1.init.vk = c2.init.vk) (ho : InOrder ((h ++ x).map (·.2))) (L : Nat)
    (hL : L % 150 = 0) (hx : ∀ e ∈ x, L < e.1) (r q : Nat) (hr1 : r ≠ c1.me) (hr2 : r ≠ c2.me)
    (hq : q ≤ L + 150 ∨ (L % 300 = 0 ∧ q ≤ L + 300)) :
    ∃ y1 y2, sysAt s1.mgr q = some y1 ∧ sysAt s2.mgr q = some y2 ∧ y1.vk r = y2.vk r := by
  have ho1 : InOrder (h.map (·.2)) := by
    rw [List.map_append] at ho
    exact inOrder_prefix ho
  obtain ⟨y1, e1, k1⟩ := keys_follow_history_partial h1 hp1 ho1 r q hr1
  obtain ⟨y2, e2, k2⟩ := keys_follow_history_partial h2 hp2 ho r q hr2
  refine ⟨y1, y2, e1, e2, ?_⟩
  rw [k1, k2, hinit, keyAt_later h2]
  intro e he
  have := hx e he
  rcases hq with hq | ⟨hq1, hq⟩
  · omega
  · omega

/-! ## Replicas that execute the same exchanges, in whatever order of numbers -/

/-- the verification keys of the cryptosystems -/
def view (m : Mgr) : List (Nat × (Nat → Key)) := m.map (fun p => (p.1, p.2.vk))

theorem view_modify (c r : Nat) (k : Key) (f : Sys → Sys) (m : Mgr) (hf : ∀ y : Sys, (f y).vk = fun x => if x = r then k else y.vk x) :
    view (modifyAt c f m) = (view m).map (fun p => if p.1 = c then (p.1, fun x => if x = r then k else p.2 x) else p) := by
  unfold view modifyAt
  rw [List.map_map, List.map_map]
  apply List.map_congr_left
  intro p _
  simp only [Function.comp]
  split
  · rw [hf]
  · rfl

theorem view_insert (c : Nat) (y : Sys) (m : Mgr) : view (insertAt c y m) = insertAt c y.vk (view m) := by
  induction m with
  | nil => rfl
  | cons p m ih =>
    obtain ⟨d, z⟩ := p
    have e : view ((d, z) :: m) = (d, z.vk) :: view m := rfl
    rw [e]
    unfold insertAt
    split
    · rfl
    · show (d, z.vk) :: view (insertAt c y m) = _
      rw [ih]

theorem view_has (c : Nat) (m : Mgr) : hasKey c m = hasKey c (view m) := by
  induction m with
  | nil => rfl
  | cons p m ih =>
    show (p.1 == c || hasKey c m) = (p.1 == c || hasKey c (view m))
    rw [ih]

theorem view_last (m : Mgr) : (lastSys m).vk = match (view m).getLast? with
    | some p => p.2
    | none => fun _ => [] := by
  unfold lastSys view
  rw [List.getLast?_map]
  cases m.getLast? <;> rfl

theorem view_create {m m' : Mgr} (sn : Nat) (h : view m = view m') : view (create m sn) = view (create m' sn) := by
  unfold create
  rw [view_has, h, ← view_has]
  split
  · exact h
  · rw [view_insert, view_insert, h, view_last, h, ← view_last]

theorem view_public {m m' : Mgr} (k : Key) (r sn : Nat) (h : view m = view m') : view (onPublic m k r sn) = view (onPublic m' k r sn) := by
  unfold onPublic
  rw [view_modify _ r k _ _ (fun y => rfl), view_modify _ r k _ _ (fun y => rfl), view_create sn h]

theorem view_private {m m' : Mgr} (k : Key) (me sn : Nat) (p : Bytes) (h : view m = view m') :
    view (onPrivate m me p k sn) = view (onPublic m' k me sn) := by
  unfold onPrivate onPublic
  rw [view_modify _ me k _ _ (fun y => rfl), view_modify _ me k _ _ (fun y => rfl), view_create sn h]

theorem view_sysAt (m : Mgr) (q : Nat) : (sysAt m q).map (·.vk) =
    ((view m).reverse.find? (fun p => decide (p.1 ≤ checkpointOf q))).map (·.2) := by
  unfold sysAt view
  rw [← List.map_reverse, List.find?_map, Option.map_map, Option.map_map]
  rfl

theorem live_state {c : Cfg} {s : St} {h : List (Nat × Ex)} (hr : LiveRun c s h) :
    view s.mgr = view (replayPublic [(0, c.init)] (h.map (·.2))) ∧
    s.store = (h.map (·.2)).foldl (fun st e r => if r = e.rep then insertAt e.sn e.key (st e.rep) else st r) (fun _ => []) := by
  induction hr with
  | start => exact ⟨rfl, rfl⟩
  | gen sn fresh _ ih =>
    rename_i s h _
    have e : (generate c s sn fresh).1.store = s.store ∧ (generate c s sn fresh).1.mgr = s.mgr := by
      unfold generate
      split
      · simp
      · split <;> simp
    rw [e.1, e.2]
    exact ih
  | exec client m req _ hsn ha hx ih =>
    obtain ⟨_, _, h3, _, h5⟩ := exec_cases ha hx
    rw [List.map_append]
    constructor
    · unfold replayPublic
      rw [List.foldl_append]
      rcases h5 with ⟨hme, q, _, _, _, _, e1⟩ | ⟨_, _, e1⟩
      · rw [e1, ← hme]
        exact view_private _ _ _ _ ih.1
      · rw [e1]
        exact view_public _ _ _ ih.1
    · rw [List.foldl_append, h3, ← ih.2]
      rfl
  | ignore client m req _ ha hx ih =>
    rw [ignore_same ha hx]
    exact ih

/-- **Replicas that stay up agree** about all keys at all sequence numbers, whatever the order of the numbers of the exchanges. -/
theorem live_replicas_agree {c1 c2 : Cfg} {s1 s2 : St} {h1 h2 : List (Nat × Ex)} (r1 : LiveRun c1 s1 h1) (r2 : LiveRun c2 s2 h2)
    (he : h1.map (·.2) = h2.map (·.2)) (hinit : c1.init.vk = c2.init.vk) (q : Nat) :
    (sysAt s1.mgr q).map (·.vk) = (sysAt s2.mgr q).map (·.vk) := by
  have e : ∀ (l : List Ex) (m m' : Mgr), view m = view m' → view (replayPublic m l) = view (replayPublic m' l) := by
    intro l
    induction l with
    | nil => intro m m' h; exact h
    | cons x l ih => intro m m' h; exact ih _ _ (view_public _ _ _ h)
  have hv : view s1.mgr = view s2.mgr := by
    rw [(live_state r1).1, (live_state r2).1, he]
    apply e
    simp [view, hinit]
  rw [view_sysAt, view_sysAt, hv]

/-- **and they take over the same exchanges.** -/
theorem live_replicas_accept_alike {c1 c2 : Cfg} {s1 s2 : St} {h1 h2 : List (Nat × Ex)} (r1 : LiveRun c1 s1 h1) (r2 : LiveRun c2 s2 h2)
    (he : h1.map (·.2) = h2.map (·.2)) (hep : c1.epoch = c2.epoch) (m : Msg) (req : Nat) :
    accepts c1 s1 m req = accepts c2 s2 m req := by
  have : s1.store = s2.store := by rw [(live_state r1).2, (live_state r2).2, he]
  unfold accepts keyExists
  rw [this, hep]

/-- **A key is not replaced.**  For one replica and one number only the first key counts. -/
theorem one_key_per_number {c : Cfg} {s : St} {h : List (Nat × Ex)} (hr : Run c s h) (hps : c.pageSize < 2 ^ 63) (ho : InOrder (h.map (·.2)))
    (m : Msg) (req client : Nat) (e : Nat × Ex) (he : e ∈ h) (h1 : e.2.rep = m.rep) (h2 : e.2.sn = m.sn) :
    executeKeyExchange c s client m req = .ok s := by
  have hi := run_inv hr hps ho
  have hk : keyExists s m.rep m.sn = true := by
    unfold keyExists
    rw [hasKey_iff, hi.store]
    refine ⟨(e.2.sn, e.2.key), ?_, h2⟩
    unfold storeOf
    exact List.mem_map.2 ⟨e.2, by simp [h1]; exact ⟨_, he⟩, rfl⟩
  have ha : accepts c s m req = false := by
    unfold accepts
    rw [hk]
    simp
  unfold executeKeyExchange onKeyExchange
  rw [if_neg (by simp [ha])]

end Verif.Keys
