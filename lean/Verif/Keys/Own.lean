import Verif.Keys.Theorems
/-!
# The key with which a replica signs
-/
set_option linter.unusedSimpArgs false
set_option linter.unusedVariables false
namespace Verif.Keys
open Verif.Bytes

/-- a run without restart in which every exchange of the replica itself is one that it generated before; `pubOf` gives the public key of a secret -/
inductive OwnRun (pubOf : Bytes → Key) (c : Cfg) : St → List (Nat × Ex) → Prop where
  | start : c.init.vk c.me = pubOf c.init.secret → OwnRun pubOf c (boot c) []
  | gen {s : St} {h : List (Nat × Ex)} (sn : Nat) (fresh : Pair) : OwnRun pubOf c s h → fresh.pub = pubOf fresh.priv →
      (s.cand = none → candAt s sn = none) → OwnRun pubOf c (generate c s sn fresh).1 h
  | exec {s s' : St} {h : List (Nat × Ex)} (client : Nat) (m : Msg) (req : Nat) : OwnRun pubOf c s h → m.sn < 2 ^ 64 →
      accepts c s m req = true → (m.rep = c.me → (candAt s m.sn).isSome) → executeKeyExchange c s client m req = .ok s' →
      OwnRun pubOf c s' (h ++ [(req, ⟨m.rep, m.sn, m.key⟩)])
  | ignore {s s' : St} {h : List (Nat × Ex)} (client : Nat) (m : Msg) (req : Nat) : OwnRun pubOf c s h →
      accepts c s m req = false → executeKeyExchange c s client m req = .ok s' → OwnRun pubOf c s' h

theorem OwnRun.live {pubOf : Bytes → Key} {c : Cfg} {s : St} {h : List (Nat × Ex)} (hr : OwnRun pubOf c s h) : LiveRun c s h := by
  induction hr with
  | start _ => exact .start c
  | gen sn fresh _ _ _ ih => exact .gen sn fresh ih
  | exec client m req _ h1 h2 _ h3 ih => exact .exec client m req ih h1 h2 h3
  | ignore client m req _ h1 h2 ih => exact .ignore client m req ih h1 h2

theorem LiveRun.run {c : Cfg} {s : St} {h : List (Nat × Ex)} (hr : LiveRun c s h) : Run c s h := by
  induction hr with
  | start => exact .start c
  | gen sn fresh _ ih => exact .gen sn fresh ih
  | exec client m req _ h1 h2 h3 ih => exact .exec client m req ih h1 h2 h3
  | ignore client m req _ h1 h2 ih => exact .ignore client m req ih h1 h2

theorem mem_insert_create {m : Mgr} {sn : Nat} {p : Nat × Sys} (h : p ∈ create m sn) : p ∈ m ∨ p.2 = lastSys m := by
  unfold create at h
  split at h
  · exact Or.inl h
  · rcases (mem_insertAt _ _ _ _).1 h with h | h
    · exact Or.inr (by rw [h])
    · exact Or.inl h

theorem lastSys_or (m : Mgr) (hm : m ≠ []) : ∃ p ∈ m, p.2 = lastSys m := by
  cases e : m.getLast? with
  | none => exact absurd (List.getLast?_eq_none_iff.1 e) hm
  | some p => exact ⟨p, List.mem_of_getLast? e, by simp [lastSys, e]⟩

/-- a property of all cryptosystems is kept when the change keeps it -/
theorem all_change {P : Sys → Prop} {m : Mgr} {sn : Nat} {f : Sys → Sys} (hm : m ≠ []) (hp : ∀ p ∈ m, P p.2) (hf : ∀ y, P y → P (f y)) :
    modifyAt (effectiveFrom sn) f (create m sn) ≠ [] ∧ ∀ p ∈ modifyAt (effectiveFrom sn) f (create m sn), P p.2 := by
  have hc : ∀ p ∈ create m sn, P p.2 := by
    intro p h
    rcases mem_insert_create h with h | h
    · exact hp p h
    · obtain ⟨x, hx, ex⟩ := lastSys_or m hm
      rw [h, ← ex]
      exact hp x hx
  have hne : create m sn ≠ [] := by
    obtain ⟨x, hx, _⟩ := lastSys_or m hm
    unfold create
    split
    · exact hm
    · intro h
      have : x ∈ insertAt (effectiveFrom sn) (lastSys m) m := (mem_insertAt _ _ _ _).2 (Or.inr hx)
      rw [h] at this
      simp at this
  constructor
  · intro h
    have := congrArg List.length h
    simp [modifyAt] at this
    exact hne this
  · intro p h
    obtain ⟨q, hq, _, e2⟩ := mem_modifyAt h
    rw [e2]
    split
    · exact hf _ (hc q hq)
    · exact hc q hq

structure OwnInv (pubOf : Bytes → Key) (c : Cfg) (s : St) : Prop where
  cands : ∀ x ∈ s.cands, x.2.pub = pubOf x.2.priv
  cand : ∀ p, s.cand = some p → p.pub = pubOf p.priv
  ne : s.mgr ≠ []
  sys : ∀ x ∈ s.mgr, x.2.vk c.me = pubOf x.2.secret

theorem candAt_mem {s : St} {sn : Nat} {p : Pair} (h : candAt s sn = some p) : (sn, p) ∈ s.cands := by
  unfold candAt at h
  rw [Option.map_eq_some_iff] at h
  obtain ⟨x, hx, e⟩ := h
  have h1 := List.mem_of_find?_eq_some hx
  have h2 := List.find?_some hx
  simp at h2
  have : x = (sn, p) := Prod.ext h2 e
  rw [← this]
  exact h1

theorem install_cands {c : Cfg} {s s' : St} {m : Msg} (h : install c s m = .ok s') :
    (∀ x ∈ s'.cands, x ∈ s.cands) ∧ (∀ p, s'.cand = some p → s.cand = some p) := by
  unfold install at h
  split at h
  · split at h
    · simp at h
    · split at h
      · simp at h
      · simp only [Except.ok.injEq] at h
        subst h
        refine ⟨fun x hx => (List.mem_filter.1 hx).1, fun p hp => by simp at hp⟩
  · simp only [Except.ok.injEq] at h
    subst h
    exact ⟨fun x hx => hx, fun p hp => hp⟩

theorem exec_cands {c : Cfg} {s s' : St} {client : Nat} {m : Msg} {req : Nat} (h : executeKeyExchange c s client m req = .ok s') :
    (∀ x ∈ s'.cands, x ∈ s.cands) ∧ (∀ p, s'.cand = some p → s.cand = some p) := by
  unfold executeKeyExchange onKeyExchange at h
  split at h
  · cases hp : push c s m with
    | error x =>
      rw [hp] at h
      simp at h
    | ok s1 =>
      rw [hp] at h
      simp only at h
      have e : s1.cands = s.cands ∧ s1.cand = s.cand := by
        unfold push at hp
        simp only at hp
        split at hp
        · simp at hp
        · split at hp
          · simp at hp
          · simp only [Except.ok.injEq] at hp
            rw [← hp]
            exact ⟨rfl, rfl⟩
      have := install_cands h
      rw [e.1, e.2] at this
      exact this
  · simp at h
    rw [h]
    exact ⟨fun x hx => hx, fun p hp => hp⟩

theorem own_inv {pubOf : Bytes → Key} {c : Cfg} {s : St} {h : List (Nat × Ex)} (hr : OwnRun pubOf c s h) : OwnInv pubOf c s := by
  induction hr with
  | start hi =>
    refine ⟨by simp [boot], by simp [boot], by simp [boot], ?_⟩
    intro x hx
    simp [boot] at hx
    subst hx
    exact hi
  | gen sn fresh _ hf hno ih =>
    unfold generate
    split
    · exact ih
    · split
      · refine ⟨?_, ?_, ih.ne, ih.sys⟩
        · intro x hx
          rcases List.mem_cons.1 hx with rfl | hx
          · exact hf
          · exact ih.cands x hx
        · intro p hp
          simp at hp
          subst hp
          exact hf
      · next _ p hc =>
        refine ⟨?_, ?_, ih.ne, ih.sys⟩
        · intro x hx
          rcases List.mem_cons.1 hx with rfl | hx
          · exact ih.cand _ hc
          · exact ih.cands x (List.mem_filter.1 hx).1
        · intro p' hp'
          exact ih.cand p' hp'
      · next _ hc hs =>
        rw [hno hc] at hs
        simp at hs
  | exec client m req _ hsn ha hown hx ih =>
    obtain ⟨_, _, _, _, h5⟩ := exec_cases ha hx
    obtain ⟨k1, k2⟩ := exec_cands hx
    rcases h5 with ⟨hme, q, hq, hpub, _, _, e1⟩ | ⟨hno, _, e1⟩
    · have hc := all_change (P := fun y => y.vk c.me = pubOf y.secret) (sn := m.sn) (f := fun s => s.setOwn c.me q.priv m.key) ih.ne ih.sys
        (fun y _ => by
          show (if c.me = c.me then m.key else y.vk c.me) = pubOf q.priv
          rw [if_pos rfl, ← hpub]
          exact ih.cands _ (candAt_mem hq))
      refine ⟨fun x hx => ih.cands x (k1 x hx), fun p hp => ih.cand p (k2 p hp), ?_, ?_⟩
      · rw [e1]
        exact hc.1
      · rw [e1]
        exact hc.2
    · have hne : m.rep ≠ c.me := by
        intro hme
        rcases hno with h1 | h1
        · exact h1 hme
        · have := hown hme
          rw [h1] at this
          simp at this
      have hc := all_change (P := fun y => y.vk c.me = pubOf y.secret) (sn := m.sn) (f := fun s => s.setVk m.rep m.key) ih.ne ih.sys
        (fun y hy => by
          show (if c.me = m.rep then m.key else y.vk c.me) = pubOf y.secret
          rw [if_neg (by omega)]
          exact hy)
      refine ⟨fun x hx => ih.cands x (k1 x hx), fun p hp => ih.cand p (k2 p hp), ?_, ?_⟩
      · rw [e1]
        exact hc.1
      · rw [e1]
        exact hc.2
  | ignore client m req _ ha hx ih =>
    rw [ignore_same ha hx]
    exact ih

theorem sysAt_mem {m : Mgr} {q : Nat} {y : Sys} (h : sysAt m q = some y) : ∃ p ∈ m, p.2 = y := by
  unfold sysAt at h
  rw [Option.map_eq_some_iff] at h
  obtain ⟨p, hp, e⟩ := h
  exact ⟨p, by simpa using List.mem_of_find?_eq_some hp, e⟩

/-- **A replica that stays up signs with the secret of its key in force**: at every sequence number the public key of the secret with which it
signs is the key with which every other replica that stays up and has executed the same exchanges verifies its shares.  Missing: replicas that were restarted (false, `restart_forgets_secret`, `crash_loses_secret`). -/
theorem own_secret_matches_partial {pubOf : Bytes → Key} {c1 c2 : Cfg} {s1 s2 : St} {h1 h2 : List (Nat × Ex)} (r1 : OwnRun pubOf c1 s1 h1)
    (r2 : LiveRun c2 s2 h2) (he : h1.map (·.2) = h2.map (·.2)) (hinit : c1.init.vk = c2.init.vk) (q : Nat) :
    (sysAt s1.mgr q).map (fun y => pubOf y.secret) = (sysAt s2.mgr q).map (fun y => y.vk c1.me) := by
  have h1 := live_replicas_agree r1.live r2 he hinit q
  have h2 : (sysAt s1.mgr q).map (fun y => pubOf y.secret) = (sysAt s1.mgr q).map (fun y => y.vk c1.me) := by
    cases hs : sysAt s1.mgr q with
    | none => rfl
    | some y =>
      obtain ⟨p, hp, e⟩ := sysAt_mem hs
      have := (own_inv r1).sys p hp
      rw [e] at this
      simp [this]
  rw [h2]
  have h3 := congrArg (fun o => o.map (fun v : Nat → Key => v c1.me)) h1
  simp only [Option.map_map] at h3
  exact h3

/-- and with the exchanges in order that key is the one of the history.  Missing: as above. -/
theorem own_key_follows_history_partial {pubOf : Bytes → Key} {c c2 : Cfg} {s s2 : St} {h h2 : List (Nat × Ex)} (hr : OwnRun pubOf c s h)
    (hr2 : LiveRun c2 s2 h2) (he : h.map (·.2) = h2.map (·.2)) (hinit : c.init.vk = c2.init.vk)
    (hps : c2.pageSize < 2 ^ 63) (hne : c.me ≠ c2.me) (ho : InOrder (h.map (·.2))) (q : Nat) :
    ∃ y, sysAt s.mgr q = some y ∧ pubOf y.secret = keyAt c.init.vk (h.map (·.2)) c.me q := by
  have h1 := own_secret_matches_partial hr hr2 he hinit q
  obtain ⟨y2, e2, k2⟩ := keys_follow_history_partial hr2.run hps (he ▸ ho) c.me q hne
  rw [e2] at h1
  cases hs : sysAt s.mgr q with
  | none =>
    rw [hs] at h1
    simp at h1
  | some y =>
    rw [hs] at h1
    simp at h1
    refine ⟨y, rfl, ?_⟩
    rw [h1, k2, hinit, he]

/-! ## After a restart -/

/-- the secret of checkpoint `c` among the stored ones -/
def secretAt (init : Bytes) (privs : List (Nat × Bytes)) (c : Nat) : Bytes :=
  match (privs.filter (fun p => decide (effectiveFrom p.1 = c))).getLast? with
  | some p => p.2
  | none => init

theorem secretAt_snoc (init : Bytes) (l : List (Nat × Bytes)) (p : Nat × Bytes) (c : Nat) :
    secretAt init (l ++ [p]) c = if effectiveFrom p.1 = c then p.2 else secretAt init l c := by
  unfold secretAt
  rw [List.filter_append]
  by_cases hc : effectiveFrom p.1 = c
  · rw [if_pos hc]
    have : List.filter (fun p : Nat × Bytes => decide (effectiveFrom p.1 = c)) [p] = [p] := by simp [List.filter, hc]
    rw [this]
    simp
  · rw [if_neg hc, List.filter_cons_of_neg (by simpa using hc)]
    simp

theorem public_secret (init : Bytes) (l : List Ex) : ∀ m : Mgr, m ≠ [] → (∀ p ∈ m, p.2.secret = init) →
    ∀ p ∈ replayPublic m l, p.2.secret = init := by
  induction l with
  | nil => intro m _ h; exact h
  | cons e l ih =>
    intro m hm h
    have hc := all_change (P := fun y => y.secret = init) (sn := e.sn) (f := fun s => s.setVk e.rep e.key) hm h (fun y hy => hy)
    exact ih _ hc.1 hc.2

theorem private_secret (init : Bytes) (me : Nat) (store : Nat → List (Nat × Key)) (l : List (Nat × Bytes)) :
    ∀ (pre : List (Nat × Bytes)) (m m' : Mgr), (∀ p ∈ l, hasKey (effectiveFrom p.1) m = true) →
      (∀ p ∈ m, p.2.secret = secretAt init pre p.1) → replayPrivate me store m l = .ok m' →
      ∀ p ∈ m', p.2.secret = secretAt init (pre ++ l) p.1 := by
  induction l with
  | nil =>
    intro pre m m' _ h hx
    simp [replayPrivate] at hx
    subst hx
    simpa using h
  | cons a l ih =>
    intro pre m m' hk h hx
    obtain ⟨sn, pr⟩ := a
    unfold replayPrivate at hx
    split at hx
    · simp at hx
    · next k _ =>
      have hhas := hk (sn, pr) (by simp)
      have hop : onPrivate m me pr k sn = modifyAt (effectiveFrom sn) (fun s => s.setOwn me pr k) m := by
        unfold onPrivate
        rw [create_has m sn hhas]
      rw [hop] at hx
      have := ih (pre ++ [(sn, pr)]) _ m' (by
        intro p hp
        rw [hasKey_modifyAt]
        exact hk p (by simp [hp])) (by
        intro p hp
        obtain ⟨q, hq, e1, e2⟩ := mem_modifyAt hp
        rw [secretAt_snoc, e2, ← e1]
        by_cases hc : q.1 = effectiveFrom sn
        · rw [if_pos hc, if_pos hc.symm]
          rfl
        · rw [if_neg hc, if_neg (fun h => hc h.symm)]
          exact h q hq) hx
      simpa using this

/-- **The secret after a restart, exactly**: at sequence number `q` a replica that was restarted signs with the secret that it stored for the
checkpoint of the latest exchange *of any replica* that is in force; with the configured one when it stored none for that checkpoint. -/
theorem restart_secret {c : Cfg} {s s' : St} {h : List (Nat × Ex)} (hr : Run c s h) (hps : c.pageSize < 2 ^ 63)
    (ho : InOrder (h.map (·.2))) (hx : restart c s = .ok s') (q : Nat) :
    ∃ y d, sysAt s'.mgr q = some y ∧ y.secret = secretAt c.init.secret s.privs d ∧ d ≤ (q - 1) / 150 ∧
      (d = 0 ∨ ∃ e ∈ h, e.2.sn / 150 + 2 = d) ∧ ∀ e ∈ h, e.2.sn / 150 + 2 ≤ (q - 1) / 150 → e.2.sn / 150 + 2 ≤ d := by
  have hi := run_inv hr hps ho
  have hi' := run_inv (.restart hr hx) hps ho
  obtain ⟨p, hp, e, h1, h2⟩ := sysAt_spec hi'.struct q
  have hsec : ∀ p ∈ s'.mgr, p.2.secret = secretAt c.init.secret s.privs p.1 := by
    unfold restart at hx
    rw [loadPages_inv hi hps] at hx
    simp only at hx
    split at hx
    · simp at hx
    · next m hm =>
      simp only [Except.ok.injEq] at hx
      have hmgr : s'.mgr = m := by rw [← hx]
      rw [hmgr]
      unfold notify at hm
      obtain ⟨o1, o2⟩ := ordered_spec c.n _ ho hi.rep
      have hs := (replay_spec (init := c.init.vk) (h := []) (x := List.map (fun x : Nat × Ex => x.2) h) 0 (struct_start c.init) (vk_start c.init 0) ho o1 o2).1
      have := private_secret c.init.secret c.me _ s.privs [] _ m (by
        intro p hp
        obtain ⟨e, he, _, e2⟩ := hi.privs p hp
        rw [← e2]
        exact hs.all e he) (public_secret c.init.secret _ _ (by simp) (by simp)) hm
      simpa using this
  refine ⟨p.2, p.1, e, hsec p hp, h1, ?_, ?_⟩
  · rcases hi'.struct.only p hp with h0 | ⟨x, hx, ex⟩
    · exact Or.inl h0
    · obtain ⟨y, hy, ey⟩ := List.mem_map.1 hx
      exact Or.inr ⟨y, hy, by rw [ey]; exact ex⟩
  · intro x hx hle
    obtain ⟨z, hz, ez⟩ := (hasKey_iff _ _).1 (hi'.struct.all x.2 (List.mem_map.2 ⟨x, hx, rfl⟩))
    have := h2 z hz (by rw [ez]; exact hle)
    rw [ez] at this
    exact this

end Verif.Keys
