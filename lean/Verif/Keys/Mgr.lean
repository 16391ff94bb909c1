import Verif.Keys.Codec
/-!
# The cryptosystems follow the history
-/
set_option linter.unusedSimpArgs false
set_option linter.unusedVariables false
namespace Verif.Keys

/-- `keyAt` by checkpoint -/
def lastKey (init : Nat → Key) (h : List Ex) (r c : Nat) : Key :=
  match (h.filter (fun e => decide (e.rep = r ∧ effectiveFrom e.sn ≤ c))).getLast? with
  | some e => e.key
  | none => init r

theorem keyAt_eq (init : Nat → Key) (h : List Ex) (r q : Nat) : keyAt init h r q = lastKey init h r (checkpointOf q) := rfl

theorem lastKey_nil (init : Nat → Key) (r c : Nat) : lastKey init [] r c = init r := rfl

theorem lastKey_snoc (init : Nat → Key) (h : List Ex) (e : Ex) (r c : Nat) :
    lastKey init (h ++ [e]) r c = if e.rep = r ∧ effectiveFrom e.sn ≤ c then e.key else lastKey init h r c := by
  unfold lastKey
  rw [List.filter_append]
  by_cases hc : e.rep = r ∧ effectiveFrom e.sn ≤ c
  · have : List.filter (fun e : Ex => decide (e.rep = r ∧ effectiveFrom e.sn ≤ c)) [e] = [e] := by
      simp [List.filter, hc]
    rw [this, if_pos hc]
    simp
  · have : List.filter (fun e : Ex => decide (e.rep = r ∧ effectiveFrom e.sn ≤ c)) [e] = [] := by
      rw [List.filter_cons_of_neg (by simpa using hc)]
      rfl
    rw [this, if_neg hc]
    simp

theorem lastKey_filter (init : Nat → Key) (h : List Ex) (r c : Nat) :
    lastKey init h r c = lastKey init (h.filter (fun e => decide (e.rep = r))) r c := by
  unfold lastKey
  rw [List.filter_filter]
  have : List.filter (fun e : Ex => decide (e.rep = r ∧ effectiveFrom e.sn ≤ c)) h =
      List.filter (fun e : Ex => decide (e.rep = r ∧ effectiveFrom e.sn ≤ c) && decide (e.rep = r)) h := by
    apply List.filter_congr
    intro x _
    by_cases h1 : x.rep = r <;> simp [h1]
  rw [this]

theorem lastKey_congr (init : Nat → Key) (h h' : List Ex) (r c : Nat)
    (e : h.filter (fun e => decide (e.rep = r)) = h'.filter (fun e => decide (e.rep = r))) :
    lastKey init h r c = lastKey init h' r c := by
  rw [lastKey_filter, e, ← lastKey_filter]

/-- what comes later does not matter for checkpoints before -/
theorem lastKey_append (init : Nat → Key) (h x : List Ex) (r c : Nat) (hx : ∀ e ∈ x, e.rep = r → c < effectiveFrom e.sn) :
    lastKey init (h ++ x) r c = lastKey init h r c := by
  unfold lastKey
  rw [List.filter_append]
  have : List.filter (fun e : Ex => decide (e.rep = r ∧ effectiveFrom e.sn ≤ c)) x = [] := by
    rw [List.filter_eq_nil_iff]
    intro e he
    have := hx e he
    simp
    intro h1
    have := this h1
    omega
  rw [this, List.append_nil]

/-- no exchange of `r` takes effect between the two checkpoints -/
theorem lastKey_between (init : Nat → Key) (h : List Ex) (r c d : Nat)
    (hx : ∀ e ∈ h, e.rep = r → (effectiveFrom e.sn ≤ c ↔ effectiveFrom e.sn ≤ d)) : lastKey init h r c = lastKey init h r d := by
  unfold lastKey
  have : List.filter (fun e : Ex => decide (e.rep = r ∧ effectiveFrom e.sn ≤ c)) h =
      List.filter (fun e : Ex => decide (e.rep = r ∧ effectiveFrom e.sn ≤ d)) h := by
    apply List.filter_congr
    intro x hxm
    by_cases h1 : x.rep = r
    · have := hx x hxm h1
      simp [h1, this]
    · simp [h1]
  rw [this]

theorem effective_mono {a b : Nat} (h : a ≤ b) : effectiveFrom a ≤ effectiveFrom b := by
  unfold effectiveFrom
  have := Nat.div_le_div_right (c := checkpointWindow) h
  omega

/-! ## The map -/

def Asc (m : Mgr) : Prop := m.Pairwise (fun a b => a.1 < b.1)

theorem hasKey_iff {α : Type} (c : Nat) (l : List (Nat × α)) : hasKey c l = true ↔ ∃ p ∈ l, p.1 = c := by
  simp [hasKey]

theorem hasKey_append {α : Type} (c : Nat) (l l' : List (Nat × α)) : hasKey c (l ++ l') = (hasKey c l || hasKey c l') := by
  simp [hasKey]

theorem insertAt_end {α : Type} (c : Nat) (y : α) (l : List (Nat × α)) (h : ∀ p ∈ l, p.1 ≤ c) : insertAt c y l = l ++ [(c, y)] := by
  induction l with
  | nil => rfl
  | cons p l ih =>
    obtain ⟨d, z⟩ := p
    have := h (d, z) (by simp)
    unfold insertAt
    rw [if_neg (by simpa using this), ih (fun p hp => h p (by simp [hp]))]
    rfl

theorem hasKey_modifyAt (c d : Nat) (f : Sys → Sys) (m : Mgr) : hasKey d (modifyAt c f m) = hasKey d m := by
  induction m with
  | nil => rfl
  | cons p m ih =>
    have : hasKey d (modifyAt c f (p :: m)) = ((if p.1 = c then (p.1, f p.2) else p).1 == d || hasKey d (modifyAt c f m)) := rfl
    rw [this, ih]
    have : hasKey d (p :: m) = (p.1 == d || hasKey d m) := rfl
    rw [this]
    split <;> rfl

theorem modifyAt_keys (c : Nat) (f : Sys → Sys) (m : Mgr) : (modifyAt c f m).map (·.1) = m.map (·.1) := by
  unfold modifyAt
  rw [List.map_map]
  apply List.map_congr_left
  intro p _
  simp only [Function.comp]
  split <;> rfl

theorem asc_keys {m : Mgr} : Asc m ↔ (m.map (·.1)).Pairwise (· < ·) := by
  unfold Asc
  rw [List.pairwise_map]

theorem mem_modifyAt {c : Nat} {f : Sys → Sys} {m : Mgr} {p : Nat × Sys} (h : p ∈ modifyAt c f m) :
    ∃ q ∈ m, q.1 = p.1 ∧ p.2 = if q.1 = c then f q.2 else q.2 := by
  unfold modifyAt at h
  rw [List.mem_map] at h
  obtain ⟨q, hq, e⟩ := h
  refine ⟨q, hq, ?_⟩
  subst e
  split <;> simp_all

/-- the map is made of the initial checkpoint and those of the exchanges -/
structure Struct (h : List Ex) (m : Mgr) : Prop where
  asc : Asc m
  zero : hasKey 0 m = true
  all : ∀ e ∈ h, hasKey (effectiveFrom e.sn) m = true
  only : ∀ p ∈ m, p.1 = 0 ∨ ∃ e ∈ h, effectiveFrom e.sn = p.1

/-- the key of `r` in each cryptosystem -/
def Vk (init : Nat → Key) (h : List Ex) (r : Nat) (m : Mgr) : Prop := ∀ p ∈ m, p.2.vk r = lastKey init h r p.1

theorem struct_start (i : Sys) : Struct [] [(0, i)] :=
  ⟨by simp [Asc], by simp [hasKey], by simp, by simp⟩

theorem vk_start (i : Sys) (r : Nat) : Vk i.vk [] r [(0, i)] := by
  intro p hp
  simp at hp
  subst hp
  rfl

/-- the cryptosystem used for `q` -/
theorem sysAt_spec {h : List Ex} {m : Mgr} (hs : Struct h m) (q : Nat) :
    ∃ p ∈ m, sysAt m q = some p.2 ∧ p.1 ≤ checkpointOf q ∧ ∀ x ∈ m, x.1 ≤ checkpointOf q → x.1 ≤ p.1 := by
  obtain ⟨z, hz, ez⟩ := (hasKey_iff 0 m).1 hs.zero
  have hex : (m.reverse.find? (fun p => decide (p.1 ≤ checkpointOf q))).isSome := by
    rw [List.find?_isSome]
    exact ⟨z, by simpa using hz, by simp [ez]⟩
  obtain ⟨p, hp⟩ := Option.isSome_iff_exists.1 hex
  obtain ⟨hp1, as, bs, heq, hno⟩ := List.find?_eq_some_iff_append.1 hp
  have hp1 : p.1 ≤ checkpointOf q := by simpa using hp1
  have hpm : p ∈ m := by
    have : p ∈ m.reverse := by rw [heq]; simp
    simpa using this
  refine ⟨p, hpm, by simp [sysAt, hp], hp1, fun x hx hle => ?_⟩
  have hx' : x ∈ as ++ p :: bs := by rw [← heq]; simpa using hx
  have hrev : (as ++ p :: bs).Pairwise (fun a b => b.1 < a.1) := by
    rw [← heq, List.pairwise_reverse]
    exact hs.asc
  rw [List.mem_append, List.mem_cons] at hx'
  rcases hx' with h1 | rfl | h1
  · have := hno x h1
    simp at this
    omega
  · omega
  · have h2 := (List.pairwise_append.1 hrev).2.1
    have := (List.pairwise_cons.1 h2).1 x h1
    omega

theorem sysAt_key {init : Nat → Key} {h : List Ex} {m : Mgr} {r : Nat} (hs : Struct h m) (hv : Vk init h r m) (q : Nat) :
    ∃ y, sysAt m q = some y ∧ y.vk r = keyAt init h r q := by
  obtain ⟨p, hp, e, h1, h2⟩ := sysAt_spec hs q
  refine ⟨p.2, e, ?_⟩
  rw [hv p hp, keyAt_eq]
  apply lastKey_between
  intro x hx _
  constructor
  · intro hle
    omega
  · intro hle
    obtain ⟨z, hz, ez⟩ := (hasKey_iff _ m).1 (hs.all x hx)
    have := h2 z hz (by omega)
    omega

/-! ## An exchange that comes last -/

theorem create_has (m : Mgr) (sn : Nat) (h : hasKey (effectiveFrom sn) m = true) : create m sn = m := by
  unfold create
  rw [if_pos h]

theorem create_new (m : Mgr) (sn : Nat) (h : hasKey (effectiveFrom sn) m = false) (hl : ∀ p ∈ m, p.1 ≤ effectiveFrom sn) :
    create m sn = m ++ [(effectiveFrom sn, lastSys m)] := by
  unfold create
  rw [if_neg (by simp [h]), insertAt_end _ _ _ hl]

theorem lastSys_mem {m : Mgr} (ha : Asc m) (hz : hasKey 0 m = true) : ∃ p ∈ m, p.2 = lastSys m ∧ ∀ x ∈ m, x.1 ≤ p.1 := by
  cases hm : m.getLast? with
  | none =>
    rw [List.getLast?_eq_none_iff] at hm
    subst hm
    simp [hasKey] at hz
  | some p =>
    obtain ⟨l, rfl⟩ := List.getLast?_eq_some_iff.1 hm
    refine ⟨p, by simp, by simp [lastSys, hm], fun x hx => ?_⟩
    rw [List.mem_append] at hx
    rcases hx with h1 | h1
    · have := (List.pairwise_append.1 ha).2.2 x h1 p (by simp)
      omega
    · simp at h1
      subst h1
      omega

theorem asc_modifyAt {c : Nat} {f : Sys → Sys} {m : Mgr} (h : Asc m) : Asc (modifyAt c f m) := by
  rw [asc_keys, modifyAt_keys, ← asc_keys]
  exact h

theorem asc_snoc {m : Mgr} {c : Nat} {y : Sys} (h : Asc m) (hl : ∀ p ∈ m, p.1 < c) : Asc (m ++ [(c, y)]) := by
  unfold Asc
  rw [List.pairwise_append]
  refine ⟨h, by simp, ?_⟩
  intro a ha b hb
  simp at hb
  subst hb
  exact hl a ha

/-- the entries of the map after `create` and a change -/
theorem mem_change {m : Mgr} {sn : Nat} {f : Sys → Sys} {p : Nat × Sys} (hl : hasKey (effectiveFrom sn) m = false → ∀ p ∈ m, p.1 ≤ effectiveFrom sn)
    (h : p ∈ modifyAt (effectiveFrom sn) f (create m sn)) :
    (p ∈ m ∧ p.1 ≠ effectiveFrom sn) ∨ (p.1 = effectiveFrom sn ∧ ∃ q ∈ m, q.1 = p.1 ∧ p.2 = f q.2) ∨
      (hasKey (effectiveFrom sn) m = false ∧ p.1 = effectiveFrom sn ∧ p.2 = f (lastSys m)) := by
  obtain ⟨q, hq, e1, e2⟩ := mem_modifyAt h
  by_cases hk : hasKey (effectiveFrom sn) m = true
  · rw [create_has m sn hk] at hq
    by_cases hc : q.1 = effectiveFrom sn
    · rw [if_pos hc] at e2
      exact Or.inr (Or.inl ⟨by omega, q, hq, e1, e2⟩)
    · rw [if_neg hc] at e2
      have : p = q := Prod.ext e1.symm e2
      subst this
      exact Or.inl ⟨hq, hc⟩
  · have hk : hasKey (effectiveFrom sn) m = false := by simpa using hk
    rw [create_new m sn hk (hl hk), List.mem_append] at hq
    rcases hq with hq | hq
    · by_cases hc : q.1 = effectiveFrom sn
      · rw [if_pos hc] at e2
        exact Or.inr (Or.inl ⟨by omega, q, hq, e1, e2⟩)
      · rw [if_neg hc] at e2
        have : p = q := Prod.ext e1.symm e2
        subst this
        exact Or.inl ⟨hq, hc⟩
    · simp at hq
      subst hq
      simp at e1 e2
      exact Or.inr (Or.inr ⟨hk, e1.symm, e2⟩)

theorem hasKey_create (m : Mgr) (sn d : Nat) (hl : hasKey (effectiveFrom sn) m = false → ∀ p ∈ m, p.1 ≤ effectiveFrom sn) :
    hasKey d (create m sn) = (hasKey d m || decide (effectiveFrom sn = d)) := by
  by_cases hk : hasKey (effectiveFrom sn) m = true
  · rw [create_has m sn hk]
    by_cases hd : effectiveFrom sn = d
    · subst hd
      simp [hk]
    · simp [hd]
  · have hk : hasKey (effectiveFrom sn) m = false := by simpa using hk
    rw [create_new m sn hk (hl hk), hasKey_append]
    simp [hasKey]
    rfl

/-- the keys of the map are small or there is one already -/
theorem asc_change {m : Mgr} {sn : Nat} {f : Sys → Sys} (ha : Asc m)
    (hl : hasKey (effectiveFrom sn) m = false → ∀ p ∈ m, p.1 ≤ effectiveFrom sn) : Asc (modifyAt (effectiveFrom sn) f (create m sn)) := by
  apply asc_modifyAt
  by_cases hk : hasKey (effectiveFrom sn) m = true
  · rw [create_has m sn hk]
    exact ha
  · have hk' : hasKey (effectiveFrom sn) m = false := by simpa using hk
    rw [create_new m sn hk' (hl hk')]
    apply asc_snoc ha
    intro p hp
    have := hl hk' p hp
    have : p.1 ≠ effectiveFrom sn := fun e => hk ((hasKey_iff _ _).2 ⟨p, hp, e⟩)
    omega

theorem struct_change {h : List Ex} {m : Mgr} {e : Ex} {f : Sys → Sys} (hs : Struct h m)
    (hl : hasKey (effectiveFrom e.sn) m = false → ∀ p ∈ m, p.1 ≤ effectiveFrom e.sn) :
    Struct (h ++ [e]) (modifyAt (effectiveFrom e.sn) f (create m e.sn)) := by
  refine ⟨asc_change hs.asc hl, ?_, ?_, ?_⟩
  · rw [hasKey_modifyAt, hasKey_create _ _ _ hl, hs.zero]
    rfl
  · intro x hx
    rw [hasKey_modifyAt, hasKey_create _ _ _ hl]
    rw [List.mem_append] at hx
    rcases hx with hx | hx
    · rw [hs.all x hx]
      rfl
    · simp at hx
      subst hx
      simp
  · intro p hp
    rcases mem_change hl hp with ⟨h1, _⟩ | ⟨h1, _⟩ | ⟨_, h1, _⟩
    · rcases hs.only p h1 with h2 | ⟨x, hx, e2⟩
      · exact Or.inl h2
      · exact Or.inr ⟨x, by simp [hx], e2⟩
    · exact Or.inr ⟨e, by simp, h1.symm⟩
    · exact Or.inr ⟨e, by simp, h1.symm⟩

theorem bound_of_order {h : List Ex} {m : Mgr} {e : Ex} (hs : Struct h m) (hm : ∀ x ∈ h, x.sn ≤ e.sn) : ∀ p ∈ m, p.1 ≤ effectiveFrom e.sn := by
  intro p hp
  rcases hs.only p hp with h0 | ⟨x, hx, e1⟩
  · omega
  · have := effective_mono (hm x hx)
    omega

theorem vk_change {init : Nat → Key} {h : List Ex} {m : Mgr} {e : Ex} {f : Sys → Sys} {r : Nat} (hs : Struct h m)
    (hm : ∀ x ∈ h, x.sn ≤ e.sn) (hv : Vk init h r m) (hf : ∀ y : Sys, (f y).vk r = if r = e.rep then e.key else y.vk r) :
    Vk init (h ++ [e]) r (modifyAt (effectiveFrom e.sn) f (create m e.sn)) := by
  have hb := bound_of_order hs hm
  intro p hp
  rw [lastKey_snoc]
  rcases mem_change (fun _ => hb) hp with ⟨h1, h2⟩ | ⟨h1, q, hq, e1, e2⟩ | ⟨h0, h1, h2⟩
  · have := hb p h1
    rw [if_neg (by omega)]
    exact hv p h1
  · rw [e2, hf]
    by_cases hr : r = e.rep
    · rw [if_pos hr, if_pos ⟨hr.symm, by omega⟩]
    · rw [if_neg hr, if_neg (by intro hc; exact hr hc.1.symm), hv q hq, e1]
  · rw [h2, hf]
    by_cases hr : r = e.rep
    · rw [if_pos hr, if_pos ⟨hr.symm, by omega⟩]
    · rw [if_neg hr, if_neg (by intro hc; exact hr hc.1.symm)]
      obtain ⟨l, hlm, el, hmax⟩ := lastSys_mem hs.asc hs.zero
      rw [← el, hv l hlm]
      apply lastKey_between
      intro x hx _
      obtain ⟨z, hz, ez⟩ := (hasKey_iff _ m).1 (hs.all x hx)
      have := hmax z hz
      have := hb z hz
      omega

/-! ## The exchanges again, in the order of their sequence numbers -/

/-- what holds after the first exchanges of the list -/
structure Part (init : Nat → Key) (h L : List Ex) (r : Nat) (p : List Ex) (m : Mgr) : Prop where
  asc : Asc m
  zero : hasKey 0 m = true
  old : ∀ e ∈ h, hasKey (effectiveFrom e.sn) m = true
  done : ∀ e ∈ p, hasKey (effectiveFrom e.sn) m = true
  only : ∀ q ∈ m, q.1 = 0 ∨ (∃ e ∈ h, effectiveFrom e.sn = q.1) ∨ ∃ e ∈ p, effectiveFrom e.sn = q.1
  d1 : ∀ q ∈ m, (∃ e ∈ p, e.rep = r ∧ effectiveFrom e.sn = q.1) → q.2.vk r = lastKey init p r q.1
  d2 : ∀ q ∈ m, (∀ e ∈ L, e.rep = r → effectiveFrom e.sn ≠ q.1) → q.2.vk r = lastKey init L r q.1

theorem replay_step {init : Nat → Key} {h h2 L p l : List Ex} {e : Ex} {r : Nat} {m : Mgr}
    (hL : L = p ++ e :: l) (hsort : L.Pairwise (fun a b => a.sn ≤ b.sn))
    (hnew : hasKey (effectiveFrom e.sn) m = false → ∀ x ∈ h, x.sn ≤ e.sn)
    (hp : Part init h L r p m) : Part init h L r (p ++ [e]) (onPublic m e.key e.rep e.sn) := by
  have hs := hsort
  rw [hL, List.pairwise_append] at hs
  obtain ⟨_, hs2, hs3⟩ := hs
  have hpe : ∀ x ∈ p, x.sn ≤ e.sn := fun x hx => hs3 x hx e (by simp)
  have hel : ∀ x ∈ l, e.sn ≤ x.sn := fun x hx => (List.pairwise_cons.1 hs2).1 x hx
  have hb : hasKey (effectiveFrom e.sn) m = false → ∀ q ∈ m, q.1 ≤ effectiveFrom e.sn := by
    intro hk q hq
    rcases hp.only q hq with h0 | ⟨x, hx, ex⟩ | ⟨x, hx, ex⟩
    · omega
    · have := effective_mono (hnew hk x hx)
      omega
    · have := effective_mono (hpe x hx)
      omega
  have hkc : ∀ d, hasKey d (onPublic m e.key e.rep e.sn) = (hasKey d m || decide (effectiveFrom e.sn = d)) := by
    intro d
    unfold onPublic
    rw [hasKey_modifyAt, hasKey_create _ _ _ hb]
  refine ⟨asc_change hp.asc hb, ?_, ?_, ?_, ?_, ?_, ?_⟩
  · rw [hkc, hp.zero]
    rfl
  · intro x hx
    rw [hkc, hp.old x hx]
    rfl
  · intro x hx
    rw [hkc]
    rw [List.mem_append] at hx
    rcases hx with hx | hx
    · rw [hp.done x hx]
      rfl
    · simp at hx
      subst hx
      simp
  · intro q hq
    rcases mem_change hb hq with ⟨h1, _⟩ | ⟨h1, _⟩ | ⟨_, h1, _⟩
    · rcases hp.only q h1 with h0 | h2 | ⟨x, hx, ex⟩
      · exact Or.inl h0
      · exact Or.inr (Or.inl h2)
      · exact Or.inr (Or.inr ⟨x, by simp [hx], ex⟩)
    · exact Or.inr (Or.inr ⟨e, by simp, h1.symm⟩)
    · exact Or.inr (Or.inr ⟨e, by simp, h1.symm⟩)
  · -- d1
    intro q hq hex
    rw [lastKey_snoc]
    rcases mem_change hb hq with ⟨h1, h2⟩ | ⟨h1, q', hq', e1, e2⟩ | ⟨h0, h1, h2⟩
    · obtain ⟨x, hx, hr, ex⟩ := hex
      have hxp : x ∈ p := by
        rw [List.mem_append] at hx
        rcases hx with hx | hx
        · exact hx
        · simp at hx
          subst hx
          exact absurd ex.symm h2
      have := effective_mono (hpe x hxp)
      rw [if_neg (by omega)]
      exact hp.d1 q h1 ⟨x, hxp, hr, ex⟩
    · rw [e2]
      show (if r = e.rep then e.key else q'.2.vk r) = _
      by_cases hr : r = e.rep
      · rw [if_pos hr, if_pos ⟨hr.symm, by omega⟩]
      · rw [if_neg hr, if_neg (by intro hc; exact hr hc.1.symm)]
        obtain ⟨x, hx, hxr, ex⟩ := hex
        have hxp : x ∈ p := by
          rw [List.mem_append] at hx
          rcases hx with hx | hx
          · exact hx
          · simp at hx
            subst hx
            exact absurd hxr.symm hr
        rw [hp.d1 q' hq' ⟨x, hxp, hxr, by omega⟩, e1]
    · rw [h2]
      show (if r = e.rep then e.key else (lastSys m).vk r) = _
      by_cases hr : r = e.rep
      · rw [if_pos hr, if_pos ⟨hr.symm, by omega⟩]
      · obtain ⟨x, hx, hxr, ex⟩ := hex
        rw [List.mem_append] at hx
        rcases hx with hx | hx
        · have := hp.done x hx
          rw [ex, h1, h0] at this
          exact absurd this (by simp)
        · simp at hx
          subst hx
          exact absurd hxr.symm hr
  · -- d2
    intro q hq hno
    rcases mem_change hb hq with ⟨h1, h2⟩ | ⟨h1, q', hq', e1, e2⟩ | ⟨h0, h1, h2⟩
    · exact hp.d2 q h1 hno
    · have hr : r ≠ e.rep := by
        intro hr
        exact hno e (by rw [hL]; simp) hr.symm h1.symm
      rw [e2]
      show (if r = e.rep then e.key else q'.2.vk r) = _
      rw [if_neg hr, hp.d2 q' hq' (by rw [e1]; exact hno), e1]
    · have hr : r ≠ e.rep := by
        intro hr
        exact hno e (by rw [hL]; simp) hr.symm h1.symm
      rw [h2]
      show (if r = e.rep then e.key else (lastSys m).vk r) = _
      rw [if_neg hr]
      obtain ⟨z, hz, ez, hmax⟩ := lastSys_mem hp.asc hp.zero
      have hzlt : z.1 < effectiveFrom e.sn := by
        have := hb h0 z hz
        have : z.1 ≠ effectiveFrom e.sn := by
          intro hc
          have := (hasKey_iff (effectiveFrom e.sn) m).2 ⟨z, hz, hc⟩
          rw [h0] at this
          exact absurd this (by simp)
        omega
      have hpin : ∀ x ∈ L, effectiveFrom x.sn < effectiveFrom e.sn → x ∈ p := by
        intro x hx hlt
        rw [hL, List.mem_append, List.mem_cons] at hx
        rcases hx with hx | rfl | hx
        · exact hx
        · omega
        · have := effective_mono (hel x hx)
          omega
      have hz1 : z.2.vk r = lastKey init L r z.1 := by
        by_cases hex : ∃ x ∈ L, x.rep = r ∧ effectiveFrom x.sn = z.1
        · obtain ⟨x, hx, hxr, ex⟩ := hex
          rw [hp.d1 z hz ⟨x, hpin x hx (by omega), hxr, ex⟩, hL, lastKey_append]
          intro y hy _
          rw [List.mem_cons] at hy
          rcases hy with rfl | hy
          · exact hzlt
          · have := effective_mono (hel y hy)
            omega
        · apply hp.d2 z hz
          intro x hx hxr ex
          exact hex ⟨x, hx, hxr, ex⟩
      rw [← ez, hz1, h1]
      apply lastKey_between
      intro x hx hxr
      constructor
      · intro hle
        omega
      · intro hle
        have hne := hno x hx hxr
        rw [h1] at hne
        have := hp.done x (hpin x hx (by omega))
        obtain ⟨w, hw, ew⟩ := (hasKey_iff _ m).1 this
        have := hmax w hw
        omega

theorem replay_all {init : Nat → Key} {h : List Ex} {r : Nat} (L : List Ex) (hsort : L.Pairwise (fun a b => a.sn ≤ b.sn))
    (hnew : ∀ e ∈ L, (∀ x ∈ h, x.sn ≤ e.sn) ∨ e ∈ h) :
    ∀ (l p : List Ex) (m : Mgr), L = p ++ l → Part init h L r p m → Part init h L r L (replayPublic m l) := by
  intro l
  induction l with
  | nil =>
    intro p m hL hp
    have : L = p := by simpa using hL
    subst this
    exact hp
  | cons e l ih =>
    intro p m hL hp
    have hst := replay_step (h2 := h) hL hsort (by
      intro hk
      rcases hnew e (by rw [hL]; simp) with h1 | h1
      · exact h1
      · rw [hp.old e h1] at hk
        exact absurd hk (by simp)) hp
    exact ih (p ++ [e]) _ (by rw [hL]; simp) hst

/-- replaying the exchanges `h2` on the map of a prefix `h` gives the map of `h2` -/
theorem replay_spec {init : Nat → Key} {h x L : List Ex} {m : Mgr} (r : Nat) (hs : Struct h m) (hv : Vk init h r m)
    (hord : InOrder (h ++ x)) (hsort : L.Pairwise (fun a b => a.sn ≤ b.sn))
    (hfil : ∀ r, L.filter (fun e => decide (e.rep = r)) = (h ++ x).filter (fun e => decide (e.rep = r))) :
    Struct (h ++ x) (replayPublic m L) ∧ Vk init (h ++ x) r (replayPublic m L) := by
  have hmem : ∀ e, e ∈ L ↔ e ∈ h ++ x := by
    intro e
    have h1 : e ∈ L.filter (fun e' => decide (e'.rep = e.rep)) ↔ e ∈ (h ++ x).filter (fun e' => decide (e'.rep = e.rep)) := by
      rw [hfil e.rep]
    simpa using h1
  have hox := (List.pairwise_append.1 hord).2.2
  have hnew : ∀ e ∈ L, (∀ y ∈ h, y.sn ≤ e.sn) ∨ e ∈ h := by
    intro e he
    rcases List.mem_append.1 ((hmem e).1 he) with h1 | h1
    · exact Or.inr h1
    · exact Or.inl (fun y hy => hox y hy e h1)
  have h0 : Part init h L r [] m := by
    refine ⟨hs.asc, hs.zero, hs.all, by simp, ?_, by simp, ?_⟩
    · intro q hq
      rcases hs.only q hq with h1 | h1
      · exact Or.inl h1
      · exact Or.inr (Or.inl h1)
    · intro q hq hno
      rw [hv q hq, lastKey_congr init L (h ++ x) r q.1 (hfil r)]
      symm
      apply lastKey_append
      intro e he hr
      have hne := hno e ((hmem e).2 (by simp [he])) hr
      rcases hs.only q hq with h1 | ⟨y, hy, ey⟩
      · rw [h1]
        exact Nat.succ_pos _
      · have := effective_mono (hox y hy e he)
        omega
  have hf := replay_all L hsort hnew L [] m rfl h0
  refine ⟨⟨hf.asc, hf.zero, fun e he => hf.done e ((hmem e).2 he), ?_⟩, ?_⟩
  · intro q hq
    rcases hf.only q hq with h1 | ⟨e, he, ee⟩ | ⟨e, he, ee⟩
    · exact Or.inl h1
    · exact Or.inr ⟨e, by simp [he], ee⟩
    · exact Or.inr ⟨e, (hmem e).1 he, ee⟩
  · intro q hq
    rw [← lastKey_congr init L (h ++ x) r q.1 (hfil r)]
    by_cases hex : ∃ e ∈ L, e.rep = r ∧ effectiveFrom e.sn = q.1
    · exact hf.d1 q hq hex
    · exact hf.d2 q hq (fun e he hr ee => hex ⟨e, he, hr, ee⟩)

end Verif.Keys
