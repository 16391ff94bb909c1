import Verif.Replicas.Model
set_option linter.unusedSimpArgs false
set_option linter.unusedVariables false
/-! Properties of primaries, collectors and principal identifiers (C31). -/
namespace Verif.Replicas

theorem ok_iff {c : Config} : c.ok = true ↔ c.numReplicas = 3 * c.fVal + 2 * c.cVal + 1 := by simp [Config.ok]

/-- C31: in any `n` consecutive views each replica is primary exactly once. -/
theorem primary_once {c : Config} (hn : 0 < c.numReplicas) (v : Nat) {r : Nat} (hr : r < c.numReplicas) :
    ∃ w, (v ≤ w ∧ w < v + c.numReplicas ∧ primaryOfView c w = r) ∧ ∀ w', v ≤ w' → w' < v + c.numReplicas → primaryOfView c w' = r → w' = w := by
  unfold primaryOfView
  have hm := Nat.mod_lt v hn
  have hd := Nat.div_add_mod v c.numReplicas
  by_cases h : v % c.numReplicas ≤ r
  · refine ⟨c.numReplicas * (v / c.numReplicas) + r, ⟨by omega, by omega, ?_⟩, ?_⟩
    · rw [Nat.mul_add_mod]; exact Nat.mod_eq_of_lt hr
    · intro w h1 h2 h3
      have hw := Nat.div_add_mod w c.numReplicas
      have hq : w / c.numReplicas = v / c.numReplicas := by
        have a1 : v / c.numReplicas ≤ w / c.numReplicas := Nat.div_le_div_right h1
        have a2 : w / c.numReplicas < v / c.numReplicas + 1 + 1 := by
          rw [Nat.div_lt_iff_lt_mul hn, Nat.add_mul, Nat.add_mul, Nat.mul_comm]; omega
        by_cases he : w / c.numReplicas = v / c.numReplicas + 1
        · rw [he, Nat.mul_add] at hw; omega
        · omega
      rw [hq, h3] at hw; exact hw.symm
  · refine ⟨c.numReplicas * (v / c.numReplicas + 1) + r, ⟨by rw [Nat.mul_add]; omega, by rw [Nat.mul_add]; omega, ?_⟩, ?_⟩
    · rw [Nat.mul_add_mod]; exact Nat.mod_eq_of_lt hr
    · intro w h1 h2 h3
      have hw := Nat.div_add_mod w c.numReplicas
      have hq : w / c.numReplicas = v / c.numReplicas + 1 := by
        have a1 : v / c.numReplicas ≤ w / c.numReplicas := Nat.div_le_div_right h1
        have a2 : w / c.numReplicas < v / c.numReplicas + 1 + 1 := by
          rw [Nat.div_lt_iff_lt_mul hn, Nat.add_mul, Nat.add_mul, Nat.mul_comm]; omega
        by_cases he : w / c.numReplicas = v / c.numReplicas
        · rw [he] at hw; omega
        · omega
      rw [hq, h3] at hw; exact hw.symm

theorem skipPrimary_lt {n p x : Nat} (hn : 0 < n) (hx : x < n) : skipPrimary n p x < n := by
  unfold skipPrimary
  simp only
  split
  · split
    · exact Nat.mod_lt _ hn
    · exact Nat.mod_lt _ hn
  · exact hx

theorem succ_mod {n x : Nat} (hx : x < n) : (x + 1) % n = if x + 1 = n then 0 else x + 1 := by
  split
  · next h => rw [h, Nat.mod_self]
  · exact Nat.mod_eq_of_lt (by omega)

theorem skipPrimary_eq {n p x : Nat} (hn : 2 ≤ n) (hp : p < n) (hx : x < n) :
    skipPrimary n p x = if x < p then x else if x + 1 < n then x + 1 else if p = 0 then 1 else 0 := by
  unfold skipPrimary
  by_cases h : x < p
  · simp only [show ¬ (x ≥ p) by omega, if_false, h, if_true]
  · simp only [show x ≥ p by omega, if_true, h, if_false]
    rw [succ_mod hx]
    by_cases h1 : x + 1 = n
    · simp only [h1, if_true, Nat.lt_irrefl, if_false]
      by_cases h2 : p = 0
      · subst h2; simp only [if_true]; exact Nat.mod_eq_of_lt (by omega)
      · rw [if_neg (by omega), if_neg h2]
    · rw [if_neg h1, if_neg (by omega), if_pos (by omega)]

/-- C31: the collectors of a view and sequence number: one if `c = 0`, two different ones if `c > 0`; they are replicas, and not the primary
(unless the collector is fixed to the primary by configuration). -/
theorem collectors_ok {c : Config} (hok : c.ok = true) (hn : 2 ≤ c.numReplicas) (view seq : Nat) :
    (collectors c view seq).length = (if c.dynamic ∧ c.cVal ≠ 0 then 2 else 1) ∧ (collectors c view seq).Nodup ∧
    (∀ r ∈ collectors c view seq, r < c.numReplicas) ∧ (c.dynamic = true → ∀ r ∈ collectors c view seq, r ≠ primaryOfView c view) := by
  rw [ok_iff] at hok
  have hp : primaryOfView c view < c.numReplicas := Nat.mod_lt _ (by omega)
  unfold collectors
  by_cases hd : c.dynamic = true
  · simp only [hd, Bool.not_true, Bool.false_eq_true, if_false, true_and]
    by_cases hc : c.cVal = 0
    · simp only [hc, if_true, ne_eq, not_true_eq_false, if_false]
      have hx : seq % c.numReplicas < c.numReplicas := Nat.mod_lt _ (by omega)
      rw [skipPrimary_eq hn hp hx]
      generalize seq % c.numReplicas = x at *
      generalize primaryOfView c view = p at *
      refine ⟨rfl, by simp, ?_, ?_⟩
      · intro r hr; simp at hr; subst hr; split <;> (try split) <;> (try split) <;> omega
      · intro _ r hr; simp at hr; subst hr; split <;> (try split) <;> (try split) <;> omega
    · simp only [hc, if_false, ne_eq, not_false_eq_true, if_true]
      have hh : 0 < c.numReplicas / 2 := by omega
      have hx : seq % (c.numReplicas / 2) < c.numReplicas / 2 := Nat.mod_lt _ hh
      generalize seq % (c.numReplicas / 2) = x at *
      rw [skipPrimary_eq hn hp (show x < c.numReplicas by omega), skipPrimary_eq hn hp (show x + c.numReplicas / 2 < c.numReplicas by omega)]
      generalize primaryOfView c view = p at *
      refine ⟨rfl, ?_, ?_, ?_⟩
      · simp only [List.nodup_cons, List.mem_cons, List.not_mem_nil, or_false, not_false_eq_true, List.nodup_nil, and_true]
        repeat' split
        all_goals omega
      · intro r hr
        simp only [List.mem_cons, List.not_mem_nil, or_false] at hr
        rcases hr with hr | hr <;> subst hr <;> (repeat' split) <;> omega
      · intro _ r hr
        simp only [List.mem_cons, List.not_mem_nil, or_false] at hr
        rcases hr with hr | hr <;> subst hr <;> (repeat' split) <;> omega
  · simp only [hd, Bool.not_false, if_true, false_and, if_false, Bool.false_eq_true]
    refine ⟨rfl, by simp, ?_, fun h => h.elim⟩
    intro r hr; simp at hr; subst hr; exact hp

/-- C31: a replica considers itself a collector exactly if the others do. -/
theorem isCollector_iff (c : Config) (ref view seq : Nat) : isCollector c ref view seq = true ↔ ref ∈ collectors c view seq := by
  unfold isCollector collectors
  by_cases hd : c.dynamic = true
  · by_cases hc : c.cVal = 0
    · simp only [hd, hc, Bool.not_true, Bool.false_eq_true, if_false, if_true, beq_iff_eq, List.mem_singleton]; exact eq_comm
    · simp only [hd, hc, Bool.not_true, Bool.false_eq_true, if_false, if_true, beq_iff_eq, Bool.or_eq_true, List.mem_cons, List.not_mem_nil, or_false]
      rw [eq_comm, @eq_comm _ _ ref]
  · simp only [hd, Bool.not_false, if_true, beq_iff_eq, List.mem_singleton]; exact eq_comm

/-- C31: the answers do not depend on the replica that asks. -/
theorem collectors_same (c : Config) (me : Nat) (view seq : Nat) :
    collectors { c with replicaId := me } view seq = collectors c view seq ∧ primaryOfView { c with replicaId := me } view = primaryOfView c view := ⟨rfl, rfl⟩

/-- C31: within a view every replica but the primary is collector for some sequence number in any `n` consecutive ones. -/
theorem every_backup_collects {c : Config} (hok : c.ok = true) (hn : 2 ≤ c.numReplicas) (hd : c.dynamic = true) (view s : Nat) {r : Nat} (hr : r < c.numReplicas)
    (hne : r ≠ primaryOfView c view) : ∃ seq, s ≤ seq ∧ seq < s + c.numReplicas ∧ r ∈ collectors c view seq := by
  rw [ok_iff] at hok
  have hp : primaryOfView c view < c.numReplicas := Nat.mod_lt _ (by omega)
  -- some number in the range with a given remainder
  have pick : ∀ m x, 0 < m → m ≤ c.numReplicas → x < m → ∃ seq, s ≤ seq ∧ seq < s + c.numReplicas ∧ seq % m = x := by
    intro m x hm hmn hx
    obtain ⟨w, ⟨h1, h2, h3⟩, _⟩ := primary_once (c := { c with numReplicas := m }) hm s hx
    exact ⟨w, h1, by simp only at h2; omega, h3⟩
  unfold collectors
  simp only [hd, Bool.not_true, Bool.false_eq_true, if_false]
  -- the place `x` which is moved to `r`
  have hx : ∃ x, x + 1 < c.numReplicas ∧ skipPrimary c.numReplicas (primaryOfView c view) x = r := by
    generalize primaryOfView c view = p at *
    by_cases h : r < p
    · exact ⟨r, by omega, by rw [skipPrimary_eq hn hp (by omega), if_pos h]⟩
    · exact ⟨r - 1, by omega, by rw [skipPrimary_eq hn hp (by omega), if_neg (by omega), if_pos (by omega)]; omega⟩
  obtain ⟨x, hx1, hx2⟩ := hx
  by_cases hc : c.cVal = 0
  · simp only [hc, if_true]
    obtain ⟨seq, h1, h2, h3⟩ := pick c.numReplicas x (by omega) (Nat.le_refl _) (by omega)
    exact ⟨seq, h1, h2, by rw [h3, hx2]; simp⟩
  · simp only [hc, if_false]
    have hh : 0 < c.numReplicas / 2 := by omega
    by_cases hl : x < c.numReplicas / 2
    · obtain ⟨seq, h1, h2, h3⟩ := pick (c.numReplicas / 2) x hh (by omega) hl
      exact ⟨seq, h1, h2, by rw [h3, hx2]; simp⟩
    · obtain ⟨seq, h1, h2, h3⟩ := pick (c.numReplicas / 2) (x - c.numReplicas / 2) hh (by omega) (by omega)
      refine ⟨seq, h1, h2, ?_⟩
      rw [h3, show x - c.numReplicas / 2 + c.numReplicas / 2 = x by omega, hx2]; simp

/-! ## Kinds of principals -/

/-- how many of the kinds an identifier has (read-only replicas without regard to the replica that asks) -/
def kinds (c : Config) (i : Nat) : Nat :=
  (isReplica c i).toNat + (isPeerRo { c with replicaId := i + 1 } i).toNat + (isProxy c i).toNat + (isExternal c i).toNat + (isService c i).toNat + (isInternal c i).toNat

/-- C31: with an operator (one of the external clients), every valid identifier has exactly one kind and no other identifier has any. -/
theorem kinds_exact {c : Config} (hop : c.operatorEnabled = true) (hext : 1 ≤ c.numExternal) (hn : 1 ≤ c.numReplicas) (i : Nat) :
    kinds c i = (isValid c i).toNat := by
  have tn : ∀ b : Bool, b.toNat = if b = true then 1 else 0 := by decide
  unfold kinds isReplica isPeerRo isProxy isExternal isService isInternal isValid extEnd op
  simp only [hop, if_true, tn, Bool.and_eq_true, Bool.or_eq_true, decide_eq_true_eq, beq_iff_eq, bne_iff_ne]
  repeat' split
  all_goals omega

/-- **Finding.** Without an operator the last client service is also listed as an external client (`ret.insert(end + numOfClientServices - 1)` is
unconditional). -/
theorem service_is_external {c : Config} (hop : c.operatorEnabled = false) (hs : 1 ≤ c.numServices) :
    ∃ i, isService c i = true ∧ isExternal c i = true := by
  refine ⟨extEnd c + c.numServices - 1, ?_, ?_⟩
  · simp [isService, op, hop]; omega
  · simp [isExternal]

/-- **Finding.** With no operator, external clients, services, proxies and read-only replicas, the last replica is an external client. -/
theorem replica_is_external {c : Config} (hn : 1 ≤ c.numReplicas) (h : c.numRo = 0 ∧ c.numProxies = 0 ∧ c.numExternal = 0 ∧ c.numServices = 0) :
    isExternal c (c.numReplicas - 1) = true ∧ isReplica c (c.numReplicas - 1) = true := by
  obtain ⟨h1, h2, h3, h4⟩ := h
  simp [isExternal, isReplica, extEnd, h1, h2, h3, h4]; omega

/-- C31: the operator, when enabled, is an external client and nothing else. -/
theorem operator_external {c : Config} (hop : c.operatorEnabled = true) (hext : 1 ≤ c.numExternal) (hn : 1 ≤ c.numReplicas) :
    isExternal c (operatorId c) = true ∧ kinds c (operatorId c) = 1 := by
  rw [kinds_exact hop hext hn]
  simp [isExternal, isValid, operatorId, hop, extEnd]; omega

/-- the example of the comment in ReplicasInfo.cpp:48-51 -/
def exConfig : Config := ⟨0, 7, 1, 7, 101, 2, 2, 0, true, true, true⟩

example : exConfig.ok = true ∧ operatorId exConfig = 117 ∧ isService exConfig 115 = true ∧ isService exConfig 116 = true ∧ isInternal exConfig 118 = true ∧
    isInternal exConfig 124 = true ∧ isInternal exConfig 125 = false ∧ collectors exConfig 3 3 = [4] ∧ collectors exConfig 3 6 = [0] := by decide

/-- a configuration with c > 0 -/
example : (Config.ok ⟨0, 6, 0, 0, 1, 0, 1, 1, true, true, true⟩ = true) ∧ collectors ⟨0, 6, 0, 0, 1, 0, 1, 1, true, true, true⟩ 0 2 = [3, 1] := by decide

end Verif.Replicas
