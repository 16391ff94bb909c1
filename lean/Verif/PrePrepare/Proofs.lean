import Verif.PrePrepare.Model
set_option linter.unusedSimpArgs false
set_option linter.unusedVariables false
namespace Verif.PP
open Verif.Bytes

/-! ## checkRequests and the iterator agree -/

theorem walk_of_check (buf : Bytes) (endLoc : Nat) : ∀ (n i fuel : Nat), n < fuel → i < endLoc →
    checkLoop buf endLoc n i = some true → ∃ ps, walk buf endLoc fuel i = .done ps ∧ ps.length = n ∧ (∀ p ∈ ps, p < endLoc) := by
  intro n
  induction n with
  | zero => intro i fuel _ _ h; simp [checkLoop] at h
  | succ n ih =>
    intro i fuel hf hi h
    obtain ⟨k, rfl⟩ : ∃ k, fuel = k + 1 := ⟨fuel - 1, by omega⟩
    simp only [checkLoop] at h
    cases hr : readReq buf i with
    | none => simp [hr] at h
    | some q =>
      simp only [hr] at h
      simp only [walk, hr, show ¬ i > endLoc by omega, show ¬ i = endLoc by omega, if_false]
      by_cases hn : n > 0
      · simp only [hn, if_true] at h
        by_cases hge : (i + reqSize q) % 2 ^ 32 ≥ endLoc
        · simp only [hge, if_true] at h; simp at h
        · simp only [hge, if_false] at h
          obtain ⟨ps, h1, h2, h3⟩ := ih _ k (by omega) (by omega) h
          simp only [show ¬ (i + reqSize q) % 2 ^ 32 > endLoc by omega, if_false, h1]
          refine ⟨i :: ps, rfl, by simp [h2], ?_⟩
          intro p hp
          rcases List.mem_cons.1 hp with rfl | hp
          · exact hi
          · exact h3 p hp
      · simp only [hn, if_false] at h
        have he : (i + reqSize q) % 2 ^ 32 = endLoc := by simpa using h
        have hn0 : n = 0 := by omega
        subst hn0
        simp only [he, show ¬ endLoc > endLoc by omega, if_false]
        obtain ⟨k', rfl⟩ : ∃ k', k = k' + 1 := ⟨k - 1, by omega⟩
        simp only [walk, show ¬ endLoc > endLoc by omega, if_false, if_true]
        refine ⟨[i], rfl, rfl, ?_⟩
        intro p hp
        simp at hp; omega

/-! ## Decimal numbers -/

def decVal (b : Bytes) : Nat := b.foldl (fun a c => a * 10 + (c.toNat - 48)) 0

theorem decVal_append (b : Bytes) (c : UInt8) : decVal (b ++ [c]) = decVal b * 10 + (c.toNat - 48) := by
  simp [decVal, List.foldl_append]

theorem digit_toNat (n : Nat) (h : n < 10) : (UInt8.ofNat (48 + n)).toNat = 48 + n := by
  simp [UInt8.toNat_ofNat']; omega

theorem decVal_decNat (n : Nat) : decVal (decNat n) = n := by
  induction n using Nat.strongRecOn with
  | _ n ih =>
    rw [decNat]
    by_cases h : n < 10
    · rw [if_pos h]
      simp [decVal, digit_toNat n h]
      omega
    · rw [if_neg h, decVal_append, ih (n / 10) (by omega), digit_toNat (n % 10) (by omega)]
      omega

theorem decNat_ne_nil (n : Nat) : decNat n ≠ [] := by
  rw [decNat]; split <;> simp

theorem decNat_digits (n : Nat) : ∀ c ∈ decNat n, 48 ≤ c.toNat ∧ c.toNat ≤ 57 := by
  induction n using Nat.strongRecOn with
  | _ n ih =>
    intro c hc
    rw [decNat] at hc
    by_cases h : n < 10
    · rw [if_pos h] at hc
      rw [List.mem_singleton] at hc; subst hc
      rw [digit_toNat n h]; omega
    · rw [if_neg h] at hc
      rcases List.mem_append.1 hc with hc | hc
      · exact ih (n / 10) (by omega) c hc
      · rw [List.mem_singleton] at hc; subst hc
        rw [digit_toNat (n % 10) (by omega)]; omega

theorem decNat_length (k : Nat) : ∀ n, n < 10 ^ (k + 1) → (decNat n).length ≤ k + 1 := by
  induction k with
  | zero => intro n h; rw [decNat]; simp at h; simp [h]
  | succ k ih =>
    intro n h
    rw [decNat]
    by_cases hn : n < 10
    · rw [if_pos hn]; simp
    · rw [if_neg hn]
      have := ih (n / 10) (by rw [Nat.pow_succ] at h; exact Nat.div_lt_of_lt_mul (by omega))
      simp; omega

theorem decInt_inj {a b : Int} (h : decInt a = decInt b) : a = b := by
  have hd : ∀ n, (decNat n).head? ≠ some 45 := by
    intro n hn
    have : (45 : UInt8) ∈ decNat n := List.mem_of_head? hn
    have := decNat_digits n _ this
    simp at this
  have hv : ∀ m n, decNat m = decNat n → m = n := by
    intro m n h; rw [← decVal_decNat m, ← decVal_decNat n, h]
  unfold decInt at h
  split at h <;> split at h
  · injection h with _ h; have := hv _ _ h; omega
  · exact absurd (by rw [← h]; rfl) (hd b.natAbs)
  · exact absurd (by rw [h]; rfl) (hd a.natAbs)
  · have := hv _ _ h; omega

theorem decInt_length {t : Int} (h1 : -2 ^ 63 ≤ t) (h2 : t < 2 ^ 63) : 1 ≤ (decInt t).length ∧ (decInt t).length ≤ 20 := by
  have hb : t.natAbs < 10 ^ (18 + 1) := by omega
  have := decNat_length 18 _ hb
  have hp : 1 ≤ (decNat t.natAbs).length := by
    rcases Nat.eq_zero_or_pos (decNat t.natAbs).length with h | h
    · exact absurd (List.length_eq_zero_iff.1 h) (decNat_ne_nil _)
    · exact h
  unfold decInt
  split
  · simp; omega
  · exact ⟨hp, by omega⟩

/-- strings of equally long chunks followed by a short tail are parsed in one way only -/
theorem chunks_unique {L : Nat} (hL : 20 < L) : ∀ (as bs : List Bytes) (s t : Bytes), (∀ a ∈ as, a.length = L) → (∀ b ∈ bs, b.length = L) →
    1 ≤ s.length → s.length ≤ 20 → 1 ≤ t.length → t.length ≤ 20 → as.flatten ++ s = bs.flatten ++ t → as = bs ∧ s = t := by
  intro as
  induction as with
  | nil =>
    intro bs s t ha hb h1 h2 h3 h4 h
    cases bs with
    | nil => exact ⟨rfl, by simpa using h⟩
    | cons b bs =>
      have := congrArg List.length h
      have hbl := hb b (by simp)
      simp at this
      omega
  | cons a as ih =>
    intro bs s t ha hb h1 h2 h3 h4 h
    cases bs with
    | nil =>
      have := congrArg List.length h
      have hal := ha a (by simp)
      simp at this
      omega
    | cons b bs =>
      have hal := ha a (by simp)
      have hbl := hb b (by simp)
      simp only [List.flatten_cons, List.append_assoc] at h
      obtain ⟨e1, e2⟩ := List.append_inj h (by omega)
      obtain ⟨e3, e4⟩ := ih bs s t (fun x hx => ha x (List.mem_cons_of_mem _ hx)) (fun x hx => hb x (List.mem_cons_of_mem _ hx)) h1 h2 h3 h4 e2
      exact ⟨by rw [e1, e3], e4⟩

theorem sigOrDigests_flatten (H : Bytes → Bytes) (buf : Bytes) : ∀ (ps : List Nat) (s : Bytes), sigOrDigests H buf ps = some s →
    ∃ xs : List Bytes, xs.length = ps.length ∧ s = xs.flatten ∧ ∀ k (hk : k < ps.length), sigOrDigest H buf ps[k] = xs[k]? := by
  intro ps
  induction ps with
  | nil => intro s h; simp [sigOrDigests] at h; subst h; exact ⟨[], rfl, rfl, by simp⟩
  | cons p ps ih =>
    intro s h
    simp only [sigOrDigests] at h
    cases hx : sigOrDigest H buf p with
    | none => simp [hx] at h
    | some x =>
      cases hy : sigOrDigests H buf ps with
      | none => simp [hx, hy] at h
      | some y =>
        simp [hx, hy] at h
        obtain ⟨xs, h1, h2, h3⟩ := ih y hy
        refine ⟨x :: xs, by simp [h1], by simp [← h, h2], ?_⟩
        intro k hk
        cases k with
        | zero => simpa using hx
        | succ k => simpa using h3 k (by simpa using hk)

/-! ## Reading inside a concatenation -/

theorem slice_inside (a r c : Bytes) {o k : Nat} (h : o + k ≤ r.length) : slice (a ++ r ++ c) (a.length + o) k = slice r o k := by
  unfold slice
  have h1 : a.length + o + k ≤ (a ++ r ++ c).length := by simp; omega
  simp only [h, h1, if_true]
  congr 1
  rw [List.append_assoc, ← List.drop_drop]
  rw [List.drop_left]
  rw [List.drop_append_of_le_length (by omega)]
  rw [List.take_append_of_le_length (by simp; omega)]

theorem readReq_inside (a r c : Bytes) (h : reqHdrSize ≤ r.length) : readReq (a ++ r ++ c) a.length = readReq r 0 := by
  unfold readReq
  have := slice_inside a r c (o := 0) (k := reqHdrSize) (by omega)
  simp only [Nat.add_zero] at this
  rw [this]

theorem readReq_len {r : Bytes} {i : Nat} {h : ReqHdr} (hr : readReq r i = some h) : i + reqHdrSize ≤ r.length := by
  unfold readReq at hr
  split at hr
  · cases hr
  · rename_i s hs
    exact (slice_eq_some.1 hs).1

theorem sigOrDigest_inside (H : Bytes → Bytes) (a r c : Bytes) (h : WellFormed r) :
    sigOrDigest H (a ++ r ++ c) a.length = sigOrDigest H r 0 ∧ ∃ x, sigOrDigest H r 0 = some x := by
  obtain ⟨q, h1, h2, h3⟩ := h
  have hl := readReq_len h1
  unfold sigOrDigest
  rw [readReq_inside a r c (by omega), h1]
  simp only
  have hs : q.sum = reqHdrSize + q.span + q.reqLen + q.cidLen + q.sigLen + q.extra := rfl
  have hrs : reqSize q = r.length := by unfold reqSize; rw [h2]; exact Nat.mod_eq_of_lt h3
  by_cases hsl : q.sigLen > 0
  · simp only [hsl, if_true]
    have := slice_inside a r c (o := reqHdrSize + q.span + q.reqLen + q.cidLen) (k := q.sigLen) (by omega)
    refine ⟨?_, ?_⟩
    · rw [show a.length + reqHdrSize + q.span + q.reqLen + q.cidLen = a.length + (reqHdrSize + q.span + q.reqLen + q.cidLen) by omega, this,
        show 0 + reqHdrSize + q.span + q.reqLen + q.cidLen = reqHdrSize + q.span + q.reqLen + q.cidLen by omega]
    · exact ⟨_, slice_eq_some.2 ⟨by omega, rfl⟩⟩
  · simp only [hsl, if_false]
    have := slice_inside a r c (o := 0) (k := reqSize q) (by omega)
    rw [Nat.add_zero] at this
    rw [this]
    refine ⟨rfl, ?_⟩
    rw [slice_eq_some.2 ⟨by omega, rfl⟩]
    exact ⟨_, rfl⟩

/-- offsets of the elements of a concatenation that starts at `off` -/
def offsets : Nat → List Bytes → List Nat
  | _, [] => []
  | off, r :: rs => off :: offsets (off + r.length) rs

theorem wf_pos {r : Bytes} (h : WellFormed r) : 0 < r.length := by
  obtain ⟨q, h1, h2, h3⟩ := h
  have := readReq_len h1
  unfold reqHdrSize at this
  omega

theorem wf_size {r : Bytes} (h : WellFormed r) (a c : Bytes) : ∃ q, readReq (a ++ r ++ c) a.length = some q ∧ reqSize q = r.length := by
  obtain ⟨q, h1, h2, h3⟩ := h
  have := readReq_len h1
  exact ⟨q, by rw [readReq_inside a r c (by omega)]; exact h1, by unfold reqSize; rw [h2]; exact Nat.mod_eq_of_lt h3⟩

theorem check_built (rs : List Bytes) : ∀ (a : Bytes), rs ≠ [] → (∀ r ∈ rs, WellFormed r) → (a ++ rs.flatten).length < 2 ^ 32 →
    checkLoop (a ++ rs.flatten) (a ++ rs.flatten).length rs.length a.length = some true := by
  induction rs with
  | nil => intro a h; exact absurd rfl h
  | cons r rs ih =>
    intro a _ hw hlen
    simp only [List.length_cons, checkLoop]
    obtain ⟨q, hq, hsz⟩ := wf_size (hw r (by simp)) a rs.flatten
    rw [show a ++ (r :: rs).flatten = a ++ r ++ rs.flatten by simp] at hlen ⊢
    rw [hq]
    simp only [hsz]
    have hmod : (a.length + r.length) % 2 ^ 32 = (a ++ r).length := by
      rw [Nat.mod_eq_of_lt (by simp at hlen; omega)]; simp
    rw [hmod]
    cases rs with
    | nil => simp
    | cons r' rs =>
      have hpos := wf_pos (hw r' (by simp))
      simp only [List.length_cons, show rs.length + 1 > 0 by omega, if_true]
      have : ¬ (a ++ r).length ≥ (a ++ r ++ (r' :: rs).flatten).length := by simp; omega
      simp only [this, if_false]
      have := ih (a ++ r) (by simp) (fun x hx => hw x (List.mem_cons_of_mem _ hx)) (by simpa using hlen)
      simpa using this

theorem walk_built (rs : List Bytes) : ∀ (a : Bytes) (fuel : Nat), rs.length < fuel → (∀ r ∈ rs, WellFormed r) → (a ++ rs.flatten).length < 2 ^ 32 →
    walk (a ++ rs.flatten) (a ++ rs.flatten).length fuel a.length = .done (offsets a.length rs) := by
  induction rs with
  | nil =>
    intro a fuel hf _ _
    obtain ⟨k, rfl⟩ : ∃ k, fuel = k + 1 := ⟨fuel - 1, by omega⟩
    simp [walk, offsets]
  | cons r rs ih =>
    intro a fuel hf hw hlen
    obtain ⟨k, rfl⟩ : ∃ k, fuel = k + 1 := ⟨fuel - 1, by omega⟩
    obtain ⟨q, hq, hsz⟩ := wf_size (hw r (by simp)) a rs.flatten
    rw [show a ++ (r :: rs).flatten = a ++ r ++ rs.flatten by simp] at hlen ⊢
    have hpos := wf_pos (hw r (by simp))
    have hmod : (a.length + r.length) % 2 ^ 32 = (a ++ r).length := by
      rw [Nat.mod_eq_of_lt (by simp at hlen; omega)]; simp
    have hL : (a ++ r ++ rs.flatten).length = a.length + r.length + rs.flatten.length := by simp only [List.length_append]
    have hL2 : (a ++ r).length = a.length + r.length := by simp only [List.length_append]
    have h1 : ¬ a.length > (a ++ r ++ rs.flatten).length := by omega
    have h2 : ¬ a.length = (a ++ r ++ rs.flatten).length := by omega
    have h3 : ¬ (a ++ r).length > (a ++ r ++ rs.flatten).length := by omega
    have hih := ih (a ++ r) k (by simp at hf; omega) (fun x hx => hw x (List.mem_cons_of_mem _ hx)) hlen
    unfold walk
    rw [if_neg h1, if_neg h2, hq]
    simp only [hsz, hmod]
    rw [if_neg h3, hih]
    simp [offsets]

theorem digests_built (H : Bytes → Bytes) (rs : List Bytes) : ∀ (a c : Bytes), (∀ r ∈ rs, WellFormed r) →
    sigOrDigests H (a ++ rs.flatten ++ c) (offsets a.length rs) = some (rs.flatMap (fun r => (sigOrDigest H r 0).getD [])) := by
  induction rs with
  | nil => intro a c _; simp [sigOrDigests, offsets]
  | cons r rs ih =>
    intro a c hw
    obtain ⟨h1, x, h2⟩ := sigOrDigest_inside H a r (rs.flatten ++ c) (hw r (by simp))
    have hih := ih (a ++ r) c (fun x hx => hw x (List.mem_cons_of_mem _ hx))
    have e1 : a ++ (r :: rs).flatten ++ c = a ++ r ++ (rs.flatten ++ c) := by simp
    have e2 : a ++ (r :: rs).flatten ++ c = a ++ r ++ rs.flatten ++ c := by simp
    simp only [offsets, sigOrDigests]
    rw [e1, h1, h2]
    rw [← e1, e2]
    rw [show a.length + r.length = (a ++ r).length by simp, hih]
    simp [h2]

theorem viewReq_inside (a r c : Bytes) (h : WellFormed r) : viewReq (a ++ r ++ c) a.length = viewReq r 0 ∧ ∃ x, viewReq r 0 = some x ∧ x.bytes = r := by
  obtain ⟨q, h1, h2, h3⟩ := h
  have hl := readReq_len h1
  have hs : q.sum = reqHdrSize + q.span + q.reqLen + q.cidLen + q.sigLen + q.extra := rfl
  have hrs : reqSize q = r.length := by unfold reqSize; rw [h2]; exact Nat.mod_eq_of_lt h3
  unfold viewReq
  rw [readReq_inside a r c (by omega), h1]
  simp only
  have e1 := slice_inside a r c (o := 0) (k := reqSize q) (by omega)
  have e2 := slice_inside a r c (o := reqHdrSize + q.span) (k := q.reqLen) (by omega)
  have e3 := slice_inside a r c (o := reqHdrSize + q.span + q.reqLen + q.cidLen) (k := q.sigLen) (by omega)
  rw [Nat.add_zero] at e1
  rw [e1, show a.length + reqHdrSize + q.span = a.length + (reqHdrSize + q.span) by omega, e2,
    show a.length + (reqHdrSize + q.span) + q.reqLen + q.cidLen = a.length + (reqHdrSize + q.span + q.reqLen + q.cidLen) by omega, e3]
  simp only [Nat.zero_add]
  refine ⟨trivial, ?_⟩
  rw [slice_eq_some.2 ⟨show 0 + reqSize q ≤ r.length by omega, rfl⟩, slice_eq_some.2 ⟨show reqHdrSize + q.span + q.reqLen ≤ r.length by omega, rfl⟩,
    slice_eq_some.2 ⟨show reqHdrSize + q.span + q.reqLen + q.cidLen + q.sigLen ≤ r.length by omega, rfl⟩]
  refine ⟨_, rfl, ?_⟩
  simp [hrs]

theorem requests_built (rs : List Bytes) : ∀ (a c : Bytes), (∀ r ∈ rs, WellFormed r) →
    ∃ vs, viewReqs (a ++ rs.flatten ++ c) (offsets a.length rs) = some vs ∧ vs.map (·.bytes) = rs := by
  induction rs with
  | nil => intro a c _; exact ⟨[], rfl, rfl⟩
  | cons r rs ih =>
    intro a c hw
    obtain ⟨h1, x, h2, h3⟩ := viewReq_inside a r (rs.flatten ++ c) (hw r (by simp))
    obtain ⟨vs, hv1, hv2⟩ := ih (a ++ r) c (fun x hx => hw x (List.mem_cons_of_mem _ hx))
    have e1 : a ++ (r :: rs).flatten ++ c = a ++ r ++ (rs.flatten ++ c) := by simp
    have e2 : a ++ r ++ (rs.flatten ++ c) = a ++ r ++ rs.flatten ++ c := by simp
    refine ⟨x :: vs, ?_, by simp [h3, hv2]⟩
    simp only [offsets, viewReqs]
    rw [e1, h1, h2, e2, show a.length + r.length = (a ++ r).length by simp, hv1]

theorem validateReq_inside (e : Env) (a r c : Bytes) (h : WellFormed r) : validateReq e (a ++ r ++ c) a.length = validateReq e r 0 := by
  obtain ⟨q, h1, h2, h3⟩ := h
  have hl := readReq_len h1
  have hs : q.sum = reqHdrSize + q.span + q.reqLen + q.cidLen + q.sigLen + q.extra := rfl
  unfold validateReq
  rw [readReq_inside a r c (by omega), h1]
  simp only
  have e2 := slice_inside a r c (o := reqHdrSize + q.span) (k := q.reqLen) (by omega)
  have e3 := slice_inside a r c (o := reqHdrSize + q.span + q.reqLen + q.cidLen) (k := q.sigLen) (by omega)
  rw [show a.length + reqHdrSize + q.span = a.length + (reqHdrSize + q.span) by omega, e2,
    show a.length + (reqHdrSize + q.span) + q.reqLen + q.cidLen = a.length + (reqHdrSize + q.span + q.reqLen + q.cidLen) by omega, e3]
  simp only [Nat.zero_add]

theorem validateReqs_built (e : Env) (rs : List Bytes) : ∀ (a c : Bytes), (∀ r ∈ rs, WellFormed r) → (∀ r ∈ rs, validateReq e r 0 = .accept) →
    validateReqs e (a ++ rs.flatten ++ c) (offsets a.length rs) = .accept := by
  induction rs with
  | nil => intro a c _ _; rfl
  | cons r rs ih =>
    intro a c hw hok
    have h1 := validateReq_inside e a r (rs.flatten ++ c) (hw r (by simp))
    have hih := ih (a ++ r) c (fun x hx => hw x (List.mem_cons_of_mem _ hx)) (fun x hx => hok x (List.mem_cons_of_mem _ hx))
    have e1 : a ++ (r :: rs).flatten ++ c = a ++ r ++ (rs.flatten ++ c) := by simp
    have e2 : a ++ r ++ (rs.flatten ++ c) = a ++ r ++ rs.flatten ++ c := by simp
    simp only [offsets, validateReqs]
    rw [e1, h1, hok r (by simp), e2, show a.length + r.length = (a ++ r).length by simp]
    exact hih

theorem flatten_length_ge (rs : List Bytes) (h : ∀ r ∈ rs, WellFormed r) : reqHdrSize * rs.length ≤ rs.flatten.length := by
  induction rs with
  | nil => simp
  | cons r rs ih =>
    obtain ⟨q, h1, _, _⟩ := h r (by simp)
    have := readReq_len h1
    have := ih (fun x hx => h x (List.mem_cons_of_mem _ hx))
    simp only [List.length_cons, List.flatten_cons, List.length_append, Nat.mul_succ]
    omega

end Verif.PP
