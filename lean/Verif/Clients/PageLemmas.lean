import Verif.Clients.Model
/-! # Writing a reply to pages and reading it back; page ranges do not overlap -/
set_option linter.unusedSimpArgs false
set_option linter.unusedVariables false
namespace Verif.Clients
open Verif.Bytes

/-- bytes of page `j` of a message -/
def chunk (c : Cfg) (msg : Bytes) (j : Nat) : Bytes := (msg.drop (j * c.pageSize)).take (pageLen c msg.length j)

/-- the stored page -/
def padded (c : Cfg) (b : Bytes) : Bytes := b ++ List.replicate (c.pageSize - b.length) 0

theorem savePages_get (c : Cfg) (first : Nat) (msg : Bytes) (k : Nat) : ∀ (i : Nat) (pg : Nat → Option Bytes) (j : Nat),
    savePages c first msg i k pg j =
      if first + i ≤ j ∧ j < first + i + k then some (padded c (chunk c msg (j - first))) else pg j := by
  induction k with
  | zero => intro i pg j; rw [if_neg (by omega)]; rfl
  | succ k ih =>
    intro i pg j
    simp only [savePages, ih]
    by_cases h1 : first + (i + 1) ≤ j ∧ j < first + (i + 1) + k
    · rw [if_pos h1, if_pos (by omega)]
    · rw [if_neg h1]
      by_cases h2 : j = first + i
      · subst h2
        rw [if_pos (by omega)]
        have : first + i - first = i := by omega
        simp [savePage, padded, chunk, this]
      · rw [if_neg (by omega)]
        simp [savePage, h2]

theorem numPages_pos {c : Cfg} (hp : 0 < c.pageSize) {len : Nat} (hl : 0 < len) : 0 < numPages c len := by
  unfold numPages
  by_cases h : len % c.pageSize ≠ 0
  · rw [if_pos h]; exact Nat.succ_pos _
  · have h0 : len % c.pageSize = 0 := by omega
    have := Nat.div_add_mod len c.pageSize
    rw [h0] at this
    have : 0 < len / c.pageSize := by
      rcases Nat.eq_zero_or_pos (len / c.pageSize) with h' | h'
      · rw [h'] at this; omega
      · exact h'
    omega

theorem numPages_last {c : Cfg} (hp : 0 < c.pageSize) {len : Nat} (hl : 0 < len) :
    (numPages c len - 1) * c.pageSize + lastSize c len = len := by
  have hd := Nat.div_add_mod len c.pageSize
  unfold numPages lastSize
  by_cases h : len % c.pageSize ≠ 0
  · rw [if_pos h, if_pos h, Nat.add_sub_cancel, Nat.mul_comm]; exact hd
  · have h0 : len % c.pageSize = 0 := by omega
    rw [if_neg h, if_neg h]
    have hq : 0 < len / c.pageSize := by
      have := numPages_pos hp hl
      unfold numPages at this; rw [if_neg h] at this; omega
    obtain ⟨q, hq'⟩ := Nat.exists_eq_succ_of_ne_zero (by omega : len / c.pageSize ≠ 0)
    rw [h0, hq', Nat.mul_comm] at hd
    rw [hq']
    simp only [Nat.succ_eq_add_one, Nat.add_sub_cancel, Nat.add_zero] at hd ⊢
    rw [Nat.add_mul, Nat.one_mul] at hd
    omega

theorem lastSize_le {c : Cfg} (hp : 0 < c.pageSize) (len : Nat) : lastSize c len ≤ c.pageSize := by
  unfold lastSize; split
  · exact Nat.le_of_lt (Nat.mod_lt _ hp)
  · exact Nat.le_refl _

theorem pageLen_le {c : Cfg} (hp : 0 < c.pageSize) (len i : Nat) : pageLen c len i ≤ c.pageSize := by
  unfold pageLen; split
  · exact Nat.le_refl _
  · exact lastSize_le hp len

/-- page `i` of the message ends inside it -/
theorem pageLen_fits {c : Cfg} (hp : 0 < c.pageSize) {len : Nat} (hl : 0 < len) {i : Nat} (hi : i < numPages c len) :
    i * c.pageSize + pageLen c len i ≤ len ∧ (i = numPages c len - 1 → i * c.pageSize + pageLen c len i = len) ∧
    (i < numPages c len - 1 → pageLen c len i = c.pageSize) := by
  have hlast := numPages_last hp hl
  unfold pageLen
  by_cases h : i < numPages c len - 1
  · rw [if_pos h]
    have : (i + 1) * c.pageSize ≤ (numPages c len - 1) * c.pageSize := Nat.mul_le_mul_right _ (by omega)
    rw [Nat.add_mul, Nat.one_mul] at this
    exact ⟨by omega, fun e => by omega, fun _ => rfl⟩
  · rw [if_neg h]
    have e : i = numPages c len - 1 := by omega
    rw [e]
    exact ⟨by omega, fun _ => hlast, fun h' => absurd h' (by omega)⟩

theorem chunk_length {c : Cfg} (hp : 0 < c.pageSize) {msg : Bytes} (hl : 0 < msg.length) {i : Nat}
    (hi : i < numPages c msg.length) : (chunk c msg i).length = pageLen c msg.length i := by
  have := (pageLen_fits hp hl hi).1
  simp [chunk]; omega

/-- reading back pages that hold a message gives the message -/
theorem loadPages_eq {c : Cfg} (hp : 0 < c.pageSize) {msg : Bytes} (hl : 0 < msg.length) (first : Nat)
    (pg : Nat → Option Bytes)
    (h : ∀ j, j < numPages c msg.length → pg (first + j) = some (padded c (chunk c msg j))) :
    ∀ k i, i + k = numPages c msg.length → (k = 0 → True) →
      loadPages c first msg.length pg i k = some (if k = 0 then [] else msg.drop (i * c.pageSize)) := by
  intro k
  induction k with
  | zero => intro i _ _; rfl
  | succ k ih =>
    intro i hik _
    have hi : i < numPages c msg.length := by omega
    simp only [loadPages, h i hi, ih (i + 1) (by omega) (fun _ => trivial)]
    have hc := chunk_length hp hl hi
    have ht : (padded c (chunk c msg i)).take (pageLen c msg.length i) = chunk c msg i := by
      unfold padded; rw [← hc]; simp
    rw [ht]
    obtain ⟨f1, f2, f3⟩ := pageLen_fits hp hl hi
    by_cases hk : k = 0
    · subst hk
      have hlast := f2 (by omega)
      simp only [if_true, List.append_nil, Nat.add_one_ne_zero, if_false]
      congr 1
      unfold chunk
      apply List.take_of_length_le
      simp; omega
    · have := f3 (by omega)
      simp only [hk, if_false, Nat.add_one_ne_zero]
      congr 1
      unfold chunk
      rw [this, Nat.add_mul, Nat.one_mul, ← List.drop_drop, List.take_append_drop]

theorem encode_length (seq result : Nat) (data : Bytes) : (encode seq result data).length = hdrLen + data.length := by
  simp [encode, hdrLen]; omega

theorem take_drop_mid {a b d : Bytes} {n m : Nat} (ha : a.length = n) (hb : b.length = m) :
    ((a ++ (b ++ d)).drop n).take m = b := by
  subst ha hb; simp

theorem fieldAt_prefix {p q : Bytes} {off len : Nat} (h : off + len ≤ p.length) :
    fieldAt (p ++ q) off len = fieldAt p off len := by
  unfold fieldAt
  congr 1
  rw [List.drop_append_of_le_length (by omega), List.take_append_of_le_length (by simp; omega)]

theorem encode_fields (seq result : Nat) (data : Bytes) (h1 : seq < 2 ^ 64) (h2 : result < 2 ^ 32)
    (h3 : data.length < 2 ^ 32) :
    msgTypeOf (encode seq result data) = replyCode ∧ primaryOf (encode seq result data) = 0 ∧
    seqOf (encode seq result data) = seq ∧ resultOf (encode seq result data) = result ∧
    replyLenOf (encode seq result data) = data.length ∧ (encode seq result data).drop hdrLen = data := by
  have e1 : (256 : Nat) ^ 8 = 2 ^ 64 := by decide
  have e2 : (256 : Nat) ^ 4 = 2 ^ 32 := by decide
  have key : ∀ (a b d : Bytes) (n m v : Nat), a.length = n → b.length = m → leDecode b = v →
      fieldAt (a ++ (b ++ d)) n m = v := by
    intro a b d n m v ha hb hv
    unfold fieldAt; rw [take_drop_mid ha hb, hv]
  refine ⟨?_, ?_, ?_, ?_, ?_, ?_⟩
  · have : encode seq result data = [] ++ (leEncode 2 replyCode ++ (leEncode 4 0 ++ leEncode 2 0 ++ leEncode 8 seq ++
      leEncode 4 result ++ leEncode 4 data.length ++ leEncode 4 0 ++ data)) := by simp [encode]
    rw [this]; exact key _ _ _ 0 2 _ rfl (by simp) (leDecode_leEncode 2 replyCode (by decide))
  · have : encode seq result data = (leEncode 2 replyCode ++ leEncode 4 0) ++ (leEncode 2 0 ++ (leEncode 8 seq ++
      leEncode 4 result ++ leEncode 4 data.length ++ leEncode 4 0 ++ data)) := by simp [encode]
    rw [this]; exact key _ _ _ 6 2 _ (by simp) (by simp) (leDecode_leEncode 2 0 (by decide))
  · have : encode seq result data = (leEncode 2 replyCode ++ leEncode 4 0 ++ leEncode 2 0) ++ (leEncode 8 seq ++ (
      leEncode 4 result ++ leEncode 4 data.length ++ leEncode 4 0 ++ data)) := by simp [encode]
    rw [this]; exact key _ _ _ 8 8 _ (by simp) (by simp) (leDecode_leEncode 8 seq (by omega))
  · have : encode seq result data = (leEncode 2 replyCode ++ leEncode 4 0 ++ leEncode 2 0 ++ leEncode 8 seq) ++ (
      leEncode 4 result ++ (leEncode 4 data.length ++ leEncode 4 0 ++ data)) := by simp [encode]
    rw [this]; exact key _ _ _ 16 4 _ (by simp) (by simp) (leDecode_leEncode 4 result (by omega))
  · have : encode seq result data = (leEncode 2 replyCode ++ leEncode 4 0 ++ leEncode 2 0 ++ leEncode 8 seq ++
      leEncode 4 result) ++ (leEncode 4 data.length ++ (leEncode 4 0 ++ data)) := by simp [encode]
    rw [this]; exact key _ _ _ 20 4 _ (by simp) (by simp) (leDecode_leEncode 4 data.length (by omega))
  · have : encode seq result data = (leEncode 2 replyCode ++ leEncode 4 0 ++ leEncode 2 0 ++ leEncode 8 seq ++
      leEncode 4 result ++ leEncode 4 data.length ++ leEncode 4 0) ++ data := by simp [encode]
    rw [this]
    have hl : (leEncode 2 replyCode ++ leEncode 4 0 ++ leEncode 2 0 ++ leEncode 8 seq ++
      leEncode 4 result ++ leEncode 4 data.length ++ leEncode 4 0).length = hdrLen := by simp [hdrLen]
    rw [← hl, List.drop_left]

/-- the first page of a stored reply has its header -/
theorem header_of_page (c : Cfg) (hp : hdrLen ≤ c.pageSize) (seq result : Nat) (data : Bytes) (off len : Nat)
    (h : off + len ≤ hdrLen) :
    fieldAt (padded c (chunk c (encode seq result data) 0)) off len = fieldAt (encode seq result data) off len := by
  have hl := encode_length seq result data
  have hpos : 0 < c.pageSize := by unfold hdrLen at hp; omega
  have hmp : 0 < (encode seq result data).length := by rw [hl]; unfold hdrLen; omega
  have hfit := pageLen_fits hpos hmp (numPages_pos hpos hmp)
  have hge : hdrLen ≤ pageLen c (encode seq result data).length 0 := by
    by_cases h0 : 0 < numPages c (encode seq result data).length - 1
    · rw [hfit.2.2 h0]; exact hp
    · have := hfit.2.1 (by have := numPages_pos hpos hmp; omega)
      omega
  have hcl : hdrLen ≤ (chunk c (encode seq result data) 0).length := by
    rw [chunk_length hpos hmp (numPages_pos hpos hmp)]; exact hge
  unfold padded
  rw [fieldAt_prefix (by omega)]
  have : encode seq result data = chunk c (encode seq result data) 0 ++
      (encode seq result data).drop (pageLen c (encode seq result data).length 0) := by
    unfold chunk; simp
  have h2 : fieldAt (encode seq result data) off len = fieldAt (chunk c (encode seq result data) 0 ++
      (encode seq result data).drop (pageLen c (encode seq result data).length 0)) off len :=
    congrArg (fun b => fieldAt b off len) this
  rw [h2, fieldAt_prefix (by omega)]

/-! ## page ranges -/

theorem numPages_le_perReq {c : Cfg} (hp : 0 < c.pageSize) {len : Nat} (h : len ≤ c.maxReply) : numPages c len ≤ perReq c := by
  unfold numPages perReq
  have h1 : len / c.pageSize ≤ c.maxReply / c.pageSize := Nat.div_le_div_right h
  by_cases h2 : len / c.pageSize = c.maxReply / c.pageSize
  · rw [h2]
    have d1 := Nat.div_add_mod len c.pageSize
    have d2 := Nat.div_add_mod c.maxReply c.pageSize
    rw [h2] at d1
    split <;> split <;> omega
  · split <;> split <;> omega

/-- slots of one client are disjoint, and inside the client's pages, which are disjoint from other clients' -/
theorem slot_disjoint (c : Cfg) {i i' idx idx' j j' : Nat} (h1 : idx < c.maxReqs) (h2 : idx' < c.maxReqs)
    (hj : j < perReq c) (hj' : j' < perReq c)
    (he : i * perClient c + 1 + idx * perReq c + j = i' * perClient c + 1 + idx' * perReq c + j') :
    i = i' ∧ idx = idx' ∧ j = j' := by
  have bnd : ∀ a b, a < c.maxReqs → b < perReq c → a * perReq c + b < perReq c * c.maxReqs := by
    intro a b ha hb
    have : (a + 1) * perReq c ≤ c.maxReqs * perReq c := Nat.mul_le_mul_right _ (by omega)
    rw [Nat.add_mul, Nat.one_mul, Nat.mul_comm c.maxReqs] at this
    omega
  have b1 := bnd idx j h1 hj
  have b2 := bnd idx' j' h2 hj'
  have hii : i = i' := by
    rcases Nat.lt_trichotomy i i' with h | h | h
    · have : (i + 1) * perClient c ≤ i' * perClient c := Nat.mul_le_mul_right _ (by omega)
      rw [Nat.add_mul, Nat.one_mul] at this
      unfold perClient at *; omega
    · exact h
    · have : (i' + 1) * perClient c ≤ i * perClient c := Nat.mul_le_mul_right _ (by omega)
      rw [Nat.add_mul, Nat.one_mul] at this
      unfold perClient at *; omega
  subst hii
  have hxx : idx = idx' := by
    rcases Nat.lt_trichotomy idx idx' with h | h | h
    · have : (idx + 1) * perReq c ≤ idx' * perReq c := Nat.mul_le_mul_right _ (by omega)
      rw [Nat.add_mul, Nat.one_mul] at this; omega
    · exact h
    · have : (idx' + 1) * perReq c ≤ idx * perReq c := Nat.mul_le_mul_right _ (by omega)
      rw [Nat.add_mul, Nat.one_mul] at this; omega
  subst hxx
  exact ⟨rfl, rfl, by omega⟩

/-- reply pages never coincide with a key page -/
theorem key_disjoint (c : Cfg) {i i' idx j : Nat} (h1 : idx < c.maxReqs) (hj : j < perReq c) :
    i * perClient c + 1 + idx * perReq c + j ≠ i' * perClient c := by
  have : (idx + 1) * perReq c ≤ c.maxReqs * perReq c := Nat.mul_le_mul_right _ (by omega)
  rw [Nat.add_mul, Nat.one_mul, Nat.mul_comm c.maxReqs] at this
  intro he
  rcases Nat.lt_or_ge i i' with h | h
  · have : (i + 1) * perClient c ≤ i' * perClient c := Nat.mul_le_mul_right _ (by omega)
    rw [Nat.add_mul, Nat.one_mul] at this
    unfold perClient at *; omega
  · have : i' * perClient c ≤ i * perClient c := Nat.mul_le_mul_right _ h
    omega

theorem idxOf_inj {l : List Nat} {a b : Nat} (ha : a ∈ l) (h : l.idxOf a = l.idxOf b) : a = b := by
  have hb : b ∈ l := by
    rw [← List.idxOf_lt_length_iff, ← h, List.idxOf_lt_length_iff]; exact ha
  have h1 : l[l.idxOf a]'(List.idxOf_lt_length_iff.2 ha) = a := List.getElem_idxOf _
  have h2 : l[l.idxOf b]'(List.idxOf_lt_length_iff.2 hb) = b := List.getElem_idxOf _
  rw [← h1, ← h2]; congr 1

end Verif.Clients
