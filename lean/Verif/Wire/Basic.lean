import Verif.Wire.Model
/-!
# Reading messages that begin with packed fields
-/
set_option linter.unusedVariables false
set_option linter.unusedSimpArgs false
namespace Verif.Wire
open Verif.Bytes

/-- the computation neither reads outside of the message nor fails an assertion -/
def Safe {α : Type} (x : R α) : Prop := x ≠ .error .oob ∧ x ≠ .error .abort

/-- every field fits into its bytes -/
def Fits (l : List (Nat × Nat)) : Prop := ∀ p ∈ l, p.2 < 256 ^ p.1

/-- bytes of the fields -/
def width : List (Nat × Nat) → Nat
  | [] => 0
  | p :: l => p.1 + width l

/-- the field at an offset -/
def look : List (Nat × Nat) → Nat → Nat → Option Nat
  | [], _, _ => none
  | p :: l, off, k => if off = 0 then (if p.1 = k then some p.2 else none) else if p.1 ≤ off then look l (off - p.1) k else none

theorem encF_length (l : List (Nat × Nat)) : (encF l).length = width l := by
  induction l with
  | nil => rfl
  | cons p l ih => simp [encF, width, ih]

theorem look_spec : ∀ (l : List (Nat × Nat)) (off k v : Nat), look l off k = some v →
    ∃ pre post, l = pre ++ (k, v) :: post ∧ width pre = off := by
  intro l
  induction l with
  | nil => intro off k v h; simp [look] at h
  | cons p l ih =>
    intro off k v h
    unfold look at h
    split at h
    · rename_i h0
      split at h
      · rename_i hk
        cases h
        refine ⟨[], l, ?_, by simp [width, h0]⟩
        subst hk
        rfl
      · cases h
    · split at h
      · rename_i h1
        obtain ⟨pre, post, e, w⟩ := ih _ _ _ h
        exact ⟨p :: pre, post, by rw [e]; rfl, by simp only [width]; omega⟩
      · cases h

theorem encF_append (a b : List (Nat × Nat)) : encF (a ++ b) = encF a ++ encF b := by
  induction a with
  | nil => rfl
  | cons p a ih => simp [encF, ih]

theorem rd_look {s : Nat} {l : List (Nat × Nat)} {rest : Bytes} {off k v : Nat} (hf : Fits l) (h : look l off k = some v) :
    rd ⟨s, encF l ++ rest⟩ off k = .ok v := by
  obtain ⟨pre, post, e, w⟩ := look_spec _ _ _ _ h
  have hv : v < 256 ^ k := hf (k, v) (by rw [e]; simp)
  have hs : slice (encF l ++ rest) off k = some (leEncode k v) := by
    refine slice_mid (a := encF pre) (c := encF post ++ rest) ?_ ?_ (by simp)
    · rw [e, encF_append]; simp [encF]
    · rw [encF_length, w]
  simp only [rd, hs, leDecode_leEncode k v hv]

theorem slice_some {b : Bytes} {off len : Nat} (h : off + len ≤ b.length) : slice b off len = some ((b.drop off).take len) := by
  simp only [slice, h, if_true]

theorem rdB_rest {s : Nat} {l : List (Nat × Nat)} {rest : Bytes} {off n : Nat} (k : Nat) (ho : off = width l + k)
    (h : k + n ≤ rest.length) : rdB ⟨s, encF l ++ rest⟩ off n = .ok ((rest.drop k).take n) := by
  have h1 : off + n ≤ (encF l ++ rest).length := by simp [encF_length, ho]; omega
  simp only [rdB, slice_some h1]
  congr 2
  rw [ho, ← encF_length, List.drop_append]
  simp

/-- the first field of a long enough message -/
theorem peel (k : Nat) (b : Bytes) (h : k ≤ b.length) :
    ∃ v r, v < 256 ^ k ∧ b = leEncode k v ++ r := by
  refine ⟨leDecode (b.take k), b.drop k, ?_, ?_⟩
  · have := leDecode_lt (b.take k)
    rwa [List.length_take_of_le h] at this
  · have := leEncode_leDecode (b.take k)
    rw [List.length_take_of_le h] at this
    rw [this, List.take_append_drop]

/-- a list of widths and values -/
def zipF : List Nat → List Nat → List (Nat × Nat)
  | w :: ws, v :: vs => (w, v) :: zipF ws vs
  | _, _ => []

/-- every long enough message begins with fields of given widths -/
theorem peels : ∀ (ws : List Nat) (b : Bytes), ws.sum ≤ b.length →
    ∃ vs r, vs.length = ws.length ∧ Fits (zipF ws vs) ∧ b = encF (zipF ws vs) ++ r := by
  intro ws
  induction ws with
  | nil => intro b h; exact ⟨[], b, rfl, (by intro p hp; cases hp), rfl⟩
  | cons w ws ih =>
    intro b h
    simp only [List.sum_cons] at h
    obtain ⟨v, r, hv, e⟩ := peel w b (by omega)
    have hr : ws.sum ≤ r.length := by rw [e] at h; simp at h; omega
    obtain ⟨vs, r', hl, hf, e'⟩ := ih r hr
    refine ⟨v :: vs, r', by simp [hl], ?_, ?_⟩
    · intro p hp
      simp only [zipF, List.mem_cons] at hp
      rcases hp with hp | hp
      · rw [hp]; exact hv
      · exact hf p hp
    · rw [e, e']; simp [zipF, encF]

theorem rd_short {m : Msg} {off k : Nat} (h : m.size < off + k) : rd m off k = .error .oob := by
  have : slice m.body off k = none := by
    unfold slice
    rw [if_neg]
    unfold Msg.size at h
    omega
  simp only [rd, this]

theorem bind_ok {α β : Type} (a : α) (f : α → R β) : ((Except.ok a : R α) >>= f) = f a := rfl
theorem bind_err {α β : Type} (x : Err) (f : α → R β) : ((Except.error x : R α) >>= f) = .error x := rfl

theorem require_bind {α : Type} (p : Prop) [Decidable p] (f : Unit → R α) :
    (require p >>= f) = if p then f () else .error .reject := by
  unfold require; split <;> rfl

theorem assert_bind {α : Type} (p : Prop) [Decidable p] (f : Unit → R α) :
    (assert p >>= f) = if p then f () else .error .abort := by
  unfold assert; split <;> rfl

theorem bind_assoc' {α β γ : Type} (x : R α) (f : α → R β) (g : β → R γ) : ((x >>= f) >>= g) = (x >>= fun a => f a >>= g) := by
  cases x <;> rfl

theorem ite_bind {α β : Type} (p : Prop) [Decidable p] (x y : R α) (f : α → R β) :
    ((if p then x else y) >>= f) = if p then x >>= f else y >>= f := by split <;> rfl

theorem safe_ok {α : Type} (a : α) : Safe (.ok a : R α) := ⟨by simp, by simp⟩
theorem safe_reject {α : Type} : Safe (.error .reject : R α) := ⟨by simp, by simp⟩
theorem safe_ite {α : Type} {p : Prop} [Decidable p] {x y : R α} (hx : p → Safe x) (hy : ¬p → Safe y) : Safe (if p then x else y) := by
  split
  · exact hx (by assumption)
  · exact hy (by assumption)

/-- conditions in order -/
theorem ite_ite {α : Type} {p q : Prop} [Decidable p] [Decidable q] {x y : α} :
    (if p then (if q then x else y) else y) = if p ∧ q then x else y := by
  by_cases hp : p <;> by_cases hq : q <;> simp [hp, hq]

theorem ite_ok {α : Type} {p : Prop} [Decidable p] {x : R α} {a : α} : (if p then x else .error .reject) = .ok a ↔ p ∧ x = .ok a := by
  split <;> simp_all

theorem fits_cons {p : Nat × Nat} {l : List (Nat × Nat)} : Fits (p :: l) ↔ p.2 < 256 ^ p.1 ∧ Fits l := by
  simp [Fits]

theorem fits_nil : Fits [] := by intro p hp; cases hp

/-- what is delivered to the handlers has a header and is not longer than the configured limit -/
theorem onNewMessage_iff (e : Env) (m : Msg) : onNewMessage e m = true ↔ 6 ≤ m.size ∧ m.size ≤ e.maxSize := by
  unfold onNewMessage baseHdr
  simp only [Bool.not_eq_true', Bool.or_eq_false_iff, decide_eq_false_iff_not]
  omega

end Verif.Wire
