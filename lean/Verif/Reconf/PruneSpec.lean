import Verif.Reconf.Prune
import Verif.Util.ListLemmas
set_option linter.unusedVariables false
set_option linter.unusedSimpArgs false
/-!
# Pruning: specification
-/
namespace Verif.Prune

/-- A request that says: prune through block `m`.  Every replica of the configuration, and nobody else,
has exactly one answer in it, correctly signed, the sender is no replica, and `m` is the smallest of the
answers. -/
structure Accepted (cfg : Cfg) (p : PReq) (m : Nat) : Prop where
  sender : p.sender ∉ cfg.ids
  answers : (p.blocks.map (fun l => l.replica)).Perm cfg.ids
  signed : ∀ l ∈ p.blocks, cfg.valid l.replica (lpbText l.replica l.block) l.sig = true
  least : ∃ l ∈ p.blocks, l.block = m
  lower : ∀ l ∈ p.blocks, m ≤ l.block

/-- blocks that a request adds to the chain -/
def Req.adds : Req → Nat
  | .user k => k
  | .prune true _ => 1
  | .prune false _ => 0

/-- blocks that a list of requests adds -/
def cnt (h : List Req) : Nat := (h.map Req.adds).sum

/-- the request comes with the signature of the operator -/
def Req.isOp : Req → Bool
  | .prune true _ => true
  | _ => false

/-- the requests that replica `x` has executed: everything in the batches it has begun, without the
rest of the current one -/
def World.executed (w : World) (x : Nat) : List Req :=
  (w.log.take (w.rep x).pos).flatten.take ((w.log.take (w.rep x).pos).flatten.length - (w.rep x).rest.length)

/-- no batch contains two prune requests of the operator -/
def OneEach (log : List (List Req)) : Prop := ∀ b ∈ log, (b.filter Req.isOp).length ≤ 1

/-- replica `x` is between batches and no block is being deleted -/
def World.quiet (w : World) (x : Nat) : Prop := (w.rep x).rest = [] ∧ (w.rep x).job = .idle

/-! ### decimal numbers -/

def val (l : List Nat) : Nat := l.foldl (fun a d => 10 * a + d) 0

theorem val_decF (f n : Nat) : val (decF f n) = n := by
  induction f generalizing n with
  | zero => simp [decF, val]
  | succ f ih =>
    unfold decF
    by_cases h : n < 10
    · rw [if_pos h]; simp [val]
    · rw [if_neg h]
      have := ih (n / 10)
      unfold val at this ⊢
      rw [List.foldl_append, this]
      simp
      omega

theorem val_dec (n : Nat) : val (dec n) = n := val_decF n n

/-- every digit is below ten -/
theorem decF_digits (f n : Nat) (h : n ≤ f) : ∀ d ∈ decF f n, d < 10 := by
  induction f generalizing n with
  | zero => intro d hd; simp [decF] at hd; omega
  | succ f ih =>
    intro d hd
    unfold decF at hd
    by_cases h10 : n < 10
    · rw [if_pos h10] at hd; simp at hd; omega
    · rw [if_neg h10] at hd
      rcases List.mem_append.1 hd with hd | hd
      · exact ih (n / 10) (by omega) d hd
      · simp at hd; omega

theorem dec_inj {a b : Nat} (h : dec a = dec b) : a = b := by
  have := congrArg val h
  rwa [val_dec, val_dec] at this

theorem lpbText_inj {x a b : Nat} (h : lpbText x a = lpbText x b) : a = b :=
  dec_inj (List.append_cancel_left h)

/-! ### verification -/

theorem loop_iff (cfg : Cfg) (bs : List Lpb) (todo : List Nat) (hsub : ∀ x ∈ todo, x ∈ cfg.ids) :
    verifyLoop cfg bs todo = true ↔
      (bs.map (fun l => l.replica)).Perm todo ∧ ∀ l ∈ bs, cfg.valid l.replica (lpbText l.replica l.block) l.sig = true := by
  induction bs generalizing todo with
  | nil =>
    unfold verifyLoop
    rw [List.isEmpty_iff]
    constructor
    · rintro rfl; exact ⟨List.Perm.refl _, by simp⟩
    · rintro ⟨h, _⟩; exact List.nil_perm.1 h
  | cons b bs ih =>
    unfold verifyLoop
    by_cases hm : b.replica ∈ todo
    · have hid := hsub _ hm
      have hv : verifyLpb cfg b = cfg.valid b.replica (lpbText b.replica b.block) b.sig := by
        unfold verifyLpb; rw [if_pos (by simpa using hid)]
      rw [hv]
      by_cases hval : cfg.valid b.replica (lpbText b.replica b.block) b.sig = true
      · rw [if_neg (by simp [hval]), if_neg (by simp [hm]), ih _ (fun x hx => hsub x (List.mem_of_mem_erase hx))]
        constructor
        · rintro ⟨h1, h2⟩
          refine ⟨?_, ?_⟩
          · exact ((List.Perm.cons b.replica h1).trans (List.perm_cons_erase hm).symm)
          · intro l hl
            rcases List.mem_cons.1 hl with rfl | hl
            · exact hval
            · exact h2 l hl
        · rintro ⟨h1, h2⟩
          refine ⟨?_, fun l hl => h2 l (List.mem_cons_of_mem _ hl)⟩
          have := h1.trans (List.perm_cons_erase hm)
          exact List.Perm.cons_inv this
      · rw [if_pos (by simp [hval])]
        constructor
        · intro h; cases h
        · rintro ⟨_, h2⟩; exact absurd (h2 b List.mem_cons_self) hval
    · by_cases hv : verifyLpb cfg b = true
      · rw [if_neg (by simp [hv]), if_pos (by simp [hm])]
        constructor
        · intro h; cases h
        · rintro ⟨h1, _⟩; exact absurd (h1.mem_iff.1 (by simp)) hm
      · rw [if_pos (by simp [hv])]
        constructor
        · intro h; cases h
        · rintro ⟨h1, _⟩; exact absurd (h1.mem_iff.1 (by simp)) hm

theorem fold_min (bs : List Lpb) (k : Nat) :
    let m := bs.foldl minStep k
    (m = k ∨ ∃ l ∈ bs, l.block = m) ∧ m ≤ k ∧ ∀ l ∈ bs, m ≤ l.block := by
  induction bs generalizing k with
  | nil => exact ⟨.inl rfl, Nat.le_refl _, by simp⟩
  | cons b bs ih =>
    simp only [List.foldl_cons]
    have := ih (minStep k b)
    generalize List.foldl minStep (minStep k b) bs = m at this ⊢
    unfold minStep at this
    obtain ⟨h1, h2, h3⟩ := this
    have hk : (if b.block < k then b.block else k) ≤ k ∧ (if b.block < k then b.block else k) ≤ b.block := by
      split <;> omega
    refine ⟨?_, by omega, ?_⟩
    · rcases h1 with h1 | ⟨l, hl, e⟩
      · by_cases hlt : b.block < k
        · rw [if_pos hlt] at h1; exact .inr ⟨b, List.mem_cons_self, h1.symm⟩
        · rw [if_neg hlt] at h1; exact .inl h1
      · exact .inr ⟨l, List.mem_cons_of_mem _ hl, e⟩
    · intro l hl
      rcases List.mem_cons.1 hl with rfl | hl
      · omega
      · exact h3 l hl

theorem agreed_iff (bs : List Lpb) (m : Nat) : agreed bs = some m ↔ (∃ l ∈ bs, l.block = m) ∧ ∀ l ∈ bs, m ≤ l.block := by
  cases bs with
  | nil => simp [agreed]
  | cons b bs =>
    show some (bs.foldl minStep b.block) = some m ↔ _
    have := fold_min bs b.block
    generalize List.foldl minStep b.block bs = k at this ⊢
    obtain ⟨h1, h2, h3⟩ := this
    have hk : (∃ l ∈ b :: bs, l.block = k) ∧ ∀ l ∈ b :: bs, k ≤ l.block := by
      refine ⟨?_, ?_⟩
      · rcases h1 with h1 | ⟨l, hl, e⟩
        · exact ⟨b, List.mem_cons_self, h1.symm⟩
        · exact ⟨l, List.mem_cons_of_mem _ hl, e⟩
      · intro l hl
        rcases List.mem_cons.1 hl with rfl | hl
        · exact h2
        · exact h3 l hl
    constructor
    · intro e; cases e; exact hk
    · rintro ⟨⟨l, hl, e⟩, h⟩
      obtain ⟨⟨l', hl', e'⟩, h'⟩ := hk
      have a := h l' hl'
      have b' := h' l hl
      congr 1; omega

/-- The code accepts exactly the requests of the specification. -/
theorem accepted_iff (cfg : Cfg) (p : PReq) (m : Nat) :
    (verifyReq cfg p = true ∧ agreed p.blocks = some m) ↔ Accepted cfg p m := by
  rw [agreed_iff]
  unfold verifyReq
  constructor
  · rintro ⟨h, h1, h2⟩
    by_cases hl : p.blocks.length = cfg.ids.length
    · rw [if_neg (by simp [hl])] at h
      by_cases hs : p.sender ∈ cfg.ids
      · rw [if_pos (by simpa using hs)] at h; cases h
      · rw [if_neg (by simpa using hs), loop_iff _ _ _ (fun x hx => hx)] at h
        exact ⟨hs, h.1, h.2, h1, h2⟩
    · rw [if_pos (by simpa using hl)] at h; cases h
  · rintro ⟨hs, hp, hv, h1, h2⟩
    refine ⟨?_, h1, h2⟩
    have hl : p.blocks.length = cfg.ids.length := by simpa using hp.length_eq
    rw [if_neg (by simp [hl]), if_neg (by simpa using hs), loop_iff _ _ _ (fun x hx => hx)]
    exact ⟨hp, hv⟩

end Verif.Prune
