import Verif.Exec.Spec
set_option linter.unusedSimpArgs false
set_option linter.unusedVariables false
namespace Verif.Exec

variable {Blk Rep : Type}

/-! ## the bitmap selects exactly the wanted requests -/

theorem hasReply_iff {c : Cfg} {t : Tbl Rep} {cl q : Nat} :
    hasReply c t cl q = true ↔ cl ∈ c.clients ∧ ∃ i, i < c.maxReqs ∧ ∃ rep, t cl i = some (q, rep) := by
  unfold hasReply
  simp only [Bool.and_eq_true, decide_eq_true_eq, List.any_eq_true, List.mem_range]
  constructor
  · rintro ⟨h1, i, hi, h⟩
    refine ⟨h1, i, hi, ?_⟩
    cases ht : t cl i with
    | none => rw [ht] at h; simp at h
    | some x =>
      obtain ⟨a, b⟩ := x
      rw [ht] at h
      simp only [beq_iff_eq] at h
      exact ⟨b, by rw [h]⟩
  · rintro ⟨h1, i, hi, rep, h⟩
    exact ⟨h1, i, hi, by rw [h]; simp⟩

theorem bit_iff {c : Cfg} {t : Tbl Rep} {b : Batch} {r : Req} :
    ((if c.sep then bitNew c t r else bitOld c t b r) && r.len != 0) = true ↔ Wanted c t r := by
  unfold Wanted
  rw [← hasReply_iff]
  cases hs : c.sep
  · simp only [Bool.false_eq_true, if_false, bitOld, Bool.and_eq_true, bne_iff_ne, ne_eq]
    constructor
    · rintro ⟨h, hl⟩
      split at h; · cases h
      split at h; · cases h
      split at h; · cases h
      rename_i h1 h2 h3
      refine ⟨hl, ?_, h3, by simp⟩
      have := Decidable.not_not.1 h2
      rcases this with h | h
      · exact .inl h
      · exact .inr ⟨trivial, h⟩
    · rintro ⟨hl, ho, hr, -⟩
      refine ⟨?_, hl⟩
      rw [if_neg (by rintro ⟨-, h⟩; exact hl h), if_neg, if_neg hr]
      rcases ho with h | h
      · exact fun hn => hn (.inl h)
      · exact fun hn => hn (.inr h.2)
  · simp only [if_true, bitNew, Bool.and_eq_true, bne_iff_ne, ne_eq]
    constructor
    · rintro ⟨h, hl⟩
      split at h; · cases h
      split at h; · cases h
      split at h; · cases h
      rename_i h1 h3 h4
      exact ⟨hl, .inl (Decidable.not_not.1 h3), h4, by simpa using h1⟩
    · rintro ⟨hl, ho, hr, hsp⟩
      refine ⟨?_, hl⟩
      have h1 := hsp trivial
      rw [if_neg (by simp [h1]), if_neg hl, if_neg, if_neg hr]
      rcases ho with h | h
      · exact fun hn => hn h
      · cases h.1

theorem pick_map (reqs : List Req) (f : Req → Bool) : pick reqs (reqs.map f) = reqs.filter (fun r => f r && r.len != 0) := by
  unfold pick
  induction reqs with
  | nil => rfl
  | cons a l ih =>
    simp only [List.map_cons, List.zip_cons_cons, List.filter_cons]
    split <;> simp_all

theorem pick_eq (c : Cfg) (t : Tbl Rep) (b : Batch) : pick b.reqs (bitsOf c t b) = wanted c t b := by
  unfold bitsOf wanted
  rw [pick_map]
  apply List.filter_congr
  intro r _
  rw [Bool.eq_iff_iff, bit_iff]
  simp

/-! ## micro instructions against the specification -/

/-- data changed by phase 2 -/
structure M (Blk Rep : Type) where
  chain : List Blk
  tbl : Tbl Rep
  outs : List Rep
  pos : Nat

def iexec (c : Cfg) (app : App Blk Rep) (s : Nat) (t : Int) (m : M Blk Rep) : Instr → M Blk Rep
  | .exec r =>
    let x := app.run m.chain s t m.pos r
    { m with chain := m.chain ++ x.1, outs := m.outs ++ [x.2], pos := m.pos + 1 }
  | .reply r =>
    match m.outs with
    | [] => m
    | o :: os => { m with tbl := store c m.tbl r o, outs := os }

def irun (c : Cfg) (app : App Blk Rep) (s : Nat) (t : Int) (m : M Blk Rep) (p : List Instr) : M Blk Rep :=
  p.foldl (iexec c app s t) m

theorem irun_append {c : Cfg} {app : App Blk Rep} {s : Nat} {t : Int} (m : M Blk Rep) (p q : List Instr) :
    irun c app s t m (p ++ q) = irun c app s t (irun c app s t m p) q := List.foldl_append

theorem irun_exec {c : Cfg} {app : App Blk Rep} {s : Nat} {t : Int} : ∀ (g : List Req) (m : M Blk Rep),
    irun c app s t m (g.map .exec) =
      ⟨(runAll app s t g m.pos m.chain).1, m.tbl, m.outs ++ (runAll app s t g m.pos m.chain).2, m.pos + g.length⟩ := by
  intro g
  induction g with
  | nil => intro m; simp [irun, runAll]
  | cons a l ih =>
    intro m
    have : irun c app s t m ((a :: l).map .exec) = irun c app s t (iexec c app s t m (.exec a)) (l.map .exec) := rfl
    rw [this, ih]
    simp only [iexec, runAll, List.append_assoc, List.singleton_append, List.length_cons, Nat.add_assoc, Nat.add_comm 1]

theorem irun_reply {c : Cfg} {app : App Blk Rep} {s : Nat} {t : Int} : ∀ (g : List Req) (xs : List Rep) (m : M Blk Rep),
    xs.length = g.length → m.outs = xs →
    irun c app s t m (g.map .reply) = { m with tbl := storeAll c m.tbl g xs, outs := [] } := by
  intro g
  induction g with
  | nil => intro xs m h1 h2; cases xs with
    | nil => simp [irun, storeAll, ← h2]
    | cons _ _ => simp at h1
  | cons a l ih =>
    intro xs m h1 h2
    cases xs with
    | nil => simp at h1
    | cons x xs =>
      have : irun c app s t m ((a :: l).map .reply) = irun c app s t (iexec c app s t m (.reply a)) (l.map .reply) := rfl
      rw [this, ih xs]
      · simp [iexec, h2, storeAll]
      · simpa using h1
      · simp [iexec, h2]

theorem runAll_length {app : App Blk Rep} {s : Nat} {t : Int} : ∀ (g : List Req) pos ch,
    (runAll app s t g pos ch).2.length = g.length := by
  intro g
  induction g with
  | nil => intros; rfl
  | cons a l ih => intro pos ch; simp [runAll, ih]

theorem irun_group {c : Cfg} {app : App Blk Rep} {s : Nat} {t : Int} (g : List Req) (ch : List Blk) (T : Tbl Rep) (pos : Nat) :
    irun c app s t ⟨ch, T, [], pos⟩ (groupProg g) =
      ⟨(runAll app s t g pos ch).1, storeAll c T g (runAll app s t g pos ch).2, [], pos + g.length⟩ := by
  unfold groupProg
  rw [irun_append, irun_exec, irun_reply g (runAll app s t g pos ch).2]
  · exact runAll_length g pos ch
  · simp

theorem irun_prog {c : Cfg} {app : App Blk Rep} {s : Nat} {t : Int} (b : Batch) (w : World Blk Rep)
    (ht : t = if b.time > w.time then b.time else w.time + c.eps) (hb : b.reqs ≠ []) :
    (irun c app s t ⟨w.chain, w.tbl, [], 0⟩ (progOf c b (bitsOf c w.tbl b))).chain = (batchStep c app s b w).chain ∧
    (irun c app s t ⟨w.chain, w.tbl, [], 0⟩ (progOf c b (bitsOf c w.tbl b))).tbl = (batchStep c app s b w).tbl ∧
    t = (batchStep c app s b w).time := by
  have h1 : progOf c b (bitsOf c w.tbl b) = groupProg (first c b) ++ groupProg (wanted c w.tbl b) := by
    unfold progOf first
    rw [pick_eq]
    cases c.sep <;> simp [groupProg]
  rw [h1, irun_append, irun_group, irun_group]
  unfold batchStep
  rw [if_neg hb]
  simp only [Nat.zero_add]
  rw [← ht]
  exact ⟨rfl, rfl, rfl⟩

/-! ## replaying replies -/

/-- the table slots written for a list of requests -/
def IsKey (c : Cfg) (g : List Req) (cl i : Nat) : Prop :=
  ∃ r ∈ g, ¬ r.client ∈ c.internal ∧ r.client ∈ c.clients ∧ r.client = cl ∧ r.idx = i

/-- two tables differ only in slots written for `g` -/
def Agree (c : Cfg) (g : List Req) (t t' : Tbl Rep) : Prop := ∀ cl i, ¬ IsKey c g cl i → t cl i = t' cl i

theorem agree_refl (c : Cfg) (g : List Req) (t : Tbl Rep) : Agree c g t t := fun _ _ _ => rfl

theorem agree_store {c : Cfg} {g : List Req} {t t' : Tbl Rep} (h : Agree c g t t') {r : Req} (hr : r ∈ g) (x : Rep) :
    Agree c g (store c t r x) t' := by
  intro cl i hk
  unfold store
  split
  · exact h cl i hk
  · split
    · exact h cl i hk
    · rename_i h1 h2
      have h2 := Decidable.not_not.1 h2
      simp only []
      split
      · rename_i h3
        exact absurd ⟨r, hr, h1, h2, h3.1.symm, h3.2.symm⟩ hk
      · exact h cl i hk

theorem storeAll_agree {c : Cfg} : ∀ (g : List Req) (xs : List Rep) (t t' : Tbl Rep), xs.length = g.length →
    Agree c g t t' → storeAll c t g xs = storeAll c t' g xs := by
  intro g
  induction g with
  | nil =>
    intro xs t t' hl h
    cases xs with
    | nil =>
      simp only [storeAll]
      funext cl i
      exact h cl i (by rintro ⟨r, hr, _⟩; cases hr)
    | cons _ _ => simp at hl
  | cons a l ih =>
    intro xs t t' hl h
    cases xs with
    | nil => simp at hl
    | cons x xs =>
      simp only [storeAll]
      apply ih xs _ _ (by simpa using hl)
      intro cl i hk
      unfold store
      by_cases h1 : a.client ∈ c.internal
      · simp only [h1, if_true]
        refine h cl i ?_
        rintro ⟨r, hr, h2, h3, h4, h5⟩
        rcases List.mem_cons.1 hr with rfl | hr
        · exact h2 h1
        · exact hk ⟨r, hr, h2, h3, h4, h5⟩
      · by_cases h2 : a.client ∈ c.clients
        · simp only [h1, h2, not_true_eq_false, if_false]
          by_cases h3 : cl = a.client ∧ i = a.idx
          · simp [h3]
          · simp only [h3, if_false]
            refine h cl i ?_
            rintro ⟨r, hr, h4, h5, h6, h7⟩
            rcases List.mem_cons.1 hr with rfl | hr
            · exact h3 ⟨h6.symm, h7.symm⟩
            · exact hk ⟨r, hr, h4, h5, h6, h7⟩
        · simp only [h1, h2, not_false_eq_true, if_true, if_false]
          refine h cl i ?_
          rintro ⟨r, hr, h4, h5, h6, h7⟩
          rcases List.mem_cons.1 hr with rfl | hr
          · exact h2 h5
          · exact hk ⟨r, hr, h4, h5, h6, h7⟩

/-- the requests the application is called for by a program -/
def callsOf : List Instr → List Req
  | [] => []
  | .exec r :: p => r :: callsOf p
  | .reply _ :: p => callsOf p

theorem callsOf_append (p q : List Instr) : callsOf (p ++ q) = callsOf p ++ callsOf q := by
  induction p with
  | nil => rfl
  | cons a l ih => cases a <;> simp [callsOf, ih]

theorem callsOf_exec (g : List Req) : callsOf (g.map .exec) = g := by
  induction g with
  | nil => rfl
  | cons a l ih => simp [callsOf, ih]

theorem callsOf_reply (g : List Req) : callsOf (g.map .reply) = [] := by
  induction g with
  | nil => rfl
  | cons a l ih => simpa [callsOf] using ih

theorem callsOf_group (g : List Req) : callsOf (groupProg g) = g := by
  unfold groupProg
  rw [callsOf_append, callsOf_exec, callsOf_reply, List.append_nil]

theorem callsOf_prog (c : Cfg) (T : Tbl Rep) (b : Batch) : callsOf (progOf c b (bitsOf c T b)) = chosen c T b := by
  unfold progOf chosen first
  rw [pick_eq]
  cases c.sep <;> simp [callsOf_append, callsOf_group]

/-- requests of replies in a program -/
def repliesOf : List Instr → List Req
  | [] => []
  | .exec _ :: p => repliesOf p
  | .reply r :: p => r :: repliesOf p

theorem repliesOf_group (g : List Req) : repliesOf (groupProg g) = g := by
  have h1 : ∀ (a b : List Instr), repliesOf (a ++ b) = repliesOf a ++ repliesOf b := by
    intro a b
    induction a with
    | nil => rfl
    | cons x l ih => cases x <;> simp [repliesOf, ih]
  have h2 : ∀ l : List Req, repliesOf (l.map .exec) = [] := by
    intro l; induction l with
    | nil => rfl
    | cons a l ih => simpa [repliesOf] using ih
  have h3 : ∀ l : List Req, repliesOf (l.map .reply) = l := by
    intro l; induction l with
    | nil => rfl
    | cons a l ih => simp [repliesOf, ih]
  unfold groupProg
  rw [h1, h2, h3, List.nil_append]

theorem mem_repliesOf {p : List Instr} {r : Req} : r ∈ repliesOf p ↔ .reply r ∈ p := by
  induction p with
  | nil => simp [repliesOf]
  | cons a l ih => cases a <;> simp [repliesOf, ih]

end Verif.Exec
