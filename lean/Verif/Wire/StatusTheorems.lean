import Verif.Wire.StatusModel
/-!
# A replica that reports what it misses is sent it
-/
set_option linter.unusedVariables false
set_option linter.unusedSimpArgs false
set_option maxRecDepth 4000
namespace Verif.Wire
open Verif.Bytes

/-! ## Specification -/

/-- what holds of every replica -/
structure Node.Wf (e : Env) (L : Node) : Prop where
  stableMul : L.stable % 150 = 0
  order : L.stable ≤ L.exec
  stableFits : (L.stable : Int) + 300 < top
  execFits : (L.exec : Int) + 1 < top
  viewFits : (L.view : Int) < top
  /-- a replica in a view has its new-view message and waits for nothing -/
  inView : L.active = true → L.hasNV = true
  /-- the log of checkpoints contains the last stable one -/
  ckptMul : L.ckptLow % 150 = 0
  ckptLow : L.ckptLow ≤ L.stable
  ckptHigh : L.stable < L.ckptLow + 600
  /-- views other than the first are entered with a view-change message and, by their primary, a new-view message -/
  ownVC : 0 < L.view → L.ownVC = true
  ownNV : L.active = true → 0 < L.view → e.me = e.primary L.view → L.newView = true
  vcsIds : ∀ g ∈ L.vcs, g < e.maxReplicas
  complaintIds : ∀ g ∈ L.complaints, g < e.maxReplicas
  vcIds : ∀ g ∈ L.lacksVC, g < e.maxReplicas
  ppWindow : ∀ q ∈ L.lacksPP, (L.stable : Int) < q ∧ q ≤ (L.stable : Int) + 300

/-- `S` is so far behind that the messages of its window are of no use, or `L` has no view and `S` is behind -/
def Far (L S : Node) : Prop := L.stable > S.stable + 300 ∨ (L.active = false ∧ L.stable > S.stable)

/-- the primary of the view of `L` is `L` or the replica that reported -/
def PrimaryInvolved (e : Env) (L : Node) (s : Nat) : Prop := e.me = e.primary L.view ∨ s = e.primary L.view

/-- what `L` has to send when replica `s` with state `S` reports -/
inductive Owes (e : Env) (L S : Node) (s : Nat) : Out → Prop
  /-- everything it has for its stable checkpoint, but what `s` made itself -/
  | allCkpts (g : Nat) : Far L S → g ∈ L.ckpts → g ≠ s → Owes e L S s (.ckpt L.stable g)
  /-- the own checkpoint message when both are at the same one -/
  | sameCkpt : L.stable = S.stable → 0 < L.stable → L.ownCkpt L.stable = true → Owes e L S s (.ckpt L.stable e.me)
  /-- the own checkpoint messages of the window of `S` -/
  | nextCkpt (q : Int) : ¬ Far L S → S.stable ≤ L.stable + 300 → (150 : Int) ∣ q → (S.stable : Int) < q → q ≤ (S.stable : Int) + 300 →
      (L.ckptLow : Int) ≤ q → q < (L.ckptLow : Int) + 600 → L.ownCkpt q = true → Owes e L S s (.ckpt q e.me)
  /-- the own view change when `S` is in an older view -/
  | ownViewChange : S.view < L.view → Owes e L S s .ownViewChange
  /-- the new-view message of the own view -/
  | newView : S.view = L.view → S.active = false → S.hasNV = false → L.active = true → 0 < L.view → e.me = e.primary L.view →
      Owes e L S s .newView
  /-- view changes that `S` misses -/
  | viewChange (g : Nat) : S.view = L.view → S.active = false → S.pending = false → 0 < L.view → g ∈ L.vcs → g ∈ S.lacksVC →
      Owes e L S s (.viewChange g)
  /-- PrePrepare messages that `S` needs to enter the view -/
  | missing (q : Int) : S.view = L.view → S.active = false → S.pending = true → PrimaryInvolved e L s → q ∈ S.lacksPP →
      (L.active = true → (L.stable : Int) < q ∧ q ≤ (L.stable : Int) + 300 ∧ L.hasPP q = true) → (L.active = false → L.vmPP q = true) →
      Owes e L S s (.prePrepare q)
  /-- the primary's PrePrepare messages of its window that `S` has neither received nor executed -/
  | gap (q : Int) : S.view = L.view → S.active = true → L.active = true → e.me = e.primary L.view → (S.exec : Int) < q →
      q ≤ (S.stable : Int) + 300 → S.hasPP q = false → (L.stable : Int) < q → q ≤ (L.stable : Int) + 300 → L.selfPP q = true →
      Owes e L S s (.prePrepare q)
  /-- and of the window before, if it is still there from the next number of `S` on -/
  | oldGap (q : Int) : S.view = L.view → S.active = true → L.active = true → e.me = e.primary L.view → (S.exec : Int) < q →
      q ≤ (S.stable : Int) + 300 → S.hasPP q = false → S.exec < L.stable → L.stable ≤ S.exec + L.hist → q ≤ (L.stable : Int) → L.selfOld q = true →
      Owes e L S s (.prePrepare q)
  /-- complaints that `S` does not have -/
  | complaint (g : Nat) : S.view = L.view → g ∈ L.complaints → g ∉ S.complaints → Owes e L S s (.complaint g)
  /-- the own state, when `S` is ahead or the view has a primary that is not in it -/
  | askCkpt : S.stable > L.stable + 300 → Owes e L S s .askHelp
  | askView : L.view < S.view → Owes e L S s .askHelp
  | askPrimary : S.view = L.view → S.active = true → L.active = false → e.me = e.primary L.view → Owes e L S s .askHelp

/-! ## Lemmas -/

theorem toInt64_small {n : Nat} (h : (n : Int) < top) : toInt64 n = (n : Int) := by
  unfold top at h
  unfold toInt64
  rw [if_pos (by omega)]

theorem hbind_ok {α β : Type} (a : α) (f : α → H β) : ((Except.ok a : H α) >>= f) = f a := rfl
theorem hbind_err {α β : Type} (x : Stop) (f : α → H β) : ((Except.error x : H α) >>= f) = .error x := rfl
theorem sure_bind {α : Type} {p : Prop} [Decidable p] (h : p) (f : Unit → H α) : (sure p >>= f) = f () := by
  unfold sure; rw [if_pos h]; rfl

theorem sendEach_ok {α : Type} {f : α → H (List Out)} {g : α → List Out} : ∀ {l : List α}, (∀ x ∈ l, f x = .ok (g x)) →
    sendEach f l = .ok (l.flatMap g)
  | [], _ => rfl
  | x :: l, h => by
    unfold sendEach
    rw [h x (by simp), hbind_ok, sendEach_ok (fun y hy => h y (List.mem_cons_of_mem _ hy)), hbind_ok]
    rfl

theorem mem_steps {lo hi k x : Int} (hk : 0 < k) : x ∈ steps lo hi k ↔ lo ≤ x ∧ x ≤ hi ∧ k ∣ (x - lo) := by
  unfold steps
  rw [List.mem_map]
  constructor
  · rintro ⟨i, hi1, rfl⟩
    rw [List.mem_range] at hi1
    have h1 : (i : Int) < (hi - lo) / k + 1 := by omega
    have h2 : (i : Int) ≤ (hi - lo) / k := by omega
    have h3 : (i : Int) * k ≤ hi - lo := (Int.le_ediv_iff_mul_le hk).mp h2
    have h4 : 0 ≤ k * (i : Int) := Int.mul_nonneg (by omega) (by omega)
    have h5 : k * (i : Int) = i * k := Int.mul_comm _ _
    refine ⟨by omega, by omega, ⟨(i : Int), by omega⟩⟩
  · rintro ⟨h1, h2, ⟨c, hc⟩⟩
    have hc0 : 0 ≤ c := by
      rcases Int.lt_or_le c 0 with h | h
      · have : k * c < 0 := Int.mul_neg_of_pos_of_neg hk h
        omega
      · exact h
    refine ⟨c.toNat, ?_, by rw [Int.toNat_of_nonneg hc0]; omega⟩
    rw [List.mem_range]
    have h5 : k * c = c * k := Int.mul_comm _ _
    have h3 : c ≤ (hi - lo) / k := (Int.le_ediv_iff_mul_le hk).mpr (by omega)
    omega

theorem mem_steps_one {lo hi x : Int} : x ∈ steps lo hi 1 ↔ lo ≤ x ∧ x ≤ hi := by
  rw [mem_steps (by omega)]
  exact ⟨fun h => ⟨h.1, h.2.1⟩, fun h => ⟨h.1, h.2, Int.one_dvd _⟩⟩

theorem mem_flatMap_if {α : Type} {l : List α} {p : α → Bool} {g : α → Out} {o : Out} :
    o ∈ l.flatMap (fun x => if p x then [g x] else []) ↔ ∃ x ∈ l, p x = true ∧ o = g x := by
  rw [List.mem_flatMap]
  constructor
  · rintro ⟨x, hx, h⟩
    split at h
    · rename_i hp
      exact ⟨x, hx, hp, by simpa using h⟩
    · simp at h
  · rintro ⟨x, hx, hp, rfl⟩
    exact ⟨x, hx, by simp [hp]⟩

theorem tmod_nat {n : Nat} (h : n % 150 = 0) : Int.tmod (n : Int) 150 = 0 := by
  have : Int.tmod (n : Int) ((150 : Nat) : Int) = ((n % 150 : Nat) : Int) := (Int.ofNat_tmod n 150).symm
  rw [h] at this
  exact this

theorem tmod_dvd {q : Int} : Int.tmod q 150 = 0 ↔ (150 : Int) ∣ q := (Int.dvd_iff_tmod_eq_zero).symm

/-! ## The report -/

section
variable {e : Env} {S : Node} {s epoch : Nat} {span : Bytes}

theorem report_flags : (S.report epoch).active = S.active ∧ (S.report epoch).hasNewView = S.hasNV ∧ (S.report epoch).hasPPs = S.active ∧
    (S.report epoch).hasVCs = (!S.active && !S.pending) ∧ (S.report epoch).hasMissing = (!S.active && S.pending) := by
  have : ∀ a p h : Bool, (flagByte a p h).testBit 0 = a ∧ (flagByte a p h).testBit 1 = h ∧ (flagByte a p h).testBit 2 = a ∧
      (flagByte a p h).testBit 3 = (!a && !p) ∧ (flagByte a p h).testBit 4 = (!a && p) := by decide
  exact this _ _ _

theorem report_flagsFit : (S.report epoch).flags < 256 := by
  have : ∀ a p h : Bool, flagByte a p h < 256 := by decide
  exact this _ _ _

theorem report_valid (hw : S.Wf e) (hs : s < e.n) (hm : s ≠ e.me) (he : epoch < 256 ^ 8) : (S.report epoch).Valid e s := by
  obtain ⟨f1, f2, f3, f4, f5⟩ := report_flags (S := S) (epoch := epoch)
  have hst := toInt64_small (n := S.stable) (by have := hw.stableFits; omega)
  have hex := toInt64_small (n := S.exec) (by have := hw.execFits; omega)
  refine ⟨hm, hs, ?_, ?_, ?_, ?_, ?_, ?_, ?_, ?_⟩
  · show Int.tmod (toInt64 S.stable) 150 = 0
    rw [hst]; exact tmod_nat hw.stableMul
  · show toInt64 S.stable ≤ toInt64 S.exec
    rw [hst, hex]; have := hw.order; omega
  · rw [f1, f2]; exact hw.inView
  · rw [f1, f4]; intro h; simp [h]
  · rw [f1, f5]; intro h; simp [h]
  · rw [f1, f3]; exact id
  · rw [f4, f5]; rintro ⟨h1, h2⟩; simp at h1 h2; rw [h1.2] at h2; exact absurd h2.2 (by decide)
  · have h256 : (256 : Nat) ^ 8 = 18446744073709551616 := by decide
    have h1 := hw.stableFits
    have h2 := hw.execFits
    have h3 := hw.viewFits
    unfold top at h1 h2 h3
    intro p hp
    have hp' : p = (2, codeReplicaStatus) ∨ p = (4, 0) ∨ p = (8, S.view) ∨ p = (8, S.stable) ∨ p = (8, S.exec) ∨ p = (8, epoch) ∨
        p = (1, (S.report epoch).flags) := by
      simpa [hdr, Status.fields, Node.report] using hp
    rcases hp' with rfl | rfl | rfl | rfl | rfl | rfl | rfl
    · decide
    · decide
    · show S.view < 256 ^ 8; omega
    · show S.stable < 256 ^ 8; omega
    · show S.exec < 256 ^ 8; omega
    · exact he
    · have := report_flagsFit (S := S) (epoch := epoch)
      show (S.report epoch).flags < 256 ^ 1
      omega

theorem reportMsg_on (hsp : span.length < 256 ^ 4) :
    Status.IsOn e (S.reportMsg e s epoch span) (S.report epoch) span (lists e ((S.report epoch).listSize e) S.complaints S.marks) :=
  ⟨rfl, lists_length _ _ _ _, hsp⟩

theorem reportMsg_opened : S.reportMsg e s epoch span =
    opened s (hdr codeReplicaStatus span (S.report epoch).fields) (span ++ lists e ((S.report epoch).listSize e) S.complaints S.marks) := by
  unfold Node.reportMsg
  simp only [Status.encode, frame, List.append_assoc]

theorem report_received (hw : S.Wf e) (hs : s < e.n) (hm : s ≠ e.me) (he : epoch < 256 ^ 8) (hsp : span.length < 256 ^ 4) :
    Status.receive e (S.reportMsg e s epoch span) = .ok (S.report epoch) := by
  have hv := report_valid hw hs hm he
  have hf := fits_span (k := span.length) hv.fits hsp
  refine (Status.receive_iff e _ _ ?_ ?_).mpr ⟨hv, span, _, reportMsg_on hsp⟩
  · rw [reportMsg_opened, opened_size]
    have : width (hdr codeReplicaStatus span (S.report epoch).fields) = 39 := rfl
    omega
  · rw [reportMsg_opened]
    exact (isA_opened hf).mpr rfl

theorem marks_fit (hw : S.Wf e) (hv : (S.report epoch).Valid e s) : ∀ i ∈ S.marks, e.mask + i / 8 < (S.report epoch).listSize e := by
  obtain ⟨f1, f2, f3, f4, f5⟩ := report_flags (S := S) (epoch := epoch)
  have hst := toInt64_small (n := S.stable) (by have := hw.stableFits; omega)
  have hwm : windowMask = 38 := rfl
  intro i hi
  unfold Node.marks at hi
  cases ha : S.active
  · rw [ha] at hi f4 f5
    cases hp : S.pending
    · rw [hp] at hi f4
      have := div8_lt_mask (hw.vcIds i hi)
      rw [listSize_vcs hv f4]; omega
    · rw [hp] at hi f5
      rw [listSize_missing hv f5]
      obtain ⟨x, hx, rfl⟩ := List.mem_map.mp hi
      have := hw.ppWindow x hx
      unfold place
      omega
  · rw [ha] at hi f3
    rw [listSize_pps hv f3]
    obtain ⟨x, hx, rfl⟩ := List.mem_map.mp hi
    have := mem_steps_one.mp (List.mem_filter.mp hx).1
    unfold place
    omega

theorem report_complaints (hw : S.Wf e) (hs : s < e.n) (hm : s ≠ e.me) (he : epoch < 256 ^ 8) (hsp : span.length < 256 ^ 4)
    {r : Nat} (hr : r < e.maxReplicas) : hasComplaint e (S.reportMsg e s epoch span) r = .ok (decide (r ∈ S.complaints)) := by
  have hv := report_valid hw hs hm he
  exact Status.complaints_arrive e _ _ span _ _ hv rfl hsp hw.complaintIds (marks_fit hw hv) r hr

theorem report_vcs (hw : S.Wf e) (hs : s < e.n) (hm : s ≠ e.me) (he : epoch < 256 ^ 8) (hsp : span.length < 256 ^ 4)
    (ha : S.active = false) (hp : S.pending = false)
    {r : Nat} (hr : r < e.maxReplicas) : isMissingViewChange e (S.reportMsg e s epoch span) r = .ok (decide (r ∈ S.lacksVC)) := by
  have hv := report_valid hw hs hm he
  obtain ⟨f1, f2, f3, f4, f5⟩ := report_flags (S := S) (epoch := epoch)
  refine Status.viewChanges_arrive e _ _ span S.complaints S.lacksVC hv (by rw [f4, ha, hp]; rfl) ?_ hsp hw.complaintIds hw.vcIds r hr
  show Status.encode _ _ (lists e _ S.complaints S.marks) = _
  unfold Node.marks
  rw [ha, hp]
  rfl

theorem report_missing (hw : S.Wf e) (hs : s < e.n) (hm : s ≠ e.me) (he : epoch < 256 ^ 8) (hsp : span.length < 256 ^ 4)
    (ha : S.active = false) (hp : S.pending = true) {q : Int} (h1 : (S.stable : Int) < q) (h2 : q ≤ (S.stable : Int) + 300) :
    isMissingPrePrepare e (S.reportMsg e s epoch span) q = .ok (decide (q ∈ S.lacksPP)) := by
  have hv := report_valid hw hs hm he
  have hst : toInt64 (S.report epoch).stable = S.stable := toInt64_small (n := S.stable) (by have := hw.stableFits; omega)
  obtain ⟨f1, f2, f3, f4, f5⟩ := report_flags (S := S) (epoch := epoch)
  refine (Status.window_arrives e (S.reportMsg e s epoch span) _ span S.complaints S.lacksPP hv ?_ hsp hw.complaintIds ?_ q ?_ ?_).2
    (by rw [f5, ha, hp]; rfl)
  · show Status.encode _ _ (lists e _ S.complaints S.marks) = _
    unfold Node.marks
    rw [ha, hp]
    rfl
  · rw [hst]; exact hw.ppWindow
  · rw [hst]; exact h1
  · rw [hst]; exact h2

theorem report_has (hw : S.Wf e) (hs : s < e.n) (hm : s ≠ e.me) (he : epoch < 256 ^ 8) (hsp : span.length < 256 ^ 4)
    (ha : S.active = true) {q : Int} (h1 : (S.stable : Int) < q) (h2 : q ≤ (S.stable : Int) + 300) :
    isPrePrepareInWindow e (S.reportMsg e s epoch span) q = .ok (S.hasPP q) := by
  have hv := report_valid hw hs hm he
  have hst : toInt64 (S.report epoch).stable = S.stable := toInt64_small (n := S.stable) (by have := hw.stableFits; omega)
  obtain ⟨f1, f2, f3, f4, f5⟩ := report_flags (S := S) (epoch := epoch)
  have hmem : ∀ x, x ∈ (steps ((S.stable : Int) + 1) ((S.stable : Int) + 300) 1).filter S.hasPP ↔
      ((S.stable : Int) + 1 ≤ x ∧ x ≤ (S.stable : Int) + 300) ∧ S.hasPP x = true := by
    intro x; rw [List.mem_filter, mem_steps_one]
  have hmk : S.marks = ((steps ((S.stable : Int) + 1) ((S.stable : Int) + 300) 1).filter S.hasPP).map (place S.stable) := by
    unfold Node.marks; rw [if_pos ha]
  generalize hl : (steps ((S.stable : Int) + 1) ((S.stable : Int) + 300) 1).filter S.hasPP = l at hmem hmk
  have h := (Status.window_arrives e (S.reportMsg e s epoch span) _ span S.complaints l hv (by
      show Status.encode _ _ (lists e _ S.complaints S.marks) = _
      rw [hmk]
      rfl) hsp hw.complaintIds (by
      intro x hx
      have := (hmem x).mp hx
      rw [hst]; omega) q (by rw [hst]; exact h1) (by rw [hst]; exact h2)).1 (by rw [f3, ha])
  have hd : decide (q ∈ l) = S.hasPP q := by
    rw [Bool.eq_iff_iff, decide_eq_true_eq, hmem]
    exact ⟨fun h => h.2, fun h => ⟨⟨by omega, h2⟩, h⟩⟩
  rw [h, hd]

end

/-! ## What is sent -/

/-- handling ends with the messages that satisfy `P` -/
def Sent (r : H (List Out)) (P : Out → Prop) : Prop := ∃ outs, r = .ok outs ∧ ∀ o, o ∈ outs ↔ P o

theorem Sent.congr {r : H (List Out)} {P Q : Out → Prop} (h : Sent r P) (hpq : ∀ o, P o ↔ Q o) : Sent r Q :=
  let ⟨outs, h1, h2⟩ := h
  ⟨outs, h1, fun o => (h2 o).trans (hpq o)⟩

theorem Sent.nil : Sent (.ok []) (fun _ => False) := ⟨[], rfl, fun o => by simp⟩
theorem Sent.one (x : Out) : Sent (.ok [x]) (fun o => o = x) := ⟨[x], rfl, fun o => by simp⟩

theorem Sent.each {α : Type} {f : α → H (List Out)} {l : List α} (p : α → Bool) (g : α → Out)
    (h : ∀ x ∈ l, f x = .ok (if p x then [g x] else [])) : Sent (sendEach f l) (fun o => ∃ x ∈ l, p x = true ∧ o = g x) :=
  ⟨_, sendEach_ok h, fun o => mem_flatMap_if⟩

/-- the part on checkpoints -/
def CkptPart (e : Env) (L S : Node) (s : Nat) (o : Out) : Prop :=
  (Far L S ∧ ∃ g ∈ L.ckpts, g ≠ s ∧ o = .ckpt L.stable g) ∨
  (L.stable = S.stable ∧ 0 < L.stable ∧ L.ownCkpt L.stable = true ∧ o = .ckpt L.stable e.me) ∨
  (¬ Far L S ∧ S.stable ≤ L.stable + 300 ∧ ∃ q : Int, (150 : Int) ∣ q ∧ (S.stable : Int) < q ∧ q ≤ (S.stable : Int) + 300 ∧
    (L.ckptLow : Int) ≤ q ∧ q < (L.ckptLow : Int) + 600 ∧ L.ownCkpt q = true ∧ o = .ckpt q e.me) ∨
  (S.stable > L.stable + 300 ∧ o = .askHelp)

theorem getCkpt_ok {L : Node} {q : Int} (h1 : (150 : Int) ∣ q) (h2 : (L.ckptLow : Int) ≤ q) (h3 : q < (L.ckptLow : Int) + 600) :
    L.getCkpt q = .ok () := by
  unfold Node.getCkpt
  rw [sure_bind (tmod_dvd.mpr h1)]
  unfold sure
  rw [if_pos (by unfold Node.inCkpts; simp [h2, h3])]

theorem checkpoint_sent {e : Env} {L S : Node} {s : Nat} (hL : L.Wf e) (hS : S.Wf e) :
    Sent (checkpointPart e L s (S.stable : Int)) (CkptPart e L S s) := by
  have hLm : (150 : Int) ∣ (L.stable : Int) := by have := hL.stableMul; omega
  have hSm : (150 : Int) ∣ (S.stable : Int) := by have := hS.stableMul; omega
  have hlm : (150 : Int) ∣ (L.ckptLow : Int) := by have := hL.ckptMul; omega
  have h1 := hL.ckptLow
  have h2 := hL.ckptHigh
  unfold checkpointPart
  by_cases hf : Far L S
  · rw [if_pos (by rcases hf with h | ⟨h, h'⟩; exact Or.inl (by omega); exact Or.inr ⟨h, by omega⟩),
      getCkpt_ok hLm (by omega) (by omega), hbind_ok]
    refine ⟨_, rfl, ?_⟩
    intro o
    have hgt : L.stable > S.stable := by rcases hf with h | ⟨_, h⟩ <;> omega
    rw [List.mem_map]
    unfold CkptPart
    constructor
    · rintro ⟨g, hg, rfl⟩
      rw [List.mem_filter] at hg
      exact Or.inl ⟨hf, g, hg.1, fun h => by simp [h] at hg, rfl⟩
    · rintro (⟨_, g, hg, hs, rfl⟩ | ⟨h, _⟩ | ⟨h, _⟩ | ⟨h, _⟩)
      · exact ⟨g, List.mem_filter.mpr ⟨hg, by simpa using fun h => hs h.symm⟩, rfl⟩
      · omega
      · exact absurd hf h
      · omega
  · rw [if_neg (by
      intro h
      apply hf
      rcases h with h | ⟨h, h'⟩
      · exact Or.inl (by omega)
      · exact Or.inr ⟨h, by omega⟩)]
    by_cases ha : S.stable > L.stable + 300
    · rw [if_pos (by omega)]
      refine (Sent.one _).congr ?_
      intro o
      unfold CkptPart
      constructor
      · intro h; exact Or.inr (Or.inr (Or.inr ⟨ha, h⟩))
      · rintro (⟨h, _⟩ | ⟨h, _⟩ | ⟨_, h, _⟩ | ⟨_, h⟩)
        · exact absurd h hf
        · omega
        · omega
        · exact h
    · rw [if_neg (by omega)]
      have hsame : ∃ l, (if L.stable ≠ 0 ∧ (S.stable : Int) = (L.stable : Int) then (do
          L.getCkpt (S.stable : Int)
          Except.ok (if L.ownCkpt (S.stable : Int) then [Out.ckpt (S.stable : Int) e.me] else []) : H (List Out)) else .ok []) = .ok l ∧
          ∀ o, o ∈ l ↔ (L.stable = S.stable ∧ 0 < L.stable ∧ L.ownCkpt L.stable = true ∧ o = .ckpt L.stable e.me) := by
        by_cases hz : L.stable ≠ 0 ∧ (S.stable : Int) = (L.stable : Int)
        · rw [if_pos hz, getCkpt_ok hSm (by omega) (by omega), hbind_ok]
          refine ⟨_, rfl, ?_⟩
          intro o
          rw [hz.2]
          constructor
          · intro h
            split at h
            · rename_i hc
              exact ⟨by omega, by omega, hc, by simpa using h⟩
            · simp at h
          · rintro ⟨_, _, hc, rfl⟩
            rw [if_pos hc]; simp
        · rw [if_neg hz]
          refine ⟨[], rfl, fun o => ?_⟩
          constructor
          · intro h; simp at h
          · rintro ⟨h, h', _⟩; exact absurd ⟨by omega, by omega⟩ hz
      obtain ⟨l, el, hl⟩ := hsame
      rw [el, hbind_ok]
      have hlo : (150 : Int) ∣ max (L.ckptLow : Int) ((S.stable : Int) + 150) := by omega
      rw [sure_bind (tmod_dvd.mpr hlo)]
      have hrest : ∀ q : Int, (150 : Int) ∣ q ∧ (S.stable : Int) < q ∧ q ≤ (S.stable : Int) + 300 ∧ (L.ckptLow : Int) ≤ q ∧ q < (L.ckptLow : Int) + 600 ↔
          q ∈ steps (max (L.ckptLow : Int) ((S.stable : Int) + 150)) (min ((L.ckptLow : Int) + 600 - 1) ((S.stable : Int) + 300)) 150 := by
        intro q
        rw [mem_steps (by omega)]
        constructor
        · rintro ⟨h1, h2, h3, h4, h5⟩
          refine ⟨by omega, by omega, by omega⟩
        · rintro ⟨h1, h2, h3⟩
          refine ⟨by omega, by omega, by omega, by omega, by omega⟩
      have hP : ∀ o, CkptPart e L S s o ↔
          (L.stable = S.stable ∧ 0 < L.stable ∧ L.ownCkpt L.stable = true ∧ o = .ckpt L.stable e.me) ∨
          ∃ q ∈ steps (max (L.ckptLow : Int) ((S.stable : Int) + 150)) (min ((L.ckptLow : Int) + 600 - 1) ((S.stable : Int) + 300)) 150,
            L.ownCkpt q = true ∧ o = .ckpt q e.me := by
        intro o
        unfold CkptPart
        constructor
        · rintro (⟨h, _⟩ | h | ⟨_, _, q, h1, h2, h3, h4, h5, h6, h7⟩ | ⟨h, _⟩)
          · exact absurd h hf
          · exact Or.inl h
          · exact Or.inr ⟨q, (hrest q).mp ⟨h1, h2, h3, h4, h5⟩, h6, h7⟩
          · exact absurd h ha
        · rintro (h | ⟨q, hq, h6, h7⟩)
          · exact Or.inr (Or.inl h)
          · obtain ⟨h1, h2, h3, h4, h5⟩ := (hrest q).mpr hq
            exact Or.inr (Or.inr (Or.inl ⟨hf, by omega, q, h1, h2, h3, h4, h5, h6, h7⟩))
      by_cases hle : max (L.ckptLow : Int) ((S.stable : Int) + 150) ≤ min ((L.ckptLow : Int) + 600 - 1) ((S.stable : Int) + 300)
      · rw [if_pos hle, sure_bind (by omega)]
        obtain ⟨l2, e2, hl2⟩ := Sent.each (f := fun i => do
            L.getCkpt i
            Except.ok (if L.ownCkpt i then [Out.ckpt i e.me] else []))
          (l := steps (max (L.ckptLow : Int) ((S.stable : Int) + 150)) (min ((L.ckptLow : Int) + 600 - 1) ((S.stable : Int) + 300)) 150)
          L.ownCkpt (fun i => Out.ckpt i e.me) (by
            intro i hi
            obtain ⟨h1, h2, h3, h4, h5⟩ := (hrest i).mpr hi
            show (L.getCkpt i >>= _) = _
            rw [getCkpt_ok h1 h4 h5]
            rfl)
        rw [e2, hbind_ok]
        refine ⟨_, rfl, fun o => ?_⟩
        rw [List.mem_append, hl, hl2, hP]
      · rw [if_neg hle]
        refine ⟨l, rfl, fun o => ?_⟩
        rw [hl, hP]
        constructor
        · exact Or.inl
        · rintro (h | ⟨q, hq, _⟩)
          · exact h
          · have := (mem_steps (by omega)).mp hq
            omega

/-- view changes -/
def VcPart (L S : Node) (o : Out) : Prop :=
  S.pending = false ∧ 0 < L.view ∧ ∃ g ∈ L.vcs, g ∈ S.lacksVC ∧ o = .viewChange g

/-- the part on views -/
def ViewPart (e : Env) (L S : Node) (s : Nat) (o : Out) : Prop :=
  (S.view < L.view ∧ o = .ownViewChange) ∨ (L.view < S.view ∧ o = .askHelp) ∨
  (S.view = L.view ∧ S.active = false ∧
    ((S.hasNV = false ∧ L.active = true ∧ 0 < L.view ∧ e.me = e.primary L.view ∧ o = .newView) ∨ VcPart L S o ∨
      (S.pending = true ∧ PrimaryInvolved e L s ∧ ∃ q ∈ S.lacksPP,
        (L.active = true → (L.stable : Int) < q ∧ q ≤ (L.stable : Int) + 300 ∧ L.hasPP q = true) ∧ (L.active = false → L.vmPP q = true) ∧
        o = .prePrepare q))) ∨
  (S.view = L.view ∧ S.active = true ∧ e.me = e.primary L.view ∧
    ((L.active = false ∧ o = .askHelp) ∨
     (L.active = true ∧ ∃ q : Int, (S.exec : Int) < q ∧ q ≤ (S.stable : Int) + 300 ∧ S.hasPP q = false ∧ o = .prePrepare q ∧
        (((L.stable : Int) < q ∧ q ≤ (L.stable : Int) + 300 ∧ L.selfPP q = true) ∨
         (S.exec < L.stable ∧ L.stable ≤ S.exec + L.hist ∧ q ≤ (L.stable : Int) ∧ L.selfOld q = true)))))

section
variable {e : Env} {L S : Node} {s epoch : Nat} {span : Bytes}

theorem viewChanges_sent (hL : L.Wf e) (hS : S.Wf e) (hs : s < e.n) (hm : s ≠ e.me) (he : epoch < 256 ^ 8) (hsp : span.length < 256 ^ 4)
    (ha : S.active = false) :
    Sent (sendViewChanges e L (S.reportMsg e s epoch span) (S.report epoch)) (VcPart L S) := by
  obtain ⟨f1, f2, f3, f4, f5⟩ := report_flags (S := S) (epoch := epoch)
  unfold sendViewChanges
  by_cases hv : 0 < L.view ∧ (S.report epoch).hasVCs = true
  · rw [if_pos hv]
    have hp : S.pending = false := by
      have := hv.2
      rw [f4, ha] at this
      cases hh : S.pending
      · rfl
      · rw [hh] at this; simp at this
    refine (Sent.each (fun g => decide (g ∈ S.lacksVC)) Out.viewChange ?_).congr ?_
    · intro g hg
      show (lift (isMissingViewChange e _ g) >>= _) = _
      rw [report_vcs hS hs hm he hsp ha hp (hL.vcsIds g hg)]
      rfl
    · intro o
      unfold VcPart
      constructor
      · rintro ⟨g, h1, h2, h3⟩; exact ⟨hp, hv.1, g, h1, of_decide_eq_true h2, h3⟩
      · rintro ⟨_, _, g, h1, h2, h3⟩; exact ⟨g, h1, decide_eq_true h2, h3⟩
  · rw [if_neg hv]
    refine Sent.nil.congr ?_
    intro o
    refine ⟨fun h => h.elim, ?_⟩
    rintro ⟨h1, h2, _⟩
    apply hv
    rw [f4, ha, h1]
    exact ⟨h2, rfl⟩

theorem missing_sent (hL : L.Wf e) (hS : S.Wf e) (hs : s < e.n) (hm : s ≠ e.me) (he : epoch < 256 ^ 8) (hsp : span.length < 256 ^ 4)
    (ha : S.active = false) :
    Sent (if (S.report epoch).hasMissing = true then
        (if L.active = true then
          sendEach (fun i =>
            if L.inWindow i = true then do
              let x ← lift (isMissingPrePrepare e (S.reportMsg e s epoch span) i)
              .ok (if x && L.hasPP i then [Out.prePrepare i] else [])
            else .ok []) (steps (toInt64 (S.report epoch).stable + 1) (toInt64 (S.report epoch).stable + 300) 1)
        else
          sendEach (fun i => do
            let x ← lift (isMissingPrePrepare e (S.reportMsg e s epoch span) i)
            .ok (if x && L.vmPP i then [Out.prePrepare i] else []))
            (steps (toInt64 (S.report epoch).stable + 1) (toInt64 (S.report epoch).stable + 300) 1))
      else .ok []) (fun o => S.pending = true ∧ ∃ q ∈ S.lacksPP,
        (L.active = true → (L.stable : Int) < q ∧ q ≤ (L.stable : Int) + 300 ∧ L.hasPP q = true) ∧ (L.active = false → L.vmPP q = true) ∧
        o = .prePrepare q) := by
  obtain ⟨f1, f2, f3, f4, f5⟩ := report_flags (S := S) (epoch := epoch)
  have hst : toInt64 (S.report epoch).stable = S.stable := toInt64_small (n := S.stable) (by have := hS.stableFits; omega)
  rw [f5, ha, hst]
  by_cases hp : S.pending = true
  · rw [if_pos (by rw [hp]; rfl)]
    by_cases hla : L.active = true
    · rw [if_pos hla]
      refine (Sent.each (fun i => L.inWindow i && (decide (i ∈ S.lacksPP) && L.hasPP i)) Out.prePrepare ?_).congr ?_
      · intro i hi
        have hi' := mem_steps_one.mp hi
        show (if L.inWindow i = true then _ else _) = _
        by_cases hw : L.inWindow i = true
        · rw [if_pos hw]
          show (lift (isMissingPrePrepare e _ i) >>= _) = _
          rw [report_missing hS hs hm he hsp ha hp (by omega) hi'.2, hw, Bool.true_and]
          rfl
        · rw [if_neg hw]
          have : L.inWindow i = false := by simpa using hw
          rw [this]; rfl
      · intro o
        constructor
        · rintro ⟨q, h1, h2, h3⟩
          simp only [Bool.and_eq_true, decide_eq_true_eq, Node.inWindow] at h2
          exact ⟨hp, q, h2.2.1, (fun _ => ⟨by omega, by omega, h2.2.2⟩), (fun h => by rw [hla] at h; cases h), h3⟩
        · rintro ⟨_, q, h1, h2, _, h3⟩
          obtain ⟨h4, h5, h6⟩ := h2 hla
          have := hS.ppWindow q h1
          refine ⟨q, mem_steps_one.mpr ⟨by omega, by omega⟩, ?_, h3⟩
          simp only [Bool.and_eq_true, decide_eq_true_eq, Node.inWindow]
          exact ⟨⟨by omega, by omega⟩, h1, h6⟩
    · have hla' : L.active = false := by simpa using hla
      rw [if_neg hla]
      refine (Sent.each (fun i => decide (i ∈ S.lacksPP) && L.vmPP i) Out.prePrepare ?_).congr ?_
      · intro i hi
        have hi' := mem_steps_one.mp hi
        show (lift (isMissingPrePrepare e _ i) >>= _) = _
        rw [report_missing hS hs hm he hsp ha hp (by omega) hi'.2]
        rfl
      · intro o
        constructor
        · rintro ⟨q, h1, h2, h3⟩
          simp only [Bool.and_eq_true, decide_eq_true_eq] at h2
          exact ⟨hp, q, h2.1, fun h => absurd h hla, fun _ => h2.2, h3⟩
        · rintro ⟨_, q, h1, _, h2, h3⟩
          have := hS.ppWindow q h1
          refine ⟨q, mem_steps_one.mpr ⟨by omega, by omega⟩, ?_, h3⟩
          simp only [Bool.and_eq_true, decide_eq_true_eq]
          exact ⟨h1, h2 hla'⟩
  · have hp' : S.pending = false := by simpa using hp
    rw [if_neg (by rw [hp']; simp)]
    exact Sent.nil.congr fun o => ⟨fun h => h.elim, fun h => absurd h.1 hp⟩

theorem enter_sent (hL : L.Wf e) (hS : S.Wf e) (hs : s < e.n) (hm : s ≠ e.me) (he : epoch < 256 ^ 8) (hsp : span.length < 256 ^ 4)
    (ha : S.active = false) :
    Sent (enterPart e L (S.reportMsg e s epoch span) (S.report epoch)) (fun o =>
      (S.hasNV = false ∧ L.active = true ∧ 0 < L.view ∧ e.me = e.primary L.view ∧ o = .newView) ∨ VcPart L S o ∨
      (S.pending = true ∧ PrimaryInvolved e L s ∧ ∃ q ∈ S.lacksPP,
        (L.active = true → (L.stable : Int) < q ∧ q ≤ (L.stable : Int) + 300 ∧ L.hasPP q = true) ∧ (L.active = false → L.vmPP q = true) ∧
        o = .prePrepare q)) := by
  obtain ⟨f1, f2, f3, f4, f5⟩ := report_flags (S := S) (epoch := epoch)
  obtain ⟨lv, ev, hv⟩ := viewChanges_sent (epoch := epoch) (span := span) hL hS hs hm he hsp ha
  obtain ⟨lp, ep, hp⟩ := missing_sent (epoch := epoch) (span := span) hL hS hs hm he hsp ha
  unfold enterPart
  by_cases hi : e.me = e.primary L.view ∨ e.primary L.view = (S.reportMsg e s epoch span).sender
  · have hinv : PrimaryInvolved e L s := hi.imp id Eq.symm
    rw [if_pos hi]
    have hnv : ∃ l, (if e.me = e.primary L.view ∧ 0 < L.view ∧ (S.report epoch).hasNewView = false ∧ L.active = true then (do
        sure (L.newView = true)
        Except.ok [Out.newView] : H (List Out))
      else .ok []) = .ok l ∧ ∀ o, o ∈ l ↔ (S.hasNV = false ∧ L.active = true ∧ 0 < L.view ∧ e.me = e.primary L.view ∧ o = .newView) := by
      rw [f2]
      by_cases hc : e.me = e.primary L.view ∧ 0 < L.view ∧ S.hasNV = false ∧ L.active = true
      · rw [if_pos hc, sure_bind (hL.ownNV hc.2.2.2 hc.2.1 hc.1)]
        refine ⟨_, rfl, fun o => ?_⟩
        constructor
        · intro h; exact ⟨hc.2.2.1, hc.2.2.2, hc.2.1, hc.1, by simpa using h⟩
        · rintro ⟨_, _, _, _, rfl⟩; simp
      · rw [if_neg hc]
        refine ⟨_, rfl, fun o => ?_⟩
        constructor
        · intro h; simp at h
        · rintro ⟨h1, h2, h3, h4, _⟩; exact absurd ⟨h4, h3, h1, h2⟩ hc
    obtain ⟨ln, en, hn⟩ := hnv
    rw [en, hbind_ok, ev, hbind_ok]
    rw [ep, hbind_ok]
    refine ⟨_, rfl, fun o => ?_⟩
    rw [List.mem_append, List.mem_append, hn, hv, hp, or_assoc]
    constructor
    · rintro (h | h | ⟨h1, h2⟩)
      · exact Or.inl h
      · exact Or.inr (Or.inl h)
      · exact Or.inr (Or.inr ⟨h1, hinv, h2⟩)
    · rintro (h | h | ⟨h1, _, h2⟩)
      · exact Or.inl h
      · exact Or.inr (Or.inl h)
      · exact Or.inr (Or.inr ⟨h1, h2⟩)
  · rw [if_neg hi]
    refine ⟨lv, ev, fun o => ?_⟩
    rw [hv]
    constructor
    · intro h; exact Or.inr (Or.inl h)
    · rintro (⟨_, _, _, h, _⟩ | h | ⟨_, h, _⟩)
      · exact absurd (Or.inl h) hi
      · exact h
      · exact absurd (h.imp id Eq.symm) hi

theorem window_sent (hL : L.Wf e) (hS : S.Wf e) (hs : s < e.n) (hm : s ≠ e.me) (he : epoch < 256 ^ 8) (hsp : span.length < 256 ^ 4)
    (ha : S.active = true) :
    Sent (windowPart e L (S.reportMsg e s epoch span) (S.report epoch)) (fun o =>
      ∃ q : Int, (S.exec : Int) < q ∧ q ≤ (S.stable : Int) + 300 ∧ S.hasPP q = false ∧ o = .prePrepare q ∧
        (((L.stable : Int) < q ∧ q ≤ (L.stable : Int) + 300 ∧ L.selfPP q = true) ∨
         (S.exec < L.stable ∧ L.stable ≤ S.exec + L.hist ∧ q ≤ (L.stable : Int) ∧ L.selfOld q = true))) := by
  have hst : toInt64 (S.report epoch).stable = S.stable := toInt64_small (n := S.stable) (by have := hS.stableFits; omega)
  have hex : toInt64 (S.report epoch).executed = S.exec := toInt64_small (n := S.exec) (by have := hS.execFits; omega)
  have ho := hS.order
  unfold windowPart
  rw [hst, hex, if_neg (by have := hS.execFits; omega)]
  obtain ⟨ln, en, hn⟩ := Sent.each (f := fun i => do
      let x ← lift (isPrePrepareInWindow e (S.reportMsg e s epoch span) i)
      if x = true then .ok []
      else do
        sure (L.inWindow i = true)
        .ok (if L.selfPP i then [Out.prePrepare i] else []))
    (l := steps (max ((L.stable : Int) + 1) ((S.exec : Int) + 1)) (min ((L.stable : Int) + 300) ((S.stable : Int) + 300)) 1)
    (fun i => !S.hasPP i && L.selfPP i) Out.prePrepare (by
      intro i hi
      have hi' := mem_steps_one.mp hi
      show (lift (isPrePrepareInWindow e _ i) >>= _) = _
      rw [report_has hS hs hm he hsp ha (by omega) (by omega)]
      show (if S.hasPP i = true then _ else _) = _
      by_cases hh : S.hasPP i = true
      · rw [if_pos hh, hh]; rfl
      · have hh' : S.hasPP i = false := by simpa using hh
        rw [if_neg hh, sure_bind (by unfold Node.inWindow; simp; omega), hh']
        rfl)
  rw [en, hbind_ok]
  by_cases hh : L.inHistory ((S.exec : Int) + 1) = true
  · have hh' : 0 < L.hist ∧ S.exec < L.stable ∧ L.stable ≤ S.exec + L.hist := by
      unfold Node.inHistory at hh
      simp only [Bool.and_eq_true, decide_eq_true_eq] at hh
      omega
    rw [if_pos hh]
    obtain ⟨lo, eo, hlo⟩ := Sent.each (f := fun i => do
        sure (L.inHistory i = true)
        if L.selfOld i = true then do
          let x ← lift (isPrePrepareInWindow e (S.reportMsg e s epoch span) i)
          .ok (if x then [] else [Out.prePrepare i])
        else .ok [])
      (l := steps ((S.exec : Int) + 1) (min (L.stable : Int) ((S.stable : Int) + 300)) 1)
      (fun i => !S.hasPP i && L.selfOld i) Out.prePrepare (by
        intro i hi
        have hi' := mem_steps_one.mp hi
        show (sure (L.inHistory i = true) >>= _) = _
        rw [sure_bind (by unfold Node.inHistory; simp only [Bool.and_eq_true, decide_eq_true_eq]; omega)]
        by_cases hd : L.selfOld i = true
        · rw [if_pos hd]
          show (lift (isPrePrepareInWindow e _ i) >>= _) = _
          rw [report_has hS hs hm he hsp ha (by omega) (by omega), hd, Bool.and_true]
          show Except.ok (if S.hasPP i = true then _ else _) = _
          cases S.hasPP i <;> rfl
        · have hd' : L.selfOld i = false := by simpa using hd
          rw [if_neg hd, hd', Bool.and_false]; rfl)
    rw [eo, hbind_ok]
    refine ⟨_, rfl, fun o => ?_⟩
    rw [List.mem_append, hn, hlo]
    constructor
    · rintro (⟨q, h1, h2, h3⟩ | ⟨q, h1, h2, h3⟩)
      · have := mem_steps_one.mp h1
        simp only [Bool.and_eq_true, Bool.not_eq_true'] at h2
        exact ⟨q, by omega, by omega, h2.1, h3, Or.inl ⟨by omega, by omega, h2.2⟩⟩
      · have := mem_steps_one.mp h1
        simp only [Bool.and_eq_true, Bool.not_eq_true'] at h2
        exact ⟨q, by omega, by omega, h2.1, h3, Or.inr ⟨hh'.2.1, hh'.2.2, by omega, h2.2⟩⟩
    · rintro ⟨q, h1, h2, h3, h4, ⟨h5, h6, h7⟩ | ⟨h5, h6, h7, h8⟩⟩
      · exact Or.inl ⟨q, mem_steps_one.mpr ⟨by omega, by omega⟩, by simp [h3, h7], h4⟩
      · exact Or.inr ⟨q, mem_steps_one.mpr ⟨by omega, by omega⟩, by simp [h3, h8], h4⟩
  · rw [if_neg hh]
    refine ⟨ln, rfl, fun o => ?_⟩
    rw [hn]
    constructor
    · rintro ⟨q, h1, h2, h3⟩
      have := mem_steps_one.mp h1
      simp only [Bool.and_eq_true, Bool.not_eq_true'] at h2
      exact ⟨q, by omega, by omega, h2.1, h3, Or.inl ⟨by omega, by omega, h2.2⟩⟩
    · rintro ⟨q, h1, h2, h3, h4, ⟨h5, h6, h7⟩ | ⟨h5, h6, h7, h8⟩⟩
      · exact ⟨q, mem_steps_one.mpr ⟨by omega, by omega⟩, by simp [h3, h7], h4⟩
      · exfalso
        apply hh
        unfold Node.inHistory
        simp only [Bool.and_eq_true, decide_eq_true_eq]
        omega

theorem view_sent (hL : L.Wf e) (hS : S.Wf e) (hs : s < e.n) (hm : s ≠ e.me) (he : epoch < 256 ^ 8) (hsp : span.length < 256 ^ 4) :
    Sent (viewPart e L (S.reportMsg e s epoch span) (S.report epoch)) (ViewPart e L S s) := by
  obtain ⟨f1, f2, f3, f4, f5⟩ := report_flags (S := S) (epoch := epoch)
  have hvw : toInt64 (S.report epoch).view = S.view := toInt64_small (n := S.view) hS.viewFits
  unfold viewPart
  rw [hvw, f1]
  by_cases h1 : (S.view : Int) < (L.view : Int)
  · rw [if_pos h1, sure_bind (hL.ownVC (by omega))]
    refine (Sent.one _).congr fun o => ?_
    unfold ViewPart
    constructor
    · intro h; exact Or.inl ⟨by omega, h⟩
    · rintro (⟨_, h⟩ | ⟨h, _⟩ | ⟨h, _⟩ | ⟨h, _⟩)
      · exact h
      · omega
      · omega
      · omega
  · rw [if_neg h1]
    by_cases h2 : S.view = L.view
    · cases ha : S.active
      · rw [if_pos ⟨by omega, rfl⟩]
        refine (enter_sent hL hS hs hm he hsp ha).congr fun o => ?_
        unfold ViewPart
        constructor
        · intro h; exact Or.inr (Or.inr (Or.inl ⟨h2, ha, h⟩))
        · rintro (⟨h, _⟩ | ⟨h, _⟩ | ⟨_, _, h⟩ | ⟨_, h, _⟩)
          · omega
          · omega
          · exact h
          · rw [ha] at h; cases h
      · rw [if_neg (by simp), if_pos ⟨by omega, rfl⟩]
        by_cases hp : e.me = e.primary L.view
        · rw [if_pos hp]
          by_cases hla : L.active = true
          · rw [if_pos hla]
            refine (window_sent hL hS hs hm he hsp ha).congr fun o => ?_
            unfold ViewPart
            constructor
            · intro h; exact Or.inr (Or.inr (Or.inr ⟨h2, ha, hp, Or.inr ⟨hla, h⟩⟩))
            · rintro (⟨h, _⟩ | ⟨h, _⟩ | ⟨_, h, _⟩ | ⟨_, _, _, ⟨h, _⟩ | ⟨_, h⟩⟩)
              · omega
              · omega
              · rw [ha] at h; cases h
              · rw [hla] at h; cases h
              · exact h
          · have hla' : L.active = false := by simpa using hla
            rw [if_neg hla]
            refine (Sent.one _).congr fun o => ?_
            unfold ViewPart
            constructor
            · intro h; exact Or.inr (Or.inr (Or.inr ⟨h2, ha, hp, Or.inl ⟨hla', h⟩⟩))
            · rintro (⟨h, _⟩ | ⟨h, _⟩ | ⟨_, h, _⟩ | ⟨_, _, _, ⟨_, h⟩ | ⟨h, _⟩⟩)
              · omega
              · omega
              · rw [ha] at h; cases h
              · exact h
              · exact absurd h hla
        · rw [if_neg hp]
          refine Sent.nil.congr fun o => ?_
          unfold ViewPart
          refine ⟨fun h => h.elim, ?_⟩
          rintro (⟨h, _⟩ | ⟨h, _⟩ | ⟨_, h, _⟩ | ⟨_, _, h, _⟩)
          · omega
          · omega
          · rw [ha] at h; cases h
          · exact absurd h hp
    · rw [if_neg (by omega), if_neg (by omega), sure_bind (by omega)]
      refine (Sent.one _).congr fun o => ?_
      unfold ViewPart
      constructor
      · intro h; exact Or.inr (Or.inl ⟨by omega, h⟩)
      · rintro (⟨h, _⟩ | ⟨_, h⟩ | ⟨h, _⟩ | ⟨h, _⟩)
        · omega
        · exact h
        · exact absurd h h2
        · exact absurd h h2

theorem complaints_sent (hL : L.Wf e) (hS : S.Wf e) (hs : s < e.n) (hm : s ≠ e.me) (he : epoch < 256 ^ 8) (hsp : span.length < 256 ^ 4) :
    Sent (complaintPart e L (S.reportMsg e s epoch span) (S.report epoch)) (fun o =>
      S.view = L.view ∧ ∃ g ∈ L.complaints, g ∉ S.complaints ∧ o = .complaint g) := by
  have hvw : toInt64 (S.report epoch).view = S.view := toInt64_small (n := S.view) hS.viewFits
  unfold complaintPart
  rw [hvw]
  by_cases h : S.view = L.view
  · rw [if_pos (by omega)]
    refine (Sent.each (fun g => decide (g ∉ S.complaints)) Out.complaint ?_).congr ?_
    · intro g hg
      show (lift (hasComplaint e _ g) >>= _) = _
      rw [report_complaints hS hs hm he hsp (hL.complaintIds g hg)]
      show Except.ok (if decide (g ∈ S.complaints) = true then _ else _) = _
      by_cases hc : g ∈ S.complaints <;> simp [hc]
    · intro o
      constructor
      · rintro ⟨g, h1, h2, h3⟩; exact ⟨h, g, h1, of_decide_eq_true h2, h3⟩
      · rintro ⟨_, g, h1, h2, h3⟩; exact ⟨g, h1, decide_eq_true h2, h3⟩
  · rw [if_neg (by omega)]
    exact Sent.nil.congr fun o => ⟨fun x => x.elim, fun x => absurd x.1 h⟩

theorem owes_iff (o : Out) : Owes e L S s o ↔ CkptPart e L S s o ∨ ViewPart e L S s o ∨
    (S.view = L.view ∧ ∃ g ∈ L.complaints, g ∉ S.complaints ∧ o = .complaint g) := by
  constructor
  · intro h
    cases h with
    | allCkpts g h1 h2 h3 => exact Or.inl (Or.inl ⟨h1, g, h2, h3, rfl⟩)
    | sameCkpt h1 h2 h3 => exact Or.inl (Or.inr (Or.inl ⟨h1, h2, h3, rfl⟩))
    | nextCkpt q h1 h2 h3 h4 h5 h6 h7 h8 => exact Or.inl (Or.inr (Or.inr (Or.inl ⟨h1, h2, q, h3, h4, h5, h6, h7, h8, rfl⟩)))
    | ownViewChange h1 => exact Or.inr (Or.inl (Or.inl ⟨h1, rfl⟩))
    | newView h1 h2 h3 h4 h5 h6 => exact Or.inr (Or.inl (Or.inr (Or.inr (Or.inl ⟨h1, h2, Or.inl ⟨h3, h4, h5, h6, rfl⟩⟩))))
    | viewChange g h1 h2 h3 h4 h5 h6 =>
      exact Or.inr (Or.inl (Or.inr (Or.inr (Or.inl ⟨h1, h2, Or.inr (Or.inl ⟨h3, h4, g, h5, h6, rfl⟩)⟩))))
    | missing q h1 h2 h3 h4 h5 h6 h7 =>
      exact Or.inr (Or.inl (Or.inr (Or.inr (Or.inl ⟨h1, h2, Or.inr (Or.inr ⟨h3, h4, q, h5, h6, h7, rfl⟩)⟩))))
    | gap q h1 h2 h3 h4 h5 h6 h7 h8 h9 h10 =>
      exact Or.inr (Or.inl (Or.inr (Or.inr (Or.inr ⟨h1, h2, h4, Or.inr ⟨h3, q, h5, h6, h7, rfl, Or.inl ⟨h8, h9, h10⟩⟩⟩))))
    | oldGap q h1 h2 h3 h4 h5 h6 h7 h8 h9 h10 h11 =>
      exact Or.inr (Or.inl (Or.inr (Or.inr (Or.inr ⟨h1, h2, h4, Or.inr ⟨h3, q, h5, h6, h7, rfl, Or.inr ⟨h8, h9, h10, h11⟩⟩⟩))))
    | complaint g h1 h2 h3 => exact Or.inr (Or.inr ⟨h1, g, h2, h3, rfl⟩)
    | askCkpt h1 => exact Or.inl (Or.inr (Or.inr (Or.inr ⟨h1, rfl⟩)))
    | askView h1 => exact Or.inr (Or.inl (Or.inr (Or.inl ⟨h1, rfl⟩)))
    | askPrimary h1 h2 h3 h4 => exact Or.inr (Or.inl (Or.inr (Or.inr (Or.inr ⟨h1, h2, h4, Or.inl ⟨h3, rfl⟩⟩))))
  · rintro ((⟨h1, g, h2, h3, rfl⟩ | ⟨h1, h2, h3, rfl⟩ | ⟨h1, h2, q, h3, h4, h5, h6, h7, h8, rfl⟩ | ⟨h1, rfl⟩) |
      (⟨h1, rfl⟩ | ⟨h1, rfl⟩ | ⟨h1, h2, ⟨h3, h4, h5, h6, rfl⟩ | ⟨h3, h4, g, h5, h6, rfl⟩ | ⟨h3, h4, q, h5, h6, h7, rfl⟩⟩ |
        ⟨h1, h2, h4, ⟨h3, rfl⟩ | ⟨h3, q, h5, h6, h7, rfl, ⟨h8, h9, h10⟩ | ⟨h8, h9, h10, h11⟩⟩⟩) |
      ⟨h1, g, h2, h3, rfl⟩)
    · exact .allCkpts g h1 h2 h3
    · exact .sameCkpt h1 h2 h3
    · exact .nextCkpt q h1 h2 h3 h4 h5 h6 h7 h8
    · exact .askCkpt h1
    · exact .ownViewChange h1
    · exact .askView h1
    · exact .newView h1 h2 h3 h4 h5 h6
    · exact .viewChange g h1 h2 h3 h4 h5 h6
    · exact .missing q h1 h2 h3 h4 h5 h6 h7
    · exact .askPrimary h1 h2 h3 h4
    · exact .gap q h1 h2 h3 h4 h5 h6 h7 h8 h9 h10
    · exact .oldGap q h1 h2 h3 h4 h5 h6 h7 h8 h9 h10 h11
    · exact .complaint g h1 h2 h3

/-- **a report is answered with exactly what is owed**: no assertion fails, nothing is read outside of the report -/
theorem report_answered (hL : L.Wf e) (hS : S.Wf e) (hs : s < e.n) (hm : s ≠ e.me) (he : epoch < 256 ^ 8) (hsp : span.length < 256 ^ 4) :
    ∃ outs, handle e L (S.reportMsg e s epoch span) = .ok outs ∧ ∀ o, o ∈ outs ↔ Owes e L S s o := by
  have hst : toInt64 (S.report epoch).stable = S.stable := toInt64_small (n := S.stable) (by have := hS.stableFits; omega)
  obtain ⟨lc, ec, hc⟩ := checkpoint_sent (s := s) hL hS
  obtain ⟨lv, ev, hv⟩ := view_sent (epoch := epoch) (span := span) hL hS hs hm he hsp
  obtain ⟨lk, ek, hk⟩ := complaints_sent (epoch := epoch) (span := span) hL hS hs hm he hsp
  refine ⟨lc ++ lv ++ lk, ?_, ?_⟩
  · unfold handle
    rw [report_received hS hs hm he hsp]
    show answer _ _ _ _ = _
    unfold answer
    rw [hst, if_neg (by have := hS.stableFits; omega)]
    show (checkpointPart e L s (S.stable : Int) >>= _) = _
    rw [ec, hbind_ok, ev, hbind_ok, ek, hbind_ok]
  · intro o
    rw [List.mem_append, List.mem_append, hc, hv, hk, owes_iff, or_assoc]

end

end Verif.Wire
