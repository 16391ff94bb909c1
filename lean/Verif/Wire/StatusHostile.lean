import Verif.Wire.StatusTheorems
/-!
# What is owed, in particular; reports of a replica that does not follow the protocol
-/
set_option linter.unusedVariables false
set_option linter.unusedSimpArgs false
set_option maxRecDepth 4000
namespace Verif.Wire
open Verif.Bytes

section
variable {e : Env} {L S : Node} {s epoch : Nat} {span : Bytes} {outs : List Out}

/-- what is answered to a report of `S` -/
theorem answered_mem (hL : L.Wf e) (hS : S.Wf e) (hs : s < e.n) (hm : s ≠ e.me) (he : epoch < 256 ^ 8) (hsp : span.length < 256 ^ 4)
    (h : handle e L (S.reportMsg e s epoch span) = .ok outs) (o : Out) : o ∈ outs ↔ Owes e L S s o := by
  obtain ⟨outs', h1, h2⟩ := report_answered (epoch := epoch) (span := span) hL hS hs hm he hsp
  rw [h] at h1
  cases h1
  exact h2 o

/-- **the primary fills gaps**: of the numbers in both windows for which it has made a PrePrepare message, the replica that
reported has executed the number, has the message or is sent it -/
theorem primary_fills_gaps (hL : L.Wf e) (hS : S.Wf e) (hs : s < e.n) (hm : s ≠ e.me) (he : epoch < 256 ^ 8) (hsp : span.length < 256 ^ 4)
    (h : handle e L (S.reportMsg e s epoch span) = .ok outs) (hv : S.view = L.view) (ha : S.active = true) (hla : L.active = true)
    (hp : e.me = e.primary L.view) (q : Int) (h1 : q ≤ (S.stable : Int) + 300) (h2 : (L.stable : Int) < q) (h3 : q ≤ (L.stable : Int) + 300)
    (h4 : L.selfPP q = true) : q ≤ (S.exec : Int) ∨ S.hasPP q = true ∨ .prePrepare q ∈ outs := by
  by_cases h5 : q ≤ (S.exec : Int)
  · exact Or.inl h5
  · by_cases h6 : S.hasPP q = true
    · exact Or.inr (Or.inl h6)
    · exact Or.inr (Or.inr ((answered_mem hL hS hs hm he hsp h _).mpr
        (.gap q hv ha hla hp (by omega) h1 (by simpa using h6) h2 h3 h4)))

/-- nothing that the replica has or has executed is sent again in a common active view -/
theorem primary_sends_no_more (hL : L.Wf e) (hS : S.Wf e) (hs : s < e.n) (hm : s ≠ e.me) (he : epoch < 256 ^ 8) (hsp : span.length < 256 ^ 4)
    (h : handle e L (S.reportMsg e s epoch span) = .ok outs) (ha : S.active = true) (q : Int) (hq : .prePrepare q ∈ outs) :
    (S.exec : Int) < q ∧ S.hasPP q = false ∧ e.me = e.primary L.view ∧ S.view = L.view := by
  have := (answered_mem hL hS hs hm he hsp h _).mp hq
  cases this with
  | missing _ h1 h2 => rw [ha] at h2; cases h2
  | gap _ h1 h2 h3 h4 h5 h6 h7 => exact ⟨h5, h7, h4, h1⟩
  | oldGap _ h1 h2 h3 h4 h5 h6 h7 => exact ⟨h5, h7, h4, h1⟩

/-- **a replica behind gets a stable checkpoint**: the receiver's own message for its last stable checkpoint -/
theorem behind_gets_checkpoint (hL : L.Wf e) (hS : S.Wf e) (hs : s < e.n) (hm : s ≠ e.me) (he : epoch < 256 ^ 8) (hsp : span.length < 256 ^ 4)
    (h : handle e L (S.reportMsg e s epoch span) = .ok outs) (hb : S.stable < L.stable) (ho : L.ownCkpt L.stable = true)
    (hc : e.me ∈ L.ckpts) : .ckpt L.stable e.me ∈ outs := by
  refine (answered_mem hL hS hs hm he hsp h _).mpr ?_
  by_cases hf : Far L S
  · exact .allCkpts e.me hf hc (Ne.symm hm)
  · have hle : L.stable ≤ S.stable + 300 := by
      have : ¬ L.stable > S.stable + 300 := fun h => hf (Or.inl h)
      omega
    have h1 := hL.ckptLow
    have h2 := hL.ckptHigh
    have h3 := hL.stableMul
    exact .nextCkpt L.stable hf (by omega) (by omega) (by omega) (by omega) (by omega) (by omega) ho

/-- a replica in an older view gets the view change of every replica in a newer one -/
theorem older_gets_viewChange (hL : L.Wf e) (hS : S.Wf e) (hs : s < e.n) (hm : s ≠ e.me) (he : epoch < 256 ^ 8) (hsp : span.length < 256 ^ 4)
    (h : handle e L (S.reportMsg e s epoch span) = .ok outs) (hb : S.view < L.view) : .ownViewChange ∈ outs :=
  (answered_mem hL hS hs hm he hsp h _).mpr (.ownViewChange hb)

/-- a replica that waits for view changes of the view gets from every replica those it lacks; `L` has them -/
theorem waiting_gets_viewChanges (hL : L.Wf e) (hS : S.Wf e) (hs : s < e.n) (hm : s ≠ e.me) (he : epoch < 256 ^ 8) (hsp : span.length < 256 ^ 4)
    (h : handle e L (S.reportMsg e s epoch span) = .ok outs) (hv : S.view = L.view) (ha : S.active = false) (hp : S.pending = false)
    (h0 : 0 < L.view) (g : Nat) (hg : g ∈ L.vcs) : g ∉ S.lacksVC ∨ .viewChange g ∈ outs := by
  by_cases hx : g ∈ S.lacksVC
  · exact Or.inr ((answered_mem hL hS hs hm he hsp h _).mpr (.viewChange g hv ha hp h0 hg hx))
  · exact Or.inl hx

/-- after the answer both know of the same complaints, or `S` of more -/
theorem complaints_spread (hL : L.Wf e) (hS : S.Wf e) (hs : s < e.n) (hm : s ≠ e.me) (he : epoch < 256 ^ 8) (hsp : span.length < 256 ^ 4)
    (h : handle e L (S.reportMsg e s epoch span) = .ok outs) (hv : S.view = L.view) (g : Nat) (hg : g ∈ L.complaints) :
    g ∈ S.complaints ∨ .complaint g ∈ outs := by
  by_cases hx : g ∈ S.complaints
  · exact Or.inl hx
  · exact Or.inr ((answered_mem hL hS hs hm he hsp h _).mpr (.complaint g hv hg hx))

end

/-! ## Any report -/

/-- no list of PrePrepare messages in a report of an active view, and the primary needs it -/
def NoList (L : Node) (a : Status) : Prop :=
  a.hasPPs = false ∧
    (max ((L.stable : Int) + 1) (toInt64 a.executed + 1) ≤ min ((L.stable : Int) + 300) (toInt64 a.stable + 300) ∨
     (L.inHistory (toInt64 a.executed + 1) = true ∧
      ∃ q : Int, toInt64 a.executed + 1 ≤ q ∧ q ≤ min (L.stable : Int) (toInt64 a.stable + 300) ∧ L.selfOld q = true))

/-- the accepted reports that stop their receiver -/
def Harmful (e : Env) (L : Node) (a : Status) : Prop :=
  toInt64 a.stable + 300 ≥ top ∨
  (toInt64 a.view < (L.view : Int) ∧ L.ownVC = false) ∨
  (toInt64 a.view = (L.view : Int) ∧ a.active = true ∧ e.me = e.primary L.view ∧ L.active = true ∧
    (toInt64 a.executed + 1 ≥ top ∨ NoList L a))

theorem sendEach_ex {α : Type} {f : α → H (List Out)} : ∀ {l : List α}, (∀ x ∈ l, ∃ a, f x = .ok a) → ∃ a, sendEach f l = .ok a
  | [], _ => ⟨[], rfl⟩
  | x :: l, h => by
    obtain ⟨a, ha⟩ := h x (by simp)
    obtain ⟨b, hb⟩ := sendEach_ex (fun y hy => h y (List.mem_cons_of_mem _ hy))
    exact ⟨a ++ b, by unfold sendEach; rw [ha, hbind_ok, hb, hbind_ok]⟩

theorem sendEach_err {α : Type} {f : α → H (List Out)} : ∀ {l : List α}, (∃ x ∈ l, ∃ z, f x = .error z) → ∃ z, sendEach f l = .error z
  | [], h => by obtain ⟨x, hx, _⟩ := h; simp at hx
  | x :: l, h => by
    unfold sendEach
    cases hx : f x with
    | error z => exact ⟨z, by rw [hbind_err]⟩
    | ok a =>
      obtain ⟨y, hy, z, hz⟩ := h
      rcases List.mem_cons.mp hy with rfl | hy
      · rw [hx] at hz; cases hz
      · obtain ⟨z', hz'⟩ := sendEach_err ⟨y, hy, z, hz⟩
        exact ⟨z', by rw [hbind_ok, hz', hbind_err]⟩

theorem checkpoint_total {e : Env} {L : Node} {s : Nat} {q : Int} (hL : L.Wf e) (hq : (150 : Int) ∣ q) :
    ∃ o, checkpointPart e L s q = .ok o := by
  have hLm : (150 : Int) ∣ (L.stable : Int) := by have := hL.stableMul; omega
  have hlm : (150 : Int) ∣ (L.ckptLow : Int) := by have := hL.ckptMul; omega
  have h1 := hL.ckptLow
  have h2 := hL.ckptHigh
  unfold checkpointPart
  by_cases hf : (L.stable : Int) > q + 300 ∨ (L.active = false ∧ (L.stable : Int) > q)
  · rw [if_pos hf, getCkpt_ok hLm (by omega) (by omega), hbind_ok]
    exact ⟨_, rfl⟩
  · rw [if_neg hf]
    by_cases ha : q > (L.stable : Int) + 300
    · rw [if_pos ha]; exact ⟨_, rfl⟩
    · rw [if_neg ha]
      have hsame : ∃ l, (if L.stable ≠ 0 ∧ q = (L.stable : Int) then (do
          L.getCkpt q
          Except.ok (if L.ownCkpt q then [Out.ckpt q e.me] else []) : H (List Out)) else .ok []) = .ok l := by
        by_cases hz : L.stable ≠ 0 ∧ q = (L.stable : Int)
        · rw [if_pos hz, getCkpt_ok hq (by omega) (by omega), hbind_ok]
          exact ⟨_, rfl⟩
        · rw [if_neg hz]; exact ⟨_, rfl⟩
      obtain ⟨l, el⟩ := hsame
      rw [el, hbind_ok, sure_bind (tmod_dvd.mpr (by omega))]
      by_cases hle : max (L.ckptLow : Int) (q + 150) ≤ min ((L.ckptLow : Int) + 600 - 1) (q + 300)
      · rw [if_pos hle, sure_bind (by omega)]
        obtain ⟨l2, e2⟩ := sendEach_ex (f := fun i => do
            L.getCkpt i
            Except.ok (if L.ownCkpt i then [Out.ckpt i e.me] else []))
          (l := steps (max (L.ckptLow : Int) (q + 150)) (min ((L.ckptLow : Int) + 600 - 1) (q + 300)) 150) (by
            intro i hi
            have hi' := (mem_steps (by omega)).mp hi
            show ∃ z, (L.getCkpt i >>= _) = Except.ok z
            rw [getCkpt_ok (by omega) (by omega) (by omega)]
            exact ⟨_, rfl⟩)
        rw [e2, hbind_ok]
        exact ⟨_, rfl⟩
      · rw [if_neg hle]; exact ⟨_, rfl⟩

section
variable {e : Env} {L : Node} {m : Msg} {a : Status} {span bits : Bytes}

theorem viewChanges_total (hL : L.Wf e) (hv : a.Valid e m.sender) (hon : Status.IsOn e m a span bits) : ∃ o, sendViewChanges e L m a = .ok o := by
  unfold sendViewChanges
  split
  · rename_i h
    refine sendEach_ex fun g hg => ?_
    show ∃ z, (lift (isMissingViewChange e m g) >>= _) = Except.ok z
    rw [isMissingViewChange_on hv hon (hL.vcsIds g hg) h.2]
    exact ⟨_, rfl⟩
  · exact ⟨_, rfl⟩

theorem enter_total (hL : L.Wf e) (hv : a.Valid e m.sender) (hon : Status.IsOn e m a span bits) : ∃ o, enterPart e L m a = .ok o := by
  obtain ⟨lv, ev⟩ := viewChanges_total hL hv hon
  unfold enterPart
  split
  · have hnv : ∃ l, (if e.me = e.primary L.view ∧ 0 < L.view ∧ a.hasNewView = false ∧ L.active = true then (do
        sure (L.newView = true)
        Except.ok [Out.newView] : H (List Out))
      else .ok []) = .ok l := by
      split
      · rename_i hc
        rw [sure_bind (hL.ownNV hc.2.2.2 hc.2.1 hc.1)]
        exact ⟨_, rfl⟩
      · exact ⟨_, rfl⟩
    have hpp : ∃ l, (if a.hasMissing = true then
        (if L.active = true then
          sendEach (fun i =>
            if L.inWindow i = true then do
              let x ← lift (isMissingPrePrepare e m i)
              .ok (if x && L.hasPP i then [Out.prePrepare i] else [])
            else .ok []) (steps (toInt64 a.stable + 1) (toInt64 a.stable + 300) 1)
        else
          sendEach (fun i => do
            let x ← lift (isMissingPrePrepare e m i)
            .ok (if x && L.vmPP i then [Out.prePrepare i] else [])) (steps (toInt64 a.stable + 1) (toInt64 a.stable + 300) 1))
      else .ok []) = .ok l := by
      split
      · rename_i hmi
        split
        · refine sendEach_ex fun i hi => ?_
          have hi' := mem_steps_one.mp hi
          show ∃ z, (if L.inWindow i = true then _ else _) = _
          split
          · show ∃ z, (lift (isMissingPrePrepare e m i) >>= _) = Except.ok z
            rw [isMissingPrePrepare_on hv hon (by omega) (by omega) hmi]
            exact ⟨_, rfl⟩
          · exact ⟨_, rfl⟩
        · refine sendEach_ex fun i hi => ?_
          have hi' := mem_steps_one.mp hi
          show ∃ z, (lift (isMissingPrePrepare e m i) >>= _) = Except.ok z
          rw [isMissingPrePrepare_on hv hon (by omega) (by omega) hmi]
          exact ⟨_, rfl⟩
      · exact ⟨_, rfl⟩
    obtain ⟨ln, en⟩ := hnv
    obtain ⟨lp, ep⟩ := hpp
    rw [en, hbind_ok, ev, hbind_ok, ep, hbind_ok]
    exact ⟨_, rfl⟩
  · exact ⟨lv, ev⟩

theorem noPPs_abort (hv : a.Valid e m.sender) (hon : Status.IsOn e m a span bits) (h : a.hasPPs = false) (q : Int) :
    isPrePrepareInWindow e m q = .error .abort := by
  unfold isPrePrepareInWindow
  rw [(flags_on hv hon).1, bind_ok, assert_bind, if_neg (show ¬ a.flags.testBit 2 = true by
    have : a.flags.testBit 2 = false := h
    rw [this]; simp)]

theorem window_stops (hv : a.Valid e m.sender) (hon : Status.IsOn e m a span bits) (h : toInt64 a.executed + 1 ≥ top ∨ NoList L a) :
    ∃ z, windowPart e L m a = .error z := by
  unfold windowPart
  by_cases ht : toInt64 a.executed + 1 ≥ top
  · rw [if_pos ht]; exact ⟨_, rfl⟩
  · rw [if_neg ht]
    obtain ⟨hn, hr⟩ := h.resolve_left ht
    by_cases hlt : max ((L.stable : Int) + 1) (toInt64 a.executed + 1) ≤ min ((L.stable : Int) + 300) (toInt64 a.stable + 300)
    · obtain ⟨z, hz⟩ := sendEach_err (f := fun i => do
          let x ← lift (isPrePrepareInWindow e m i)
          if x = true then .ok []
          else do
            sure (L.inWindow i = true)
            .ok (if L.selfPP i then [Out.prePrepare i] else []))
        (l := steps (max ((L.stable : Int) + 1) (toInt64 a.executed + 1)) (min ((L.stable : Int) + 300) (toInt64 a.stable + 300)) 1)
        ⟨_, mem_steps_one.mpr ⟨Int.le_refl _, hlt⟩, _, by
          show (lift (isPrePrepareInWindow e m _) >>= _) = _
          rw [noPPs_abort hv hon hn]
          exact hbind_err _ _⟩
      exact ⟨z, by rw [hz, hbind_err]⟩
    · have he : steps (max ((L.stable : Int) + 1) (toInt64 a.executed + 1)) (min ((L.stable : Int) + 300) (toInt64 a.stable + 300)) 1 = [] := by
        rw [List.eq_nil_iff_forall_not_mem]
        intro x hx
        have := mem_steps_one.mp hx
        omega
      rw [he]
      obtain ⟨hh, q, h1, h2, h3⟩ := hr.resolve_left hlt
      rw [show ∀ f : Int → H (List Out), sendEach f [] = .ok [] from fun _ => rfl, hbind_ok, if_pos hh]
      have hin : L.inHistory q = true := by
        unfold Node.inHistory at hh ⊢
        simp only [Bool.and_eq_true, decide_eq_true_eq] at hh ⊢
        omega
      obtain ⟨z, hz⟩ := sendEach_err (f := fun i => do
          sure (L.inHistory i = true)
          if L.selfOld i = true then do
            let x ← lift (isPrePrepareInWindow e m i)
            .ok (if x then [] else [Out.prePrepare i])
          else .ok [])
        (l := steps (toInt64 a.executed + 1) (min (L.stable : Int) (toInt64 a.stable + 300)) 1)
        ⟨q, mem_steps_one.mpr ⟨h1, h2⟩, _, by
          show (sure (L.inHistory q = true) >>= _) = _
          rw [sure_bind hin, if_pos h3]
          show (lift (isPrePrepareInWindow e m q) >>= _) = _
          rw [noPPs_abort hv hon hn]
          exact hbind_err _ _⟩
      exact ⟨z, by rw [hz, hbind_err]⟩

theorem window_total (hv : a.Valid e m.sender) (hon : Status.IsOn e m a span bits) (h1 : ¬ toInt64 a.executed + 1 ≥ top) (h2 : ¬ NoList L a) :
    ∃ o, windowPart e L m a = .ok o := by
  have ho := hv.order
  unfold windowPart
  rw [if_neg h1]
  have hnow : ∃ l, sendEach (fun i => do
      let x ← lift (isPrePrepareInWindow e m i)
      if x = true then .ok []
      else do
        sure (L.inWindow i = true)
        .ok (if L.selfPP i then [Out.prePrepare i] else []))
      (steps (max ((L.stable : Int) + 1) (toInt64 a.executed + 1)) (min ((L.stable : Int) + 300) (toInt64 a.stable + 300)) 1) = .ok l := by
    refine sendEach_ex fun i hi => ?_
    have hi' := mem_steps_one.mp hi
    have hp : a.hasPPs = true := by
      cases hx : a.hasPPs
      · exact absurd ⟨hx, Or.inl (by omega)⟩ h2
      · rfl
    show ∃ z, (lift (isPrePrepareInWindow e m i) >>= _) = _
    rw [isPrePrepareInWindow_on hv hon (by omega) (by omega) hp]
    show ∃ z, (if bitOf bits e.mask _ = true then _ else _) = _
    split
    · exact ⟨_, rfl⟩
    · rw [sure_bind (by unfold Node.inWindow; simp; omega)]
      exact ⟨_, rfl⟩
  obtain ⟨l, el⟩ := hnow
  rw [el, hbind_ok]
  split
  · rename_i hh
    have hold : ∃ l, sendEach (fun i => do
        sure (L.inHistory i = true)
        if L.selfOld i = true then do
          let x ← lift (isPrePrepareInWindow e m i)
          .ok (if x then [] else [Out.prePrepare i])
        else .ok [])
        (steps (toInt64 a.executed + 1) (min (L.stable : Int) (toInt64 a.stable + 300)) 1) = .ok l := by
      refine sendEach_ex fun i hi => ?_
      have hi' := mem_steps_one.mp hi
      have hin : L.inHistory i = true := by
        unfold Node.inHistory at hh ⊢
        simp only [Bool.and_eq_true, decide_eq_true_eq] at hh ⊢
        omega
      show ∃ z, (sure (L.inHistory i = true) >>= _) = _
      rw [sure_bind hin]
      split
      · rename_i hd
        have hp : a.hasPPs = true := by
          cases hx : a.hasPPs
          · exact absurd ⟨hx, Or.inr ⟨hh, i, hi'.1, hi'.2, hd⟩⟩ h2
          · rfl
        rw [isPrePrepareInWindow_on hv hon (by omega) (by omega) hp]
        exact ⟨_, rfl⟩
      · exact ⟨_, rfl⟩
    obtain ⟨lo, eo⟩ := hold
    rw [eo, hbind_ok]
    exact ⟨_, rfl⟩
  · exact ⟨_, rfl⟩

theorem view_iff (hL : L.Wf e) (hv : a.Valid e m.sender) (hon : Status.IsOn e m a span bits) (h0 : toInt64 a.stable + 300 < top) :
    (∃ z, viewPart e L m a = .error z) ↔ Harmful e L a := by
  unfold viewPart
  by_cases h1 : toInt64 a.view < (L.view : Int)
  · rw [if_pos h1]
    constructor
    · rintro ⟨z, hz⟩
      refine Or.inr (Or.inl ⟨h1, ?_⟩)
      cases hx : L.ownVC
      · rfl
      · rw [sure_bind hx] at hz; cases hz
    · rintro (h | ⟨_, h⟩ | ⟨h, _⟩)
      · omega
      · unfold sure
        rw [if_neg (by rw [h]; simp)]
        exact ⟨_, rfl⟩
      · omega
  · rw [if_neg h1]
    by_cases h2 : toInt64 a.view = (L.view : Int)
    · cases ha : a.active
      · rw [if_pos ⟨h2, rfl⟩]
        obtain ⟨o, eo⟩ := enter_total hL hv hon
        rw [eo]
        constructor
        · rintro ⟨z, hz⟩; cases hz
        · rintro (h | ⟨h, _⟩ | ⟨_, h, _⟩)
          · omega
          · exact absurd h h1
          · rw [ha] at h; cases h
      · rw [if_neg (by simp), if_pos ⟨h2, rfl⟩]
        by_cases hp : e.me = e.primary L.view
        · rw [if_pos hp]
          by_cases hla : L.active = true
          · rw [if_pos hla]
            constructor
            · rintro ⟨z, hz⟩
              refine Or.inr (Or.inr ⟨h2, ha, hp, hla, ?_⟩)
              by_cases hc : toInt64 a.executed + 1 ≥ top ∨ NoList L a
              · exact hc
              · obtain ⟨o, eo⟩ := window_total (L := L) hv hon (fun h => hc (Or.inl h)) (fun h => hc (Or.inr h))
                rw [eo] at hz; cases hz
            · rintro (h | ⟨h, _⟩ | ⟨_, _, _, _, h⟩)
              · omega
              · exact absurd h h1
              · exact window_stops hv hon h
          · rw [if_neg hla]
            constructor
            · rintro ⟨z, hz⟩; cases hz
            · rintro (h | ⟨h, _⟩ | ⟨_, _, _, h, _⟩)
              · omega
              · exact absurd h h1
              · exact absurd h hla
        · rw [if_neg hp]
          constructor
          · rintro ⟨z, hz⟩; cases hz
          · rintro (h | ⟨h, _⟩ | ⟨_, _, h, _⟩)
            · omega
            · exact absurd h h1
            · exact absurd h hp
    · rw [if_neg (fun h => h2 h.1), if_neg (fun h => h2 h.1), sure_bind (by omega)]
      constructor
      · rintro ⟨z, hz⟩; cases hz
      · rintro (h | ⟨h, _⟩ | ⟨h, _⟩)
        · omega
        · exact absurd h h1
        · exact absurd h h2

theorem complaints_total (hL : L.Wf e) (hv : a.Valid e m.sender) (hon : Status.IsOn e m a span bits) : ∃ o, complaintPart e L m a = .ok o := by
  unfold complaintPart
  split
  · refine sendEach_ex fun g hg => ?_
    show ∃ z, (lift (hasComplaint e m g) >>= _) = Except.ok z
    rw [hasComplaint_on hv hon (hL.complaintIds g hg)]
    exact ⟨_, rfl⟩
  · exact ⟨_, rfl⟩

/-- **which reports stop a replica**: of all byte strings from all senders, exactly the accepted ones that are `Harmful` -/
theorem handle_stops_iff (hL : L.Wf e) (h6 : 6 ≤ m.size) (ht : IsA m codeReplicaStatus) :
    (∃ z, handle e L m = .error z) ↔ ∃ a, Status.receive e m = .ok a ∧ Harmful e L a := by
  unfold handle
  cases hr : Status.receive e m with
  | error x =>
    have hs := Status.receive_safe e m h6
    rw [hr] at hs
    have hx : x = .reject := by
      cases x with
      | oob => exact absurd rfl hs.1
      | abort => exact absurd rfl hs.2
      | reject => rfl
    subst hx
    constructor
    · rintro ⟨z, hz⟩; cases hz
    · rintro ⟨a, h, _⟩; cases h
  | ok a =>
    obtain ⟨hv, span, bits, hon⟩ := (Status.receive_iff e m a h6 ht).mp hr
    have key : (∃ z, answer e L m a = .error z) ↔ Harmful e L a := by
      unfold answer
      by_cases h0 : toInt64 a.stable + 300 ≥ top
      · rw [if_pos h0]
        exact ⟨fun _ => Or.inl h0, fun _ => ⟨_, rfl⟩⟩
      · rw [if_neg h0, ← view_iff hL hv hon (by omega)]
        obtain ⟨lc, ec⟩ := checkpoint_total (s := m.sender) hL (tmod_dvd.mp hv.multiple)
        obtain ⟨lk, ek⟩ := complaints_total hL hv hon
        rw [ec, hbind_ok]
        cases hvp : viewPart e L m a with
        | error z => exact ⟨fun _ => ⟨z, rfl⟩, fun _ => ⟨z, rfl⟩⟩
        | ok lv =>
          rw [hbind_ok, ek, hbind_ok]
          constructor
          · rintro ⟨z, hz⟩; cases hz
          · rintro ⟨z, hz⟩; cases hz
    show (∃ z, answer e L m a = .error z) ↔ _
    rw [key]
    constructor
    · intro h; exact ⟨a, rfl, h⟩
    · rintro ⟨b, hb, h⟩; cases hb; exact h

end
/-- a report with empty lists -/
def bare (e : Env) (s : Nat) (a : Status) : Msg := ⟨s, a.encode [] (List.replicate (a.listSize e) 0)⟩

theorem bare_received {e : Env} {s : Nat} {a : Status} (hv : a.Valid e s) :
    Status.receive e (bare e s a) = .ok a ∧ 6 ≤ (bare e s a).size ∧ IsA (bare e s a) codeReplicaStatus := by
  have hz : (0 : Nat) < 256 ^ 4 := Nat.pow_pos (by omega)
  have hf := fits_span (k := ([] : Bytes).length) hv.fits hz
  have em : bare e s a = opened s (hdr codeReplicaStatus [] a.fields) ([] ++ List.replicate (a.listSize e) 0) := by
    unfold bare
    simp only [Status.encode, frame, List.append_assoc]
  have h6 : 6 ≤ (bare e s a).size := by
    rw [em, opened_size]
    have : width (hdr codeReplicaStatus [] a.fields) = 39 := rfl
    omega
  have ht : IsA (bare e s a) codeReplicaStatus := by rw [em]; exact (isA_opened hf).mpr rfl
  exact ⟨(Status.receive_iff e _ _ h6 ht).mpr ⟨hv, [], _, rfl, List.length_replicate, hz⟩, h6, ht⟩

theorem fits_status {v k x ep fl : Nat} (h1 : v < 18446744073709551616) (h2 : k < 18446744073709551616) (h3 : x < 18446744073709551616)
    (h4 : ep < 18446744073709551616) (h5 : fl < 256) : Fits (hdr codeReplicaStatus [] (Status.fields ⟨v, k, x, ep, fl⟩)) := by
  have h256 : (256 : Nat) ^ 8 = 18446744073709551616 := by decide
  intro p hp
  have hp' : p = (2, codeReplicaStatus) ∨ p = (4, 0) ∨ p = (8, v) ∨ p = (8, k) ∨ p = (8, x) ∨ p = (8, ep) ∨ p = (1, fl) := by
    simpa [hdr, Status.fields] using hp
  rcases hp' with rfl | rfl | rfl | rfl | rfl | rfl | rfl
  · decide
  · decide
  · show v < 256 ^ 8; omega
  · show k < 256 ^ 8; omega
  · show x < 256 ^ 8; omega
  · show ep < 256 ^ 8; omega
  · show fl < 256 ^ 1; omega

/-- flags 3: the view is active, the new-view message is known, no list -/
theorem flags3_valid {e : Env} {s v k x ep : Nat} (hs : s < e.n) (hm : s ≠ e.me) (h1 : v < 18446744073709551616)
    (hk : (k : Int) < top) (hx : (x : Int) < top) (h4 : ep < 18446744073709551616) (h150 : k % 150 = 0) (ho : k ≤ x) :
    (⟨v, k, x, ep, 3⟩ : Status).Valid e s := by
  have e1 := toInt64_small hk
  have e2 := toInt64_small hx
  unfold top at hk hx
  refine ⟨hm, hs, ?_, ?_, ?_, ?_, ?_, ?_, ?_, fits_status h1 (by omega) (by omega) h4 (by decide)⟩
  · show Int.tmod (toInt64 k) 150 = 0
    rw [e1]; exact tmod_nat h150
  · show toInt64 k ≤ toInt64 x
    rw [e1, e2]; omega
  · intro _; exact (by decide : (3 : Nat).testBit 1 = true)
  · intro _; exact (by decide : (3 : Nat).testBit 3 = false)
  · intro _; exact (by decide : (3 : Nat).testBit 4 = false)
  · intro _; exact (by decide : (3 : Nat).testBit 2 = false)
  · intro h; exact absurd h.1 (by decide : ¬ (3 : Nat).testBit 3 = true)

/-- **BUG116**: every primary in an active view, whatever else it holds, is stopped by one report of any replica: a report of
the same active view that comes without the list of PrePrepare messages -/
theorem bug116_primary_stops {e : Env} {L : Node} (hL : L.Wf e) (ha : L.active = true) (hp : e.me = e.primary L.view)
    {s : Nat} (hs : s < e.n) (hm : s ≠ e.me) :
    ∃ z, handle e L (bare e s ⟨L.view, L.stable, L.stable, 0, 3⟩) = .error z := by
  have h1 := hL.viewFits
  have h2 := hL.stableFits
  have hv : (⟨L.view, L.stable, L.stable, 0, 3⟩ : Status).Valid e s :=
    flags3_valid hs hm (by unfold top at h1; omega) (by omega) (by omega) (by decide) hL.stableMul (Nat.le_refl _)
  obtain ⟨hr, h6, ht⟩ := bare_received hv
  refine (handle_stops_iff hL h6 ht).mpr ⟨_, hr, Or.inr (Or.inr ⟨toInt64_small h1, (by decide : (3 : Nat).testBit 0 = true), hp, ha,
    Or.inr ⟨(by decide : (3 : Nat).testBit 2 = false), Or.inl ?_⟩⟩)⟩
  show max ((L.stable : Int) + 1) (toInt64 L.stable + 1) ≤ min ((L.stable : Int) + 300) (toInt64 L.stable + 300)
  rw [toInt64_small (n := L.stable) (by omega)]
  omega

/-- **BUG117**: one report, with the view number -1, stops every other replica that is in the first view: the view counts as older,
and there is no view change to send -/
theorem bug117_negative_view {e : Env} {L : Node} (hL : L.Wf e) (h0 : L.view = 0) (hvc : L.ownVC = false)
    {s : Nat} (hs : s < e.n) (hm : s ≠ e.me) :
    ∃ z, handle e L (bare e s ⟨18446744073709551615, 0, 0, 0, 3⟩) = .error z := by
  have hv : (⟨18446744073709551615, 0, 0, 0, 3⟩ : Status).Valid e s :=
    flags3_valid hs hm (by decide) (by decide) (by decide) (by decide) (by decide) (by decide)
  obtain ⟨hr, h6, ht⟩ := bare_received hv
  refine (handle_stops_iff hL h6 ht).mpr ⟨_, hr, Or.inr (Or.inl ⟨?_, hvc⟩)⟩
  show toInt64 18446744073709551615 < (L.view : Int)
  have : toInt64 18446744073709551615 = -1 := by decide
  rw [this, h0]; decide

/-- **BUG118**: one report with a last stable number near the end of the 64-bit numbers makes every receiver compute sums that
have no defined value -/
theorem bug118_overflow {e : Env} {L : Node} (hL : L.Wf e) {s : Nat} (hs : s < e.n) (hm : s ≠ e.me) :
    handle e L (bare e s ⟨0, 9223372036854775800, 9223372036854775800, 0, 3⟩) = .error .overflow := by
  have h1 : ((9223372036854775800 : Nat) : Int) < top := by decide
  have hv : (⟨0, 9223372036854775800, 9223372036854775800, 0, 3⟩ : Status).Valid e s :=
    flags3_valid hs hm (by decide) h1 h1 (by decide) (by decide) (Nat.le_refl _)
  obtain ⟨hr, h6, ht⟩ := bare_received hv
  unfold handle
  rw [hr]
  show answer _ _ _ _ = _
  unfold answer
  rw [if_pos (by
    show toInt64 9223372036854775800 + 300 ≥ top
    rw [toInt64_small h1]; decide)]

/-! ## How much is sent -/

theorem sendEach_length {α : Type} {f : α → H (List Out)} {outs : List Out} : ∀ {l : List α} {outs : List Out},
    (∀ x ∈ l, ∀ o, f x = .ok o → o.length ≤ 1) → sendEach f l = .ok outs → outs.length ≤ l.length
  | [], outs, _, h => by cases h; simp
  | x :: l, outs, hf, h => by
    unfold sendEach at h
    cases hx : f x with
    | error z => rw [hx, hbind_err] at h; cases h
    | ok a =>
      rw [hx, hbind_ok] at h
      cases hl : sendEach f l with
      | error z => rw [hl, hbind_err] at h; cases h
      | ok b =>
        rw [hl, hbind_ok] at h
        cases h
        have h1 := hf x (by simp) a hx
        have h2 := sendEach_length (outs := outs) (fun y hy => hf y (List.mem_cons_of_mem _ hy)) hl
        simp only [List.length_append, List.length_cons]
        omega

theorem hbind_eq {α β : Type} {x : H α} {f : α → H β} {b : β} (h : (x >>= f) = .ok b) : ∃ a, x = .ok a ∧ f a = .ok b := by
  cases x with
  | error z => cases h
  | ok a => exact ⟨a, rfl, h⟩

theorem steps_length (lo hi k : Int) : (steps lo hi k).length = ((hi - lo) / k + 1).toNat := by simp [steps]

theorem ite_le_one {b : Bool} {o : Out} : (if b = true then [o] else []).length ≤ 1 := by cases b <;> simp
theorem ite_le_one' {b : Bool} {o : Out} : (if b = true then [] else [o]).length ≤ 1 := by cases b <;> simp

theorem checkpointPart_length {e : Env} {L : Node} {s : Nat} {q : Int} {o : List Out} (h : checkpointPart e L s q = .ok o) :
    o.length ≤ L.ckpts.length + 3 := by
  unfold checkpointPart at h
  split at h
  · obtain ⟨_, _, h⟩ := hbind_eq h
    cases h
    rw [List.length_map]
    have := List.length_filter_le (fun g => decide (s ≠ g)) L.ckpts
    omega
  · split at h
    · cases h; simp
    · obtain ⟨l, hl, h⟩ := hbind_eq h
      have h1 : l.length ≤ 1 := by
        split at hl
        · obtain ⟨_, _, hl⟩ := hbind_eq hl
          cases hl
          exact ite_le_one
        · cases hl; simp
      obtain ⟨_, _, h⟩ := hbind_eq h
      split at h
      · obtain ⟨_, _, h⟩ := hbind_eq h
        obtain ⟨l2, hl2, h⟩ := hbind_eq h
        cases h
        have h2 := sendEach_length (outs := []) (fun x _ o ho => by
          obtain ⟨_, _, ho⟩ := hbind_eq ho
          cases ho
          exact ite_le_one) hl2
        rw [steps_length] at h2
        rw [List.length_append]
        omega
      · cases h; omega

theorem sendViewChanges_length {e : Env} {L : Node} {m : Msg} {a : Status} {o : List Out} (h : sendViewChanges e L m a = .ok o) :
    o.length ≤ L.vcs.length := by
  unfold sendViewChanges at h
  split at h
  · exact sendEach_length (outs := []) (fun x _ o ho => by
      obtain ⟨_, _, ho⟩ := hbind_eq ho
      cases ho
      exact ite_le_one) h
  · cases h; simp

theorem enterPart_length {e : Env} {L : Node} {m : Msg} {a : Status} {o : List Out} (h : enterPart e L m a = .ok o) :
    o.length ≤ L.vcs.length + 301 := by
  unfold enterPart at h
  split at h
  · obtain ⟨l1, h1, h⟩ := hbind_eq h
    obtain ⟨l2, h2, h⟩ := hbind_eq h
    obtain ⟨l3, h3, h⟩ := hbind_eq h
    cases h
    have e1 : l1.length ≤ 1 := by
      split at h1
      · obtain ⟨_, _, h1⟩ := hbind_eq h1
        cases h1; simp
      · cases h1; simp
    have e2 := sendViewChanges_length h2
    have hz : ∀ z : Int, ((z + 300 - (z + 1)) / 1 + 1).toNat = 300 := by intro z; rw [Int.ediv_one]; omega
    have e3 : l3.length ≤ 300 := by
      split at h3
      · split at h3
        · have := sendEach_length (outs := []) (fun x _ o ho => by
            split at ho
            · obtain ⟨_, _, ho⟩ := hbind_eq ho
              cases ho
              exact ite_le_one
            · cases ho; simp) h3
          rw [steps_length, hz] at this
          exact this
        · have := sendEach_length (outs := []) (fun x _ o ho => by
            obtain ⟨_, _, ho⟩ := hbind_eq ho
            cases ho
            exact ite_le_one) h3
          rw [steps_length, hz] at this
          exact this
      · cases h3; simp
    rw [List.length_append, List.length_append]
    omega
  · have := sendViewChanges_length h
    omega

theorem windowPart_length {e : Env} {L : Node} {m : Msg} {a : Status} {o : List Out} (h : windowPart e L m a = .ok o) :
    o.length ≤ 300 + L.hist := by
  unfold windowPart at h
  split at h
  · cases h
  · obtain ⟨l1, h1, h⟩ := hbind_eq h
    have e1 := sendEach_length (outs := []) (fun x _ o ho => by
      obtain ⟨b, _, ho⟩ := hbind_eq ho
      split at ho
      · cases ho; simp
      · obtain ⟨_, _, ho⟩ := hbind_eq ho
        cases ho
        exact ite_le_one) h1
    rw [steps_length, Int.ediv_one] at e1
    split at h
    · rename_i hh
      unfold Node.inHistory at hh
      simp only [Bool.and_eq_true, decide_eq_true_eq] at hh
      obtain ⟨l2, h2, h⟩ := hbind_eq h
      cases h
      have e2 := sendEach_length (outs := []) (fun x _ o ho => by
        obtain ⟨_, _, ho⟩ := hbind_eq ho
        split at ho
        · obtain ⟨_, _, ho⟩ := hbind_eq ho
          cases ho
          exact ite_le_one'
        · cases ho; simp) h2
      rw [steps_length, Int.ediv_one] at e2
      rw [List.length_append]
      omega
    · cases h
      omega

/-- **no flood**: whatever a report says, the number of messages sent for it is bounded by what the receiver holds -/
theorem handle_length {e : Env} {L : Node} {m : Msg} {outs : List Out} (h : handle e L m = .ok outs) :
    outs.length ≤ L.ckpts.length + L.vcs.length + L.complaints.length + L.hist + 304 := by
  unfold handle at h
  split at h
  · rename_i a _
    unfold answer at h
    split at h
    · cases h
    · obtain ⟨l1, h1, h⟩ := hbind_eq h
      obtain ⟨l2, h2, h⟩ := hbind_eq h
      obtain ⟨l3, h3, h⟩ := hbind_eq h
      cases h
      have e1 := checkpointPart_length h1
      have e2 : l2.length ≤ L.vcs.length + L.hist + 301 := by
        unfold viewPart at h2
        split at h2
        · obtain ⟨_, _, h2⟩ := hbind_eq h2
          cases h2; simp
        · split at h2
          · have := enterPart_length h2; omega
          · split at h2
            · split at h2
              · split at h2
                · have := windowPart_length h2; omega
                · cases h2; simp
              · cases h2; simp
            · obtain ⟨_, _, h2⟩ := hbind_eq h2
              cases h2; simp
      have e3 : l3.length ≤ L.complaints.length := by
        unfold complaintPart at h3
        split at h3
        · exact sendEach_length (outs := []) (fun x _ o ho => by
            obtain ⟨_, _, ho⟩ := hbind_eq ho
            cases ho
            exact ite_le_one') h3
        · cases h3; simp
      rw [List.length_append, List.length_append]
      omega
  · cases h; simp
  · cases h

end Verif.Wire
