import Verif.Rp.Source
import Verif.St.Examples
set_option linter.unusedVariables false
/-!
# Reserved pages: examples and findings (C41)
-/
namespace Verif.Rp.Ex
open Verif.Bytes Verif.St Verif.St.Ex

deriving instance DecidableEq for R

theorem dig_ne_zero (l : List Nat) : dig l ≠ zero := by
  intro h
  have h1 := congrArg leDecode h
  unfold dig at h1
  have hlt : l.foldl (fun a x => (a * 131 + x + 7) % 4294967291) 1 < 4294967291 := by
    have : ∀ (l : List Nat) (a : Nat), a < 4294967291 → l.foldl (fun a x => (a * 131 + x + 7) % 4294967291) a < 4294967291 := by
      intro l
      induction l with
      | nil => intro a h; exact h
      | cons x l ih => intro a h; exact ih _ (Nat.mod_lt _ (by decide))
    exact this l 1 (by decide)
  generalize l.foldl (fun a x => (a * 131 + x + 7) % 4294967291) 1 = n at *
  rw [leDecode_leEncode 32 _ (by omega)] at h1
  have h0 : leDecode zero = 0 := by decide +kernel
  rw [h0] at h1
  omega

theorem exC_ok : CfgOk exC := ⟨by decide, by decide, by decide, fun _ _ _ => dig_length _, fun _ _ _ => dig_ne_zero _, fun _ => dig_length _⟩

/-- what `Legal` asks for, when there is nothing to install -/
def legalB (c : Cfg) (a : A) : Op → Bool
  | .save p b => decide (p < c.pages ∧ b.length ≤ c.pageSize)
  | .zeroPage p => decide (p < c.pages)
  | .ckpt k block digest rvb => decide (a.fetching = false ∧ 0 < k ∧ a.last ≤ k ∧ k < 2 ^ 64 ∧ block < 2 ^ 64 ∧ digest.length = 32 ∧ rvb.length < 2 ^ 64)
  | .collect => true
  | .finish => true
  | .install .. => false
  | .fetch _ f => decide (f.known < 2 ^ 64 ∧ f.required < 2 ^ 64 ∧ f.lastKnown < 2 ^ 16)
  | .restart => true
  | .other k _ => decide (k.head? ≠ some 1)

theorem legalB_ok {c : Cfg} {tp : Nat → Snap} {s : S} {a : A} {op : Op} (h : legalB c a op = true) : Legal c tp s a op := by
  cases op with
  | collect => trivial
  | finish => trivial
  | restart => trivial
  | install d v => cases h
  | save p b =>
    have h := of_decide_eq_true h
    exact h
  | zeroPage p =>
    have h := of_decide_eq_true h
    exact h
  | ckpt k block digest rvb =>
    have h := of_decide_eq_true h
    exact h
  | fetch mc f =>
    have h := of_decide_eq_true h
    exact h
  | other k v =>
    have h := of_decide_eq_true h
    exact h

def drive (c : Cfg) : List Op → S → A → R (S × A)
  | [], s, a => .ok (s, a)
  | o :: os, s, a =>
    if legalB c a o then
      match s.step c o with
      | .ok s' => drive c os s' (a.step c (fun _ _ => none) (s.accepts c o) o)
      | .abort => .abort
      | .fault => .fault
    else .abort

theorem drive_run {c : Cfg} : ∀ (os ops : List Op) (s : S) (a : A) (r : S × A), Run c (fun _ _ => none) ops s a → drive c os s a = .ok r → Run c (fun _ _ => none) (ops ++ os) r.1 r.2 := by
  intro os
  induction os with
  | nil =>
    intro ops s a r h hd
    cases hd
    rw [List.append_nil]
    exact h
  | cons o os ih =>
    intro ops s a r h hd
    rw [drive] at hd
    by_cases hl : legalB c a o = true
    · rw [if_pos hl] at hd
      cases hs : s.step c o with
      | ok s' =>
        rw [hs] at hd
        have := ih _ _ _ r (Run.step h (legalB_ok hl) hs) hd
        rw [List.append_assoc] at this
        exact this
      | abort => rw [hs] at hd; cases hd
      | fault => rw [hs] at hd; cases hd
    · rw [if_neg hl] at hd
      cases hd

def db0 : Db := ⟨[([7, 7], [1])], 0, 0, false⟩
theorem db0_fresh : Fresh db0 := ⟨List.pairwise_singleton _ _, by decide, rfl, rfl, rfl⟩
def s0 : S := ⟨⟨[], [], [], 0, 0, false⟩, db0, []⟩
theorem s0_run : Run exC (fun _ _ => none) [] s0 A.init := .init db0_fresh (by decide +kernel)

def dg : Bytes := List.replicate 32 5

/-- two pages of four bytes, saved between five checkpoints of which three are kept, with crashes, and requests of another replica -/
def opsX : List Op :=
  [.save 0 [1, 2], .ckpt 1 10 dg [], .save 1 [3], .restart, .save 1 [4], .ckpt 2 20 dg [7], .restart, .fetch 40 ⟨9, 0, 2, 0⟩, .save 0 [9, 9, 9, 9], .ckpt 3 30 dg [], .other [5] [6],
    .zeroPage 1, .restart, .ckpt 4 40 dg [], .save 0 [8], .restart]

def resX : R (S × A) := drive exC opsX s0 A.init

set_option maxRecDepth 100000 in
example : (match resX with
    | .ok (s, a) => decide (s.mem.first = 2 ∧ s.mem.last = 4 ∧ s.mem.pend = [(0, [8, 0, 0, 0])] ∧ s.mem.pages.map (·.1) = [(0, 3), (0, 1), (1, 4), (1, 2)] ∧ s.mem.descs.map (·.1) = [2, 3, 4])
    | _ => false) = true := by decide +kernel

set_option maxRecDepth 100000 in
/-- what `load_returns_saved`, `checkpoint_is_picture` and `restart_restores` speak of -/
example : (match resX with
    | .ok (s, a) => decide (s.load exC 0 4 = .ok (some [8, 0, 0, 0]) ∧ s.load exC 1 2 = .ok (some [0, 0]) ∧ s.mem.getResPage 1 3 = .ok (some (2, exC.pageH 1 2 [4, 0, 0, 0], [4, 0, 0, 0])) ∧
        s.digestOf 2 ≠ s.digestOf 3 ∧ s.restart exC = .ok s ∧ (a.snap 3).isSome = true)
    | _ => false) = true := by decide +kernel

set_option maxRecDepth 100000 in
theorem resX_ok : ∃ r, resX = .ok r ∧ Run exC (fun _ _ => none) opsX r.1 r.2 ∧ (r.2.snap 3).isSome = true ∧ r.2.fetching = false ∧ r.2.last = 4 := by
  have hb : (match resX with
    | .ok (s, a) => decide ((a.snap 3).isSome = true ∧ a.fetching = false ∧ a.last = 4)
    | _ => false) = true := by decide +kernel
  cases h : resX with
  | ok r =>
    rw [h] at hb
    exact ⟨r, rfl, drive_run opsX [] s0 A.init r s0_run h, of_decide_eq_true hb⟩
  | abort => rw [h] at hb; cases hb
  | fault => rw [h] at hb; cases hb

/-- another history of a replica that saves the same pages: the hypotheses of `replicas_agree` -/
def opsY : List Op :=
  [.save 0 [1, 2], .restart, .ckpt 1 10 dg [], .save 1 [3], .save 1 [4], .ckpt 2 20 dg [7], .save 0 [9, 9, 9, 9], .ckpt 3 30 dg [], .zeroPage 1, .ckpt 4 40 dg [], .restart, .save 0 [8]]

set_option maxRecDepth 100000 in
example : (match drive exC opsY s0 A.init, resX with
    | .ok (s, _), .ok (t, _) => decide (s.digestOf 3 = t.digestOf 3 ∧ s.digestOf 4 = t.digestOf 4 ∧ s.load exC 1 4 = t.load exC 1 4)
    | _, _ => false) = true := by decide +kernel

example : opsX.all (fun o => !o.isInstall) = true ∧ (opsX.filter (fun o => !o.passive)).length = (opsY.filter (fun o => !o.passive)).length := by decide

/-! ## Transfer -/

theorem continues_fresh {c : Cfg} {k : Nat} {sn : Snap} (h : Snap.Wf c k sn) : Continues c { A.init with fetching := true } k sn :=
  ⟨h, fun p v b hs hv => (by have h2 := (h p v b hs).2.1; have hv : v ≤ 0 := hv; omega), fun p _ => rfl, fun x hx => (by cases hx)⟩

/-- a new replica fetches checkpoint 3 from the replica of `opsX`: all hypotheses of `transfer_agrees` hold -/
theorem transfer_example : ∃ (s : S) (sn : Snap × Info) (s1' : S) (l : List Item) (s' : S) (t : S) (d : Desc), s.fetch exC 40 ⟨1, 0, 3, 0⟩ = .ok (s1', some l) ∧
    t.install exC d (l.map (·.data)).flatten = .ok s' ∧ s'.digestOf 3 = s.digestOf 3 ∧ d.num = 3 := by
  obtain ⟨r, h0, h1, h2, h3, h4⟩ := resX_ok
  cases hs : r.2.snap 3 with
  | none => rw [hs] at h2; cases h2
  | some sn =>
    have hi := run_inv exC_ok h1
    have hwf := (hi.m.snapOk _ _ hs).2.2
    have hpic := (checkpoint_is_picture exC_ok h1 hs (by rw [h4]; decide)).1
    have hsize : ∀ v, (Snap.since exC sn.1 v).length ≤ 2 := by
      intro v
      unfold Snap.since
      exact Nat.le_trans (List.length_filterMap_le _ _) (by rw [List.length_range]; exact Nat.le_refl 2)
    have hblk : (Snap.block exC sn.1 0).length ≤ 108 := by
      unfold Snap.block
      rw [List.length_append, List.length_append, leEncode_length, leEncode_length, List.length_flatten, List.map_map]
      have hw : ∀ x ∈ Snap.since exC sn.1 0, (List.length ∘ wire exC) x = 48 := by
        intro x hx
        have hb := hwf _ _ _ (since_mem.1 hx).2.1
        show (wire exC x).length = 48
        unfold wire
        simp only [List.length_append, leEncode_length]
        have e1 : (exC.pageH x.1 x.2.1 x.2.2).length = 32 := exC_ok.pageLen _ _ _
        have e2 : List.length x.2.2 = 4 := hb.2.2.2
        rw [e1, e2]
      have := hsize 0
      have hsum : ∀ (l : List (Nat × Nat × Bytes)), (∀ x ∈ l, (List.length ∘ wire exC) x = 48) → (l.map (List.length ∘ wire exC)).sum = 48 * l.length := by
        intro l
        induction l with
        | nil => intro _; rfl
        | cons x l ih => intro hl; rw [List.map_cons, List.sum_cons, hl x List.mem_cons_self, ih (fun y hy => hl y (List.mem_cons_of_mem _ hy)), List.length_cons]; omega
      rw [hsum _ hw]
      omega
    have hcc : chunkCount 40 (Snap.block exC sn.1 0) ≤ 3 := by
      unfold chunkCount
      omega
    have hinf : sn.2.digest.length = 32 ∧ sn.2.block < 2 ^ 64 := by
      have hb : (match resX with
        | .ok (s, a) => match a.snap 3 with
          | some sn => decide (sn.2.digest.length = 32 ∧ sn.2.block < 2 ^ 64)
          | none => false
        | _ => false) = true := by
          set_option maxRecDepth 100000 in decide +kernel
      rw [h0] at hb
      simp only at hb
      rw [hs] at hb
      exact of_decide_eq_true hb
    let tp : Nat → Snap := fun _ => sn.1
    have hrun : Run exC tp ([] ++ [Op.collect]) s0.collect (A.init.step exC tp (s0.accepts exC .collect) .collect) := .step (.init db0_fresh (by decide +kernel)) trivial rfl
    have hA : A.init.step exC tp (s0.accepts exC .collect) .collect = { A.init with fetching := true } := rfl
    rw [hA] at hrun
    obtain ⟨s1', l, s', q1, q2, q3, _⟩ := transfer_agrees exC_ok h1 h3 hrun rfl (d := ⟨3, sn.2.block, sn.2.digest, Snap.digest exC sn.1, []⟩) hs (by rw [h4]; show 4 < 3 + 3; omega) hpic rfl (continues_fresh hwf)
      (Nat.zero_le _) hinf.2 hinf.1 (show 0 < 2 ^ 64 by omega) (mc := 40) (by decide) (show chunkCount 40 (Snap.block exC sn.1 0) ≤ 4 by omega) (show chunkCount 40 (Snap.block exC sn.1 0) < 2 ^ 16 by omega)
      (show (Snap.block exC sn.1 0).length < 2 ^ 32 by omega)
    exact ⟨r.1, sn, s1', l, s', s0.collect, ⟨3, sn.2.block, sn.2.digest, Snap.digest exC sn.1, []⟩, q1, q2, q3, rfl⟩

/-- the replica of `opsX` meets the hypotheses of `bad_chunk_number_faults` -/
example : (match resX with
    | .ok (s, _) => match s.fetch exC 40 ⟨1, 0, 3, 65535⟩ with
      | .fault => true
      | _ => false
    | _ => false) = true := by
  set_option maxRecDepth 100000 in decide +kernel

/-! ## Found -/

/-- requests are executed, checkpoint 1 is created, the replica executes up to checkpoint 2 -/
def opsA : List Op := [.save 0 [1], .ckpt 1 10 dg [], .save 1 [2], .ckpt 2 10 dg []]
/-- the same, but the replica crashes after checkpoint 1 is in the database and before the last executed sequence number is: it executes the
requests again (ReplicaImp.cpp:5131-5170), which saves the page of the reply again, and creates checkpoint 1 again, which is ignored
(BCStateTran.cpp:608-615) -/
def opsB : List Op := [.save 0 [1], .ckpt 1 10 dg [], .restart, .save 0 [1], .ckpt 1 10 dg [], .save 1 [2], .ckpt 2 10 dg []]

set_option maxRecDepth 100000 in
/-- Found: executing again what was executed before a crash, with the same pages and the same checkpoints, changes the digest of the next
checkpoint, although every page reads the same. -/
theorem reexecution_diverges : ∃ s a t b, Run exC (fun _ _ => none) opsA s a ∧ Run exC (fun _ _ => none) opsB t b ∧ s.load exC 0 4 = t.load exC 0 4 ∧ s.load exC 1 4 = t.load exC 1 4 ∧
    s.digestOf 1 = t.digestOf 1 ∧ s.digestOf 2 ≠ t.digestOf 2 := by
  have hb : (match drive exC opsA s0 A.init, drive exC opsB s0 A.init with
    | .ok (s, _), .ok (t, _) => decide (s.load exC 0 4 = t.load exC 0 4 ∧ s.load exC 1 4 = t.load exC 1 4 ∧ s.digestOf 1 = t.digestOf 1 ∧ s.digestOf 2 ≠ t.digestOf 2)
    | _, _ => false) = true := by decide +kernel
  cases h : drive exC opsA s0 A.init with
  | ok r =>
    cases h2 : drive exC opsB s0 A.init with
    | ok q =>
      rw [h, h2] at hb
      exact ⟨r.1, r.2, q.1, q.2, drive_run opsA [] s0 A.init r s0_run h, drive_run opsB [] s0 A.init q s0_run h2, of_decide_eq_true hb⟩
    | abort => rw [h, h2] at hb; cases hb
    | fault => rw [h, h2] at hb; cases hb
  | abort => rw [h] at hb; cases hb
  | fault => rw [h] at hb; cases hb

end Verif.Rp.Ex
