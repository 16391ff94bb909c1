import Verif.Window.Proofs
/-!
C07 and C08: property theorems about the active window.
-/
namespace Concord.Window

variable {α : Type} {g : Cfg} {init : α}

/-- all results of a sequence of calls on a new window; `none` when an assertion fails -/
def results (g : Cfg) (init : α) (f : Nat) (os : List (Op α)) : Option (List (Out α)) :=
  (create g init f).bind (fun w => (w.run g init os).map (·.2))

/-- the results the specification (a map) prescribes -/
def Spec.results (g : Cfg) (init : α) (f : Nat) (os : List (Op α)) : Option (List (Out α)) :=
  (Spec.create g init f).bind (fun a => (Spec.run g init a os).map (·.2))

/-- C07/C08: for every sequence of calls, the ring buffer returns what the map returns, and asserts exactly
when the specification rejects a call. -/
theorem window_is_map (hg : g.Ok) (f : Nat) (os : List (Op α)) :
    results g init f os = Spec.results g init f os := by
  unfold results Spec.results
  cases hc : create g init f with
  | none =>
    unfold create at hc
    split at hc
    · cases hc
    · next h0 => unfold Spec.create; rw [if_neg (fun h => h0 (Nat.dvd_iff_mod_eq_zero.1 h))]; rfl
  | some w =>
    obtain ⟨a, ha, hr⟩ := create_rel hg hc
    rw [ha]; exact run_rel hg os hr

theorem spec_run_append (a : Spec.St α) (os os' : List (Op α)) :
    Spec.run g init a (os ++ os') =
      (Spec.run g init a os).bind (fun p => (Spec.run g init p.1 os').map (fun q => (q.1, p.2 ++ q.2))) := by
  induction os generalizing a with
  | nil => simp [Spec.run]
  | cons o os ih =>
    simp only [List.cons_append, Spec.run]
    cases Spec.step g init a o with
    | none => rfl
    | some p =>
      obtain ⟨a', r⟩ := p
      simp only [ih]
      cases Spec.run g init a' os with
      | none => rfl
      | some q =>
        obtain ⟨a'', rs⟩ := q
        simp only [Option.bind_some]
        cases Spec.run g init a'' os' <;> rfl

/-- the call stores something at `s` -/
def Op.writes (s : Nat) : Op α → Prop
  | .write t _ => t = s
  | .writeHist t _ => t = s
  | .writeAny t _ => t = s
  | _ => False

def Op.isReset : Op α → Prop
  | .resetAll _ => True
  | _ => False

theorem spec_keep {s : Nat} {x : α} : ∀ (os : List (Op α)) (a a' : Spec.St α) (rs : List (Out α)),
    (∀ o ∈ os, ¬ o.writes s ∧ ¬ o.isReset) → s < a.begin + g.W → (s < a.lo ∨ a.m s = x) →
    Spec.run g init a os = some (a', rs) → s < a'.begin + g.W ∧ (s < a'.lo ∨ a'.m s = x)
  | [], a, a', rs, _, h1, h2, hr => by
    simp only [Spec.run, Option.some.injEq, Prod.mk.injEq] at hr
    rw [← hr.1]; exact ⟨h1, h2⟩
  | o :: os, a, a', rs, hno, h1, h2, hr => by
    simp only [Spec.run] at hr
    cases hst : Spec.step g init a o with
    | none => rw [hst] at hr; cases hr
    | some p =>
      obtain ⟨a1, r⟩ := p
      rw [hst] at hr
      simp only at hr
      cases hrun : Spec.run g init a1 os with
      | none => rw [hrun] at hr; cases hr
      | some q =>
        obtain ⟨a2, rs2⟩ := q
        rw [hrun] at hr
        simp only [Option.some.injEq, Prod.mk.injEq] at hr
        rw [← hr.1]
        have hno1 := hno o (List.mem_cons_self ..)
        have key : s < a1.begin + g.W ∧ (s < a1.lo ∨ a1.m s = x) := by
          cases o with
          | read t => simp only [Spec.step] at hst; split at hst <;> cases hst; exact ⟨h1, h2⟩
          | readHist t => simp only [Spec.step] at hst; split at hst <;> cases hst; exact ⟨h1, h2⟩
          | readAny t => simp only [Spec.step] at hst; split at hst <;> cases hst; exact ⟨h1, h2⟩
          | inside t => simp only [Spec.step] at hst; cases hst; exact ⟨h1, h2⟩
          | inHist t => simp only [Spec.step] at hst; cases hst; exact ⟨h1, h2⟩
          | write t y =>
            have hts : s ≠ t := fun h => hno1.1 h.symm
            simp only [Spec.step] at hst; split at hst <;> cases hst
            simp only [Spec.set, hts, if_false]; exact ⟨h1, h2⟩
          | writeHist t y =>
            have hts : s ≠ t := fun h => hno1.1 h.symm
            simp only [Spec.step] at hst; split at hst <;> cases hst
            simp only [Spec.set, hts, if_false]; exact ⟨h1, h2⟩
          | writeAny t y =>
            have hts : s ≠ t := fun h => hno1.1 h.symm
            simp only [Spec.step] at hst; split at hst <;> cases hst
            simp only [Spec.set, hts, if_false]; exact ⟨h1, h2⟩
          | advance f =>
            simp only [Spec.step] at hst
            split at hst
            · split at hst
              · cases hst; simp only; exact ⟨by omega, Or.inl (by omega)⟩
              · cases hst
                refine ⟨by simp only; omega, ?_⟩
                rcases h2 with h2 | h2
                · exact Or.inl (by simp only; omega)
                · refine Or.inr ?_
                  simp only
                  rw [if_neg (by omega)]; exact h2
            · cases hst
          | resetAll f => exact absurd trivial hno1.2
        exact spec_keep os a1 a2 rs2 (fun o ho => hno o (List.mem_cons_of_mem _ ho)) key.1 key.2 hrun

theorem spec_fresh {s : Nat} : ∀ (os : List (Op α)) (a a' : Spec.St α) (rs : List (Out α)),
    (∀ o ∈ os, ¬ o.writes s) → a.m s = init →
    Spec.run g init a os = some (a', rs) → a'.m s = init
  | [], a, a', rs, _, h2, hr => by
    simp only [Spec.run, Option.some.injEq, Prod.mk.injEq] at hr
    rw [← hr.1]; exact h2
  | o :: os, a, a', rs, hno, h2, hr => by
    simp only [Spec.run] at hr
    cases hst : Spec.step g init a o with
    | none => rw [hst] at hr; cases hr
    | some p =>
      obtain ⟨a1, r⟩ := p
      rw [hst] at hr
      simp only at hr
      cases hrun : Spec.run g init a1 os with
      | none => rw [hrun] at hr; cases hr
      | some q =>
        obtain ⟨a2, rs2⟩ := q
        rw [hrun] at hr
        simp only [Option.some.injEq, Prod.mk.injEq] at hr
        rw [← hr.1]
        have hno1 := hno o (List.mem_cons_self ..)
        have key : a1.m s = init := by
          cases o with
          | read t => simp only [Spec.step] at hst; split at hst <;> cases hst; exact h2
          | readHist t => simp only [Spec.step] at hst; split at hst <;> cases hst; exact h2
          | readAny t => simp only [Spec.step] at hst; split at hst <;> cases hst; exact h2
          | inside t => simp only [Spec.step] at hst; cases hst; exact h2
          | inHist t => simp only [Spec.step] at hst; cases hst; exact h2
          | write t y =>
            have hts : s ≠ t := fun h => hno1 h.symm
            simp only [Spec.step] at hst; split at hst <;> cases hst
            simp only [Spec.set, hts, if_false]; exact h2
          | writeHist t y =>
            have hts : s ≠ t := fun h => hno1 h.symm
            simp only [Spec.step] at hst; split at hst <;> cases hst
            simp only [Spec.set, hts, if_false]; exact h2
          | writeAny t y =>
            have hts : s ≠ t := fun h => hno1 h.symm
            simp only [Spec.step] at hst; split at hst <;> cases hst
            simp only [Spec.set, hts, if_false]; exact h2
          | advance f =>
            simp only [Spec.step] at hst
            split at hst
            · split at hst
              · cases hst; rfl
              · cases hst; simp only; split
                · rfl
                · exact h2
            · cases hst
          | resetAll f => simp only [Spec.step] at hst; split at hst <;> cases hst; rfl
        exact spec_fresh os a1 a2 rs2 (fun o ho => hno o (List.mem_cons_of_mem _ ho)) key hrun

theorem results_split {f : Nat} {os os' : List (Op α)} {rs : List (Out α)}
    (h : Spec.results g init f (os ++ os') = some rs) :
    ∃ a a1 r1 a2 r2, Spec.create g init f = some a ∧ Spec.run g init a os = some (a1, r1) ∧
      Spec.run g init a1 os' = some (a2, r2) ∧ rs = r1 ++ r2 := by
  unfold Spec.results at h
  cases hc : Spec.create g init f with
  | none => rw [hc] at h; cases h
  | some a =>
    rw [hc, Option.bind_some, spec_run_append] at h
    cases h1 : Spec.run g init a os with
    | none => rw [h1] at h; cases h
    | some p =>
      rw [h1, Option.bind_some] at h
      cases h2 : Spec.run g init p.1 os' with
      | none => rw [h2] at h; cases h
      | some q =>
        rw [h2] at h
        simp only [Option.map_some, Option.some.injEq] at h
        exact ⟨a, p.1, p.2, q.1, q.2, rfl, h1, h2, h.symm⟩

theorem readAny_last {a : Spec.St α} {a' : Spec.St α} {s : Nat} {r : List (Out α)}
    (h : Spec.run g init a [.readAny s] = some (a', r)) : r = [.item (a.m s)] ∧ a.lo ≤ s := by
  simp only [Spec.run, Spec.step] at h
  split at h
  · cases h
  · next hst =>
    split at hst
    · next hc => cases hst; simp only [Option.some.injEq, Prod.mk.injEq] at h; exact ⟨h.2.symm, hc.2.1⟩
    · cases hst

/-- C07/C08: whatever happens between, as long as nothing is written at `s` again and the window is not reset,
a later successful read of `s` from the window or its history gives the value last written. -/
theorem read_gives_last_write (hg : g.Ok) (f s : Nat) (x : α) (before after : List (Op α)) (rs : List (Out α))
    (hno : ∀ o ∈ after, ¬ o.writes s ∧ ¬ o.isReset)
    (h : results g init f (before ++ (.write s x :: (after ++ [.readAny s]))) = some rs) :
    rs.getLast? = some (.item x) := by
  rw [window_is_map hg] at h
  obtain ⟨a, a1, r1, a2, r2, _, _, h2, rfl⟩ := results_split h
  rw [show (.write s x :: (after ++ [.readAny s]) : List (Op α)) = [.write s x] ++ (after ++ [.readAny s]) from rfl,
    spec_run_append] at h2
  cases hw : Spec.run g init a1 [.write s x] with
  | none => rw [hw] at h2; cases h2
  | some p =>
    obtain ⟨b, rb⟩ := p
    rw [hw, Option.bind_some, spec_run_append] at h2
    have hb : s < b.begin + g.W ∧ b.m s = x := by
      simp only [Spec.run, Spec.step] at hw
      split at hw
      · cases hw
      · next hst =>
        split at hst
        · next hc =>
          cases hst; simp only [Option.some.injEq, Prod.mk.injEq] at hw
          rw [← hw.1]; exact ⟨hc.2.2, by simp [Spec.set]⟩
        · cases hst
    cases ha : Spec.run g init b after with
    | none => simp only [ha] at h2; cases h2
    | some q =>
      obtain ⟨e, re⟩ := q
      simp only [ha, Option.bind_some] at h2
      cases hl : Spec.run g init e [.readAny s] with
      | none => rw [hl] at h2; cases h2
      | some z =>
        obtain ⟨z1, z2⟩ := z
        rw [hl] at h2
        simp only [Option.map_some, Option.some.injEq, Prod.mk.injEq] at h2
        obtain ⟨hz, hlo⟩ := readAny_last hl
        have hk := spec_keep after b e re hno hb.1 (Or.inr hb.2) ha
        rcases hk.2 with hk | hk
        · omega
        · rw [← h2.2, hz, hk]; simp

/-- C07: a number nothing was written at reads as a fresh item, whatever was stored in the ring-buffer slot it
occupies before it entered the window. -/
theorem read_fresh (hg : g.Ok) (f s : Nat) (ops : List (Op α)) (rs : List (Out α))
    (hno : ∀ o ∈ ops, ¬ o.writes s)
    (h : results g init f (ops ++ [.readAny s]) = some rs) : rs.getLast? = some (.item init) := by
  rw [window_is_map hg] at h
  obtain ⟨a, a1, r1, a2, r2, hc, h1, h2, rfl⟩ := results_split h
  have ha : a.m s = init := by
    unfold Spec.create at hc; split at hc
    · cases hc; rfl
    · cases hc
  rw [(readAny_last h2).1, spec_fresh ops a a1 r1 hno ha h1]
  simp

/-- the window of the main log (ReplicaImp.hpp:168) meets the hypothesis -/
def mainLogCfg : Cfg := ⟨1, 300, 1⟩
theorem mainLogCfg_ok : mainLogCfg.Ok := ⟨by decide, by decide⟩
/-- the checkpoints log (ReplicaImp.hpp:173-177): 600 numbers, resolution 150 -/
def ckptLogCfg : Cfg := ⟨150, 4, 0⟩
theorem ckptLogCfg_ok : ckptLogCfg.Ok := ⟨by decide, by decide⟩

/-- a run that advances around the ring: the value 7 written at 301 is still read from the history, the number 901
that re-uses its slot is fresh, 1 is gone -/
example : results mainLogCfg 0 1 [.write 1 5, .advance 301, .write 301 7, .readAny 1, .advance 601, .readAny 301,
    .inHist 1, .advance 902, .inHist 301] =
    some [.unit, .unit, .unit, .item 5, .unit, .item 7, .bool false, .unit, .bool false] := by decide +kernel
example : results mainLogCfg 0 1 [.write 1 5, .advance 302, .read 1] = none := by decide +kernel
example : results ckptLogCfg 0 0 [.write 0 5, .advance 150, .write 600 6, .read 600, .read 450, .advance 600, .read 1050] =
    some [.unit, .unit, .unit, .item 6, .item 0, .unit, .item 0] := by decide +kernel

end Concord.Window
