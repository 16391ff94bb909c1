import Verif.Kvbc.MerkleSim
set_option linter.unusedSimpArgs false
set_option linter.unusedVariables false
/-!
# C23, C24 for the block-Merkle category: reads and pruning
-/
namespace Verif.Kvbc
open Verif.Bytes

/-- abstraction to the history of the versioned category -/
def MAbs.abs (a : MAbs) : Abs := { hist := a.effects, genesis := a.genesis, seen := a.seen }

theorem abs_step (a : MAbs) (e : MEv) : a.abs.step e.eff = (a.step e).abs := by
  cases e with
  | add i => simp only [MEv.eff, Abs.step, MAbs.step, MAbs.abs, MAbs.effects, List.map_append, List.map_cons, List.map_nil]; rfl
  | prune => simp only [MEv.eff, Abs.step, MAbs.step, MAbs.abs, MAbs.effects, List.length_map]
  | deleteLast => simp only [MEv.eff, Abs.step, MAbs.step, MAbs.abs, MAbs.effects, List.map_dropLast]

theorem abs_run (evs : List MEv) (a : MAbs) : a.abs.run (evs.map MEv.eff) = (a.run evs).abs := by
  induction evs generalizing a with
  | nil => rfl
  | cons e es ih => simp only [List.map_cons, Abs.run, MAbs.run, abs_step, ih]

theorem undoSafe_abs (evs : List MEv) (a : MAbs) (h : MUndoSafe a evs) : UndoSafe a.abs (evs.map MEv.eff) := by
  induction evs generalizing a with
  | nil => trivial
  | cons e es ih =>
    cases e with
    | add i => simp only [List.map_cons, MEv.eff, UndoSafe]; rw [show Ev.add (effO i) = (MEv.add i).eff from rfl, abs_step]; exact ih _ h
    | prune => simp only [List.map_cons, MEv.eff, UndoSafe]; rw [show Ev.prune = MEv.prune.eff from rfl, abs_step]; exact ih _ h
    | deleteLast =>
      simp only [List.map_cons, MEv.eff, UndoSafe]
      refine ⟨?_, ?_⟩
      · have := h.1
        simp only [MAbs.abs, MAbs.effects, List.length_map]
        exact this
      · rw [show Ev.deleteLast = MEv.deleteLast.eff from rfl, abs_step]; exact ih _ h.2

theorem allAdds_eff {evs : List MEv} (h : MAllAdds MInput.wf evs) : AllAdds VInput.wf (evs.map MEv.eff) := by
  intro inp hm
  obtain ⟨e, he, h2⟩ := List.mem_map.1 hm
  cases e with
  | add i => cases h2; exact effO_wf (fun j e => h j (by rw [← e]; exact he))
  | prune => cases h2
  | deleteLast => cases h2

theorem allAdds_disjoint (evs : List MEv) : AllAdds VInput.disjoint (evs.map MEv.eff) := by
  intro inp hm
  obtain ⟨e, he, h2⟩ := List.mem_map.1 hm
  cases e with
  | add i => cases h2; exact effO_disjoint i
  | prune => cases h2
  | deleteLast => cases h2

theorem eff_op (inp : MInput) (k : Key) : opOf inp.eff k =
    if k ∈ inp.deletes then some .del else (inp.kv.lookup k).map (fun v => .put v false) := by
  rw [opOf, eff_lookup]
  by_cases hd : k ∈ inp.deletes
  · simp only [hd, if_true, MInput.eff]
  · simp only [hd, if_false, MInput.eff]
    cases inp.kv.lookup k <;> rfl

/-- every run of the category is, key by key, a run of the versioned category with the blocks' effects -/
theorem merkle_sim {H : MHash} {U : Key → Prop} (hU : InjOn H U) {evs : List MEv} (hw : MAllAdds MInput.wf evs)
    (hin : MAllAdds (MInput.within U) evs) {m : MChain} (h : MChain.empty.run H evs = some m) :
    ∃ c, VChain.empty.run (evs.map MEv.eff) = some c ∧ Sim H U m c :=
  sim_run hU inv_empty (fun inp h => by cases h) (sim_empty H U) hw hin h

theorem get_proj {H : MHash} {s : MState} {c : VState} {k : Key} (h : proj H s k = c k) (b : Nat) :
    s.get H k b = get c k b := by
  simp only [MState.get, get, ← h, proj]
  cases s.values (H.h k) b <;> rfl

theorem getLatest_proj {H : MHash} {s : MState} {c : VState} {k : Key} (h : proj H s k = c k) :
    s.getLatest H k = getLatest c k := by
  have hl : s.latest k = (c k).latest := by rw [← h]; rfl
  simp only [MState.getLatest, getLatest, getLatestVersion, hl]
  cases (c k).latest.map Tagged.decode with
  | none => rfl
  | some t =>
    simp only [get_proj h]
    cases t.deleted <;> rfl

/-- **C23** A read at a block that is not pruned returns exactly what that block put. -/
theorem merkle_get_exact {H : MHash} {U : Key → Prop} (hU : InjOn H U) {evs : List MEv} (hw : MAllAdds MInput.wf evs)
    (hin : MAllAdds (MInput.within U) evs) {m : MChain} (h : MChain.empty.run H evs = some m) {k : Key} (hk : U k)
    {b : Nat} (hb : (MAbs.empty.run evs).genesis ≤ b) :
    m.st.get H k b = specAt (MAbs.empty.run evs).effects k b := by
  obtain ⟨c, hc, hs⟩ := merkle_sim hU hw hin h
  rw [get_proj (hs.keys k hk), get_exact (allAdds_eff hw) hc k (by
    rw [show Abs.empty = MAbs.empty.abs from rfl, abs_run]; exact hb)]
  rw [show Abs.empty = MAbs.empty.abs from rfl, abs_run]; rfl

/-- **C23** A read at a pruned block returns nothing or what that block put. -/
theorem merkle_get_pruned {H : MHash} {U : Key → Prop} (hU : InjOn H U) {evs : List MEv} (hw : MAllAdds MInput.wf evs)
    (hin : MAllAdds (MInput.within U) evs) {m : MChain} (h : MChain.empty.run H evs = some m) {k : Key} (hk : U k) (b : Nat) :
    m.st.get H k b = none ∨ m.st.get H k b = specAt (MAbs.empty.run evs).effects k b := by
  obtain ⟨c, hc, hs⟩ := merkle_sim hU hw hin h
  have := get_pruned (allAdds_eff hw) hc k b
  rw [show Abs.empty = MAbs.empty.abs from rfl, abs_run] at this
  rw [get_proj (hs.keys k hk)]
  exact this

/-- **C23** A latest read never returns anything but the value of the newest block that touches the key. -/
theorem merkle_latest_never_wrong {H : MHash} {U : Key → Prop} (hU : InjOn H U) {evs : List MEv}
    (hw : MAllAdds MInput.wf evs) (hin : MAllAdds (MInput.within U) evs) {m : MChain}
    (h : MChain.empty.run H evs = some m) {k : Key} (hk : U k) {b : Nat} {d : Bytes}
    (hr : m.st.getLatest H k = some (b, d)) :
    ∃ st, newest (MAbs.empty.run evs).effects k (MAbs.empty.run evs).hist.length = some (b, .put d st) := by
  obtain ⟨c, hc, hs⟩ := merkle_sim hU hw hin h
  rw [getLatest_proj (hs.keys k hk)] at hr
  have := latest_never_wrong (allAdds_eff hw) hc k hr
  rw [show Abs.empty = MAbs.empty.abs from rfl, abs_run] at this
  simp only [MAbs.abs, MAbs.effects, List.length_map] at this
  exact this

/-- **C23/C24** In histories that only undo blocks added after the last pruning, a latest read returns exactly the
value of the newest block that touches the key, and nothing if that block deleted it: pruning is invisible. -/
theorem merkle_latest_exact {H : MHash} {U : Key → Prop} (hU : InjOn H U) {evs : List MEv}
    (hw : MAllAdds MInput.wf evs) (hin : MAllAdds (MInput.within U) evs) (hu : MUndoSafe MAbs.empty evs) {m : MChain}
    (h : MChain.empty.run H evs = some m) {k : Key} (hk : U k) :
    m.st.getLatest H k = specLatest (MAbs.empty.run evs).effects 0 k := by
  obtain ⟨c, hc, hs⟩ := merkle_sim hU hw hin h
  rw [getLatest_proj (hs.keys k hk), latest_exact (allAdds_eff hw) (allAdds_disjoint evs)
    (undoSafe_abs evs MAbs.empty hu) hc k]
  rw [show Abs.empty = MAbs.empty.abs from rfl, abs_run]
  simp only [MAbs.abs, specLatest]
  have hst : ∀ b d st, newest (MAbs.empty.run evs).effects k (MAbs.empty.run evs).effects.length =
      some (b, Op.put d st) → st = false := by
    intro b d st hn
    obtain ⟨h3, _, _⟩ := newest_some hn
    simp only [opAt] at h3
    split at h3
    · cases h3
    · cases hx : (MAbs.empty.run evs).effects[b - 1]? with
      | none => rw [hx] at h3; cases h3
      | some inp =>
        rw [hx] at h3
        simp only [Option.bind_some] at h3
        have hm := List.mem_of_getElem? hx
        obtain ⟨i, _, e⟩ := List.mem_map.1 hm
        subst e
        cases i with
        | none => cases h3
        | some i =>
          rw [show effO (some i) = i.eff from rfl, eff_op] at h3
          split at h3
          · cases h3
          · cases hl : i.kv.lookup k with
            | none => rw [hl] at h3; cases h3
            | some v => rw [hl] at h3; cases h3; rfl
  cases hn : newest (MAbs.empty.run evs).effects k (MAbs.empty.run evs).effects.length with
  | none => rfl
  | some x =>
    obtain ⟨b, op⟩ := x
    cases op with
    | del => rfl
    | put d st => rw [hst b d st hn]; simp

theorem step_append {H : MHash} : ∀ {evs : List MEv} {m c m' : MChain} {e : MEv}, m.run H evs = some c →
    c.step H e = some m' → m.run H (evs ++ [e]) = some m' := by
  intro evs
  induction evs with
  | nil => intro m c m' e h1 h2; cases h1; simp only [List.nil_append, MChain.run, h2]
  | cons x xs ih =>
    intro m c m' e h1 h2
    simp only [MChain.run] at h1
    split at h1
    · cases h1
    · rename_i m1 hm1
      simp only [List.cons_append, MChain.run, hm1]
      exact ih h1 h2

theorem run_append {H : MHash} : ∀ {evs : List MEv} {m c : MChain} {es : List MEv}, m.run H evs = some c →
    m.run H (evs ++ es) = c.run H es := by
  intro evs
  induction evs with
  | nil => intro m c es h1; cases h1; rfl
  | cons x xs ih =>
    intro m c es h1
    simp only [MChain.run] at h1
    split at h1
    · cases h1
    · rename_i m1 hm1
      simp only [List.cons_append, MChain.run, hm1]
      exact ih h1

/-- **C24** Pruning the genesis block changes no latest read of this category, for every history. -/
theorem merkle_prune_preserves_latest {H : MHash} {U : Key → Prop} (hU : InjOn H U) {evs : List MEv}
    (hw : MAllAdds MInput.wf evs) (hin : MAllAdds (MInput.within U) evs) {m m' : MChain}
    (h : MChain.empty.run H evs = some m) (hp : m.prune H = some m') {k : Key} (hk : U k) :
    m'.st.getLatest H k = m.st.getLatest H k := by
  obtain ⟨c, hc, hs⟩ := merkle_sim hU hw hin h
  have hi := inv_run inv_empty (allAdds_eff hw) hc
  obtain ⟨c', hc', hs'⟩ := sim_prune hU hi (by
    rw [show Abs.empty = MAbs.empty.abs from rfl]
    exact hist_eff evs MAbs.empty.abs (fun inp h => by cases h)) hs hp
  rw [getLatest_proj (hs.keys k hk), getLatest_proj (hs'.keys k hk)]
  rcases prune_preserves_latest (allAdds_eff hw) hc hc' k with h1 | ⟨h1, op, h2, h3⟩
  · exact h1
  · rw [h1]
    cases hr : getLatest c.st k with
    | none => rfl
    | some x =>
      exfalso
      obtain ⟨b, d⟩ := x
      obtain ⟨st, hn⟩ := latest_never_wrong (allAdds_eff hw) hc k hr
      rw [h2] at hn
      simp only [Option.some.injEq, Prod.mk.injEq] at hn
      obtain ⟨e1, e2⟩ := hn
      obtain ⟨h4, _, _⟩ := newest_some h2
      have hist : ∀ inp ∈ (Abs.empty.run (evs.map MEv.eff)).hist, ∃ i, inp = effO i :=
        hist_eff evs Abs.empty (fun inp h => by cases h)
      simp only [opAt] at h4
      split at h4
      · cases h4
      · cases hx : (Abs.empty.run (evs.map MEv.eff)).hist[c.genesis - 1]? with
        | none => rw [hx] at h4; cases h4
        | some inp =>
          rw [hx] at h4
          simp only [Option.bind_some] at h4
          obtain ⟨i, hi2⟩ := hist inp (List.mem_of_getElem? hx)
          subst hi2
          cases i with
          | none => cases h4
          | some i =>
            rw [show effO (some i) = i.eff from rfl, eff_op] at h4
            split at h4
            · cases h4; cases e2
            · rename_i hd
              cases hl : i.kv.lookup k with
              | none => rw [hl] at h4; cases h4
              | some v =>
                rw [hl] at h4
                simp only [Option.map_some, Option.some.injEq] at h4
                rcases h3 with h3 | ⟨d', h3⟩ | ⟨inp', h3, h5⟩
                · rw [← h4] at h3; cases h3
                · rw [← h4] at h3; cases h3
                · rw [hx] at h3
                  cases h3
                  exact hd h5

/-- **C24** Pruning changes no read at a block that remains. -/
theorem merkle_prune_preserves_get {H : MHash} {U : Key → Prop} (hU : InjOn H U) {evs : List MEv}
    (hw : MAllAdds MInput.wf evs) (hin : MAllAdds (MInput.within U) evs) {m m' : MChain}
    (h : MChain.empty.run H evs = some m) (hp : m.prune H = some m') {k : Key} (hk : U k) {b : Nat}
    (hb : m'.genesis ≤ b) : m'.st.get H k b = m.st.get H k b := by
  obtain ⟨c, hc, hs⟩ := merkle_sim hU hw hin h
  have hi := inv_run inv_empty (allAdds_eff hw) hc
  obtain ⟨c', hc', hs'⟩ := sim_prune hU hi (hist_eff evs Abs.empty (fun inp h => by cases h)) hs hp
  rw [get_proj (hs.keys k hk), get_proj (hs'.keys k hk)]
  exact prune_preserves_get (allAdds_eff hw) hc hc' k (by rw [← hs'.genesis]; exact hb)

end Verif.Kvbc
