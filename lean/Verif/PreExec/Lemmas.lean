import Verif.PreExec.Model
import Verif.Kvbc.VersionedLemmas
set_option linter.unusedVariables false
set_option linter.unusedSimpArgs false
/-!
# Votes: lemmas about the map of signatures (C19)
-/
namespace Verif.PreExec
open Verif.Bytes Verif.Kvbc

def Asc (l : List Sig) : Prop := l.Pairwise (fun a b => a.sender < b.sender)

theorem Asc.nodup {l : List Sig} (h : Asc l) : (l.map (·.sender)).Nodup := by
  rw [List.nodup_iff_pairwise_ne, List.pairwise_map]
  exact List.Pairwise.imp (fun h => Nat.ne_of_lt h) h

theorem insertSig_mem {x : Sig} : ∀ {l l' : List Sig}, insertSig x l = some l' →
    ∀ y, y ∈ l' ↔ y = x ∨ y ∈ l
  | [], l', h, y => by cases h; simp
  | z :: zs, l', h, y => by
    rw [insertSig] at h
    split at h
    · cases h; simp
    · split at h
      · cases h
      · rw [Option.map_eq_some_iff] at h
        obtain ⟨l1, h1, rfl⟩ := h
        rw [List.mem_cons, insertSig_mem h1 y, List.mem_cons]
        constructor
        · rintro (a | a | a)
          · exact Or.inr (Or.inl a)
          · exact Or.inl a
          · exact Or.inr (Or.inr a)
        · rintro (a | a | a)
          · exact Or.inr (Or.inl a)
          · exact Or.inl a
          · exact Or.inr (Or.inr a)

theorem insertSig_length {x : Sig} : ∀ {l l' : List Sig}, insertSig x l = some l' → l'.length = l.length + 1
  | [], l', h => by cases h; rfl
  | z :: zs, l', h => by
    rw [insertSig] at h
    split at h
    · cases h; rfl
    · split at h
      · cases h
      · rw [Option.map_eq_some_iff] at h
        obtain ⟨l1, h1, rfl⟩ := h
        rw [List.length_cons, insertSig_length h1, List.length_cons]

theorem insertSig_asc {x : Sig} : ∀ {l l' : List Sig}, Asc l → insertSig x l = some l' → Asc l'
  | [], l', _, h => by cases h; exact List.pairwise_singleton _ _
  | z :: zs, l', ha, h => by
    have ha' := List.pairwise_cons.1 ha
    rw [insertSig] at h
    split at h
    · rename_i hlt
      cases h
      refine List.pairwise_cons.2 ⟨?_, ha⟩
      intro y hy
      rcases List.mem_cons.1 hy with rfl | hy
      · exact hlt
      · exact Nat.lt_trans hlt (ha'.1 y hy)
    · split at h
      · cases h
      · rename_i h1 h2
        rw [Option.map_eq_some_iff] at h
        obtain ⟨l1, h3, rfl⟩ := h
        refine List.pairwise_cons.2 ⟨?_, insertSig_asc ha'.2 h3⟩
        intro y hy
        rcases (insertSig_mem h3 y).1 hy with rfl | hy
        · omega
        · exact ha'.1 y hy

theorem insertSig_none {x : Sig} : ∀ {l : List Sig}, insertSig x l = none → ∃ y ∈ l, y.sender = x.sender
  | [], h => by cases h
  | z :: zs, h => by
    rw [insertSig] at h
    split at h
    · cases h
    · split at h
      · rename_i e; exact ⟨z, List.mem_cons_self, e.symm⟩
      · rw [Option.map_eq_none_iff] at h
        obtain ⟨y, h1, h2⟩ := insertSig_none h
        exact ⟨y, List.mem_cons_of_mem _ h1, h2⟩

theorem insertSig_fresh {x : Sig} : ∀ {l l' : List Sig}, Asc l → insertSig x l = some l' → ∀ y ∈ l, y.sender ≠ x.sender
  | [], l', _, h, y, hy => by cases hy
  | z :: zs, l', ha, h, y, hy => by
    have ha' := List.pairwise_cons.1 ha
    rw [insertSig] at h
    split at h
    · rename_i hlt
      rcases List.mem_cons.1 hy with rfl | hy
      · omega
      · have := ha'.1 y hy; omega
    · split at h
      · cases h
      · rename_i h1 h2
        rw [Option.map_eq_some_iff] at h
        obtain ⟨l1, h3, rfl⟩ := h
        rcases List.mem_cons.1 hy with rfl | hy
        · exact fun e => h2 e.symm
        · exact insertSig_fresh ha'.2 h3 y hy

/-- signatures collected for a hash -/
def votesFor (v : Votes) (h : Bytes) : List Sig := (v.lookup h).getD []

theorem addVote_keys (h : Bytes) (x : Sig) : ∀ (v : Votes), ∀ y ∈ (addVote h x v).1, y.1 = h ∨ ∃ z ∈ v, z.1 = y.1
  | [], y, hy => by
    rw [addVote, List.mem_singleton] at hy
    rw [hy]; exact Or.inl rfl
  | z :: zs, y, hy => by
    rw [addVote] at hy
    split at hy
    · rename_i e
      split at hy
      · rcases List.mem_cons.1 hy with hy | hy
        · rw [hy]; exact Or.inl rfl
        · exact Or.inr ⟨y, List.mem_cons_of_mem _ hy, rfl⟩
      · exact Or.inr ⟨y, hy, rfl⟩
    · split at hy
      · rcases List.mem_cons.1 hy with hy | hy
        · rw [hy]; exact Or.inl rfl
        · exact Or.inr ⟨y, hy, rfl⟩
      · rcases List.mem_cons.1 hy with hy | hy
        · rw [hy]; exact Or.inr ⟨z, List.mem_cons_self, rfl⟩
        · rcases addVote_keys h x zs y hy with e | ⟨w, h1, h2⟩
          · exact Or.inl e
          · exact Or.inr ⟨w, List.mem_cons_of_mem _ h1, h2⟩

theorem addVote_sorted (h : Bytes) (x : Sig) : ∀ (v : Votes), Sorted v → Sorted (addVote h x v).1
  | [], _ => List.pairwise_singleton _ _
  | z :: zs, hs => by
    have hs' := List.pairwise_cons.1 hs
    rw [addVote]
    split
    · rename_i e
      split
      · refine List.pairwise_cons.2 ⟨?_, hs'.2⟩
        rw [e]; exact hs'.1
      · exact hs
    · split
      · rename_i hlt
        refine List.pairwise_cons.2 ⟨?_, hs⟩
        intro y hy
        rcases List.mem_cons.1 hy with rfl | hy
        · exact hlt
        · exact keyLt_trans _ _ _ hlt (hs'.1 y hy)
      · rename_i h1 h2
        refine List.pairwise_cons.2 ⟨?_, addVote_sorted h x zs hs'.2⟩
        intro y hy
        rcases addVote_keys h x zs y hy with e | ⟨w, h3, h4⟩
        · rw [e]; exact keyLt_total _ _ h1 (by simpa using h2)
        · rw [← h4]; exact hs'.1 w h3

theorem not_mem_of_lt {h : Bytes} {v : Votes} {z : Bytes × List Sig} (hs : Sorted (z :: v)) (hlt : keyLt h z.1 = true) :
    (z :: v).lookup h = none := by
  apply lookup_none_of_not_mem
  intro hm
  rw [List.mem_map] at hm
  obtain ⟨y, h1, h2⟩ := hm
  rcases List.mem_cons.1 h1 with rfl | h1
  · rw [h2, keyLt_irrefl] at hlt; cases hlt
  · have := keyLt_trans _ _ _ hlt ((List.pairwise_cons.1 hs).1 y h1)
    rw [h2, keyLt_irrefl] at this; cases this

theorem lookup_cons_eq {h : Bytes} {z : Bytes × List Sig} {zs : Votes} :
    (z :: zs).lookup h = if h = z.1 then some z.2 else zs.lookup h := by
  obtain ⟨a, b⟩ := z
  rw [List.lookup_cons]
  by_cases e : h = a
  · rw [if_pos e, e]; simp
  · have : (h == a) = false := by simpa using e
    rw [this, if_neg e]

theorem addVote_lookup (h : Bytes) (x : Sig) (h' : Bytes) : ∀ (v : Votes), Sorted v →
    (addVote h x v).1.lookup h' = if h' = h then some ((insertSig x (votesFor v h)).getD (votesFor v h)) else v.lookup h'
  | [], _ => by
    rw [addVote, lookup_cons_eq]
    rfl
  | z :: zs, hs => by
    have hs' := List.pairwise_cons.1 hs
    rw [addVote]
    by_cases e : h = z.1
    · rw [if_pos e]
      have hv : votesFor (z :: zs) h = z.2 := by rw [votesFor, lookup_cons_eq, if_pos e]; rfl
      rw [hv]
      cases hi : insertSig x z.2 with
      | some l =>
        simp only
        rw [lookup_cons_eq, lookup_cons_eq]
        by_cases e' : h' = h
        · rw [if_pos e', if_pos e']; rfl
        · rw [if_neg e', if_neg e', if_neg (by rw [← e]; exact e')]
      | none =>
        simp only
        rw [lookup_cons_eq]
        by_cases e' : h' = h
        · rw [if_pos e', if_pos (by rw [e', e])]; rfl
        · rw [if_neg e']
    · rw [if_neg e]
      by_cases hlt : keyLt h z.1 = true
      · rw [if_pos hlt]
        have hv : votesFor (z :: zs) h = [] := by rw [votesFor, not_mem_of_lt hs hlt]; rfl
        rw [hv, lookup_cons_eq]
        rfl
      · rw [if_neg hlt]
        show List.lookup h' (z :: (addVote h x zs).1) = _
        have hv : votesFor (z :: zs) h = votesFor zs h := by rw [votesFor, lookup_cons_eq, if_neg e]; rfl
        rw [hv, lookup_cons_eq, addVote_lookup h x h' zs hs'.2, lookup_cons_eq]
        by_cases e' : h' = z.1
        · rw [if_pos e', if_pos e', if_neg (by rw [e']; exact fun k => e k.symm)]
        · rw [if_neg e', if_neg e']

theorem addVote_flag (h : Bytes) (x : Sig) : ∀ (v : Votes), Sorted v →
    (addVote h x v).2 = (insertSig x (votesFor v h)).isSome
  | [], _ => rfl
  | z :: zs, hs => by
    have hs' := List.pairwise_cons.1 hs
    rw [addVote]
    by_cases e : h = z.1
    · rw [if_pos e]
      have hv : votesFor (z :: zs) h = z.2 := by rw [votesFor, lookup_cons_eq, if_pos e]; rfl
      rw [hv]
      cases hi : insertSig x z.2 <;> rfl
    · rw [if_neg e]
      by_cases hlt : keyLt h z.1 = true
      · rw [if_pos hlt]
        have hv : votesFor (z :: zs) h = [] := by rw [votesFor, not_mem_of_lt hs hlt]; rfl
        rw [hv]; rfl
      · rw [if_neg hlt]
        have hv : votesFor (z :: zs) h = votesFor zs h := by rw [votesFor, lookup_cons_eq, if_neg e]; rfl
        rw [hv]
        exact addVote_flag h x zs hs'.2

/-- number of signatures -/
def total : Votes → Nat
  | [] => 0
  | z :: zs => z.2.length + total zs

theorem addVote_total (h : Bytes) (x : Sig) : ∀ (v : Votes),
    total (addVote h x v).1 = if (addVote h x v).2 then total v + 1 else total v
  | [] => rfl
  | z :: zs => by
    rw [addVote]
    by_cases e : h = z.1
    · rw [if_pos e]
      cases hi : insertSig x z.2 with
      | some l =>
        simp only [total, if_true]
        rw [insertSig_length hi]; omega
      | none => simp
    · rw [if_neg e]
      by_cases hlt : keyLt h z.1 = true
      · rw [if_pos hlt]
        simp [total]; omega
      · rw [if_neg hlt]
        simp only [total]
        rw [addVote_total h x zs]
        split <;> omega

/-- the map is well formed -/
structure VWf (v : Votes) : Prop where
  sorted : Sorted v
  ne : ∀ y ∈ v, y.2 ≠ []
  asc : ∀ y ∈ v, Asc y.2

theorem VWf.lookup {v : Votes} (hv : VWf v) {y : Bytes × List Sig} (hy : y ∈ v) : v.lookup y.1 = some y.2 :=
  lookup_of_mem_nodup (sorted_nodup hv.sorted) hy

theorem addVote_wf {h : Bytes} {x : Sig} {v : Votes} (hv : VWf v) : VWf (addVote h x v).1 := by
  have hs := addVote_sorted h x v hv.sorted
  have key : ∀ y ∈ (addVote h x v).1, y.2 ≠ [] ∧ Asc y.2 := by
    intro y hy
    have hl := lookup_of_mem_nodup (sorted_nodup hs) hy
    rw [addVote_lookup h x y.1 v hv.sorted] at hl
    by_cases e : y.1 = h
    · rw [if_pos e] at hl
      have hl := Option.some.inj hl
      have hf : Asc (votesFor v h) ∧ (v.lookup h = none → votesFor v h = []) ∧ (v.lookup h ≠ none → votesFor v h ≠ []) := by
        rw [votesFor]
        cases hk : v.lookup h with
        | none => exact ⟨List.Pairwise.nil, fun _ => rfl, fun k => absurd rfl k⟩
        | some l =>
          have hm := mem_of_lookup hk
          exact ⟨hv.asc _ hm, fun k => (by cases k), fun _ => hv.ne _ hm⟩
      cases hi : insertSig x (votesFor v h) with
      | some l =>
        rw [hi] at hl
        have hl : l = y.2 := hl
        rw [← hl]
        refine ⟨fun k => ?_, insertSig_asc hf.1 hi⟩
        have := insertSig_length hi
        rw [k] at this; cases this
      | none =>
        rw [hi] at hl
        have hl : votesFor v h = y.2 := hl
        rw [← hl]
        refine ⟨fun k => ?_, hf.1⟩
        rw [k] at hi; cases hi
    · rw [if_neg e] at hl
      have hm := mem_of_lookup hl
      exact ⟨hv.ne _ hm, hv.asc _ hm⟩
  exact ⟨hs, fun y hy => (key y hy).1, fun y hy => (key y hy).2⟩

theorem addVote_votesFor {h : Bytes} {x : Sig} {v : Votes} (hv : VWf v) (h' : Bytes) :
    votesFor (addVote h x v).1 h' =
      if h' = h then (insertSig x (votesFor v h)).getD (votesFor v h) else votesFor v h' := by
  rw [votesFor, addVote_lookup h x h' v hv.sorted]
  split
  · rfl
  · rfl

theorem votesFor_asc {v : Votes} (hv : VWf v) (h : Bytes) : Asc (votesFor v h) := by
  rw [votesFor]
  cases hk : v.lookup h with
  | none => exact List.Pairwise.nil
  | some l => exact hv.asc _ (mem_of_lookup hk)

theorem votesFor_mem {v : Votes} (hv : VWf v) {y : Bytes × List Sig} (hy : y ∈ v) : votesFor v y.1 = y.2 := by
  rw [votesFor, hv.lookup hy]; rfl

/-- `best` finds a hash with the most signatures -/
theorem best_spec : ∀ (v : Votes) (b : Option (Bytes × List Sig)),
    (∀ y, best v b = some y → (y ∈ v ∨ b = some y)) ∧
    (∀ y, b = some y → ∃ z, best v b = some z ∧ y.2.length ≤ z.2.length) ∧
    (∀ y ∈ v, y.2 ≠ [] → ∃ z, best v b = some z ∧ y.2.length ≤ z.2.length)
  | [], b => ⟨fun y h => Or.inr h, fun y h => ⟨y, h, Nat.le_refl _⟩, fun y h => (by cases h)⟩
  | w :: ws, none => by
    rw [best]
    by_cases hw : 0 < w.2.length
    · rw [if_pos hw]
      obtain ⟨i1, i2, i3⟩ := best_spec ws (some w)
      refine ⟨fun y h => ?_, fun y h => (by cases h), fun y h hn => ?_⟩
      · rcases i1 y h with h | h
        · exact Or.inl (List.mem_cons_of_mem _ h)
        · cases h; exact Or.inl List.mem_cons_self
      · rcases List.mem_cons.1 h with rfl | h
        · exact i2 _ rfl
        · exact i3 y h hn
    · rw [if_neg hw]
      obtain ⟨i1, i2, i3⟩ := best_spec ws none
      refine ⟨fun y h => ?_, fun y h => (by cases h), fun y h hn => ?_⟩
      · rcases i1 y h with h | h
        · exact Or.inl (List.mem_cons_of_mem _ h)
        · cases h
      · rcases List.mem_cons.1 h with rfl | h
        · exact absurd (List.length_eq_zero_iff.1 (by omega)) hn
        · exact i3 y h hn
  | w :: ws, some b => by
    rw [best]
    by_cases hw : b.2.length < w.2.length
    · rw [if_pos hw]
      obtain ⟨i1, i2, i3⟩ := best_spec ws (some w)
      refine ⟨fun y h => ?_, fun y h => ?_, fun y h hn => ?_⟩
      · rcases i1 y h with h | h
        · exact Or.inl (List.mem_cons_of_mem _ h)
        · cases h; exact Or.inl List.mem_cons_self
      · cases h
        obtain ⟨z, z1, z2⟩ := i2 w rfl
        exact ⟨z, z1, by omega⟩
      · rcases List.mem_cons.1 h with rfl | h
        · exact i2 _ rfl
        · exact i3 y h hn
    · rw [if_neg hw]
      obtain ⟨i1, i2, i3⟩ := best_spec ws (some b)
      refine ⟨fun y h => ?_, fun y h => ?_, fun y h hn => ?_⟩
      · rcases i1 y h with h | h
        · exact Or.inl (List.mem_cons_of_mem _ h)
        · exact Or.inr h
      · exact i2 y h
      · rcases List.mem_cons.1 h with rfl | h
        · obtain ⟨z, z1, z2⟩ := i2 b rfl
          exact ⟨z, z1, by omega⟩
        · exact i3 y h hn

end Verif.PreExec
