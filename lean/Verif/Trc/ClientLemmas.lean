import Verif.Trc.Client
set_option linter.unusedVariables false
set_option linter.unusedSimpArgs false
/-!
# Thin replica client: what one iteration collects (C33)
-/
namespace Verif.Trc
open Verif.Bytes

/-! ## The map of records -/

theorem addRec_mem {i : Nat} {r : Rec} : ∀ {l : List (Rec × List Nat)}, (l.map (·.1)).Nodup → ∀ {r' : Rec} {s' : List Nat},
    (r', s') ∈ addRec i r l → (r' ≠ r ∧ (r', s') ∈ l) ∨
      (r' = r ∧ ((∃ s, (r, s) ∈ l ∧ s' = if i ∈ s then s else i :: s) ∨ s' = [i]))
  | [], _, r', s', h => by
    rw [addRec, List.mem_singleton] at h
    cases h
    exact Or.inr ⟨rfl, Or.inr rfl⟩
  | (a, b) :: l, hn, r', s', h => by
    rw [List.map_cons, List.nodup_cons] at hn
    rw [addRec] at h
    by_cases e : a = r
    · rw [if_pos e] at h
      rcases List.mem_cons.1 h with h | h
      · cases h
        exact Or.inr ⟨e, Or.inl ⟨b, by rw [← e]; exact List.mem_cons_self, rfl⟩⟩
      · refine Or.inl ⟨?_, List.mem_cons_of_mem _ h⟩
        intro e'
        exact hn.1 (List.mem_map.2 ⟨_, h, by rw [e', e]⟩)
    · rw [if_neg e] at h
      rcases List.mem_cons.1 h with h | h
      · cases h
        exact Or.inl ⟨e, List.mem_cons_self⟩
      · rcases addRec_mem hn.2 h with ⟨h1, h2⟩ | ⟨h1, ⟨s, h2, h3⟩ | h2⟩
        · exact Or.inl ⟨h1, List.mem_cons_of_mem _ h2⟩
        · exact Or.inr ⟨h1, Or.inl ⟨s, List.mem_cons_of_mem _ h2, h3⟩⟩
        · exact Or.inr ⟨h1, Or.inr h2⟩

theorem addRec_keys {i : Nat} {r : Rec} : ∀ (l : List (Rec × List Nat)), ∀ x, x ∈ (addRec i r l).map (·.1) ↔ x = r ∨ x ∈ l.map (·.1)
  | [], x => by simp [addRec]
  | (a, b) :: l, x => by
    rw [addRec]
    by_cases e : a = r
    · rw [if_pos e]
      simp only [List.map_cons, List.mem_cons]
      constructor
      · rintro (h | h)
        · exact Or.inr (Or.inl h)
        · exact Or.inr (Or.inr h)
      · rintro (h | h | h)
        · exact Or.inl (by rw [h, e])
        · exact Or.inl h
        · exact Or.inr h
    · rw [if_neg e]
      simp only [List.map_cons, List.mem_cons, addRec_keys l x]
      constructor
      · rintro (h | h | h)
        · exact Or.inr (Or.inl h)
        · exact Or.inl h
        · exact Or.inr (Or.inr h)
      · rintro (h | h | h)
        · exact Or.inr (Or.inl h)
        · exact Or.inl h
        · exact Or.inr (Or.inr h)

theorem addRec_nodup {i : Nat} {r : Rec} : ∀ {l : List (Rec × List Nat)}, (l.map (·.1)).Nodup → ((addRec i r l).map (·.1)).Nodup
  | [], _ => by simp [addRec]
  | (a, b) :: l, hn => by
    have hn' := hn
    rw [List.map_cons, List.nodup_cons] at hn'
    rw [addRec]
    by_cases e : a = r
    · rw [if_pos e]; exact hn
    · rw [if_neg e, List.map_cons, List.nodup_cons]
      refine ⟨?_, addRec_nodup hn'.2⟩
      rw [addRec_keys]
      rintro (h | h)
      · exact e h
      · exact hn'.1 h

theorem members_of_mem {r : Rec} {s : List Nat} : ∀ {l : List (Rec × List Nat)}, (l.map (·.1)).Nodup → (r, s) ∈ l → members l r = s
  | [], _, h => by cases h
  | (a, b) :: l, hn, h => by
    rw [List.map_cons, List.nodup_cons] at hn
    rw [members, List.lookup_cons]
    rcases List.mem_cons.1 h with h | h
    · cases h
      rw [beq_self_eq_true]
      rfl
    · have : r ≠ a := fun e => hn.1 (List.mem_map.2 ⟨_, h, e⟩)
      rw [beq_eq_false_iff_ne.2 this]
      exact members_of_mem hn.2 h

theorem exists_addRec (i : Nat) (r : Rec) (l : List (Rec × List Nat)) : ∃ s, (r, s) ∈ addRec i r l := by
  have : r ∈ (addRec i r l).map (·.1) := (addRec_keys l r).2 (Or.inl rfl)
  obtain ⟨⟨a, s⟩, h1, h2⟩ := List.mem_map.1 this
  cases h2
  exact ⟨s, h1⟩

/-- all sets stay, or grow -/
theorem addRec_old {i : Nat} {r : Rec} : ∀ {l : List (Rec × List Nat)}, ∀ {r' : Rec} {s : List Nat}, (r', s) ∈ l →
    ∃ s', (r', s') ∈ addRec i r l ∧ ∀ j ∈ s, j ∈ s'
  | [], _, _, h => by cases h
  | (a, b) :: l, r', s, h => by
    rw [addRec]
    by_cases e : a = r
    · rw [if_pos e]
      rcases List.mem_cons.1 h with h | h
      · cases h
        refine ⟨_, List.mem_cons_self, ?_⟩
        intro j hj
        by_cases hi : i ∈ b
        · rw [if_pos hi]; exact hj
        · rw [if_neg hi]; exact List.mem_cons_of_mem _ hj
      · exact ⟨s, List.mem_cons_of_mem _ h, fun j hj => hj⟩
    · rw [if_neg e]
      rcases List.mem_cons.1 h with h | h
      · cases h
        exact ⟨_, List.mem_cons_self, fun j hj => hj⟩
      · obtain ⟨s', h1, h2⟩ := addRec_old (i := i) (r := r) h
        exact ⟨s', List.mem_cons_of_mem _ h1, h2⟩

theorem mem_addRec_self {i : Nat} {r : Rec} : ∀ {l : List (Rec × List Nat)}, (l.map (·.1)).Nodup → ∀ {s : List Nat}, (r, s) ∈ addRec i r l → i ∈ s := by
  intro l hn s h
  rcases addRec_mem hn h with ⟨h1, _⟩ | ⟨_, ⟨s0, h1, h2⟩ | h1⟩
  · exact absurd rfl h1
  · rw [h2]
    by_cases hi : i ∈ s0
    · rw [if_pos hi]; exact hi
    · rw [if_neg hi]; exact List.mem_cons_self
  · rw [h1]; exact List.mem_cons_self

/-! ## Invariant of the collection -/

/-- the record of an update -/
def RecOf (h : Bytes → Bytes) (u : Upd) (r : Rec) : Prop := ∃ d, hashUpd h u = .ok d ∧ r = ⟨u.isEg, u.id, d⟩

structure CInv (W : World) (h : Bytes → Bytes) (hon : Nat → Bool) (cfg : Cfg) (c0 : Cl) (upd : Option Upd) (todo : List Nat) (col : Col) : Prop where
  same : col.cl = { c0 with srv := col.cl.srv }
  todoHash : ∀ i ∈ todo, (col.cl.srv i).hash = (c0.srv i).hash
  dataHash : (col.cl.srv c0.dataConn).hash = none
  keys : (col.recs.map (·.1)).Nodup
  nodup : ∀ r s, (r, s) ∈ col.recs → s.Nodup
  range : ∀ r s, (r, s) ∈ col.recs → ∀ i ∈ s, i < cfg.n
  tried : ∀ r s, (r, s) ∈ col.recs → ∀ i ∈ s, i ∈ todo → i = c0.dataConn
  uniq : ∀ r s r' s', (r, s) ∈ col.recs → (r', s') ∈ col.recs → ∀ i, i ∈ s → i ∈ s' → r = r'
  honest : ∀ r s, (r, s) ∈ col.recs → ∀ i ∈ s, hon i = true → ∃ u, Gives W c0.expect u ∧ RecOf h u r
  pos : ∀ r s, (r, s) ∈ col.recs → ∀ i ∈ s, ∀ p, (col.cl.srv i).hash = some p → p = r.next
  data : ∀ r s, (r, s) ∈ col.recs → c0.dataConn ∈ s → ∃ u, upd = some u ∧ RecOf h u r ∧ (col.cl.srv c0.dataConn).data = some u.next
  best : 0 < col.most → ∃ s, (col.best, s) ∈ col.recs ∧ s.length = col.most
  max : ∀ r s, (r, s) ∈ col.recs → s.length ≤ col.most

theorem record_recs (col : Col) (i : Nat) (r : Rec) : (col.record i r).recs = addRec i r col.recs := by
  rw [Col.record]
  split <;> rfl

theorem record_cl (col : Col) (i : Nat) (r : Rec) : (col.record i r).cl = col.cl := by
  rw [Col.record]
  split <;> rfl

theorem cinv_record {W : World} {h : Bytes → Bytes} {hon : Nat → Bool} {cfg : Cfg} {c0 : Cl} {upd : Option Upd} {todo : List Nat} {col : Col}
    (ci : CInv W h hon cfg c0 upd todo col) {i : Nat} {r : Rec} (hi : i < cfg.n) (ht : i ∈ todo → i = c0.dataConn)
    (hnew : ∀ r s, (r, s) ∈ col.recs → i ∉ s) (hh : hon i = true → ∃ u, Gives W c0.expect u ∧ RecOf h u r)
    (hp : ∀ p, (col.cl.srv i).hash = some p → p = r.next)
    (hd : i = c0.dataConn → ∃ u, upd = some u ∧ RecOf h u r ∧ (col.cl.srv c0.dataConn).data = some u.next) :
    CInv W h hon cfg c0 upd todo (col.record i r) := by
  -- members of the new sets
  have hm : ∀ r' s', (r', s') ∈ addRec i r col.recs → ∀ j ∈ s', (j = i ∧ r' = r) ∨ (∃ s, (r', s) ∈ col.recs ∧ j ∈ s) := by
    intro r' s' hr j hj
    rcases addRec_mem ci.keys hr with ⟨h1, h2⟩ | ⟨h1, ⟨s, h2, h3⟩ | h2⟩
    · exact Or.inr ⟨s', h2, hj⟩
    · rw [h3, if_neg (hnew r s h2)] at hj
      rcases List.mem_cons.1 hj with hj | hj
      · exact Or.inl ⟨hj, h1⟩
      · exact Or.inr ⟨s, by rw [h1]; exact h2, hj⟩
    · rw [h2, List.mem_singleton] at hj
      exact Or.inl ⟨hj, h1⟩
  have hlen : ∀ r' s', (r', s') ∈ addRec i r col.recs → r' ≠ r → (r', s') ∈ col.recs := by
    intro r' s' hr hne
    rcases addRec_mem ci.keys hr with ⟨h1, h2⟩ | ⟨h1, _⟩
    · exact h2
    · exact absurd h1 hne
  obtain ⟨sr, hsr⟩ := exists_addRec i r col.recs
  have hmem : members (addRec i r col.recs) r = sr := members_of_mem (addRec_nodup ci.keys) hsr
  constructor
  · rw [record_cl]; exact ci.same
  · rw [record_cl]; exact ci.todoHash
  · rw [record_cl]; exact ci.dataHash
  · rw [record_recs]; exact addRec_nodup ci.keys
  · rw [record_recs]
    intro r' s' hr
    rcases addRec_mem ci.keys hr with ⟨h1, h2⟩ | ⟨h1, ⟨s, h2, h3⟩ | h2⟩
    · exact ci.nodup _ _ h2
    · rw [h3, if_neg (hnew r s h2), List.nodup_cons]
      exact ⟨hnew r s h2, ci.nodup _ _ h2⟩
    · rw [h2]; simp
  · rw [record_recs]
    intro r' s' hr j hj
    rcases hm _ _ hr j hj with ⟨e, _⟩ | ⟨s, q1, q2⟩
    · rw [e]; exact hi
    · exact ci.range _ _ q1 j q2
  · rw [record_recs]
    intro r' s' hr j hj hjt
    rcases hm _ _ hr j hj with ⟨e, _⟩ | ⟨s, q1, q2⟩
    · rw [e]; exact ht (e ▸ hjt)
    · exact ci.tried _ _ q1 j q2 hjt
  · rw [record_recs]
    intro r1 s1 r2 s2 h1 h2 j j1 j2
    rcases hm _ _ h1 j j1 with ⟨e1, e2⟩ | ⟨s, q1, q2⟩ <;> rcases hm _ _ h2 j j2 with ⟨f1, f2⟩ | ⟨s', p1, p2⟩
    · rw [e2, f2]
    · exact absurd (e1 ▸ p2) (hnew _ _ p1)
    · exact absurd (f1 ▸ q2) (hnew _ _ q1)
    · exact ci.uniq _ _ _ _ q1 p1 j q2 p2
  · rw [record_recs]
    intro r' s' hr j hj hjh
    rcases hm _ _ hr j hj with ⟨e1, e2⟩ | ⟨s, q1, q2⟩
    · rw [e2]; exact hh (e1 ▸ hjh)
    · exact ci.honest _ _ q1 j q2 hjh
  · rw [record_recs, record_cl]
    intro r' s' hr j hj p hjp
    rcases hm _ _ hr j hj with ⟨e1, e2⟩ | ⟨s, q1, q2⟩
    · rw [e2]; exact hp p (e1 ▸ hjp)
    · exact ci.pos _ _ q1 j q2 p hjp
  · rw [record_recs, record_cl]
    intro r' s' hr hj
    rcases hm _ _ hr _ hj with ⟨e1, e2⟩ | ⟨s, q1, q2⟩
    · rw [e2]; exact hd e1.symm
    · exact ci.data _ _ q1 q2
  · rw [record_recs]
    intro h0
    rw [Col.record] at h0 ⊢
    by_cases hgt : (members (addRec i r col.recs) r).length > col.most
    · rw [if_pos hgt]
      exact ⟨sr, hsr, by dsimp only; rw [hmem]⟩
    · rw [if_neg hgt] at h0 ⊢
      dsimp only at h0 ⊢
      obtain ⟨s, q1, q2⟩ := ci.best h0
      by_cases e : col.best = r
      · obtain ⟨s', q3, q4⟩ := addRec_old (i := i) (r := r) q1
        refine ⟨s', q3, ?_⟩
        rw [e] at q3
        have e2 : s' = sr := (members_of_mem (addRec_nodup ci.keys) q3).symm.trans hmem
        have q5 : s.length ≤ s'.length := Verif.ListU.nodup_subset_length (ci.nodup _ _ q1) q4
        rw [hmem, ← e2] at hgt
        omega
      · refine ⟨s, ?_, q2⟩
        obtain ⟨s', q3, q4⟩ := addRec_old (i := i) (r := r) q1
        have := hlen _ _ q3 e
        have e2 : s' = s := (members_of_mem ci.keys this).symm.trans (members_of_mem ci.keys q1)
        rw [← e2]; exact q3
  · rw [record_recs]
    intro r' s' hr
    rw [Col.record]
    by_cases hgt : (members (addRec i r col.recs) r).length > col.most
    · rw [if_pos hgt]
      dsimp only
      by_cases e : r' = r
      · rw [e] at hr
        have e2 : s' = sr := (members_of_mem (addRec_nodup ci.keys) hr).symm.trans hmem
        rw [hmem, e2]; exact Nat.le_refl _
      · have := ci.max _ _ (hlen _ _ hr e)
        omega
    · rw [if_neg hgt]
      dsimp only
      by_cases e : r' = r
      · rw [e] at hr
        have e2 : s' = sr := (members_of_mem (addRec_nodup ci.keys) hr).symm.trans hmem
        rw [hmem] at hgt
        rw [e2]; omega
      · exact ci.max _ _ (hlen _ _ hr e)

/-! ## Between iterations -/

structure CliInv (hon : Nat → Bool) (cfg : Cfg) (c : Cl) : Prop where
  conn : c.dataConn < cfg.n
  hash : ∀ i, hon i = true → ∀ p, (c.srv i).hash = some p → p = c.expect
  data : hon c.dataConn = true → ∀ p, (c.srv c.dataConn).data = some p → p = c.expect
  noHash : (c.srv c.dataConn).hash = none

theorem cinv_new {W : World} {h : Bytes → Bytes} {hon : Nat → Bool} {cfg : Cfg} {c0 c : Cl} {upd : Option Upd} {todo : List Nat}
    (hs : c = { c0 with srv := c.srv }) (hh : ∀ i, (c.srv i).hash = (c0.srv i).hash) (hd : (c.srv c0.dataConn).hash = none) :
    CInv W h hon cfg c0 upd todo (Col.new c) := by
  constructor
  · exact hs
  · intro i _; exact hh i
  · exact hd
  · exact List.nodup_nil
  · intro r s hm; cases hm
  · intro r s hm; cases hm
  · intro r s hm; cases hm
  · intro r s r' s' hm; cases hm
  · intro r s hm; cases hm
  · intro r s hm; cases hm
  · intro r s hm; cases hm
  · intro h0; cases h0
  · intro r s hm; cases hm

theorem cinv_counts {W : World} {h : Bytes → Bytes} {hon : Nat → Bool} {cfg : Cfg} {c0 : Cl} {upd : Option Upd} {todo : List Nat} {col : Col}
    (ci : CInv W h hon cfg c0 upd todo col) (a b : Nat) : CInv W h hon cfg c0 upd todo { col with oor := a, pruned := b } :=
  ⟨ci.same, ci.todoHash, ci.dataHash, ci.keys, ci.nodup, ci.range, ci.tried, ci.uniq, ci.honest, ci.pos, ci.data, ci.best, ci.max⟩

theorem setData_hash (c : Cl) (i : Nat) (p : Option Pos) (j : Nat) : ((c.setData i p).srv j).hash = (c.srv j).hash := by
  rw [Cl.setData]
  dsimp only
  split <;> rfl

theorem setHash_data (c : Cl) (i : Nat) (p : Option Pos) (j : Nat) : ((c.setHash i p).srv j).data = (c.srv j).data := by
  rw [Cl.setHash]
  dsimp only
  split <;> rfl

theorem setHash_hash (c : Cl) (i : Nat) (p : Option Pos) (j : Nat) : ((c.setHash i p).srv j).hash = if j = i then p else (c.srv j).hash := by
  rw [Cl.setHash]
  dsimp only
  split <;> rfl

theorem setData_data (c : Cl) (i : Nat) (p : Option Pos) (j : Nat) : ((c.setData i p).srv j).data = if j = i then p else (c.srv j).data := by
  rw [Cl.setData]
  dsimp only
  split <;> rfl

theorem recOf_next {h : Bytes → Bytes} {u : Upd} {r : Rec} (hr : RecOf h u r) : u.next = r.next := by
  obtain ⟨d, _, rfl⟩ := hr
  cases u <;> rfl

theorem readBlock_inv {W : World} {h : Bytes → Bytes} {hon : Nat → Bool} {cfg : Cfg} {c : Cl} {env : Env} (ci : CliInv hon cfg c)
    (eo : EnvOk W h hon c env) {col : Col} {upd : Option Upd} (hr : readBlock h c env = .ok (col, upd)) (todo : List Nat) :
    CInv W h hon cfg c upd todo col := by
  rw [readBlock] at hr
  dsimp only at hr
  by_cases hd : (c.srv c.dataConn).data = none
  · rw [if_pos hd] at hr
    cases hr
    exact cinv_new rfl (fun _ => rfl) ci.noHash
  · rw [if_neg hd] at hr
    cases hrd : env.rdData with
    | timeout =>
      rw [hrd] at hr
      cases hr
      exact cinv_new rfl (fun j => setData_hash _ _ _ _) (by rw [setData_hash]; exact ci.noHash)
    | failure =>
      rw [hrd] at hr
      cases hr
      exact cinv_new rfl (fun j => rfl) ci.noHash
    | outOfRange =>
      rw [hrd] at hr
      cases hr
      exact cinv_counts (cinv_new rfl (fun j => rfl) ci.noHash) _ _
    | notFound =>
      rw [hrd] at hr
      cases hr
      exact cinv_counts (cinv_new rfl (fun j => rfl) ci.noHash) _ _
    | msg m =>
      rw [hrd] at hr
      cases m with
      | none => cases hr
      | some u =>
        dsimp only at hr
        by_cases hlt : u.id < c.lat u.isEg
        · rw [if_pos hlt] at hr
          cases hr
          exact cinv_new rfl (fun j => setData_hash _ _ _ _) (by rw [setData_hash]; exact ci.noHash)
        · rw [if_neg hlt] at hr
          cases hx : hashUpd h u with
          | throw => rw [hx] at hr; cases hr
          | abort => rw [hx] at hr; cases hr
          | ok x =>
            rw [hx] at hr
            cases hr
            refine cinv_record (cinv_new rfl (fun j => setData_hash _ _ _ _) (by rw [setData_hash]; exact ci.noHash)) ci.conn (fun _ => rfl) ?_ ?_ ?_ ?_
            · intro r s hm; cases hm
            · intro hh
              cases hp : (c.srv c.dataConn).data with
              | none => exact absurd hp hd
              | some p =>
                obtain ⟨u', e, g⟩ := eo.data hh p _ hp hrd
                cases e
                exact ⟨u, by rw [← ci.data hh p hp]; exact g, x, hx, rfl⟩
            · intro p hp
              rw [Col.new] at hp
              dsimp only at hp
              rw [setData_hash, ci.noHash] at hp
              cases hp
            · intro _
              refine ⟨u, rfl, ⟨x, hx, rfl⟩, ?_⟩
              rw [Col.new]
              dsimp only
              rw [setData_data, if_pos rfl]

theorem cinv_mono {W : World} {h : Bytes → Bytes} {hon : Nat → Bool} {cfg : Cfg} {c0 : Cl} {upd : Option Upd} {todo todo' : List Nat} {col : Col}
    (ci : CInv W h hon cfg c0 upd todo col) (hs : ∀ i ∈ todo', i ∈ todo) : CInv W h hon cfg c0 upd todo' col :=
  ⟨ci.same, fun i hi => ci.todoHash i (hs i hi), ci.dataHash, ci.keys, ci.nodup, ci.range, fun r s hm i hi ht => ci.tried r s hm i hi (hs i ht),
   ci.uniq, ci.honest, ci.pos, ci.data, ci.best, ci.max⟩

/-- a hash stream of a server without a record may change -/
theorem cinv_setHash {W : World} {h : Bytes → Bytes} {hon : Nat → Bool} {cfg : Cfg} {c0 : Cl} {upd : Option Upd} {todo : List Nat} {col : Col}
    (ci : CInv W h hon cfg c0 upd todo col) {i : Nat} (ht : i ∉ todo) (hd : i ≠ c0.dataConn) (hnew : ∀ r s, (r, s) ∈ col.recs → i ∉ s)
    (p : Option Pos) : CInv W h hon cfg c0 upd todo { col with cl := col.cl.setHash i p } := by
  constructor
  · dsimp only
    rw [Cl.setHash, ci.same]
  · intro j hj
    dsimp only
    rw [setHash_hash, if_neg (fun (e : j = i) => ht (e ▸ hj))]
    exact ci.todoHash j hj
  · dsimp only
    rw [setHash_hash, if_neg (Ne.symm hd)]
    exact ci.dataHash
  · exact ci.keys
  · exact ci.nodup
  · exact ci.range
  · exact ci.tried
  · exact ci.uniq
  · exact ci.honest
  · intro r s hm j hj q hq
    dsimp only at hq
    rw [setHash_hash, if_neg (fun (e : j = i) => hnew r s hm (e ▸ hj))] at hq
    exact ci.pos r s hm j hj q hq
  · intro r s hm hj
    dsimp only
    rw [setHash_data]
    exact ci.data r s hm hj
  · exact ci.best
  · exact ci.max

theorem pad_of_length {d : Bytes} (h : d.length = 32) : pad d = d := by
  rw [pad, h]
  simp

theorem hashUpd_length {h : Bytes → Bytes} (hlen : ∀ x, (h x).length = 32) {u : Upd} {d : Bytes} (hu : hashUpd h u = .ok d) : d.length = 32 := by
  cases u with
  | ev id kvs _ =>
    rw [hashUpd] at hu
    cases hk : kvHashes h kvs [] with
    | none => rw [hk] at hu; cases hu
    | some m => rw [hk] at hu; cases hu; exact hlen _
  | eg id evs _ =>
    rw [hashUpd] at hu
    cases hk : egHashes h evs [] with
    | none => rw [hk] at hu; cases hu
    | some m => rw [hk] at hu; cases hu; exact hlen _

theorem readHash_inv {W : World} {h : Bytes → Bytes} (hlen : ∀ x, (h x).length = 32) {hon : Nat → Bool} {cfg : Cfg} {c0 : Cl} {env : Env}
    {upd : Option Upd} {todo : List Nat} {col col' : Col} {i : Nat} (hi : i < cfg.n) (ht : i ∉ todo) (hd : i ≠ c0.dataConn)
    (hnew : ∀ r s, (r, s) ∈ col.recs → i ∉ s) (ci : CInv W h hon cfg c0 upd todo col)
    (hh : hon i = true → ∀ m, env.rdHash i = .msg m → ∃ u d, Gives W c0.expect u ∧ hashUpd h u = .ok d ∧ m = some ⟨u.isEg, u.id, d⟩)
    (hr : readHash col env i = .ok col') : CInv W h hon cfg c0 upd todo col' ∧
      (∀ r s, (r, s) ∈ col'.recs → ∀ j ∈ s, j = i ∨ ∃ s', (r, s') ∈ col.recs ∧ j ∈ s') := by
  have old : ∀ r s, (r, s) ∈ col.recs → ∀ j ∈ s, j = i ∨ ∃ s', (r, s') ∈ col.recs ∧ j ∈ s' := fun r s hm j hj => Or.inr ⟨s, hm, hj⟩
  rw [readHash] at hr
  cases hrd : env.rdHash i with
  | timeout =>
    rw [hrd] at hr
    cases hr
    exact ⟨cinv_setHash ci ht hd hnew _, old⟩
  | failure =>
    rw [hrd] at hr
    cases hr
    exact ⟨ci, old⟩
  | outOfRange =>
    rw [hrd] at hr
    cases hr
    exact ⟨cinv_counts ci _ col.pruned, old⟩
  | notFound =>
    rw [hrd] at hr
    cases hr
    exact ⟨cinv_counts ci col.oor _, old⟩
  | msg m =>
    rw [hrd] at hr
    cases m with
    | none => cases hr
    | some m =>
      dsimp only at hr
      have ci' := cinv_setHash ci ht hd hnew (some m.next)
      split at hr
      · cases hr; exact ⟨ci', old⟩
      · split at hr
        · cases hr; exact ⟨ci', old⟩
        · cases hr
          constructor
          · refine cinv_record ci' hi (fun h => absurd h ht) hnew ?_ ?_ (fun h => absurd h hd)
            · intro hx
              obtain ⟨u, d, g1, g2, g3⟩ := hh hx _ hrd
              cases g3
              refine ⟨u, g1, d, g2, ?_⟩
              dsimp only
              rw [pad_of_length (hashUpd_length hlen g2)]
            · intro p hp
              dsimp only at hp
              rw [setHash_hash, if_pos rfl] at hp
              cases hp
              rfl
          · rw [record_recs]
            intro r' s' hm j hj
            rcases addRec_mem ci.keys hm with ⟨h1, h2⟩ | ⟨h1, ⟨s, h2, h3⟩ | h2⟩
            · exact Or.inr ⟨s', h2, hj⟩
            · rw [h3] at hj
              split at hj
              · exact Or.inr ⟨s, by rw [h1]; exact h2, hj⟩
              · rcases List.mem_cons.1 hj with hj | hj
                · exact Or.inl hj
                · exact Or.inr ⟨s, by rw [h1]; exact h2, hj⟩
            · rw [h2, List.mem_singleton] at hj
              exact Or.inl hj

theorem collect_inv {W : World} {h : Bytes → Bytes} (hlen : ∀ x, (h x).length = 32) {hon : Nat → Bool} {cfg : Cfg} {c0 : Cl} {env : Env}
    (ck : CliInv hon cfg c0) (eo : EnvOk W h hon c0 env) {upd : Option Upd} : ∀ (todo : List Nat) {col col' : Col}, todo.Nodup → (∀ i ∈ todo, i < cfg.n) →
    CInv W h hon cfg c0 upd todo col → collect cfg env todo col = .ok col' → CInv W h hon cfg c0 upd [] col' := by
  intro todo
  induction todo with
  | nil => intro col col' _ _ ci hr; rw [collect] at hr; cases hr; exact ci
  | cons i is ih =>
    intro col col' hn hrg ci hr
    rw [List.nodup_cons] at hn
    have ci1 := cinv_mono ci (todo' := is) (fun j hj => List.mem_cons_of_mem _ hj)
    have hrg' : ∀ j ∈ is, j < cfg.n := fun j hj => hrg j (List.mem_cons_of_mem _ hj)
    rw [collect] at hr
    have hdc : col.cl.dataConn = c0.dataConn := by rw [ci.same]
    by_cases hid : i = col.cl.dataConn
    · rw [if_pos hid] at hr
      exact ih hn.2 hrg' ci1 hr
    · rw [if_neg hid] at hr
      dsimp only at hr
      have hid' : i ≠ c0.dataConn := by rw [← hdc]; exact hid
      have hnew : ∀ r s, (r, s) ∈ col.recs → i ∉ s := fun r s hm hi => hid' (ci.tried r s hm i hi List.mem_cons_self)
      split at hr
      · exact ih hn.2 hrg' ci1 hr
      · have hhash := ci.todoHash i List.mem_cons_self
        have hx : CInv W h hon cfg c0 upd is (if (col.cl.srv i).hash.isSome = true then col else
            { col with cl := col.cl.setHash i (some col.cl.expect) }) := by
          split
          · exact ci1
          · exact cinv_setHash ci1 hn.1 hid' hnew _
        have hrecs : (if (col.cl.srv i).hash.isSome = true then col else
            { col with cl := col.cl.setHash i (some col.cl.expect) }).recs = col.recs := by split <;> rfl
        generalize (if (col.cl.srv i).hash.isSome = true then col else
            { col with cl := col.cl.setHash i (some col.cl.expect) }) = colx at hr hx hrecs
        cases hrh : readHash colx env i with
        | throw => rw [hrh] at hr; cases hr
        | abort => rw [hrh] at hr; cases hr
        | ok col1 =>
          rw [hrh] at hr
          dsimp only at hr
          have hexp : (c0.srv i).hash.getD c0.expect = c0.expect ∨ hon i = false := by
            cases hp : (c0.srv i).hash with
            | none => exact Or.inl rfl
            | some p =>
              cases hb : hon i with
              | false => exact Or.inr rfl
              | true => exact Or.inl (ck.hash i hb p hp)
          obtain ⟨ci2, _⟩ := readHash_inv hlen (hrg i List.mem_cons_self) hn.1 hid' (by rw [hrecs]; exact hnew) hx (fun hb m hm => by
            obtain ⟨u, d, g1, g2, g3⟩ := eo.hash i hb m hm
            rcases hexp with he | he
            · rw [he] at g1
              exact ⟨u, d, g1, g2, g3⟩
            · rw [hb] at he; cases he) hrh
          split at hr
          · cases hr
            exact cinv_mono ci2 (fun j hj => by cases hj)
          · exact ih hn.2 hrg' ci2 hr

theorem order_nodup (cfg : Cfg) (c : Cl) : (order cfg c).Nodup := by
  rw [order, List.nodup_append]
  refine ⟨List.Pairwise.filter _ List.nodup_range, List.Pairwise.filter _ List.nodup_range, ?_⟩
  intro a ha b hb hab
  subst hab
  rw [List.mem_filter] at ha hb
  rw [ha.2] at hb
  exact absurd hb.2 (by decide)

theorem order_range (cfg : Cfg) (c : Cl) : ∀ i ∈ order cfg c, i < cfg.n := by
  intro i hi
  rw [order, List.mem_append, List.mem_filter, List.mem_filter] at hi
  rcases hi with hi | hi <;> exact List.mem_range.1 hi.1

theorem order_all (cfg : Cfg) (c : Cl) {i : Nat} (hi : i < cfg.n) : i ∈ order cfg c := by
  rw [order, List.mem_append, List.mem_filter, List.mem_filter]
  cases h : (c.srv i).hash.isSome with
  | true => exact Or.inl ⟨List.mem_range.2 hi, rfl⟩
  | false => exact Or.inr ⟨List.mem_range.2 hi, rfl⟩

/-- more than `f` servers include an honest one -/
theorem exists_honest {cfg : Cfg} {hon : Nat → Bool} (hf : FewFaulty cfg hon) {s : List Nat} (hn : s.Nodup) (hr : ∀ i ∈ s, i < cfg.n)
    (hl : cfg.f < s.length) : ∃ i ∈ s, hon i = true := by
  apply Classical.byContradiction
  intro hx
  have hall : ∀ i ∈ s, i ∈ (List.range cfg.n).filter (fun i => !hon i) := by
    intro i hi
    rw [List.mem_filter]
    refine ⟨List.mem_range.2 (hr i hi), ?_⟩
    cases hb : hon i with
    | false => rfl
    | true => exact absurd ⟨i, hi, hb⟩ hx
  have := Verif.ListU.nodup_subset_length hn hall
  rw [FewFaulty] at hf
  omega

end Verif.Trc
