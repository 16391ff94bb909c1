import Verif.Cert.Model
import Verif.Cert.Spec
import Mathlib.Tactic.Linarith
import Mathlib.Data.List.Nodup
/-!
Invariants of the certificate. `C` is the (ghost) list of messages that were counted.
-/
namespace Concord.Cert

variable {M : Type} {p : Params M}

/-- number of messages of `C` equivalent to `m` -/
def cnt (eqv : M → M → Bool) (C : List (Nat × M)) (m : M) : Nat := C.countP (fun e => eqv m e.2)

def keysNodup (l : List (Nat × M)) : Prop := (l.map (·.1)).Nodup

theorem find_of_mem {l : List (Nat × M)} (h : keysNodup l) {id m} (hm : (id, m) ∈ l) :
    l.find? (fun e => e.1 == id) = some (id, m) := by
  induction l with
  | nil => cases hm
  | cons e l ih =>
    unfold keysNodup at h
    simp only [List.map_cons, List.nodup_cons] at h
    rcases List.mem_cons.1 hm with h1 | h1
    · subst h1; simp
    · have : e.1 ≠ id := by
        intro h2; exact h.1 (List.mem_map.2 ⟨_, h1, h2.symm⟩)
      rw [List.find?_cons_of_neg (by simpa using this)]
      exact ih h.2 h1

theorem mem_of_find {l : List (Nat × M)} {id m}
    (hm : (l.find? (fun e => e.1 == id)).map (·.2) = some m) : (id, m) ∈ l := by
  cases h : l.find? (fun e => e.1 == id) with
  | none => rw [h] at hm; cases hm
  | some e =>
    rw [h] at hm
    have := List.find?_some h
    have h2 := List.mem_of_find?_eq_some h
    simp at hm this
    obtain ⟨a, b⟩ := e
    simp at hm this; subst hm; subst this; exact h2

theorem msgOf_iff {s : St M} (h : keysNodup s.msgs) {id m} : s.msgOf id = some m ↔ (id, m) ∈ s.msgs := by
  constructor
  · exact mem_of_find
  · intro hm; unfold St.msgOf; rw [find_of_mem h hm]; rfl

theorem cnt_append (C : List (Nat × M)) (eqv : M → M → Bool) (id : Nat) (m m' : M) :
    cnt eqv (C ++ [(id, m')]) m = cnt eqv C m + (if eqv m m' = true then 1 else 0) := by
  simp [cnt, List.countP_append, List.countP_cons]

theorem cnt_eqv {eqv : M → M → Bool} (he : IsEqv eqv) {a b : M} (h : eqv a b = true) (C : List (Nat × M)) :
    cnt eqv C a = cnt eqv C b := by
  unfold cnt; congr 1; funext e
  have h' := he.symm _ _ h
  cases h1 : eqv a e.2
  · cases h2 : eqv b e.2
    · rfl
    · rw [he.trans _ _ _ h h2] at h1; cases h1
  · rw [he.trans _ _ _ h' h1]

/-- Invariant while no trusted self class exists. -/
structure PInv (p : Params M) (C : List (Nat × M)) (s : St M) : Prop where
  noSelf : s.hasSelf = false
  keys : keysNodup s.msgs
  ids : ∀ e ∈ s.msgs, e.1 < p.n
  sub : C ⊆ s.msgs
  ckeys : keysNodup C
  count : ((p.keepAll && !s.full) || !s.complete) = true → C = s.msgs
  reps : ∀ c ∈ s.classes, ∃ m, (c.rep, m) ∈ C ∧ c.size = cnt p.eqv C m
  uniq : s.classes.Pairwise (fun c d => ∀ m m', (c.rep, m) ∈ C → (d.rep, m') ∈ C → ¬ p.eqv m m' = true)
  cover : ∀ e ∈ C, ∃ c ∈ s.classes, ∃ m, (c.rep, m) ∈ C ∧ p.eqv m e.2 = true
  best0 : s.best = none → s.classes = [] ∧ s.sizeBest = 0
  best1 : ∀ b, s.best = some b → ∃ c, s.classes[b]? = some c ∧ c.size = s.sizeBest
  bestMax : ∀ c ∈ s.classes, c.size ≤ s.sizeBest
  comp : s.complete = true ↔ p.selfRequired = false ∧ p.required ≤ s.sizeBest
  ful : s.full = true ↔ p.selfRequired = false ∧ p.n ≤ s.sizeBest
  absent : p.selfTrust = true → s.hasMsg p.self = false

/-- Legal template instantiations and quorum sizes -/
structure Params.Ok (p : Params M) : Prop where
  eqv : IsEqv p.eqv
  req : 2 ≤ p.required
  reqn : p.required ≤ p.n
  /-- `static_assert(!SelfIsRequired || SelfTrust)` -/
  selfOk : p.selfRequired = true → p.selfTrust = true

theorem pinv_init (hp : p.Ok) : PInv p [] ({} : St M) where
  noSelf := rfl
  keys := by simp [keysNodup]
  ids := by simp
  sub := by simp
  ckeys := by simp [keysNodup]
  count := by simp
  reps := by simp
  uniq := by simp
  cover := by simp
  best0 := by simp
  best1 := by simp
  bestMax := by simp
  comp := by have := hp.req; simp; omega
  ful := by have := hp.req; have := hp.reqn; simp; omega
  absent := by simp [St.hasMsg]

theorem hasMsg_iff {s : St M} {id : Nat} : s.hasMsg id = true ↔ ∃ m, (id, m) ∈ s.msgs := by
  simp [St.hasMsg]

theorem keysNodup_snoc {l : List (Nat × M)} (h : keysNodup l) {id m} (hn : ∀ m', (id, m') ∉ l) :
    keysNodup (l ++ [(id, m)]) := by
  unfold keysNodup at *
  rw [List.map_append, List.nodup_append]
  refine ⟨h, by simp, ?_⟩
  intro a ha b hb
  simp at hb; subst hb
  intro he; subst he
  obtain ⟨⟨x, y⟩, h1, h2⟩ := List.mem_map.1 ha
  subst h2; exact hn _ h1

theorem keys_inj {l : List (Nat × M)} (h : keysNodup l) {id m m'} (h1 : (id, m) ∈ l) (h2 : (id, m') ∈ l) : m = m' := by
  have a := find_of_mem h h1
  have b := find_of_mem h h2
  rw [a] at b; simpa using b

/-- the class of the new message, when one exists -/
theorem findClass_some {C : List (Nat × M)} {s : St M} {m : M} {i : Nat} {msgs : List (Nat × M)}
    (hk : keysNodup msgs) (hC : C ⊆ msgs)
    (hs : s.msgs = msgs) (hf : s.findClass p m = some i)
    (reps : ∀ c ∈ s.classes, ∃ m, (c.rep, m) ∈ C ∧ c.size = cnt p.eqv C m) :
    ∃ c r, s.classes[i]? = some c ∧ (c.rep, r) ∈ C ∧ c.size = cnt p.eqv C r ∧ p.eqv r m = true := by
  unfold St.findClass at hf
  rw [List.findIdx?_eq_some_iff_getElem] at hf
  obtain ⟨hi, hc, -⟩ := hf
  obtain ⟨r, hr1, hr2⟩ := reps _ (List.getElem_mem hi)
  refine ⟨s.classes[i], r, List.getElem?_eq_getElem hi, hr1, hr2, ?_⟩
  unfold St.inClass at hc
  rw [(msgOf_iff (by rw [hs]; exact hk)).2 (by rw [hs]; exact hC hr1)] at hc
  exact hc

theorem findClass_none {C : List (Nat × M)} {s : St M} {m : M} {msgs : List (Nat × M)}
    (hk : keysNodup msgs) (hC : C ⊆ msgs)
    (hs : s.msgs = msgs) (hf : s.findClass p m = none) :
    ∀ c ∈ s.classes, ∀ r, (c.rep, r) ∈ C → ¬ p.eqv r m = true := by
  intro c hc r hr he
  unfold St.findClass at hf
  rw [List.findIdx?_eq_none_iff] at hf
  have := hf c hc
  unfold St.inClass at this
  rw [(msgOf_iff (by rw [hs]; exact hk)).2 (by rw [hs]; exact hC hr)] at this
  simp [he] at this

/-- explicit form of `peerExisting` -/
theorem peerExisting_eq (s : St M) (i : Nat) (c : Cls) (hc : s.classes[i]? = some c) :
    s.peerExisting p i =
      { s with
          best := if s.sizeBest < c.size then some i else s.best
          sizeBest := max s.sizeBest c.size
          complete := s.complete || (decide ((if s.sizeBest < c.size then some i else s.best) = some i ∧
            p.required ≤ max s.sizeBest c.size) && (!p.selfRequired || s.hasMsg p.self))
          full := s.full || (decide ((if s.sizeBest < c.size then some i else s.best) = some i ∧
            p.n ≤ max s.sizeBest c.size) && (!p.selfRequired || s.hasMsg p.self)) } := by
  obtain ⟨msgs, classes, complete, full, best, sizeBest, hasSelf⟩ := s
  simp only at hc
  unfold St.peerExisting St.tryComplete St.tryFull St.hasMsg
  simp only [hc]
  by_cases h1 : sizeBest < c.size
  · have e : max sizeBest c.size = c.size := by omega
    by_cases h2 : p.required ≤ c.size <;> by_cases h3 : p.n ≤ c.size <;>
      cases h4 : (!p.selfRequired || msgs.any (fun e => e.1 == p.self)) <;> simp [h1, h2, h3, h4, e]
  · have e : max sizeBest c.size = sizeBest := by omega
    by_cases h2 : p.required ≤ sizeBest <;> by_cases h3 : p.n ≤ sizeBest <;> by_cases h5 : best = some i <;>
      cases h4 : (!p.selfRequired || msgs.any (fun e => e.1 == p.self)) <;> simp [h1, h2, h3, h4, h5, e]

theorem hasMsg_snoc {s : St M} {id x : Nat} {m : M} :
    ({ s with msgs := s.msgs ++ [(id, m)] } : St M).hasMsg x = (s.hasMsg x || id == x) := by
  simp [St.hasMsg, List.any_append]

/-- one `addMsg` keeps the invariant -/
theorem pinv_step (hp : p.Ok) {C : List (Nat × M)} {s : St M} (h : PInv p C s) {id : Nat} {m : M}
    (hid : id < p.n) (hself : p.selfTrust = true → id ≠ p.self) :
    ∃ C', PInv p C' (s.addMsg p id m).1 := by
  unfold St.addMsg
  by_cases hh : s.hasMsg id = true
  · rw [if_pos hh]; exact ⟨C, h⟩
  rw [if_neg hh]
  have hnot : ∀ m', (id, m') ∉ s.msgs := fun m' hm => hh (hasMsg_iff.2 ⟨m', hm⟩)
  have hk := keysNodup_snoc (m := m) h.keys hnot
  have hids : ∀ e ∈ s.msgs ++ [(id, m)], e.1 < p.n := by
    intro e he
    rcases List.mem_append.1 he with he | he
    · exact h.ids e he
    · simp at he; subst he; exact hid
  have habs : p.selfTrust = true →
      ({ s with msgs := s.msgs ++ [(id, m)] } : St M).hasMsg p.self = false := by
    intro hst; rw [hasMsg_snoc, h.absent hst]; simpa using hself hst
  have hb : (p.selfTrust && id == p.self) = false := by
    cases hst : p.selfTrust
    · rfl
    · simpa using hself hst
  have hgate : ∀ q : Bool, (q = p.selfRequired) → p.selfRequired = true →
      ({ s with msgs := s.msgs ++ [(id, m)] } : St M).hasMsg p.self = false := by
    intro q _ hq; exact habs (hp.selfOk hq)
  simp only
  by_cases hcnt : ((p.keepAll && !s.full) || !s.complete) = true
  · rw [if_pos hcnt, hb]
    simp only [Bool.false_eq_true, if_false]
    have hCm := h.count hcnt
    subst hCm
    have hsub : s.msgs ⊆ s.msgs ++ [(id, m)] := fun x hx => List.mem_append_left _ hx
    refine ⟨s.msgs ++ [(id, m)], ?_⟩
    unfold St.addPeer
    rw [if_neg (by simp [h.noSelf])]
    have hmem : ∀ {x y}, (x, y) ∈ s.msgs ++ [(id, m)] → (x, y) ∈ s.msgs ∨ (x = id ∧ y = m) := by
      intro x y hxy; simpa using hxy
    have hrepne : ∀ c ∈ s.classes, c.rep ≠ id := by
      intro c hc he
      obtain ⟨r, hr, -⟩ := h.reps c hc
      rw [he] at hr; exact hnot _ hr
    have hold : ∀ c ∈ s.classes, ∀ r, (c.rep, r) ∈ s.msgs ++ [(id, m)] → (c.rep, r) ∈ s.msgs := by
      intro c hc r hr
      rcases hmem hr with h1 | h1
      · exact h1
      · exact absurd h1.1 (hrepne c hc)
    cases hf : ({ s with msgs := s.msgs ++ [(id, m)] } : St M).findClass p m with
    | some i =>
      simp only
      obtain ⟨c, r, hci, hcr, hcs, hcm⟩ := findClass_some (C := s.msgs) hk hsub rfl hf h.reps
      have hil : i < s.classes.length := (List.getElem?_eq_some_iff.1 hci).1
      have hcmem : c ∈ s.classes := List.mem_of_getElem? hci
      have hmod : (s.classes.modify i bump)[i]? = some (bump c) := by
        rw [List.getElem?_modify_eq, hci]; rfl
      -- members of the modified class list
      have hmm : ∀ d ∈ s.classes.modify i bump, ∃ d0 ∈ s.classes, d.rep = d0.rep ∧
          ((d.size = d0.size + 1 ∧ d0 = c) ∨ (d.size = d0.size ∧ ∃ j, j ≠ i ∧ s.classes[j]? = some d0)) := by
        intro d hd
        obtain ⟨j, hj⟩ := List.mem_iff_getElem?.1 hd
        rw [List.getElem?_modify] at hj
        by_cases hji : i = j
        · subst hji
          rw [hci] at hj; simp at hj; subst hj
          exact ⟨c, hcmem, rfl, Or.inl ⟨rfl, rfl⟩⟩
        · simp only [if_neg hji] at hj
          cases hj2 : s.classes[j]? with
          | none => rw [hj2] at hj; cases hj
          | some d0 =>
            rw [hj2] at hj; simp at hj; subst hj
            exact ⟨d0, List.mem_of_getElem? hj2, rfl, Or.inr ⟨rfl, j, fun e => hji e.symm, hj2⟩⟩
      have hpw := List.pairwise_iff_getElem.1 h.uniq
      have hne : ∀ j d0, j ≠ i → s.classes[j]? = some d0 → ∀ r', (d0.rep, r') ∈ s.msgs → ¬ p.eqv r' m = true := by
        intro j d0 hji hj r' hr' he
        obtain ⟨hjl, hje⟩ := List.getElem?_eq_some_iff.1 hj
        obtain ⟨_, hie⟩ := List.getElem?_eq_some_iff.1 hci
        rcases Nat.lt_or_gt_of_ne hji with hlt | hlt
        · have := hpw j i hjl hil hlt
          rw [hje, hie] at this
          exact this r' r hr' hcr (hp.eqv.trans _ _ _ he (hp.eqv.symm _ _ hcm))
        · have := hpw i j hil hjl hlt
          rw [hje, hie] at this
          exact this r r' hcr hr' (hp.eqv.trans _ _ _ hcm (hp.eqv.symm _ _ he))
      rw [peerExisting_eq _ i (bump c) hmod]
      have hsz : (bump c).size = c.size + 1 := rfl
      have hcle := h.bestMax c hcmem
      refine
        { noSelf := h.noSelf, keys := hk, ids := hids, sub := fun x hx => hx, ckeys := hk,
          count := fun _ => rfl, absent := habs, reps := ?_, uniq := ?_, cover := ?_, best0 := ?_, best1 := ?_,
          bestMax := ?_, comp := ?_, ful := ?_ }
      · intro d hd
        obtain ⟨d0, hd0, hrep, hcase⟩ := hmm d hd
        obtain ⟨r0, hr0, hs0⟩ := h.reps d0 hd0
        refine ⟨r0, by rw [hrep]; exact hsub hr0, ?_⟩
        rw [cnt_append]
        rcases hcase with ⟨e1, e2⟩ | ⟨e1, j, hj, hje⟩
        · subst e2
          have : r0 = r := keys_inj h.keys hr0 hcr
          subst this
          rw [if_pos hcm]; omega
        · rw [if_neg (hne j d0 hj hje r0 hr0)]; omega
      · rw [List.pairwise_iff_getElem]
        intro a b ha hb hab x y hx hy
        have ha' : a < s.classes.length := by simpa using ha
        have hb' : b < s.classes.length := by simpa using hb
        have e1 : ∀ k (hk : k < s.classes.length), ((s.classes.modify i bump)[k]'(by simpa using hk)).rep = s.classes[k].rep := by
          intro k hk
          rw [List.getElem_modify]; split <;> rfl
        rw [e1 a ha'] at hx
        rw [e1 b hb'] at hy
        exact hpw a b ha' hb' hab x y (hold _ (List.getElem_mem ha') _ hx) (hold _ (List.getElem_mem hb') _ hy)
      · intro e he
        have key : ∃ d ∈ s.classes, ∃ r', (d.rep, r') ∈ s.msgs ∧ p.eqv r' e.2 = true := by
          rcases List.mem_append.1 he with he | he
          · exact h.cover e he
          · simp at he; subst he; exact ⟨c, hcmem, r, hcr, hcm⟩
        obtain ⟨d, hd, r', hr', he'⟩ := key
        obtain ⟨j, hj⟩ := List.mem_iff_getElem?.1 hd
        refine ⟨if i = j then bump d else d, ?_, r', ?_, he'⟩
        · apply List.mem_iff_getElem?.2
          refine ⟨j, ?_⟩
          rw [List.getElem?_modify, hj]; simp
        · split <;> exact hsub hr'
      · intro hb0
        split at hb0
        · cases hb0
        · have := (h.best0 hb0).1
          rw [this] at hcmem; cases hcmem
      · intro b hb1
        simp only
        split at hb1
        · next hlt =>
          simp only at hlt
          cases hb1
          exact ⟨bump c, hmod, by omega⟩
        · next hlt =>
          simp only at hlt
          obtain ⟨d, hd, hds⟩ := h.best1 b hb1
          by_cases hib : i = b
          · subst hib
            rw [hci] at hd; cases hd
            exfalso; rw [hsz] at hlt; omega
          · refine ⟨d, ?_, by omega⟩
            rw [List.getElem?_modify, hd]; simp [hib]
      · intro d hd
        obtain ⟨d0, hd0, hrep, hcase⟩ := hmm d hd
        have := h.bestMax d0 hd0
        rcases hcase with ⟨e1, e2⟩ | ⟨e1, -⟩
        · subst e2; simp only; omega
        · simp only; omega
      · simp only [Bool.or_eq_true, Bool.and_eq_true, decide_eq_true_eq, h.comp, Bool.not_eq_true']
        constructor
        · rintro (⟨h1, h2⟩ | ⟨⟨h1, h2⟩, h3⟩)
          · exact ⟨h1, by omega⟩
          · rcases h3 with h3 | h3
            · exact ⟨h3, h2⟩
            · cases hsr : p.selfRequired
              · exact ⟨rfl, h2⟩
              · have := hgate _ rfl hsr
                rw [show ({ s with msgs := s.msgs ++ [(id, m)], classes := s.classes.modify i bump } : St M).hasMsg p.self = ({ s with msgs := s.msgs ++ [(id, m)] } : St M).hasMsg p.self from rfl] at h3
                rw [this] at h3; cases h3
        · rintro ⟨h1, h2⟩
          by_cases h3 : p.required ≤ s.sizeBest
          · exact Or.inl ⟨h1, h3⟩
          · right
            refine ⟨⟨?_, h2⟩, Or.inl h1⟩
            rw [if_pos (by omega)]
      · simp only [Bool.or_eq_true, Bool.and_eq_true, decide_eq_true_eq, h.ful, Bool.not_eq_true']
        constructor
        · rintro (⟨h1, h2⟩ | ⟨⟨h1, h2⟩, h3⟩)
          · exact ⟨h1, by omega⟩
          · rcases h3 with h3 | h3
            · exact ⟨h3, h2⟩
            · cases hsr : p.selfRequired
              · exact ⟨rfl, h2⟩
              · have := hgate _ rfl hsr
                rw [show ({ s with msgs := s.msgs ++ [(id, m)], classes := s.classes.modify i bump } : St M).hasMsg p.self = ({ s with msgs := s.msgs ++ [(id, m)] } : St M).hasMsg p.self from rfl] at h3
                rw [this] at h3; cases h3
        · rintro ⟨h1, h2⟩
          by_cases h3 : p.n ≤ s.sizeBest
          · exact Or.inl ⟨h1, h3⟩
          · right
            refine ⟨⟨?_, h2⟩, Or.inl h1⟩
            rw [if_pos (by omega)]
    | none =>
      simp only
      have hno := findClass_none (C := s.msgs) hk hsub rfl hf
      have hlen : s.classes.length < p.n := by
        have hnd : (s.classes.map (·.rep)).Nodup := by
          rw [List.Nodup, List.pairwise_map]
          refine List.Pairwise.imp_of_mem ?_ h.uniq
          intro a b ha hb hab he
          obtain ⟨r, hr, -⟩ := h.reps a ha
          exact hab r r hr (by rw [← he]; exact hr) (hp.eqv.refl r)
        have hnd2 : (id :: s.classes.map (·.rep)).Nodup := by
          rw [List.nodup_cons]; refine ⟨?_, hnd⟩
          intro hm; obtain ⟨c, hc, he⟩ := List.mem_map.1 hm
          exact hrepne c hc he
        have hsubs : (id :: s.classes.map (·.rep)) ⊆ List.range p.n := by
          intro x hx
          rcases List.mem_cons.1 hx with hx | hx
          · subst hx; exact List.mem_range.2 hid
          · obtain ⟨c, hc, he⟩ := List.mem_map.1 hx
            obtain ⟨r, hr, -⟩ := h.reps c hc
            subst he
            exact List.mem_range.2 (h.ids _ hr)
        have := (hnd2.subperm hsubs).length_le
        simp at this; omega
      rw [if_neg (by omega)]
      have hz : cnt p.eqv s.msgs m = 0 := by
        unfold cnt
        rw [List.countP_eq_zero]
        intro e he hem
        obtain ⟨c, hc, r, hr, hre⟩ := h.cover e he
        exact hno c hc r hr (hp.eqv.trans _ _ _ hre (hp.eqv.symm _ _ hem))
      have hreps : ∀ c ∈ s.classes ++ [⟨1, id⟩], ∃ r, (c.rep, r) ∈ s.msgs ++ [(id, m)] ∧
          c.size = cnt p.eqv (s.msgs ++ [(id, m)]) r := by
        intro c hc
        rcases List.mem_append.1 hc with hc | hc
        · obtain ⟨r, hr, hrs⟩ := h.reps c hc
          exact ⟨r, hsub hr, by rw [cnt_append, if_neg (hno c hc r hr)]; omega⟩
        · simp at hc; subst hc
          exact ⟨m, by simp, by rw [cnt_append, hz, if_pos (hp.eqv.refl m)]⟩
      have huniq : (s.classes ++ [(⟨1, id⟩ : Cls)]).Pairwise (fun c d => ∀ x y, (c.rep, x) ∈ s.msgs ++ [(id, m)] →
          (d.rep, y) ∈ s.msgs ++ [(id, m)] → ¬ p.eqv x y = true) := by
        rw [List.pairwise_append]
        refine ⟨?_, by simp, ?_⟩
        · refine List.Pairwise.imp_of_mem ?_ h.uniq
          intro a b ha hb hab x y hx hy
          exact hab x y (hold a ha x hx) (hold b hb y hy)
        · intro a ha b hb x y hx hy
          simp at hb; subst hb
          have hx' := hold a ha x hx
          rcases hmem hy with hy | hy
          · exact absurd hy (hnot _)
          · rw [hy.2]; exact hno a ha x hx'
      have hcover : ∀ e ∈ s.msgs ++ [(id, m)], ∃ c ∈ s.classes ++ [⟨1, id⟩], ∃ r,
          (c.rep, r) ∈ s.msgs ++ [(id, m)] ∧ p.eqv r e.2 = true := by
        intro e he
        rcases List.mem_append.1 he with he | he
        · obtain ⟨c, hc, r, hr, hre⟩ := h.cover e he
          exact ⟨c, List.mem_append_left _ hc, r, hsub hr, hre⟩
        · simp at he; subst he
          exact ⟨⟨1, id⟩, by simp, m, by simp, hp.eqv.refl m⟩
      by_cases hb0 : s.best = none
      · rw [if_pos hb0]
        obtain ⟨hcl, hsb⟩ := h.best0 hb0
        have hr2 := hp.req
        have hrn := hp.reqn
        refine
          { noSelf := h.noSelf, keys := hk, ids := hids, sub := fun x hx => hx, ckeys := hk,
            count := fun _ => rfl, absent := habs, reps := hreps, uniq := huniq, cover := hcover,
            best0 := ?_, best1 := ?_, bestMax := ?_, comp := ?_, ful := ?_ }
        · simp
        · intro b hb
          simp at hb; subst hb
          exact ⟨⟨1, id⟩, by simp, rfl⟩
        · intro c hc
          rw [hcl] at hc; simp at hc; subst hc; simp
        · simp only [h.comp, hsb]; omega
        · simp only [h.ful, hsb]; omega
      · rw [if_neg hb0]
        have hsb : 1 ≤ s.sizeBest := by
          cases hbb : s.best with
          | none => exact absurd hbb hb0
          | some b =>
            obtain ⟨c, hc, hcs⟩ := h.best1 b hbb
            obtain ⟨r, hr, hrs⟩ := h.reps c (List.mem_of_getElem? hc)
            have : 0 < cnt p.eqv s.msgs r := by
              unfold cnt; rw [List.countP_pos_iff]; exact ⟨_, hr, hp.eqv.refl r⟩
            omega
        refine
          { noSelf := h.noSelf, keys := hk, ids := hids, sub := fun x hx => hx, ckeys := hk,
            count := fun _ => rfl, absent := habs, reps := hreps, uniq := huniq, cover := hcover,
            comp := h.comp, ful := h.ful, best0 := ?_, best1 := ?_, bestMax := ?_ }
        · intro hb; exact absurd hb hb0
        · intro b hb
          obtain ⟨c, hc, hcs⟩ := h.best1 b hb
          refine ⟨c, ?_, hcs⟩
          have := (List.getElem?_eq_some_iff.1 hc).1
          simp only
          rw [List.getElem?_append_left this]; exact hc
        · intro c hc
          rcases List.mem_append.1 hc with hc | hc
          · exact h.bestMax c hc
          · simp at hc; subst hc; exact hsb
  · rw [if_neg hcnt]
    refine ⟨C, ?_⟩
    exact
      { noSelf := h.noSelf, keys := hk, ids := hids
        sub := fun x hx => List.mem_append_left _ (h.sub hx), ckeys := h.ckeys
        count := fun hc => absurd hc hcnt
        reps := h.reps, uniq := h.uniq, cover := h.cover, best0 := h.best0, best1 := h.best1
        bestMax := h.bestMax, comp := h.comp, ful := h.ful, absent := habs }

end Concord.Cert
