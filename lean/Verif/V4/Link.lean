import Verif.V4.Inv

/-!
# Linking the blocks of a state transfer
-/
set_option linter.unusedSimpArgs false
set_option linter.unusedVariables false
namespace Verif.V4
open Verif.Bytes Spec

section
variable {H : Nat → Block → Digest}

/-- the parts of a system that pruning leaves alone -/
structure SameBut (s s' : Sys) : Prop where
  dcats : s'.d.cats = s.d.cats
  st : s'.d.st = s.d.st
  kv : s'.d.kv = s.d.kv
  snap : s'.d.snap = s.d.snap
  rcv : s'.d.rcv = s.d.rcv
  last : s'.p.last = s.p.last
  stLast : s'.p.stLast = s.p.stLast
  lastSn : s'.p.lastSn = s.p.lastSn
  held : s'.p.held = s.p.held
  gen : s.p.genesis ≤ s'.p.genesis

theorem SameBut.refl (s : Sys) : SameBut s s := ⟨rfl, rfl, rfl, rfl, rfl, rfl, rfl, rfl, rfl, Nat.le_refl _⟩

theorem SameBut.trans {a b c : Sys} (h : SameBut a b) (h' : SameBut b c) : SameBut a c :=
  ⟨h'.dcats.trans h.dcats, h'.st.trans h.st, h'.kv.trans h.kv, h'.snap.trans h.snap, h'.rcv.trans h.rcv,
    h'.last.trans h.last, h'.stLast.trans h.stLast, h'.lastSn.trans h.lastSn, h'.held.trans h.held,
    Nat.le_trans h.gen h'.gen⟩

theorem deleteGenesis_same (s : Sys) : SameBut s (deleteGenesis s).2 := by
  unfold deleteGenesis
  split
  · exact SameBut.refl s
  · split
    · exact SameBut.refl s
    · exact ⟨rfl, rfl, rfl, rfl, rfl, rfl, rfl, rfl, rfl, Nat.le_succ _⟩

theorem deleteBlocksUntil_same {s s' : Sys} {n : Nat} {files : Option (Nat → Bool)} {r : R Nat}
    (hle : s.p.genesis ≤ s.p.last) (hd : deleteBlocksUntil s n files = (r, s')) : SameBut s s' := by
  unfold deleteBlocksUntil at hd
  by_cases h0 : s.p.genesis = 0
  · rw [if_pos h0] at hd; cases hd; exact SameBut.refl _
  · rw [if_neg h0] at hd
    by_cases h1 : ¬ s.p.genesis < n
    · rw [if_pos h1] at hd; cases hd; exact SameBut.refl _
    · rw [if_neg h1] at hd
      by_cases h2 : s.p.last = s.p.genesis
      · rw [if_pos h2] at hd; cases hd; exact SameBut.refl _
      · rw [if_neg h2] at hd
        cases hd
        refine ⟨rfl, rfl, rfl, rfl, rfl, rfl, rfl, rfl, rfl, ?_⟩
        show s.p.genesis ≤ min (s.p.last - 1) (n - 1) + 1
        omega

theorem pruneLoop_same (t : Nat) : ∀ (n : Nat) (s : Sys), SameBut s (pruneLoop t n s) := by
  intro n
  induction n with
  | zero => intro s; exact SameBut.refl s
  | succ n ih =>
    intro s
    unfold pruneLoop
    split
    · exact (deleteGenesis_same s).trans (ih _)
    · exact SameBut.refl s

theorem Inv.pruneLoop {hb : List Block} (t : Nat) : ∀ (n : Nat) {s : Sys}, Inv H hb s → Inv H hb (V4.pruneLoop t n s) := by
  intro n
  induction n with
  | zero => intro s h; exact h
  | succ n ih =>
    intro s h
    unfold V4.pruneLoop
    split
    · exact ih h.deleteGenesis
    · exact h

/-- pruning while linking brings the genesis up to the recorded one, without deleting the last block -/
theorem pruneLoop_genesis (t : Nat) : ∀ (n : Nat) {s : Sys}, 1 ≤ s.p.genesis → s.p.genesis ≤ s.p.last →
    s.p.last ≤ s.p.genesis + n → (pruneLoop t n s).p.genesis = max s.p.genesis (min t s.p.last) := by
  intro n
  induction n with
  | zero =>
    intro s h1 h2 h3
    show s.p.genesis = _
    omega
  | succ n ih =>
    intro s h1 h2 h3
    unfold pruneLoop
    by_cases hc : 1 ≤ s.p.genesis ∧ s.p.genesis < s.p.last ∧ s.p.genesis < t
    · rw [if_pos hc]
      have he : (deleteGenesis s).2.p.genesis = s.p.genesis + 1 := by
        unfold deleteGenesis
        rw [if_neg (by omega), if_neg (by omega)]
      have hl : (deleteGenesis s).2.p.last = s.p.last := (deleteGenesis_same s).last
      rw [ih (by rw [he]; omega) (by rw [he, hl]; omega) (by rw [he, hl]; omega), he, hl]
      omega
    · rw [if_neg hc]
      omega

theorem pruneOnLink_same (s : Sys) (u : Updates) : SameBut s (pruneOnLink s u).2 := by
  unfold pruneOnLink
  cases lookup u internalCat with
  | none => exact SameBut.refl s
  | some i =>
    cases i with
    | merkle kv d => exact SameBut.refl s
    | immutable kv => exact SameBut.refl s
    | versioned kv d =>
      dsimp only
      cases lookup kv genesisKey with
      | none => exact SameBut.refl s
      | some v => exact pruneLoop_same _ _ _

theorem Inv.pruneOnLink {hb : List Block} {s : Sys} (h : Inv H hb s) (u : Updates) : Inv H hb (V4.pruneOnLink s u).2 := by
  unfold V4.pruneOnLink
  cases lookup u internalCat with
  | none => exact h
  | some i =>
    cases i with
    | merkle kv d => exact h
    | immutable kv => exact h
    | versioned kv d =>
      dsimp only
      cases lookup kv genesisKey with
      | none => exact h
      | some v => exact h.pruneLoop _ _

/-- what a disk looks like to the next process -/
def DOk (H : Nat → Block → Digest) (hb : List Block) (d : Disk) : Prop := ∃ p, Inv H hb ⟨d, p⟩

theorem Inv.disk {hb : List Block} {s : Sys} (h : Inv H hb s) : DOk H hb s.d := ⟨s.p, h⟩

theorem mkBatch_disk (s : Sys) (u : Updates) : (V4.mkBatch H s u).2.d = s.d := by
  unfold V4.mkBatch
  cases parentFor H s with
  | error e => rfl
  | ok par =>
    dsimp only
    cases latestOps s.d.cats (s.p.last + 1) u with
    | error e => rfl
    | ok ops => rfl

/-- one block of the state transfer chain -/
theorem Inv.linkOne {hb : List Block} {s : Sys} (h : Inv H hb s) {u : Updates} (hu : UpdOk s.d.cats u)
    (hsz : hb.length + 1 < 2 ^ 64) {r : R Unit} {s' : Sys} (hl : linkOne H s u = (r, s')) :
    s'.d.cats = s.d.cats ∧ s'.p.stLast = s.p.stLast ∧
    ((∃ e, r = .error e ∧ s'.d.st = s.d.st ∧ DOk H hb s'.d) ∨
    (s'.d.st = s.d.st.del (hb.length + 1) ∧ Inv H (hb ++ [⟨digestOf H hb hb.length, u⟩]) s')) := by
  have h1 := h.onNew u
  unfold V4.linkOne at hl
  have hcs : (V4.onNew s u).2.d.cats = s.d.cats ∧ (V4.onNew s u).2.d.st = s.d.st ∧
      (V4.onNew s u).2.p.stLast = s.p.stLast := by
    rcases onNew_shape s u with he | ⟨st, he⟩
    · rw [he]; exact ⟨rfl, rfl, rfl⟩
    · rw [he]; exact ⟨rfl, rfl, rfl⟩
  cases ho : V4.onNew s u with
  | mk rsn s1 =>
    rw [ho] at h1 hl hcs
    dsimp only at h1 hcs
    obtain ⟨hcats, hst, hstl⟩ := hcs
    cases rsn with
    | error e =>
      cases hl
      exact ⟨hcats, hstl, Or.inl ⟨e, rfl, hst, h1.disk⟩⟩
    | ok sn =>
      dsimp only at hl
      have hmd := mkBatch_disk (H := H) s1 u
      have hmp : (V4.mkBatch H s1 u).2.p.stLast = s1.p.stLast := by
        unfold V4.mkBatch
        cases V4.parentFor H s1 with
        | error e => rfl
        | ok par =>
          dsimp only
          cases latestOps s1.d.cats (s1.p.last + 1) u with
          | error e => rfl
          | ok ops => rfl
      cases hm : V4.mkBatch H s1 u with
      | mk r2 s2 =>
        rw [hm] at hl hmd hmp
        dsimp only at hmd hmp
        cases r2 with
        | error e =>
          cases hl
          refine ⟨by rw [hmd, hcats], by rw [hmp, hstl], Or.inl ⟨e, rfl, by rw [hmd, hst], ?_⟩⟩
          rw [hmd]
          exact h1.disk
        | ok x =>
          obtain ⟨b, ops⟩ := x
          dsimp only at hl
          obtain ⟨hbq, hops, hs2⟩ := h1.mkBatch hm
          have hw := h1.writeBlock (delSt := true) (b := b) (ops := ops) (by rw [hbq])
            (by rw [hbq, hcats]; exact hu) (by rw [hbq]; exact hops) hsz
          rw [← hs2] at hw
          have hp := hw.pruneOnLink u
          have hps := pruneOnLink_same (V4.writeBlock s2 b ops true) u
          have hst2 : s2.d.st = s.d.st := by rw [hmd, hst]
          have hlast2 : s2.p.last = hb.length := by
            have := hw.last
            have e : (V4.writeBlock s2 b ops true).p.last = s2.p.last + 1 := rfl
            rw [e] at this
            simp at this
            exact this
          have hwst : (V4.writeBlock s2 b ops true).d.st = s.d.st.del (hb.length + 1) := by
            show s2.d.st.del (s2.p.last + 1) = _
            rw [hst2, hlast2]
          cases hr : V4.pruneOnLink (V4.writeBlock s2 b ops true) u with
          | mk r3 s3 =>
            rw [hr] at hl hp hps
            dsimp only at hp hps
            rw [hbq] at hp
            have hc3 : s3.d.cats = s.d.cats := by
              rw [hps.dcats]
              show s2.d.cats = _
              rw [hmd, hcats]
            have hsl3 : s3.p.stLast = s.p.stLast := by
              rw [hps.stLast]
              show s2.p.stLast = _
              rw [hmp, hstl]
            cases r3 with
            | error e =>
              cases hl
              exact ⟨hc3, hsl3, Or.inr ⟨by rw [hps.st, hwst], hp⟩⟩
            | ok _ =>
              cases hl
              refine ⟨hc3, ?_, Or.inr ⟨?_, hp.setSn sn⟩⟩
              · show (V4.setSn s3.p sn).stLast = _
                unfold V4.setSn
                split
                · exact hsl3
                · exact hsl3
              · show s3.d.st = _
                rw [hps.st, hwst]

/-- the blocks of a state transfer are well formed -/
def StOk (cats : Cats) (st : BMap) : Prop := ∀ i b, st.get i = some b → UpdOk cats b.updates

theorem extends_refl (st : BMap) {hb : List Block} (h : ChainOk H hb) : Extends H hb st hb := by
  refine ⟨⟨[], by simp⟩, h, ?_⟩
  intro i b hi hb'
  rw [List.getElem?_eq_none hi] at hb'
  cases hb'

theorem extends_cons {st st' : BMap} {hb hb' : List Block} {b : Block}
    (hs : st.get (hb.length + 1) = some b) (hst : ∀ i b, st'.get i = some b → st.get i = some b)
    (h : Extends H (hb ++ [⟨digestOf H hb hb.length, b.updates⟩]) st' hb') : Extends H hb st hb' := by
  obtain ⟨⟨t, ht⟩, hc, hu⟩ := h
  refine ⟨⟨⟨digestOf H hb hb.length, b.updates⟩ :: t, by rw [← ht]; simp⟩, hc, ?_⟩
  intro i b' hi hb'
  by_cases he : i = hb.length
  · subst he
    refine ⟨b, hs, ?_⟩
    rw [← ht] at hb'
    simp at hb'
    rw [← hb']
  · obtain ⟨b0, h0, h1⟩ := hu i b' (by simp; omega) hb'
    exact ⟨b0, hst _ _ h0, h1⟩

theorem Inv.linkLoop : ∀ (n : Nat) {hb : List Block} {s : Sys}, Inv H hb s → StOk s.d.cats s.d.st →
    hb.length + n < 2 ^ 64 → ∀ {r : R Bool} {s' : Sys}, linkLoop H n s = (r, s') →
    ∃ hb', Extends H hb s.d.st hb' ∧ hb'.length ≤ hb.length + n ∧ s'.p.stLast = s.p.stLast ∧
      s'.d.cats = s.d.cats ∧ (∀ i b, s'.d.st.get i = some b → s.d.st.get i = some b) ∧
      ((∃ e, r = .error e ∧ DOk H hb' s'.d) ∨ ((∃ x, r = .ok x) ∧ Inv H hb' s' ∧
        (r = .ok true → hb'.length = hb.length + n))) := by
  intro n
  induction n with
  | zero =>
    intro hb s h hst hsz r s' hl
    cases hl
    exact ⟨hb, extends_refl _ h.chain, Nat.le_refl _, rfl, rfl, fun i b h => h, Or.inr ⟨⟨_, rfl⟩, h, fun _ => rfl⟩⟩
  | succ n ih =>
    intro hb s h hst hsz r s' hl
    unfold V4.linkLoop at hl
    rw [h.last] at hl
    cases hg : s.d.st.get (hb.length + 1) with
    | none =>
      rw [hg] at hl
      cases hl
      exact ⟨hb, extends_refl _ h.chain, by omega, rfl, rfl, fun i b h => h, Or.inr ⟨⟨_, rfl⟩, h, by intro hx; cases hx⟩⟩
    | some b =>
      rw [hg] at hl
      dsimp only at hl
      cases ho : V4.linkOne H s b.updates with
      | mk r1 s1 =>
        rw [ho] at hl
        obtain ⟨hc1, hsl1, hrest⟩ := h.linkOne (hst _ _ hg) (by omega) ho
        have hdel : ∀ i b', (s.d.st.del (hb.length + 1)).get i = some b' → s.d.st.get i = some b' := by
          intro i b' hi
          rw [BMap.get_del] at hi
          split at hi
          · cases hi
          · exact hi
        rcases hrest with ⟨e, he, hst1, hd⟩ | ⟨hst1, h1⟩
        · subst he
          cases hl
          refine ⟨hb, extends_refl _ h.chain, by omega, hsl1, hc1, ?_, Or.inl ⟨e, rfl, hd⟩⟩
          intro i b' hi
          rw [hst1] at hi
          exact hi
        · have hst' : ∀ i b', s1.d.st.get i = some b' → s.d.st.get i = some b' := by
            intro i b' hi
            rw [hst1] at hi
            exact hdel i b' hi
          cases r1 with
          | error e =>
            cases hl
            refine ⟨_, extends_cons hg hst' (extends_refl _ h1.chain), by simp, hsl1, hc1, hst', Or.inl ⟨e, rfl, h1.disk⟩⟩
          | ok _ =>
            dsimp only at hl
            obtain ⟨hb', hex, hlen, hsl, hc, hsub, hres⟩ := ih h1 (by
              intro i b' hi
              rw [hc1]
              exact hst i b' (hst' i b' hi)) (by simp; omega) hl
            have e : (hb ++ [(⟨digestOf H hb hb.length, b.updates⟩ : Block)]).length = hb.length + 1 := by simp
            rw [e] at hlen hres
            refine ⟨hb', extends_cons hg hst' hex, by omega, by rw [hsl, hsl1], by rw [hc, hc1],
              fun i b' hi => hst' i b' (hsub i b' hi), ?_⟩
            rcases hres with hres | ⟨hx, hi, hlast⟩
            · exact Or.inl hres
            · exact Or.inr ⟨hx, hi, fun hr => by rw [hlast hr]; omega⟩

theorem Inv.setStLast {hb : List Block} {s : Sys} (h : Inv H hb s) (n : Nat) :
    Inv H hb { s with p := { s.p with stLast := n } } := h.frame rfl rfl rfl rfl rfl rfl rfl

theorem Inv.linkSTChain {hb : List Block} {s : Sys} (h : Inv H hb s) (hst : StOk s.d.cats s.d.st)
    (hsz : s.p.stLast < 2 ^ 64) {r : R Unit} {s' : Sys} (hl : linkSTChain H s = (r, s')) :
    ∃ hb', Extends H hb s.d.st hb' ∧ s'.d.cats = s.d.cats ∧
      (∀ i b, s'.d.st.get i = some b → s.d.st.get i = some b) ∧
      ((∃ e, r = .error e ∧ DOk H hb' s'.d) ∨ (r = .ok () ∧ Inv H hb' s')) := by
  unfold V4.linkSTChain at hl
  by_cases h0 : s.p.stLast = 0
  · rw [if_pos h0] at hl
    cases hl
    exact ⟨hb, extends_refl _ h.chain, rfl, fun i b h => h, Or.inr ⟨rfl, h⟩⟩
  · rw [if_neg h0] at hl
    have hlast := h.last
    have hsize := h.size
    cases ho : V4.linkLoop H (s.p.stLast - s.p.last) s with
    | mk r1 s1 =>
      rw [ho] at hl
      obtain ⟨hb', hex, hlen, hsl, hc, hsub, hres⟩ := Inv.linkLoop _ h hst (by omega) ho
      rcases hres with ⟨e, he, hd⟩ | ⟨⟨x, hx⟩, hi, _⟩
      · subst he
        cases hl
        exact ⟨hb', hex, hc, hsub, Or.inl ⟨e, rfl, hd⟩⟩
      · subst hx
        cases x with
        | true => cases hl; exact ⟨hb', hex, hc, hsub, Or.inr ⟨rfl, hi.setStLast 0⟩⟩
        | false => cases hl; exact ⟨hb', hex, hc, hsub, Or.inr ⟨rfl, hi⟩⟩

/-- two extensions of the same length are the same -/
theorem extends_unique {hb hb1 hb2 : List Block} {st : BMap} (h1 : Extends H hb st hb1) (h2 : Extends H hb st hb2)
    (hl : hb1.length = hb2.length) : hb1 = hb2 := by
  obtain ⟨⟨t1, e1⟩, c1, u1⟩ := h1
  obtain ⟨⟨t2, e2⟩, c2, u2⟩ := h2
  have key : ∀ n : Nat, ∀ i : Nat, i < n → hb1[i]? = hb2[i]? := by
    intro n
    induction n with
    | zero => intro i hi; omega
    | succ n ih =>
      intro i hi
      by_cases hlt : i < n
      · exact ih i hlt
      · have hin : i = n := by omega
        subst hin
        by_cases hib : i < hb.length
        · rw [← e1, ← e2, List.getElem?_append_left hib, List.getElem?_append_left hib]
        · by_cases hi1 : i < hb1.length
          · have g1 : hb1[i]? = some hb1[i] := List.getElem?_eq_getElem hi1
            have hi2 : i < hb2.length := by omega
            have g2 : hb2[i]? = some hb2[i] := List.getElem?_eq_getElem hi2
            obtain ⟨b0, hs0, hu0⟩ := u1 i _ (by omega) g1
            obtain ⟨b0', hs0', hu0'⟩ := u2 i _ (by omega) g2
            rw [hs0] at hs0'
            cases hs0'
            have p1 := c1 i _ g1
            have p2 := c2 i _ g2
            have hd : digestOf H hb1 i = digestOf H hb2 i := by
              cases i with
              | zero => rfl
              | succ j => rw [digestOf_succ, digestOf_succ, ih j (by omega)]
            rw [g1, g2]
            congr 1
            have q1 : hb1[i] = ⟨hb1[i].parent, hb1[i].updates⟩ := rfl
            have q2 : hb2[i] = ⟨hb2[i].parent, hb2[i].updates⟩ := rfl
            rw [q1, q2, p1, p2, hd, hu0, hu0']
          · rw [List.getElem?_eq_none (by omega), List.getElem?_eq_none (by omega)]
  apply List.ext_getElem?
  intro i
  exact key (i + 1) i (by omega)

theorem prefix_take {hb l : List Block} (h : hb <+: l) : l.take hb.length = hb := by
  obtain ⟨t, ht⟩ := h
  rw [← ht]
  simp

/-- when the state transfer delivers the blocks of a chain that the replica's own history is a prefix of, linking
gives exactly those blocks -/
theorem extends_source {hb hb' src : List Block} {st : BMap} (h : Extends H hb st hb') (hs : ChainOk H src)
    (hp : hb <+: src) (hst : ∀ i b, hb.length ≤ i → st.get (i + 1) = some b → src[i]? = some b) :
    hb' <+: src := by
  obtain ⟨⟨t, e⟩, hc, hu⟩ := h
  have hle : hb'.length ≤ src.length := by
    rcases Nat.lt_or_ge src.length hb'.length with hlt | hge
    · exfalso
      obtain ⟨b0, h0, _⟩ := hu src.length hb'[src.length] hp.length_le (List.getElem?_eq_getElem hlt)
      have := hst _ _ hp.length_le h0
      rw [List.getElem?_eq_none (Nat.le_refl _)] at this
      cases this
    · exact hge
  have : hb' = src.take hb'.length := by
    refine extends_unique (st := st) (hb := hb) ⟨⟨t, e⟩, hc, hu⟩ ⟨?_, chainOk_take hs _, ?_⟩ ?_
    · have hl : hb.length ≤ hb'.length := by rw [← e]; simp
      rw [← prefix_take hp]
      exact List.take_prefix_take_left hl
    · intro i b hi hib
      by_cases hlt : i < hb'.length
      · rw [List.getElem?_take_of_lt hlt] at hib
        obtain ⟨b0, h0, _⟩ := hu i hb'[i] hi (List.getElem?_eq_getElem hlt)
        have := hst _ _ hi h0
        rw [hib] at this
        cases this
        exact ⟨b, h0, rfl⟩
      · rw [List.getElem?_take, if_neg hlt] at hib
        cases hib
    · rw [List.length_take]; omega
  rw [this]
  exact List.take_prefix _ _

end
end Verif.V4
