import Verif.V4.Recovery
import Verif.V4.Link
import Verif.V4.Reads

/-!
# All the executions of a replica's storage

`Reach H ordered hb s`: after some sequence of operations, crashes and restarts the system is `s` and its history
is `hb`.
-/
set_option linter.unusedSimpArgs false
set_option linter.unusedVariables false
namespace Verif.V4
open Verif.Bytes Spec

/-- The sequence number of the updates is not smaller than that of the blocks this process added before, and is
present once there was one. -/
def InOrder (s : Sys) (u : Updates) : Prop := ∃ n, seqNumOf u = .ok n ∧ s.p.lastSn.getD 0 ≤ n

/-- The block ids after which the blocks of the current sequence number `l` start: all the blocks after `k` carry `l`,
block `k` does not. -/
def Boundary (hb : List Block) (l k : Nat) : Prop :=
  k ≤ hb.length ∧ (∀ i b, k ≤ i → hb[i]? = some b → seqNumOf b.updates = .ok l) ∧
    ∀ b, 1 ≤ k → hb[k - 1]? = some b → seqNumOf b.updates ≠ .ok l

/-- What a crash leaves on disk: the disk between two operations, or a snapshot stored by an `add` that crashed or
threw before its write. -/
inductive CrashAt (s : Sys) : Disk → Prop
  | idle : CrashAt s s.d
  | inAdd (u : Updates) : CrashAt s (onNew s u).2.d

/-- The executions.  `ordered` says that no state transfer and no failed `add` happened since the last complete start,
and the sequence numbers were in order. -/
inductive Reach (H : Nat → Block → Digest) : (ordered : Bool) → List Block → Sys → Prop
  /-- a new blockchain -/
  | init {cats types p} : Cats.init [] (some types) = .ok cats → cats.get internalCat = some (.versioned, p) →
      Reach H true [] ⟨{ cats := cats }, {}⟩
  /-- `add` -/
  | add {o hb s u u' id s'} : Reach H o hb s → UpdOk s.d.cats u → InOrder s u → hb.length + 1 < 2 ^ 64 →
      V4.add H s u = (.ok id, s') → addGenesisKey s.p.genesis u = .ok u' →
      Reach H o (hb ++ [⟨digestOf H hb hb.length, u'⟩]) s'
  /-- `add` with any sequence number -/
  | addAny {o hb s u u' id s'} : Reach H o hb s → UpdOk s.d.cats u → hb.length + 1 < 2 ^ 64 →
      V4.add H s u = (.ok id, s') → addGenesisKey s.p.genesis u = .ok u' →
      Reach H false (hb ++ [⟨digestOf H hb hb.length, u'⟩]) s'
  /-- `deleteBlocksUntil` -/
  | prune {o hb s n files r s'} : Reach H o hb s → deleteBlocksUntil s n files = (.ok r, s') → Reach H o hb s'
  /-- `deleteGenesisBlock` -/
  | deleteGenesis {o hb s s'} : Reach H o hb s → deleteGenesis s = (.ok (), s') → Reach H o hb s'
  /-- a compaction of the latest keys -/
  | compact {o hb s} (sel) : Reach H o hb s → Reach H o hb (compact s sel)
  /-- `addBlockToSTChain`, linking or not -/
  | addST {o hb hb' s id b lastBlock s'} : Reach H o hb s → StOk s.d.cats (s.d.st.put id b) →
      max s.p.stLast id < 2 ^ 64 → addToST H s id b lastBlock = (.ok (), s') →
      Extends H hb (s.d.st.put id b) hb' → hb'.length = s'.p.last → Reach H false hb' s'
  /-- a linking that did part of its work -/
  | linkSome {o hb hb' s n r s'} : Reach H o hb s → StOk s.d.cats s.d.st → hb.length + n < 2 ^ 64 →
      linkLoop H n s = (.ok r, s') → Extends H hb s.d.st hb' → hb'.length = s'.p.last → Reach H false hb' s'
  /-- a crash or stop and a start that has no block to delete, whatever crashes happen during the start -/
  | restart {o hb s d mtd s'} : Reach H o hb s → CrashAt s d → s.d.st = [] → s.p.last ≤ mtd →
      RSteps H mtd (.down d) (.up s') → Reach H true hb s'
  /-- a crash or stop during a state transfer, and a start, where the blocks received are linked -/
  | restartST {o hb hb' s d view s'} : Reach H o hb s → CrashAt s d → StOk s.d.cats s.d.st → s.d.st.maxKey < 2 ^ 64 →
      (∃ n d1, recoverRO d n = .ok d1 ∧ openSys H (forget d1 view) = .ok s') →
      Extends H hb s.d.st hb' → hb'.length = s'.p.last → Reach H false hb' s'
  /-- a crash in the middle of sequence number `l`, and a start that deletes its blocks, whatever crashes happen
  during the start -/
  | recover {hb s l k s'} : Reach H true hb s → s.d.st = [] → s.p.held = true → s.p.lastSn = some l →
      Boundary hb l k → s.p.genesis ≤ k → 1 ≤ k →
      RSteps H k (.down s.d) (.up s') → Reach H true (hb.take k) s'

section
variable {H : Nat → Block → Digest}

/-- what is known of the snapshot held by a process -/
structure Held (hb : List Block) (s : Sys) : Prop where
  out : ∃ k view stable l, s.p.lastSn = some l ∧ s.d.snap = some ⟨view, stable⟩ ∧ stable < l ∧ k < hb.length ∧
    (∀ i b, k ≤ i → hb[i]? = some b → seqNumOf b.updates = .ok l) ∧
    (∀ b, 1 ≤ k → hb[k - 1]? = some b → ∃ n, seqNumOf b.updates = .ok n ∧ n ≤ stable) ∧
    KvOk s.d.cats hb k s.p.genesis view

/-- the invariant on snapshots and sequence numbers -/
structure Ord (hb : List Block) (s : Sys) : Prop where
  rcv : ∀ i, s.d.rcv i = none
  sn : ∀ l, s.p.lastSn = some l → 0 < l ∧ ∃ b, hb[hb.length - 1]? = some b ∧ seqNumOf b.updates = .ok l
  held : s.p.held = true → Held hb s

/-- without a stored snapshot no block has a sequence number -/
structure Sn0 (hb : List Block) (s : Sys) : Prop where
  out : s.d.snap = none → s.p.lastSn = none ∧ ∀ b ∈ hb, seqNumOf b.updates = .ok 0

/-- the parts the snapshot invariants look at are the same, the genesis may have grown -/
theorem Ord.frame {hb : List Block} {s s' : Sys} (h : Ord hb s) (hr : s'.d.rcv = s.d.rcv) (hl : s'.p.lastSn = s.p.lastSn)
    (hh : s'.p.held = s.p.held) (hs : s'.d.snap = s.d.snap) (hc : s'.d.cats = s.d.cats)
    (hg : s.p.genesis ≤ s'.p.genesis) : Ord hb s' := by
  refine ⟨by rw [hr]; exact h.rcv, by rw [hl]; exact h.sn, ?_⟩
  rw [hh]
  intro hx
  obtain ⟨k, view, stable, l, h1, h2, h3, h4, h5, h6, h7⟩ := (h.held hx).out
  exact ⟨k, view, stable, l, by rw [hl]; exact h1, by rw [hs]; exact h2, h3, h4, h5, h6, by rw [hc]; exact h7.mono hg⟩

theorem Sn0.frame {hb : List Block} {s s' : Sys} (h : Sn0 hb s) (hl : s'.p.lastSn = s.p.lastSn)
    (hs : s'.d.snap = s.d.snap) : Sn0 hb s' := ⟨by rw [hs, hl]; exact h.out⟩

theorem Ord.same {hb : List Block} {s s' : Sys} (h : Ord hb s) (hs : SameBut s s') : Ord hb s' :=
  h.frame hs.rcv hs.lastSn hs.held hs.snap hs.dcats hs.gen

theorem Sn0.same {hb : List Block} {s s' : Sys} (h : Sn0 hb s) (hs : SameBut s s') : Sn0 hb s' :=
  h.frame hs.lastSn hs.snap

/-- the genesis key does not change the sequence number -/
theorem seqNumOf_genesis {g : Nat} {u u' : Updates} (h : addGenesisKey g u = .ok u') : seqNumOf u' = seqNumOf u := by
  unfold addGenesisKey at h
  cases hl : lookup u internalCat with
  | none =>
    rw [hl] at h
    cases h
    unfold seqNumOf
    rw [lookup_upsert, if_pos rfl, hl]
    rfl
  | some i =>
    rw [hl] at h
    cases i with
    | merkle kv d => cases h
    | immutable kv => cases h
    | versioned kv d =>
      cases h
      unfold seqNumOf
      rw [lookup_upsert, if_pos rfl, hl]
      dsimp only
      rw [lookup_upsert, if_neg (by decide)]

/-- what `onNew` does with a positive sequence number that is in order -/
theorem onNew_cases {s : Sys} {u : Updates} {n : Nat} (hn : seqNumOf u = .ok n) (hle : s.p.lastSn.getD 0 ≤ n) :
    (n = 0 ∧ onNew s u = (.ok 0, s)) ∨
    (0 < n ∧ s.p.lastSn = some n ∧ onNew s u = (.ok n, s)) ∨
    (0 < n ∧ s.p.lastSn = none ∧ s.d.snap.isSome ∧ onNew s u = (.ok n, s)) ∨
    (0 < n ∧ (∃ l, s.p.lastSn = some l ∧ l < n) ∧
      onNew s u = (.ok n, ⟨{ s.d with snap := some ⟨s.d.kv, s.p.lastSn.getD 0⟩ }, { s.p with held := true }⟩)) ∨
    (0 < n ∧ s.p.lastSn = none ∧ s.d.snap = none ∧
      onNew s u = (.ok n, ⟨{ s.d with snap := some ⟨s.d.kv, 0⟩ }, { s.p with held := true }⟩)) := by
  unfold onNew
  rw [hn]
  dsimp only
  by_cases h0 : n = 0
  · rw [if_pos h0]
    exact Or.inl ⟨h0, rfl⟩
  · rw [if_neg h0]
    cases hl : s.p.lastSn with
    | some l =>
      rw [hl] at hle
      have hle : l ≤ n := hle
      dsimp only
      by_cases h1 : l = n
      · rw [if_pos h1]
        subst h1
        exact Or.inr (Or.inl ⟨by omega, rfl, rfl⟩)
      · rw [if_neg h1, if_neg (by omega)]
        exact Or.inr (Or.inr (Or.inr (Or.inl ⟨by omega, ⟨l, rfl, by omega⟩, rfl⟩)))
    | none =>
      dsimp only
      cases hs : s.d.snap with
      | some x =>
        rw [if_pos (show (some x).isSome = true from rfl)]
        exact Or.inr (Or.inr (Or.inl ⟨by omega, rfl, rfl, rfl⟩))
      | none =>
        rw [if_neg (by simp)]
        exact Or.inr (Or.inr (Or.inr (Or.inr ⟨by omega, rfl, rfl, rfl⟩)))

/-- the shape of a successful `add` -/
theorem add_shape {s : Sys} {u u' : Updates} (hk : addGenesisKey s.p.genesis u = .ok u') {id : Nat} {s' : Sys}
    (ha : add H s u = (.ok id, s')) :
    ∃ sn, (V4.onNew s u).1 = .ok sn ∧ s'.d.snap = (V4.onNew s u).2.d.snap ∧ s'.d.rcv = s.d.rcv ∧
      s'.d.cats = s.d.cats ∧ s'.p.held = (V4.onNew s u).2.p.held ∧ s'.d.st = s.d.st ∧ s'.p.stLast = s.p.stLast ∧
      s.p.genesis ≤ s'.p.genesis ∧
      s'.p.lastSn = if sn = 0 then s.p.lastSn else some sn := by
  unfold V4.add at ha
  rw [hk] at ha
  have hsh := onNew_shape s u
  cases ho : V4.onNew s u with
  | mk rsn s1 =>
    rw [ho] at ha hsh
    dsimp only at ha hsh
    cases hm : V4.mkBatch H s1 u' with
    | mk r s2 =>
      have hmd := mkBatch_disk (H := H) s1 u'
      rw [hm] at ha hmd
      dsimp only at hmd
      cases r with
      | error e => cases ha
      | ok x =>
        obtain ⟨b, ops⟩ := x
        dsimp only at ha
        cases rsn with
        | error e => cases ha
        | ok sn =>
          have hs2 : s2.p.held = s1.p.held ∧ s2.p.lastSn = s1.p.lastSn ∧ s2.p.genesis = s1.p.genesis ∧
              s2.p.stLast = s1.p.stLast := by
            unfold V4.mkBatch at hm
            cases hp : V4.parentFor H s1 with
            | error e => rw [hp] at hm; cases hm
            | ok par =>
              rw [hp] at hm
              dsimp only at hm
              cases hlo : latestOps s1.d.cats (s1.p.last + 1) u' with
              | error e => rw [hlo] at hm; cases hm
              | ok ops' =>
                rw [hlo] at hm
                cases hm
                exact ⟨rfl, rfl, rfl, rfl⟩
          have hs1 : s1.d.rcv = s.d.rcv ∧ s1.d.cats = s.d.cats ∧ s1.d.st = s.d.st ∧ s1.p.lastSn = s.p.lastSn ∧
              s1.p.genesis = s.p.genesis ∧ s1.p.stLast = s.p.stLast := by
            rcases hsh with h | ⟨st, h⟩
            · rw [h]; exact ⟨rfl, rfl, rfl, rfl, rfl, rfl⟩
            · rw [h]; exact ⟨rfl, rfl, rfl, rfl, rfl, rfl⟩
          have hset : ∀ (p : Proc) n, (V4.setSn p n).held = p.held ∧ (V4.setSn p n).genesis = p.genesis ∧
              (V4.setSn p n).stLast = p.stLast ∧
              (V4.setSn p n).lastSn = if n = 0 then p.lastSn else some n := by
            intro p n
            unfold V4.setSn
            split
            · exact ⟨rfl, rfl, rfl, rfl⟩
            · exact ⟨rfl, rfl, rfl, rfl⟩
          cases ha
          obtain ⟨e1, e2, e3, e4⟩ := hset (V4.writeBlock s2 b ops false).p sn
          refine ⟨sn, rfl, ?_, ?_, ?_, ?_, ?_, ?_, ?_, ?_⟩
          · show s2.d.snap = _
            rw [hmd]
          · show s2.d.rcv = _
            rw [hmd, hs1.1]
          · show s2.d.cats = _
            rw [hmd, hs1.2.1]
          · show (V4.setSn _ sn).held = _
            rw [e1]
            exact hs2.1
          · show s2.d.st = _
            rw [hmd, hs1.2.2.1]
          · show (V4.setSn _ sn).stLast = _
            rw [e3]
            show s2.p.stLast = _
            rw [hs2.2.2.2, hs1.2.2.2.2.2]
          · show s.p.genesis ≤ (V4.setSn _ sn).genesis
            rw [e2]
            show s.p.genesis ≤ if s2.p.genesis = 0 then _ else s2.p.genesis
            rw [hs2.2.2.1, hs1.2.2.2.2.1]
            split <;> omega
          · show (V4.setSn _ sn).lastSn = _
            rw [e4]
            show (if sn = 0 then s2.p.lastSn else some sn) = _
            rw [hs2.2.1, hs1.2.2.2.1]

/-- appending a block keeps what is known of the blocks before -/
theorem get_append {hb : List Block} {x : Block} {i : Nat} {b : Block} (h : (hb ++ [x])[i]? = some b) :
    (i < hb.length ∧ hb[i]? = some b) ∨ (i = hb.length ∧ x = b) := by
  by_cases hlt : i < hb.length
  · rw [List.getElem?_append_left hlt] at h
    exact Or.inl ⟨hlt, h⟩
  · have h1 := getElem?_lt h
    have h2 : i = hb.length := by simp at h1; omega
    subst h2
    rw [List.getElem?_append_right (Nat.le_refl _), Nat.sub_self] at h
    cases h
    exact Or.inr ⟨rfl, rfl⟩

theorem KvOk.append {cats : Cats} {hb : List Block} {x : Block} {k g : Nat} {kv : Kv} (h : KvOk cats hb k g kv)
    (hk : k ≤ hb.length) : KvOk cats (hb ++ [x]) k g kv :=
  h.congr fun i hi => by rw [List.getElem?_append_left (by omega)]

/-- a block in order keeps the snapshot invariant -/
theorem Ord.add {hb : List Block} {s s' : Sys} (hi : Inv H hb s) (h : Ord hb s) (h0 : Sn0 hb s) {u u' : Updates}
    (hio : InOrder s u) (hk : addGenesisKey s.p.genesis u = .ok u') {id : Nat} (ha : V4.add H s u = (.ok id, s'))
    (dg : Digest) : Ord (hb ++ [⟨dg, u'⟩]) s' := by
  obtain ⟨n, hn, hle⟩ := hio
  obtain ⟨sn, e1, e2, e3, e4, e5, _, _, e7, e8⟩ := add_shape hk ha
  have hsn' : seqNumOf u' = .ok n := by rw [seqNumOf_genesis hk, hn]
  have hlen : (hb ++ [(⟨dg, u'⟩ : Block)]).length - 1 = hb.length := by simp
  have hlast : (hb ++ [(⟨dg, u'⟩ : Block)])[hb.length]? = some ⟨dg, u'⟩ := by simp
  have snok : 0 < n → s'.p.lastSn = some n → ∀ l, s'.p.lastSn = some l → 0 < l ∧
      ∃ b, (hb ++ [(⟨dg, u'⟩ : Block)])[(hb ++ [(⟨dg, u'⟩ : Block)]).length - 1]? = some b ∧ seqNumOf b.updates = .ok l := by
    intro hpos hls l hl
    rw [hls] at hl
    cases hl
    rw [hlen]
    exact ⟨hpos, _, hlast, hsn'⟩
  rcases onNew_cases hn hle with ⟨hz, ho⟩ | ⟨hpos, hl, ho⟩ | ⟨hpos, hl, hsm, ho⟩ | ⟨hpos, ⟨l, hl, hlt⟩, ho⟩ | ⟨hpos, hl, hsm, ho⟩
  · rw [ho] at e1 e2 e5
    cases e1
    rw [if_pos rfl] at e8
    have hnone : s.p.lastSn = none := by
      cases hc : s.p.lastSn with
      | none => rfl
      | some l =>
        rw [hc] at hle
        have := (h.sn l hc).1
        have hle : l ≤ n := hle
        omega
    refine ⟨by rw [e3]; exact h.rcv, ?_, ?_⟩
    · intro l hl
      rw [e8, hnone] at hl
      cases hl
    · intro hh
      rw [e5] at hh
      obtain ⟨k, view, stable, l, h1, _⟩ := (h.held hh).out
      rw [hnone] at h1
      cases h1
  · rw [ho] at e1 e2 e5
    cases e1
    rw [if_neg (by omega)] at e8
    refine ⟨by rw [e3]; exact h.rcv, snok hpos e8, ?_⟩
    intro hh
    rw [e5] at hh
    obtain ⟨k, view, stable, l, h1, h2, h3, h4, h5, h6, h7⟩ := (h.held hh).out
    rw [hl] at h1
    cases h1
    refine ⟨k, view, stable, n, e8, by rw [e2]; exact h2, h3, by simp; omega, ?_, ?_, ?_⟩
    · intro i b hki hib
      rcases get_append hib with ⟨_, hib⟩ | ⟨_, hx⟩
      · exact h5 i b hki hib
      · subst hx; exact hsn'
    · intro b h1k hib
      rcases get_append hib with ⟨_, hib⟩ | ⟨hx, _⟩
      · exact h6 b h1k hib
      · omega
    · rw [e4]
      exact (h7.append (by omega)).mono e7
  · rw [ho] at e1 e2 e5
    cases e1
    rw [if_neg (by omega)] at e8
    refine ⟨by rw [e3]; exact h.rcv, snok hpos e8, ?_⟩
    intro hh
    rw [e5] at hh
    obtain ⟨k, view, stable, l, h1, _⟩ := (h.held hh).out
    rw [hl] at h1
    cases h1
  · rw [ho] at e1 e2 e5
    cases e1
    rw [if_neg (by omega)] at e8
    refine ⟨by rw [e3]; exact h.rcv, snok hpos e8, ?_⟩
    intro _
    refine ⟨hb.length, s.d.kv, l, n, e8, ?_, hlt, by simp, ?_, ?_, ?_⟩
    · rw [e2, hl]; rfl
    · intro i b hki hib
      rcases get_append hib with ⟨hlt', _⟩ | ⟨_, hx⟩
      · omega
      · subst hx; exact hsn'
    · intro b h1k hib
      obtain ⟨_, b', hb', hs'⟩ := h.sn l hl
      rcases get_append hib with ⟨_, hib⟩ | ⟨hx, _⟩
      · rw [hb'] at hib
        cases hib
        exact ⟨l, hs', Nat.le_refl _⟩
      · omega
    · rw [e4]
      exact (hi.kv.append (Nat.le_refl _)).mono e7
  · rw [ho] at e1 e2 e5
    cases e1
    rw [if_neg (by omega)] at e8
    refine ⟨by rw [e3]; exact h.rcv, snok hpos e8, ?_⟩
    intro _
    refine ⟨hb.length, s.d.kv, 0, n, e8, e2, hpos, by simp, ?_, ?_, ?_⟩
    · intro i b hki hib
      rcases get_append hib with ⟨hlt', _⟩ | ⟨_, hx⟩
      · omega
      · subst hx; exact hsn'
    · intro b h1k hib
      rcases get_append hib with ⟨_, hib⟩ | ⟨hx, _⟩
      · exact ⟨0, (h0.out hsm).2 b (List.mem_of_getElem? hib), Nat.le_refl _⟩
      · omega
    · rw [e4]
      exact (hi.kv.append (Nat.le_refl _)).mono e7

/-- what `onNew` stores when there is no snapshot -/
theorem onNew_snap_none {s : Sys} {u : Updates} (h : (onNew s u).2.d.snap = none) :
    s.d.snap = none ∧ (s.p.lastSn = none → ∀ n, (onNew s u).1 = .ok n → n = 0 ∧ seqNumOf u = .ok 0) := by
  have h1 : s.d.snap = none := by
    rcases onNew_shape s u with he | ⟨st, he⟩
    · rw [he] at h; exact h
    · rw [he] at h; cases h
  refine ⟨h1, ?_⟩
  intro hl n hn
  unfold onNew at h hn
  cases hs : seqNumOf u with
  | error e => rw [hs] at hn; cases hn
  | ok m =>
    rw [hs] at h hn
    dsimp only at h hn
    by_cases h0 : m = 0
    · rw [if_pos h0] at hn
      cases hn
      subst h0
      exact ⟨rfl, rfl⟩
    · rw [if_neg h0, hl] at h
      dsimp only at h
      rw [h1] at h
      rw [if_neg (by simp)] at h
      cases h

theorem Sn0.add {hb : List Block} {s s' : Sys} (h0 : Sn0 hb s) {u u' : Updates}
    (hk : addGenesisKey s.p.genesis u = .ok u') {id : Nat} (ha : V4.add H s u = (.ok id, s'))
    (dg : Digest) : Sn0 (hb ++ [⟨dg, u'⟩]) s' := by
  obtain ⟨sn, e1, e2, e3, e4, e5, _, _, e7, e8⟩ := add_shape hk ha
  refine ⟨?_⟩
  intro hs
  rw [e2] at hs
  obtain ⟨h1, h2⟩ := onNew_snap_none hs
  obtain ⟨h3, h4⟩ := h0.out h1
  obtain ⟨h5, h6⟩ := h2 h3 sn e1
  subst h5
  rw [if_pos rfl] at e8
  refine ⟨by rw [e8]; exact h3, ?_⟩
  intro b hb'
  rcases List.mem_append.1 hb' with hb' | hb'
  · exact h4 b hb'
  · simp at hb'
    subst hb'
    show seqNumOf u' = _
    rw [seqNumOf_genesis hk, h6]

/-! ## Linking -/

theorem Sn0.onNew_ok {hb : List Block} {s : Sys} (h0 : Sn0 hb s) {u : Updates} {sn : Nat} {s1 : Sys}
    (ho : V4.onNew s u = (.ok sn, s1)) :
    s1.p.lastSn = s.p.lastSn ∧ (s1.d.snap = none → s.p.lastSn = none ∧ sn = 0 ∧ seqNumOf u = .ok 0 ∧
      ∀ b ∈ hb, seqNumOf b.updates = .ok 0) := by
  constructor
  · rcases onNew_shape s u with he | ⟨st, he⟩
    · rw [ho] at he; dsimp only at he; rw [he]
    · rw [ho] at he; dsimp only at he; rw [he]
  · intro hs
    have hs : (V4.onNew s u).2.d.snap = none := by rw [ho]; exact hs
    obtain ⟨h1, h2⟩ := onNew_snap_none hs
    obtain ⟨h3, h4⟩ := h0.out h1
    obtain ⟨h5, h6⟩ := h2 h3 sn (by rw [ho])
    exact ⟨h3, h5, h6, h4⟩

theorem Sn0.linkOne {hb : List Block} {s s' : Sys} (h0 : Sn0 hb s) {u : Updates} (hl : V4.linkOne H s u = (.ok (), s'))
    (dg : Digest) : Sn0 (hb ++ [⟨dg, u⟩]) s' := by
  unfold V4.linkOne at hl
  cases ho : V4.onNew s u with
  | mk rsn s1 =>
    rw [ho] at hl
    cases rsn with
    | error e => cases hl
    | ok sn =>
      dsimp only at hl
      obtain ⟨hls, hnone⟩ := h0.onNew_ok ho
      cases hm : V4.mkBatch H s1 u with
      | mk r2 s2 =>
        have hmd := mkBatch_disk (H := H) s1 u
        rw [hm] at hl hmd
        dsimp only at hmd
        cases r2 with
        | error e => cases hl
        | ok x =>
          obtain ⟨b, ops⟩ := x
          have hs2 : s2.p.lastSn = s1.p.lastSn := by
            unfold V4.mkBatch at hm
            cases hp : V4.parentFor H s1 with
            | error e => rw [hp] at hm; cases hm
            | ok par =>
              rw [hp] at hm
              dsimp only at hm
              cases hlo : latestOps s1.d.cats (s1.p.last + 1) u with
              | error e => rw [hlo] at hm; cases hm
              | ok ops' =>
                rw [hlo] at hm
                cases hm
                rfl
          dsimp only at hl
          have hps := pruneOnLink_same (V4.writeBlock s2 b ops true) u
          cases hr : V4.pruneOnLink (V4.writeBlock s2 b ops true) u with
          | mk r3 s3 =>
            rw [hr] at hl hps
            dsimp only at hps
            cases r3 with
            | error e => cases hl
            | ok _ =>
              cases hl
              refine ⟨?_⟩
              intro hsn
              have hsn : s3.d.snap = none := hsn
              rw [hps.snap] at hsn
              have hsn : s2.d.snap = none := hsn
              rw [hmd] at hsn
              obtain ⟨h1, h2, h3, h4⟩ := hnone hsn
              subst h2
              refine ⟨?_, ?_⟩
              · show (V4.setSn s3.p 0).lastSn = none
                unfold V4.setSn
                rw [if_pos rfl, hps.lastSn]
                show s2.p.lastSn = none
                rw [hs2, hls, h1]
              · intro b' hb'
                rcases List.mem_append.1 hb' with hb' | hb'
                · exact h4 b' hb'
                · simp at hb'
                  subst hb'
                  exact h3

theorem Sn0.linkLoop : ∀ (n : Nat) {hb : List Block} {s : Sys}, Inv H hb s → Sn0 hb s → StOk s.d.cats s.d.st →
    hb.length + n < 2 ^ 64 → ∀ {x : Bool} {s' : Sys}, V4.linkLoop H n s = (.ok x, s') →
    ∃ hb', Extends H hb s.d.st hb' ∧ hb'.length = s'.p.last ∧ Sn0 hb' s' := by
  intro n
  induction n with
  | zero =>
    intro hb s h h0 hst hsz x s' hl
    cases hl
    exact ⟨hb, extends_refl _ h.chain, h.last.symm, h0⟩
  | succ n ih =>
    intro hb s h h0 hst hsz x s' hl
    unfold V4.linkLoop at hl
    rw [h.last] at hl
    cases hg : s.d.st.get (hb.length + 1) with
    | none =>
      rw [hg] at hl
      cases hl
      exact ⟨hb, extends_refl _ h.chain, h.last.symm, h0⟩
    | some b =>
      rw [hg] at hl
      dsimp only at hl
      cases ho : V4.linkOne H s b.updates with
      | mk r1 s1 =>
        rw [ho] at hl
        obtain ⟨hc1, hsl1, hrest⟩ := h.linkOne (hst _ _ hg) (by omega) ho
        cases r1 with
        | error e => cases hl
        | ok _ =>
          rcases hrest with ⟨e, he, _⟩ | ⟨hst1, h1⟩
          · cases he
          · have hst' : ∀ i b', s1.d.st.get i = some b' → s.d.st.get i = some b' := by
              intro i b' hi
              rw [hst1, BMap.get_del] at hi
              split at hi
              · cases hi
              · exact hi
            obtain ⟨hb', hex, hlen, hres⟩ := ih h1 (h0.linkOne ho _) (by
              intro i b' hi
              rw [hc1]
              exact hst i b' (hst' i b' hi)) (by simp; omega) hl
            exact ⟨hb', extends_cons hg hst' hex, hlen, hres⟩

/-- linking, with the history given by its length -/
theorem link_history {hb hb' : List Block} {s : Sys} (h : Inv H hb s) (h0 : Sn0 hb s) (hst : StOk s.d.cats s.d.st)
    {n : Nat} (hsz : hb.length + n < 2 ^ 64) {x : Bool} {s' : Sys} (hl : V4.linkLoop H n s = (.ok x, s'))
    (hex : Extends H hb s.d.st hb') (hlen : hb'.length = s'.p.last) :
    Inv H hb' s' ∧ Sn0 hb' s' ∧ s'.d.cats = s.d.cats := by
  obtain ⟨hb1, hex1, _, _, hc1, _, hres⟩ := Inv.linkLoop n h hst hsz hl
  rcases hres with ⟨e, he, _⟩ | ⟨_, hi1, _⟩
  · cases he
  · obtain ⟨hb2, hex2, hlen2, h2⟩ := Sn0.linkLoop n h h0 hst hsz hl
    have e1 := extends_unique hex1 hex (by rw [hlen, hi1.last])
    have e2 := extends_unique hex2 hex (by rw [hlen, hlen2])
    subst e1
    subst e2
    exact ⟨hi1, h2, hc1⟩

theorem linkST_history {hb hb' : List Block} {s : Sys} (h : Inv H hb s) (h0 : Sn0 hb s) (hst : StOk s.d.cats s.d.st)
    (hsz : s.p.stLast < 2 ^ 64) {s' : Sys} (hl : V4.linkSTChain H s = (.ok (), s'))
    (hex : Extends H hb s.d.st hb') (hlen : hb'.length = s'.p.last) :
    Inv H hb' s' ∧ Sn0 hb' s' ∧ s'.d.cats = s.d.cats := by
  unfold V4.linkSTChain at hl
  by_cases hz : s.p.stLast = 0
  · rw [if_pos hz] at hl
    cases hl
    have := extends_unique hex (extends_refl s.d.st h.chain) (by rw [hlen, h.last])
    subst this
    exact ⟨h, h0, rfl⟩
  · rw [if_neg hz] at hl
    have hlast := h.last
    have hsize := h.size
    cases ho : V4.linkLoop H (s.p.stLast - s.p.last) s with
    | mk r1 s1 =>
      rw [ho] at hl
      cases r1 with
      | error e => cases hl
      | ok x =>
        cases x with
        | true =>
          cases hl
          obtain ⟨h1, h2, h3⟩ := link_history h h0 hst (by omega) ho hex hlen
          exact ⟨h1.setStLast 0, h2.frame rfl rfl, h3⟩
        | false =>
          cases hl
          exact link_history h h0 hst (by omega) ho hex hlen

/-! ## Restarts that delete nothing -/

/-- the disk of a replica with history `hb` and no state transfer in progress -/
structure DInv (H : Nat → Block → Digest) (hb : List Block) (cats : Cats) (d : Disk) : Prop where
  ok : DOk H hb d
  dcats : d.cats = cats
  st : d.st = []
  sn : d.snap = none → ∀ b ∈ hb, seqNumOf b.updates = .ok 0

/-- the stages of such a start -/
def KInv (H : Nat → Block → Digest) (hb : List Block) (cats : Cats) : Node → Prop
  | .down d => DInv H hb cats d
  | .ready d => DInv H hb cats d
  | .opened s => DInv H hb cats s.d ∧ Inv H hb s ∧ s.p.lastSn = none ∧ s.p.held = false
  | .up s => DInv H hb cats s.d ∧ Inv H hb s ∧ s.p.lastSn = none ∧ s.p.held = false ∧ ∀ i, s.d.rcv i = none

theorem recoverRO_shape {d d' : Disk} {n : Nat} (h : recoverRO d n = .ok d') : ∃ rc, d' = { d with rcv := rc } := by
  unfold recoverRO at h
  cases ho : openProc d with
  | error e => rw [ho] at h; cases h
  | ok p =>
    rw [ho] at h
    simp only [bind, Except.bind] at h
    by_cases hg : p.genesis = p.last
    · rw [if_pos hg] at h
      cases h
      exact ⟨d.rcv, rfl⟩
    · rw [if_neg hg] at h
      cases hs : d.snap with
      | none =>
        rw [hs] at h
        cases h
        exact ⟨d.rcv, by rw [← hs]⟩
      | some sn =>
        rw [hs] at h
        dsimp only at h
        cases hr : revertLoop none d sn p.genesis n d.rcv p.last with
        | error e => rw [hr] at h; cases h
        | ok rc =>
          rw [hr] at h
          cases h
          exact ⟨rc, by rw [← hs]⟩

theorem DInv.rcv {hb : List Block} {cats : Cats} {d : Disk} (h : DInv H hb cats d) (rc : Nat → Option RevBatch) :
    DInv H hb cats { d with rcv := rc } := by
  obtain ⟨⟨p, hp⟩, h1, h2, h3⟩ := h
  exact ⟨⟨p, hp.frame rfl rfl rfl rfl rfl rfl rfl⟩, h1, h2, h3⟩

theorem DInv.forget {hb : List Block} {cats : Cats} {d : Disk} (h : DInv H hb cats d) (view : Kv) :
    DInv H hb cats (forget d view) := by
  obtain ⟨⟨p, hp⟩, h1, h2, h3⟩ := h
  refine ⟨⟨p, hp.frame rfl rfl rfl rfl rfl rfl rfl⟩, h1, h2, ?_⟩
  intro hs
  apply h3
  have hs : d.snap.map (fun sn => { sn with view := view }) = none := hs
  cases hd : d.snap with
  | none => rfl
  | some x => rw [hd] at hs; cases hs

theorem KInv.step {hb : List Block} {cats : Cats} {mtd : Nat} (hm : hb.length ≤ mtd) {a b : Node}
    (h : KInv H hb cats a) (hs : RStep H mtd a b) : KInv H hb cats b := by
  cases hs with
  | scan hr =>
    obtain ⟨rc, he⟩ := recoverRO_shape hr
    subst he
    exact DInv.rcv h rc
  | scanned hr =>
    obtain ⟨rc, he⟩ := recoverRO_shape hr
    subst he
    exact DInv.rcv h rc
  | open_ hr =>
    rename_i d view s
    have hd := DInv.forget h view
    obtain ⟨p0, hp0⟩ := hd.ok
    obtain ⟨p, hp, hst, hsn, hheld, hinv⟩ := hp0.reopen
    dsimp only at hp hst hinv
    unfold openSys at hr
    rw [hp] at hr
    dsimp only at hr
    have h0 : p.stLast = 0 := by
      rw [hst, hd.st]; rfl
    unfold V4.linkSTChain at hr
    rw [if_pos h0] at hr
    cases hr
    exact ⟨hd, hinv, hsn, hheld⟩
  | compact sel =>
    obtain ⟨h1, h2, h3, h4⟩ := h
    have := h2.compact sel
    exact ⟨⟨this.disk, h1.dcats, h1.st, h1.sn⟩, this, h3, h4⟩
  | del hlt hr =>
    obtain ⟨h1, h2, h3, h4⟩ := h
    have := h2.last
    omega
  | crash => exact h.1
  | crashRO => exact h
  | done hn =>
    rename_i s
    obtain ⟨h1, h2, h3, h4⟩ := h
    exact ⟨h1.rcv _, h2.frame rfl rfl rfl rfl rfl rfl rfl, h3, h4, fun i => rfl⟩

theorem KInv.steps {hb : List Block} {cats : Cats} {mtd : Nat} (hm : hb.length ≤ mtd) {a b : Node}
    (h : KInv H hb cats a) (hs : RSteps H mtd a b) : KInv H hb cats b := by
  induction hs with
  | refl => exact h
  | tail _ hs ih => exact ih.step hm hs

/-- what a crash leaves -/
theorem crash_disk {hb : List Block} {s : Sys} (h : Inv H hb s) (h0 : Sn0 hb s) {d : Disk} (hc : CrashAt s d) :
    DOk H hb d ∧ d.cats = s.d.cats ∧ d.st = s.d.st ∧ (d.snap = none → ∀ b ∈ hb, seqNumOf b.updates = .ok 0) := by
  cases hc with
  | idle => exact ⟨h.disk, rfl, rfl, fun hs => (h0.out hs).2⟩
  | inAdd u =>
    refine ⟨(h.onNew u).disk, ?_, ?_, ?_⟩
    · rcases onNew_shape s u with he | ⟨st, he⟩ <;> rw [he]
    · rcases onNew_shape s u with he | ⟨st, he⟩ <;> rw [he]
    · intro hs
      exact (h0.out (onNew_snap_none hs).1).2

/-! ## Reversal of an unfinished sequence number -/

/-- the boundary of the current sequence number is where its snapshot was taken -/
theorem boundary_unique {hb : List Block} {l k k' : Nat} (hk : Boundary hb l k) (hk' : k' < hb.length)
    (ha : ∀ i b, k' ≤ i → hb[i]? = some b → seqNumOf b.updates = .ok l)
    (hbf : ∀ b, 1 ≤ k' → hb[k' - 1]? = some b → seqNumOf b.updates ≠ .ok l) : k' = k := by
  obtain ⟨h1, h2, h3⟩ := hk
  rcases Nat.lt_trichotomy k k' with h | h | h
  · exfalso
    have hlt : k' - 1 < hb.length := by omega
    exact hbf _ (by omega) (List.getElem?_eq_getElem hlt) (h2 _ _ (by omega) (List.getElem?_eq_getElem hlt))
  · exact h.symm
  · exfalso
    have hlt : k - 1 < hb.length := by omega
    exact h3 _ (by omega) (List.getElem?_eq_getElem hlt) (ha _ _ (by omega) (List.getElem?_eq_getElem hlt))

/-- the disk at a crash in the middle of a sequence number -/
theorem Held.start {hb : List Block} {s : Sys} (hi : Inv H hb s) (ho : Ord hb s) (hst : s.d.st = [])
    (hh : s.p.held = true) {l k : Nat} (hl : s.p.lastSn = some l) (hk : Boundary hb l k) (hgk : s.p.genesis ≤ k)
    (h1k : 1 ≤ k) : ∃ view stable, RCtx H hb k s.p.genesis view stable s.d.cats ∧
      NInv H hb k s.p.genesis view stable s.d.cats (.down s.d) := by
  obtain ⟨k', view, stable, l', e1, e2, e3, e4, e5, e6, e7⟩ := (ho.held hh).out
  rw [hl] at e1
  cases e1
  have : k' = k := boundary_unique hk e4 e5 (by
    intro b hb1 hb2 hc
    obtain ⟨n, hn, hle⟩ := e6 b hb1 hb2
    rw [hn] at hc
    cases hc
    omega)
  subst this
  have hpos : 0 < hb.length := by omega
  have hr := hi.gen.range hpos
  refine ⟨view, stable, ⟨⟨by omega, ?_, e6, e7⟩, hi.cats, hi.hist, hi.chain, hi.size⟩, hb.length, ?_, ?_⟩
  · intro i b h1 h2
    exact ⟨l, e5 i b h1 h2, e3⟩
  · refine ⟨rfl, by omega, Nat.le_refl _, hr.1, hgk, hi.gen, ?_, hst, Mid.start hi.kv, ?_, ⟨view, e2⟩⟩
    · rw [List.take_length]; exact hi.blocks
    · intro i x hx
      rw [ho.rcv i] at hx
      cases hx
  · left
    intro sn hsn
    rw [e2] at hsn
    cases hsn
    rfl

/-! ## Every reachable state -/

/-- the invariant of every reachable state -/
structure RunInv (H : Nat → Block → Digest) (o : Bool) (hb : List Block) (s : Sys) : Prop where
  inv : Inv H hb s
  sn0 : Sn0 hb s
  ord : o = true → Ord hb s
  internal : ∃ p, s.d.cats.get internalCat = some (.versioned, p)

theorem addToST_cases {s s' : Sys} {id : Nat} {b : Block} {lb : Bool} (h : addToST H s id b lb = (.ok (), s')) :
    s' = s ∨ (let s1 : Sys := ⟨{ s.d with st := s.d.st.put id b }, { s.p with stLast := max s.p.stLast id }⟩
      s' = s1 ∨ V4.linkSTChain H s1 = (.ok (), s')) := by
  unfold addToST at h
  split at h
  · cases h
  · dsimp only at h
    split at h
    · split at h
      · cases h; exact Or.inl rfl
      · cases h
    · right
      dsimp only
      split at h
      · split at h
        · cases h
        · exact Or.inr h
      · cases h; exact Or.inl rfl

theorem Reach.runInv {o : Bool} {hb : List Block} {s : Sys} (hr : Reach H o hb s) : RunInv H o hb s := by
  induction hr with
  | @init cats types p hc hint =>
    have hp := Prefixes.init hc
    refine ⟨⟨hp.catsOk, ⟨fun b hb' => (by cases hb'), fun b hb' => (by cases hb')⟩, fun i b hi => (by simp at hi),
      (by simp), rfl, ⟨fun _ => ⟨rfl, rfl⟩, fun h => (by simp at h), fun h => (by simp at h)⟩,
      ⟨fun i _ => rfl, rfl, fun i b _ hi => (by simp at hi), fun i b hi => (by cases hi)⟩, ?_, fun x hx => (by cases hx)⟩,
      ⟨fun _ => ⟨rfl, fun b hb' => (by cases hb')⟩⟩,
      fun _ => ⟨fun i => rfl, fun l hl => (by cases hl), fun h => (by cases h)⟩, ⟨p, hint⟩⟩
    intro cat t p' _ key
    rfl
  | @add o hb s u u' id s' _ hu hio hsz ha hk ih =>
    obtain ⟨p, hp⟩ := ih.internal
    obtain ⟨u'', h1, h2, h3⟩ := ih.inv.add hu (by intro t q hq; rw [hp] at hq; cases hq; rfl) hsz ha
    rw [hk] at h1
    cases h1
    obtain ⟨sn, _, _, _, e4, _⟩ := add_shape hk ha
    exact ⟨h3, ih.sn0.add hk ha _, fun ho => (ih.ord ho).add ih.inv ih.sn0 hio hk ha _, ⟨p, by rw [e4]; exact hp⟩⟩
  | @addAny o hb s u u' id s' _ hu hsz ha hk ih =>
    obtain ⟨p, hp⟩ := ih.internal
    obtain ⟨u'', h1, h2, h3⟩ := ih.inv.add hu (by intro t q hq; rw [hp] at hq; cases hq; rfl) hsz ha
    rw [hk] at h1
    cases h1
    obtain ⟨sn, _, _, _, e4, _⟩ := add_shape hk ha
    exact ⟨h3, ih.sn0.add hk ha _, fun ho => (by cases ho), ⟨p, by rw [e4]; exact hp⟩⟩
  | @prune o hb s n files r s' _ hd ih =>
    have hle : s.p.genesis ≤ s.p.last := by
      rw [ih.inv.last]
      by_cases h0 : hb.length = 0
      · rw [(ih.inv.gen.empty h0).1]; omega
      · exact (ih.inv.gen.range (by omega)).2
    have hs := deleteBlocksUntil_same hle hd
    obtain ⟨p, hp⟩ := ih.internal
    exact ⟨ih.inv.deleteBlocksUntil hd, ih.sn0.same hs, fun ho => (ih.ord ho).same hs, ⟨p, by rw [hs.dcats]; exact hp⟩⟩
  | @deleteGenesis o hb s s' _ hd ih =>
    have hs := deleteGenesis_same s
    have hi := ih.inv.deleteGenesis
    rw [hd] at hs hi
    obtain ⟨p, hp⟩ := ih.internal
    exact ⟨hi, ih.sn0.same hs, fun ho => (ih.ord ho).same hs, ⟨p, by rw [hs.dcats]; exact hp⟩⟩
  | @compact o hb s sel _ ih =>
    exact ⟨ih.inv.compact sel, ih.sn0.frame rfl rfl,
      fun ho => (ih.ord ho).frame rfl rfl rfl rfl rfl (Nat.le_refl _), ih.internal⟩
  | @addST o hb hb' s id b lb s' _ hst hsz ha hex hlen ih =>
    obtain ⟨p, hp⟩ := ih.internal
    have hi1 : Inv H hb ⟨{ s.d with st := s.d.st.put id b }, { s.p with stLast := max s.p.stLast id }⟩ :=
      ih.inv.frame rfl rfl rfl rfl rfl rfl rfl
    have h01 : Sn0 hb ⟨{ s.d with st := s.d.st.put id b }, { s.p with stLast := max s.p.stLast id }⟩ :=
      ih.sn0.frame rfl rfl
    rcases addToST_cases ha with h | h | h
    · subst h
      have := extends_unique hex (extends_refl (s'.d.st.put id b) ih.inv.chain) (by rw [hlen, ih.inv.last])
      subst this
      exact ⟨ih.inv, ih.sn0, fun ho => (by cases ho), ⟨p, hp⟩⟩
    · subst h
      have := extends_unique hex (extends_refl (s.d.st.put id b) ih.inv.chain) (by rw [hlen]; exact ih.inv.last)
      subst this
      exact ⟨hi1, h01, fun ho => (by cases ho), ⟨p, hp⟩⟩
    · obtain ⟨h1, h2, h3⟩ := linkST_history hi1 h01 hst hsz h hex hlen
      exact ⟨h1, h2, fun ho => (by cases ho), ⟨p, by rw [h3]; exact hp⟩⟩
  | @linkSome o hb hb' s n r s' _ hst hsz hl hex hlen ih =>
    obtain ⟨p, hp⟩ := ih.internal
    obtain ⟨h1, h2, h3⟩ := link_history ih.inv ih.sn0 hst hsz hl hex hlen
    exact ⟨h1, h2, fun ho => (by cases ho), ⟨p, by rw [h3]; exact hp⟩⟩
  | @restart o hb s d mtd s' _ hc hst hm hs ih =>
    obtain ⟨p, hp⟩ := ih.internal
    obtain ⟨c1, c2, c3, c4⟩ := crash_disk ih.inv ih.sn0 hc
    have hd : KInv H hb s.d.cats (.down d) := ⟨c1, c2, by rw [c3, hst], c4⟩
    have hm : hb.length ≤ mtd := by rw [← ih.inv.last]; exact hm
    obtain ⟨h1, h2, h3, h4, h5⟩ := hd.steps hm hs
    refine ⟨h2, ⟨fun hx => ⟨h3, h1.sn hx⟩⟩, fun _ => ⟨h5, ?_, ?_⟩, ⟨p, by rw [h1.dcats]; exact hp⟩⟩
    · intro l hl; rw [h3] at hl; cases hl
    · intro hh; rw [h4] at hh; cases hh
  | @restartST o hb hb' s d view s' _ hc hst hsz hop hex hlen ih =>
    obtain ⟨p, hp⟩ := ih.internal
    obtain ⟨c1, c2, c3, c4⟩ := crash_disk ih.inv ih.sn0 hc
    obtain ⟨n, d1, hro, hop⟩ := hop
    obtain ⟨rc, he⟩ := recoverRO_shape hro
    subst he
    obtain ⟨p0, hp0⟩ := c1
    have hp1 : Inv H hb ⟨V4.forget { d with rcv := rc } view, p0⟩ := hp0.frame rfl rfl rfl rfl rfl rfl rfl
    obtain ⟨p2, hq, hq1, hq2, hq3, hq4⟩ := hp1.reopen
    unfold openSys at hop
    dsimp only at hq hq1 hq4
    rw [hq] at hop
    dsimp only at hop
    have hsn0 : Sn0 hb ⟨V4.forget { d with rcv := rc } view, p2⟩ := by
      refine ⟨?_⟩
      intro hx
      refine ⟨hq2, c4 ?_⟩
      have hx : d.snap.map (fun sn => ({ sn with view := view } : Snap)) = none := hx
      cases hd : d.snap with
      | none => rfl
      | some x => rw [hd] at hx; cases hx
    cases hl : V4.linkSTChain H ⟨V4.forget { d with rcv := rc } view, p2⟩ with
    | mk r s1 =>
      rw [hl] at hop
      cases r with
      | error e => cases hop
      | ok _ =>
        cases hop
        have hstd : (V4.forget { d with rcv := rc } view).st = s.d.st := c3
        obtain ⟨h1, h2, h3⟩ := linkST_history hq4 hsn0 (by
            show StOk d.cats d.st
            rw [c2, c3]; exact hst) (by
            show p2.stLast < _
            rw [hq1, hstd]; exact hsz) hl (by
            show Extends H hb d.st hb'
            rw [c3]; exact hex) hlen
        exact ⟨h1, h2, fun ho => (by cases ho), ⟨p, by
          rw [h3]
          show d.cats.get _ = _
          rw [c2]; exact hp⟩⟩
  | @recover hb s l k s' _ hst hh hl hk hgk h1k hs ih =>
    obtain ⟨p, hp⟩ := ih.internal
    obtain ⟨view, stable, hx, hn⟩ := Held.start ih.inv (ih.ord rfl) hst hh hl hk hgk h1k
    obtain ⟨h1, h2, h3, h4, h5, h6, h7⟩ := hn.steps hx hs
    refine ⟨h1, ⟨?_⟩, fun _ => ⟨h4, ?_, ?_⟩, ⟨p, by rw [h3]; exact hp⟩⟩
    · intro hx; rw [hx] at h7; cases h7
    · intro l hl; rw [h5] at hl; cases hl
    · intro hh; rw [h6] at hh; cases hh

end
end Verif.V4
