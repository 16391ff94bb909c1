import Verif.V4.Run

/-!
# C37: the theorems
-/
set_option linter.unusedSimpArgs false
set_option linter.unusedVariables false
namespace Verif.V4
open Verif.Bytes Spec

section
variable {H : Nat → Block → Digest}

/-- **C37, reads.**  In every state reached by adding, pruning, compacting, state transfer, crashes, restarts and the
reversal of unfinished sequence numbers, every read is the function of the history that the specification gives. -/
theorem v4_reads {o : Bool} {hb : List Block} {s : Sys} (h : Reach H o hb s) : Reads hb s.p.genesis s :=
  h.runInv.inv.reads

/-- **C37, chain.**  The history is a hash chain. -/
theorem v4_chain {o : Bool} {hb : List Block} {s : Sys} (h : Reach H o hb s) : ChainOk H hb := h.runInv.inv.chain

/-- **C37, add succeeds** on well formed updates of registered categories and returns the next block id. -/
theorem v4_add_ok {o : Bool} {hb : List Block} {s : Sys} (h : Reach H o hb s) {u : Updates} (hu : UpdOk s.d.cats u)
    (hkn : ∀ c i, (c, i) ∈ u → (s.d.cats.get c).isSome) {n : Nat} (hn : seqNumOf u = .ok n) :
    ∃ s' u', add H s u = (.ok (hb.length + 1), s') ∧ addGenesisKey s.p.genesis u = .ok u' := by
  have hi := h.runInv.inv
  obtain ⟨p, hp⟩ := h.runInv.internal
  have hk : ∃ u', addGenesisKey s.p.genesis u = .ok u' ∧ ∀ c i, (c, i) ∈ u' → (s.d.cats.get c).isSome := by
    unfold addGenesisKey
    cases hl : lookup u internalCat with
    | none =>
      refine ⟨_, rfl, ?_⟩
      intro c i hm
      rcases mem_upsert hm with he | hm
      · cases he; rw [hp]; rfl
      · exact hkn c i hm
    | some i =>
      have := hu.typed _ _ _ _ (lookup_some_mem hl) hp
      cases i with
      | merkle kv d => cases this
      | immutable kv => cases this
      | versioned kv d =>
        refine ⟨_, rfl, ?_⟩
        intro c i hm
        rcases mem_upsert hm with he | hm
        · cases he; rw [hp]; rfl
        · exact hkn c i hm
  obtain ⟨u', hu', hkn'⟩ := hk
  have h1 := hi.onNew u
  have hok : ∃ sn, (V4.onNew s u).1 = .ok sn := by
    unfold V4.onNew
    rw [hn]
    dsimp only
    split
    · exact ⟨_, rfl⟩
    · split
      · split
        · exact ⟨_, rfl⟩
        · split
          · exact ⟨_, rfl⟩
          · exact ⟨_, rfl⟩
      · split
        · exact ⟨_, rfl⟩
        · exact ⟨_, rfl⟩
  obtain ⟨sn, hsn⟩ := hok
  have hcats : (V4.onNew s u).2.d.cats = s.d.cats := by
    rcases onNew_shape s u with he | ⟨st, he⟩ <;> rw [he]
  obtain ⟨ops, hops⟩ := latestOps_ok (id := hb.length + 1) (cats := s.d.cats) hkn'
  cases ho : V4.onNew s u with
  | mk r s1 =>
    rw [ho] at h1 hsn hcats
    dsimp only at h1 hsn hcats
    subst hsn
    have hm : V4.mkBatch H s1 u' = (.ok (⟨digestOf H hb hb.length, u'⟩, ops),
        { s1 with p := { s1.p with future := some (H (hb.length + 1) ⟨digestOf H hb hb.length, u'⟩) } }) := by
      unfold V4.mkBatch
      rw [h1.parentFor]
      dsimp only
      rw [h1.last, hcats, hops]
    refine ⟨(V4.add H s u).2, u', Prod.ext ?_ rfl, hu'⟩
    unfold V4.add
    rw [ho, hu']
    dsimp only
    rw [hm]
    dsimp only
    have : (V4.writeBlock { s1 with p := { s1.p with future := some (H (hb.length + 1) ⟨digestOf H hb hb.length, u'⟩) } }
        ⟨digestOf H hb hb.length, u'⟩ ops false).p.last = hb.length + 1 := by
      show s1.p.last + 1 = _
      rw [h1.last]
    exact congrArg _ this

/-- **C37, add.**  What a block wrote is what the next read of the latest value returns. -/
theorem v4_add_read_back {o : Bool} {hb : List Block} {s : Sys} (h : Reach H o hb s) {u : Updates}
    (hu : UpdOk s.d.cats u) (hio : InOrder s u) (hsz : hb.length + 1 < 2 ^ 64) {id : Nat} {s' : Sys}
    (ha : add H s u = (.ok id, s')) {cat key : Str} {t : CatType} {p : UInt8} (hc : s.d.cats.get cat = some (t, p))
    (hne : ¬ (cat = internalCat ∧ key = genesisKey)) :
    match touch u cat key with
    | none => (latest hb cat key = none → getLatest s' cat key = .ok none)
    | some none => getLatest s' cat key = .ok none
    | some (some (v, _)) => getLatest s' cat key = .ok (some ⟨t, id, v⟩) := by
  obtain ⟨q, hq⟩ := h.runInv.internal
  obtain ⟨u', hk, hid, hi⟩ := h.runInv.inv.add hu (by intro t p hp; rw [hq] at hp; cases hp; rfl) hsz ha
  have hr := hi.reads
  obtain ⟨sn, _, _, _, e4, _⟩ := add_shape hk ha
  have hcs : s'.d.cats.get cat = some (t, p) := by rw [e4]; exact hc
  have hv := hr.value cat t p key hcs
  -- the genesis key is the only difference
  have htouch : touch u' cat key = touch u cat key := by
    rw [touch_eq, touch_eq]
    unfold addGenesisKey at hk
    cases hl : lookup u internalCat with
    | none =>
      rw [hl] at hk
      cases hk
      rw [lookup_upsert]
      by_cases hci : cat = internalCat
      · subst hci
        rw [if_pos rfl, hl]
        show touchIn (.versioned [(genesisKey, ⟨be64 s.p.genesis, true⟩)] []) key = none
        have hkk : genesisKey ≠ key := fun e => hne ⟨rfl, e.symm⟩
        unfold touchIn
        dsimp only
        rw [if_neg (by simp), lookup_cons, if_neg hkk]
        rfl
      · rw [if_neg hci]
    | some i =>
      rw [hl] at hk
      cases i with
      | merkle kv d => cases hk
      | immutable kv => cases hk
      | versioned kv d =>
        cases hk
        rw [lookup_upsert]
        by_cases hci : cat = internalCat
        · subst hci
          rw [if_pos rfl, hl]
          show touchIn (.versioned (upsert kv genesisKey ⟨be64 s.p.genesis, true⟩) d) key = touchIn (.versioned kv d) key
          unfold touchIn
          dsimp only
          rw [lookup_upsert, if_neg (fun e => hne ⟨rfl, e⟩)]
        · rw [if_neg hci]
  have hlat : latest (hb ++ [⟨digestOf H hb hb.length, u'⟩]) cat key = match touch u cat key with
      | none => latest hb cat key
      | some none => none
      | some (some (v, st)) => some ⟨hb.length + 1, v, st⟩ := by
    unfold latest
    have hl : (hb ++ [(⟨digestOf H hb hb.length, u'⟩ : Block)]).length = hb.length + 1 := by simp
    rw [hl, latestAt]
    have : (hb ++ [(⟨digestOf H hb hb.length, u'⟩ : Block)])[hb.length]? = some ⟨digestOf H hb hb.length, u'⟩ := by simp
    rw [this]
    dsimp only
    rw [htouch, latestAt_append (Nat.le_refl _)]
    cases touch u cat key with
    | none => rfl
    | some x =>
      cases x with
      | none => rfl
      | some y => rfl
  rw [hlat] at hv
  cases ht : touch u cat key with
  | none =>
    rw [ht] at hv
    dsimp only at hv ⊢
    intro hnone
    rw [hnone] at hv
    exact hv
  | some x =>
    rw [ht] at hv
    cases x with
    | none => exact hv
    | some y =>
      obtain ⟨v, st⟩ := y
      dsimp only at hv ⊢
      subst hid
      rcases hv with hv | ⟨_, hlt, _⟩
      · exact hv
      · exfalso
        have := hi.gen.range (by simp)
        simp at this
        omega

/-- **C37, pruning.**  `deleteBlocksUntil(until)` on more than one block makes `until` the first block, but never
deletes the last one, and returns the last deleted id. -/
theorem v4_prune {o : Bool} {hb : List Block} {s : Sys} (h : Reach H o hb s) {n : Nat} {files : Option (Nat → Bool)}
    (hg : 1 ≤ s.p.genesis) (hn : s.p.genesis < n) (hl : s.p.genesis < s.p.last) :
    ∃ s', deleteBlocksUntil s n files = (.ok (min n s.p.last - 1), s') ∧ Reach H o hb s' ∧
      s'.p.genesis = min n s.p.last := by
  have he : deleteBlocksUntil s n files = (.ok (min n s.p.last - 1),
      (deleteBlocksUntil s n files).2) ∧ (deleteBlocksUntil s n files).2.p.genesis = min n s.p.last := by
    unfold deleteBlocksUntil
    rw [if_neg (by omega), if_neg (by omega), if_neg (by omega)]
    dsimp only
    have e : min (s.p.last - 1) (n - 1) = min n s.p.last - 1 := by omega
    rw [e]
    exact ⟨rfl, by omega⟩
  exact ⟨_, he.1, h.prune he.1, he.2⟩

/-- **C37, state transfer.**  When the blocks delivered are those of another replica's chain, which this replica's
history is a prefix of, the linked blocks are exactly that replica's blocks. -/
theorem v4_link_same {o : Bool} {hb hb' : List Block} {s : Sys} (h : Reach H o hb s) {src : List Block}
    (hsrc : ChainOk H src) (hp : hb <+: src) (hst : StOk s.d.cats s.d.st)
    (hdel : ∀ i b, hb.length ≤ i → s.d.st.get (i + 1) = some b → src[i]? = some b)
    (hsz : s.p.stLast < 2 ^ 64) {s' : Sys} (hl : linkSTChain H s = (.ok (), s')) :
    ∃ hb', hb <+: hb' ∧ hb' <+: src ∧ Reads hb' s'.p.genesis s' := by
  have hi := h.runInv.inv
  obtain ⟨hb', hex, _, _, hres⟩ := hi.linkSTChain hst hsz hl
  rcases hres with ⟨e, he, _⟩ | ⟨_, h1⟩
  · cases he
  · exact ⟨hb', hex.1, extends_source hex hsrc hp hdel, h1.reads⟩

/-- **C37, state transfer does not replace blocks.**  A block that is part of the chain, or that differs from one
received before, is refused, and nothing changes. -/
theorem v4_st_refused {o : Bool} {hb : List Block} {s : Sys} (h : Reach H o hb s) {id : Nat} {b : Block} {lastBlock : Bool}
    (hr : id ≤ hb.length ∨ (id ≤ s.p.stLast ∧ ∃ b', s.d.st.get id = some b' ∧ b' ≠ b)) :
    addToST H s id b lastBlock = (.error .thrown, s) := by
  have hl := h.runInv.inv.last
  unfold addToST
  by_cases h1 : id ≤ s.p.last
  · rw [if_pos h1]
  · rw [if_neg h1]
    rcases hr with hr | ⟨h2, b', h3, h4⟩
    · omega
    · dsimp only
      rw [if_neg (by omega), h3]
      dsimp only
      rw [if_neg h4]

/-- **C37, recovery is correct.**  After a crash in the middle of a sequence number the replica comes up, however
often it crashes while starting, with the history before that sequence number. -/
theorem v4_recovered {hb : List Block} {s : Sys} (h : Reach H true hb s) (hst : s.d.st = []) (hh : s.p.held = true)
    {l k : Nat} (hl : s.p.lastSn = some l) (hk : Boundary hb l k) (hgk : s.p.genesis ≤ k) (h1k : 1 ≤ k) {s' : Sys}
    (hs : RSteps H k (.down s.d) (.up s')) : Reads (hb.take k) s.p.genesis s' := by
  have ih := h.runInv
  obtain ⟨view, stable, hx, hn⟩ := Held.start ih.inv (ih.ord rfl) hst hh hl hk hgk h1k
  obtain ⟨h1, h2, _⟩ := hn.steps hx hs
  rw [← h2]
  exact h1.reads

theorem RSteps.trans {mtd : Nat} {a b c : Node} (h1 : RSteps H mtd a b) (h2 : RSteps H mtd b c) : RSteps H mtd a c := by
  induction h2 with
  | refl => exact h1
  | tail _ hs ih => exact ih.tail hs

/-- from an open DB all the blocks can be deleted -/
theorem OInv.complete {hb : List Block} {k g : Nat} {view : Kv} {stable : Nat} {cats : Cats}
    (hx : RCtx H hb k g view stable cats) : ∀ (n : Nat) {s : Sys}, OInv hb k g view stable cats s → s.p.last - k = n →
    ∃ s', RSteps H k (.opened s) (.up s') := by
  intro n
  induction n with
  | zero =>
    intro s h hn
    have := h.disk.kj
    exact ⟨_, (RSteps.refl _).tail (.done (by omega))⟩
  | succ n ih =>
    intro s h hn
    obtain ⟨s1, h1, h2, h3⟩ := OInv.del hx h (by omega)
    obtain ⟨s2, h4⟩ := ih h2 (by omega)
    exact ⟨s2, ((RSteps.refl _).tail (.del (by omega) h1)).trans h4⟩

theorem NInv.complete {hb : List Block} {k g : Nat} {view : Kv} {stable : Nat} {cats : Cats}
    (hx : RCtx H hb k g view stable cats) {a : Node} (h : NInv H hb k g view stable cats a) :
    ∃ s', RSteps H k a (.up s') := by
  cases a with
  | up s => exact ⟨s, .refl _⟩
  | opened s => exact OInv.complete hx _ h rfl
  | ready d =>
    obtain ⟨j, h1, h2⟩ := h
    obtain ⟨s, h3, h4, _⟩ := h1.open_ (H := H) h2 view
    obtain ⟨s', h5⟩ := OInv.complete hx _ h4 rfl
    exact ⟨s', ((RSteps.refl _).tail (.open_ h3)).trans h5⟩
  | down d =>
    obtain ⟨j, h1, h2⟩ := h
    obtain ⟨d', h3, h4, _, h5, _⟩ := h1.scan hx h2 (d.blocks.maxKey + 1)
    obtain ⟨s, h6, h7, _⟩ := h4.open_ (H := H) (h5 (by rw [h1.maxKey]; omega)) view
    obtain ⟨s', h8⟩ := OInv.complete hx _ h7 rfl
    exact ⟨s', (((RSteps.refl _).tail (.scanned h3)).tail (.open_ h6)).trans h8⟩

/-- **C37, recovery never gets stuck.**  However far a start got and however often it crashed, it can be completed:
no assertion fails and no batch is missing. -/
theorem v4_recovery_completes {hb : List Block} {s : Sys} (h : Reach H true hb s) (hst : s.d.st = [])
    (hh : s.p.held = true) {l k : Nat} (hl : s.p.lastSn = some l) (hk : Boundary hb l k) (hgk : s.p.genesis ≤ k)
    (h1k : 1 ≤ k) {a : Node} (hs : RSteps H k (.down s.d) a) : ∃ s', RSteps H k a (.up s') := by
  have ih := h.runInv
  obtain ⟨view, stable, hx, hn⟩ := Held.start ih.inv (ih.ord rfl) hst hh hl hk hgk h1k
  exact (hn.steps hx hs).complete hx

/-- the loop of the state synchronisation is a run of the steps -/
theorem OInv.syncLoop {hb : List Block} {k g : Nat} {view : Kv} {stable : Nat} {cats : Cats}
    (hx : RCtx H hb k g view stable cats) (limit : Nat) : ∀ (f n : Nat) {s : Sys}, OInv hb k g view stable cats s →
    s.p.last - k < f → n + (s.p.last - k) < limit →
    ∃ s', V4.syncLoop k limit f n s = (.ok (n + (s.p.last - k)), s') ∧ RSteps H k (.opened s) (.up s') := by
  intro f
  induction f with
  | zero => intro n s h hf; omega
  | succ f ih =>
    intro n s h hf hlim
    have hkj := h.disk.kj
    have hgk := h.disk.gk
    have hgen := h.genesis
    unfold V4.syncLoop
    by_cases hc : k < s.p.last
    · rw [if_pos ⟨hc, by rw [hgen]; omega⟩]
      obtain ⟨s1, h1, h2, h3⟩ := OInv.del hx h hc
      rw [h1]
      dsimp only
      rw [if_neg (by omega)]
      obtain ⟨s', h4, h5⟩ := ih (n + 1) h2 (by omega) (by omega)
      refine ⟨s', ?_, ((RSteps.refl _).tail (.del hc h1)).trans h5⟩
      rw [h4]
      congr 2
      omega
    · rw [if_neg (fun hx => hc hx.1)]
      refine ⟨_, ?_, (RSteps.refl _).tail (.done hc)⟩
      congr 2
      omega

/-- **C37, the state synchronisation** deletes exactly the blocks after `k` and succeeds when fewer than `limit`
blocks have to go. -/
theorem v4_sync {hb : List Block} {s : Sys} (h : Reach H true hb s) (hst : s.d.st = [])
    (hh : s.p.held = true) {l k : Nat} (hl : s.p.lastSn = some l) (hk : Boundary hb l k) (hgk : s.p.genesis ≤ k)
    (h1k : 1 ≤ k) {s1 : Sys} (hs : RSteps H k (.down s.d) (.opened s1)) {limit : Nat} (hlim : s1.p.last - k < limit) :
    ∃ s', syncBlockId s1 k limit = (.ok (s1.p.last - k), s') ∧ Reads (hb.take k) s.p.genesis s' := by
  have ih := h.runInv
  obtain ⟨view, stable, hx, hn⟩ := Held.start ih.inv (ih.ord rfl) hst hh hl hk hgk h1k
  have ho : OInv hb k s.p.genesis view stable s.d.cats s1 := hn.steps hx hs
  obtain ⟨s', h1, h2⟩ := OInv.syncLoop hx limit (s1.p.last + 1) 0 ho (by omega) (by omega)
  refine ⟨s', ?_, v4_recovered h hst hh hl hk hgk h1k (hs.trans h2)⟩
  unfold syncBlockId
  rw [if_neg (by omega), h1]
  congr 2
  omega

/-! ## Batched reads -/

theorem eraseDups_of_nodup {l : List Nat} (h : l.Nodup) : l.eraseDups = l := by
  induction l with
  | nil => rfl
  | cons a l ih =>
    rw [List.eraseDups_cons]
    have h' := List.nodup_cons.1 h
    have : l.filter (fun b => !b == a) = l := by
      rw [List.filter_eq_self]
      intro b hb
      have : b ≠ a := fun e => h'.1 (e ▸ hb)
      simp [this]
    rw [this, ih h'.2]

/-- `multiGet` is the individual reads when no block id repeats after an other one -/
theorem v4_multiGet (s : Sys) (cat : Str) (kvs : List (Str × Nat)) (h : (uniqueAdj (kvs.map (·.2))).Nodup) :
    multiGet s cat kvs = .ok (kvs.map fun e => get s cat e.1 e.2) := by
  unfold multiGet
  dsimp only
  rw [if_neg]
  intro hne
  apply hne
  exact congrArg List.length (eraseDups_of_nodup h)

/-- `multiGetLatest` of a category that is not immutable is the individual reads -/
theorem v4_multiGetLatest (s : Sys) (cat : Str) {t : CatType} {p : UInt8} (hc : s.d.cats.get cat = some (t, p))
    (ht : t ≠ .immutable) (keys : List Str) :
    ∃ l, multiGetLatest s cat keys = .ok l ∧ keys.map (getLatest s cat) = l.map .ok := by
  unfold multiGetLatest
  rw [hc]
  cases t with
  | immutable => exact absurd rfl ht
  | merkle =>
    refine ⟨_, rfl, ?_⟩
    rw [List.map_map]
    apply List.map_congr_left
    intro k _
    unfold getLatest
    rw [hc]
    rfl
  | versioned =>
    refine ⟨_, rfl, ?_⟩
    rw [List.map_map]
    apply List.map_congr_left
    intro k _
    unfold getLatest
    rw [hc]
    rfl

end
end Verif.V4
