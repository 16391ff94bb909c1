import Verif.Chain.Spec
set_option linter.unusedVariables false
set_option linter.unusedSimpArgs false
/-!
# C26: block digests, raw blocks and the chain of blocks
-/
namespace Verif.Chain
open Verif.Bytes Verif.Kvbc

theorem addBlock_append {H : Hashes} {c c' : Chain} {u : Updates} (h : c.addBlock H u = some c') :
    ∃ u', addGenesisKey c.genesis u = some u' ∧ c.append H u' = some c' := by
  rw [Chain.addBlock] at h
  split at h
  · cases e : addGenesisKey c.genesis u with
    | none => rw [e] at h; cases h
    | some u' => rw [e] at h; exact ⟨u', rfl, h⟩
  · cases h

theorem inv_step {H : Hashes} {c c' : Chain} {raws : List Raw} (hi : Inv H c raws) {e : Ev}
    (hg : ∀ u, e = .add u → UGood H.m u ∧ UFresh c.db u) (h : c.step H e = some c') :
    Inv H c' (histStep c' raws e) := by
  cases e with
  | add u =>
    obtain ⟨g1, g2⟩ := hg u rfl
    obtain ⟨u', h1, h2⟩ := addBlock_append h
    obtain ⟨p1, p2, _⟩ := addGenesisKey_good g1 h1
    obtain ⟨r, hc, _, hi'⟩ := inv_append hi p1 p2 (addGenesisKey_fresh g1 g2 h1) h2
    rw [histStep, hc]
    exact hi'
  | failAdd r =>
    cases h
    refine { hi with cache := ?_ }
    intro i q hc
    cases hc
    refine ⟨by omega, Nat.le_succ _, fun e => ?_⟩
    have e : c.last + 1 = c.last := e
    omega
  | prune => exact inv_prune hi h
  | deleteLast => exact inv_deleteLast hi h
  | restart =>
    cases h
    refine { hi with cache := ?_ }
    intro i q hc
    cases hc

theorem inv_run {H : Hashes} : ∀ {evs : List Ev} {c c' : Chain} {raws : List Raw}, Inv H c raws → GoodRun H c evs →
    c.run H evs = some c' → Inv H c' (hist H c raws evs)
  | [], c, c', raws, hi, _, h => by cases h; exact hi
  | e :: es, c, c', raws, hi, hg, h => by
    rw [Chain.run] at h
    cases h1 : c.step H e with
    | none => rw [h1] at h; cases h
    | some c1 =>
      rw [h1] at h
      have := inv_step hi hg.1 h1
      rw [hist, h1]
      exact inv_run this (hg.2 c1 h1) h

theorem empty_bound {db : Db} (h : EmptyDb db) : ∀ id s, db id = some s → s.Bound 0 := by
  intro id s hs
  rcases h id s hs with e | e | e
  · subst e; intro h v hv; cases hv
  · subst e; intro h v hv; cases hv
  · subst e; trivial

/-- the state reached by a good run from an empty blockchain -/
theorem reach_inv {H : Hashes} {db : Db} (hd : EmptyDb db) {evs : List Ev} {c : Chain} (hg : GoodRun H (Chain.new db) evs)
    (h : (Chain.new db).run H evs = some c) : Inv H c (hist H (Chain.new db) [] evs) :=
  inv_run (inv_new (empty_bound hd)) hg h

theorem run_append {H : Hashes} : ∀ {evs es : List Ev} {c c' : Chain}, c.run H evs = some c' →
    c.run H (evs ++ es) = c'.run H es
  | [], es, c, c', h => by cases h; rfl
  | e :: evs, es, c, c', h => by
    rw [Chain.run] at h
    rw [List.cons_append, Chain.run]
    cases h1 : c.step H e with
    | none => rw [h1] at h; cases h
    | some c1 => rw [h1] at h; exact run_append h

/-- **C26.** Every block that is neither pruned nor deleted can be read back as a raw block, whatever happened since. -/
theorem raw_block_available {H : Hashes} {db : Db} (hd : EmptyDb db) {evs : List Ev} {c : Chain}
    (hg : GoodRun H (Chain.new db) evs) (h : (Chain.new db).run H evs = some c) {b : Nat} (h1 : 1 ≤ b) (h2 : c.genesis ≤ b)
    (h3 : b ≤ c.last) : ∃ r, c.getRaw H b = some r := by
  have hi := reach_inv hd hg h
  have : 1 ≤ c.genesis := by
    have := hi.fresh
    omega
  obtain ⟨r, _, hl⟩ := hi.live b this h2 h3
  exact ⟨r, live_getRaw hl⟩

/-- **C26.** A new block reads back as exactly the updates given to `addBlock` (with the genesis-block key the blockchain
adds), and names the digest of the block before it as that block reads back. -/
theorem added_block_reads_back {H : Hashes} {db : Db} (hd : EmptyDb db) {evs : List Ev} {c c' : Chain}
    (hg : GoodRun H (Chain.new db) evs) (h : (Chain.new db).run H evs = some c) {u : Updates} (hu : UGood H.m u)
    (hf : UFresh c.db u) (ha : c.addBlock H u = some c') :
    c'.last = c.last + 1 ∧ ∃ r u', addGenesisKey c.genesis u = some u' ∧ c'.getRaw H c'.last = some r ∧ r.updates = u' ∧
      (if c.last = 0 then r.parent = zeroDigest else c.blockDigest H c.last = some r.parent) := by
  have hi := reach_inv hd hg h
  obtain ⟨u', h1, h2⟩ := addBlock_append ha
  obtain ⟨p1, p2, _⟩ := addGenesisKey_good hu h1
  obtain ⟨r, hc, hru, hi'⟩ := inv_append hi p1 p2 (addGenesisKey_fresh hu hf h1) h2
  have hl : c'.last = c.last + 1 := by
    obtain ⟨p, l, _, _, rfl⟩ := append_some h2
    rfl
  have hg1 : 1 ≤ c'.genesis := by
    have := hi'.fresh
    omega
  obtain ⟨r', k1, k2⟩ := hi'.live c'.last hg1 hi'.range (Nat.le_refl _)
  rw [List.getElem?_append_right (by rw [hi.len, hl]; omega), hl, hi.len, Nat.add_sub_cancel, Nat.sub_self] at k1
  simp only [List.getElem?_cons_zero, Option.some.injEq] at k1
  subst k1
  refine ⟨hl, r, u', h1, live_getRaw k2, hru, ?_⟩
  by_cases h0 : c.last = 0
  · rw [if_pos h0]
    have : hist H (Chain.new db) [] evs = [] := List.length_eq_zero_iff.1 (hi.len.trans h0)
    rw [this] at hi'
    exact hi'.linked.first r rfl
  · rw [if_neg h0]
    have hg0 : 1 ≤ c.genesis := by
      have := hi.fresh
      omega
    obtain ⟨q, q1, q2⟩ := hi.live c.last hg0 hi.range (Nat.le_refl _)
    rw [Chain.blockDigest, live_getRaw q2]
    have hlen : c.last - 1 < (hist H (Chain.new db) [] evs).length := by rw [hi.len]; omega
    have := hi'.linked.next (c.last - 1) q r (by rw [List.getElem?_append_left hlen]; exact q1)
      (by rw [show c.last - 1 + 1 = c.last by omega, List.getElem?_append_right (by rw [hi.len]; exact Nat.le_refl _), hi.len,
        Nat.sub_self]; rfl)
    rw [show c.last - 1 + 1 = c.last by omega] at this
    exact this

/-- **C26.** What a block reads back as never changes, as long as it is neither pruned nor deleted. -/
theorem raw_block_stable {H : Hashes} {db : Db} (hd : EmptyDb db) {evs : List Ev} {c c' : Chain}
    (hg : GoodRun H (Chain.new db) evs) (h : (Chain.new db).run H evs = some c) {e : Ev}
    (hu : ∀ u, e = .add u → UGood H.m u ∧ UFresh c.db u) (hs : c.step H e = some c') {b : Nat} (h1 : 1 ≤ b)
    (h2 : c.genesis ≤ b) (h2' : c'.genesis ≤ b) (h3 : b ≤ c.last) (h3' : b ≤ c'.last) :
    c'.getRaw H b = c.getRaw H b := by
  have hi := reach_inv hd hg h
  have hi' := inv_step hi hu hs
  have g1 : 1 ≤ c.genesis := by
    have := hi.fresh
    omega
  have g1' : 1 ≤ c'.genesis := by
    have := hi'.fresh
    omega
  obtain ⟨r, k1, k2⟩ := hi.live b g1 h2 h3
  obtain ⟨r', k1', k2'⟩ := hi'.live b g1' h2' h3'
  have : r' = r := by
    have hb : b - 1 < (hist H (Chain.new db) [] evs).length := by rw [hi.len]; omega
    have e : (hist H (Chain.new db) [] evs)[b - 1]? = some r' := by
      cases e with
      | add u =>
        simp only [histStep] at k1'
        split at k1'
        · rw [List.getElem?_append_left hb] at k1'; exact k1'
        · exact k1'
      | failAdd _ => exact k1'
      | prune => exact k1'
      | restart => exact k1'
      | deleteLast =>
        simp only [histStep] at k1'
        rw [List.getElem?_dropLast] at k1'
        split at k1'
        · exact k1'
        · cases k1'
    rw [k1] at e
    exact (Option.some.inj e).symm
  rw [live_getRaw k2, live_getRaw k2', this]

/-- **C26.** Each stored block names the digest of the block before it, as that block reads back now. -/
theorem parent_digest_of_predecessor {H : Hashes} {db : Db} (hd : EmptyDb db) {evs : List Ev} {c : Chain}
    (hg : GoodRun H (Chain.new db) evs) (h : (Chain.new db).run H evs = some c) {b : Nat} (h1 : 1 ≤ b) (h2 : c.genesis ≤ b)
    (h3 : b + 1 ≤ c.last) : ∃ r r', c.getRaw H b = some r ∧ c.getRaw H (b + 1) = some r' ∧ digest H b r = some r'.parent := by
  have hi := reach_inv hd hg h
  have g1 : 1 ≤ c.genesis := by
    have := hi.fresh
    omega
  obtain ⟨r, k1, k2⟩ := hi.live b g1 h2 (by omega)
  obtain ⟨r', k1', k2'⟩ := hi.live (b + 1) g1 (by omega) h3
  refine ⟨r, r', live_getRaw k2, live_getRaw k2', ?_⟩
  have := hi.linked.next (b - 1) r r' k1 (by rw [show b - 1 + 1 = b + 1 - 1 by omega]; exact k1')
  rw [show b - 1 + 1 = b by omega] at this
  exact this

/-- **C26.** A restart between two blocks does not change the blocks: the parent digest does not depend on the cached raw
block. -/
theorem restart_invisible {H : Hashes} {db : Db} (hd : EmptyDb db) {evs : List Ev} {c : Chain}
    (hg : GoodRun H (Chain.new db) evs) (h : (Chain.new db).run H evs = some c) (u : Updates) :
    ({ c with cache := none } : Chain).addBlock H u = c.addBlock H u := by
  have hi := reach_inv hd hg h
  have hi' : Inv H { c with cache := none } (hist H (Chain.new db) [] evs) :=
    { hi with cache := fun i r e => (by cases e) }
  have e1 := parent_digest_eq hi
  have e2 := parent_digest_eq hi'
  have e : ({ c with cache := none } : Chain).parentDigest H (c.last + 1) = c.parentDigest H (c.last + 1) := e2.trans e1.symm
  simp only [Chain.addBlock]
  split
  · cases addGenesisKey c.genesis u with
    | none => rfl
    | some u' =>
      simp only [Option.bind_some, Chain.append]
      rw [e]
  · rfl

/-! ### the digest of the last block determines the history -/

theorem filterMap_sorted {α β : Type} (f : CatId × α → Option (CatId × β)) (hf : ∀ x y, f x = some y → y.1 = x.1) :
    ∀ {l : List (CatId × α)}, Sorted l → IsMap (l.filterMap f)
  | [], _ => List.Pairwise.nil
  | x :: xs, h => by
    have h' := List.pairwise_cons.1 h
    rw [List.filterMap_cons]
    cases e : f x with
    | none => exact filterMap_sorted f hf h'.2
    | some y =>
      refine List.pairwise_cons.2 ⟨?_, filterMap_sorted f hf h'.2⟩
      intro z hz
      obtain ⟨w, hw, ew⟩ := List.mem_filterMap.1 hz
      rw [hf x y e, hf w z ew]
      exact h'.1 w hw

/-- roots of an update info are hashes, and those of an immutable category form a map -/
def COutput.Ok : COutput → Prop
  | .merkle o => o.rootHash.length = 32
  | .versioned _ r => ∀ x, r = some x → x.length = 32
  | .immutable _ r => ∀ m, r = some m → IsMap m ∧ ∀ y ∈ m, y.2.length = 32

theorem tagsOf_sorted (kv : List (Key × (Bytes × List Bytes))) : Sorted (tagsOf kv) :=
  (foldl_emplace (fun t : Bytes => t) (fun _ => ()) (kv.flatMap (fun x : Key × (Bytes × List Bytes) => x.2.2)) [] List.Pairwise.nil).1

theorem catAdd_ok {H : Hashes} (hH : H.Len32) {b : Nat} {i : CInput} {s s' : CState} {o : COutput}
    (h : catAdd H.m b i s = some (s', o)) : o.Ok := by
  cases i with
  | merkle i =>
    cases s with
    | merkle s =>
      simp only [catAdd, Option.map_eq_some_iff] at h
      obtain ⟨⟨t, o'⟩, h1, h2⟩ := h
      cases h2
      simp only [MState.add] at h1
      split at h1
      · cases h1
      · split at h1
        · cases h1
        · cases h1; exact hH.tree _
    | versioned _ => cases h
    | immutable _ => cases h
  | versioned i r =>
    cases s with
    | versioned s =>
      cases h
      intro x hx
      cases r with
      | true => simp only [if_true, Option.some.injEq] at hx; rw [← hx]; exact hH.h _
      | false => cases hx
    | merkle _ => cases h
    | immutable _ => cases h
  | immutable kv r =>
    cases s with
    | immutable s =>
      cases h
      intro m hm
      cases r with
      | true =>
        simp only [if_true, Option.some.injEq] at hm
        rw [← hm]
        refine ⟨?_, fun y hy => ?_⟩
        · rw [iRoots, IsMap, List.pairwise_map]
          exact tagsOf_sorted kv
        · obtain ⟨t, _, rfl⟩ := List.mem_map.1 hy
          exact hH.h _
      | false => cases hm
    | merkle _ => cases h
    | versioned _ => cases h

theorem proper_ok {H : MHash} {i : CInput} (h : i.Proper H) : i.Ok := by
  cases i with
  | merkle i => exact h.1
  | versioned i r => exact h.1
  | immutable kv r => exact h

theorem mkRaw_ok {H : Hashes} (hH : H.Len32) {b : Nat} {db : Db} {u : Updates} {l : List (CatId × (CState × COutput))}
    {p : Bytes} (hp : p.length = 32) (hs : Sorted u) (hpr : ∀ x ∈ u, x.2.Proper H.m) (h : Rel (catAdd H.m b) db u l) :
    (mkRaw p u (l.map (fun x => (x.1, x.2.2)))).Ok := by
  have hsl : Sorted (l.map (fun x => (x.1, x.2.2))) := by
    rw [Sorted, List.pairwise_map]
    have : (l.map (·.1)).Pairwise (fun a b => keyLt a b = true) := by
      rw [h.fst, List.pairwise_map]; exact hs
    rw [List.pairwise_map] at this
    exact this
  have hok : ∀ x ∈ l.map (fun x => (x.1, x.2.2)), x.2.Ok := by
    intro x hx
    obtain ⟨y, hy, rfl⟩ := List.mem_map.1 hx
    obtain ⟨a, s, _, _, k⟩ := h.right y hy
    exact catAdd_ok hH (s' := y.2.1) (o := y.2.2) k
  constructor
  · exact hp
  · exact hs
  · exact fun x hx => proper_ok (hpr x hx)
  · refine ⟨filterMap_sorted _ (fun x y e => ?_) hsl, fun y hy => ?_⟩
    · split at e
      · cases e; rfl
      · cases e
    · obtain ⟨x, hx, e⟩ := List.mem_filterMap.1 hy
      have := hok x hx
      split at e
      · rename_i o eo; rw [eo] at this; cases e; exact this
      · cases e
  · refine ⟨filterMap_sorted _ (fun x y e => ?_) hsl, fun y hy => ?_⟩
    · split at e
      · cases e; rfl
      · cases e
    · obtain ⟨x, hx, e⟩ := List.mem_filterMap.1 hy
      have := hok x hx
      split at e
      · rename_i o r eo; rw [eo] at this; cases e; exact this _ rfl
      · cases e
  · refine ⟨filterMap_sorted _ (fun x y e => ?_) hsl, fun y hy => ?_⟩
    · split at e
      · cases e; rfl
      · cases e
    · obtain ⟨x, hx, e⟩ := List.mem_filterMap.1 hy
      have := hok x hx
      split at e
      · rename_i o r eo; rw [eo] at this; cases e; exact this _ rfl
      · cases e

theorem digest_len {H : Hashes} (hH : H.Len32) {b : Nat} {r : Raw} {x : Bytes} (h : digest H b r = some x) : x.length = 32 := by
  rw [digest] at h
  split at h
  · cases h
  · split at h
    · cases h
    · cases h; exact hH.d _

theorem parentDigest_len {H : Hashes} (hH : H.Len32) {c : Chain} {raws : List Raw} (hi : Inv H c raws) {p : Bytes}
    (h : c.parentDigest H (c.last + 1) = some p) : p.length = 32 := by
  rw [parent_digest_eq hi] at h
  split at h
  · cases h; rfl
  · exact digest_len hH h

theorem ok_step {H : Hashes} (hH : H.Len32) {c c' : Chain} {raws : List Raw} (hi : Inv H c raws) (ho : ∀ r ∈ raws, r.Ok) {e : Ev}
    (hg : ∀ u, e = .add u → UGood H.m u ∧ UFresh c.db u) (h : c.step H e = some c') :
    ∀ r ∈ histStep c' raws e, r.Ok := by
  cases e with
  | add u =>
    obtain ⟨g1, g2⟩ := hg u rfl
    obtain ⟨u', h1, h2⟩ := addBlock_append h
    obtain ⟨p1, p2, _⟩ := addGenesisKey_good g1 h1
    obtain ⟨p, l, k1, k2, rfl⟩ := append_some h2
    intro r hr
    rcases List.mem_append.1 hr with hr | hr
    · exact ho r hr
    · rw [List.mem_singleton] at hr
      subst hr
      exact mkRaw_ok hH (parentDigest_len hH hi k1) p1 p2 k2
  | failAdd r => exact ho
  | prune => exact ho
  | deleteLast => exact fun r hr => ho r (List.dropLast_subset _ hr)
  | restart => exact ho

theorem ok_run {H : Hashes} (hH : H.Len32) : ∀ {evs : List Ev} {c c' : Chain} {raws : List Raw}, Inv H c raws →
    (∀ r ∈ raws, r.Ok) → GoodRun H c evs → c.run H evs = some c' → ∀ r ∈ hist H c raws evs, r.Ok
  | [], c, c', raws, hi, ho, _, h => ho
  | e :: es, c, c', raws, hi, ho, hg, h => by
    rw [Chain.run] at h
    cases h1 : c.step H e with
    | none => rw [h1] at h; cases h
    | some c1 =>
      rw [h1] at h
      rw [hist, h1]
      exact ok_run hH (inv_step hi hg.1 h1) (ok_step hH hi ho hg.1 h1) (hg.2 c1 h1) h

theorem linked_take {H : Hashes} {raws : List Raw} (h : Linked H raws) (n : Nat) : Linked H (raws.take n) := by
  have e : ∀ (i : Nat) (r : Raw), (raws.take n)[i]? = some r → raws[i]? = some r := by
    intro i r hi
    rw [List.getElem?_take] at hi
    split at hi
    · exact hi
    · cases hi
  exact ⟨fun r hr => h.first r (e _ _ hr), fun i r r' h1 h2 => h.next i r r' (e _ _ h1) (e _ _ h2)⟩

/-- **C26.** Two replicas (with any histories of additions, pruning, deletions, failed additions and restarts) each hold a
block with the same digest.  Then it is the same block number, and every block up to it was the same on both — in particular
every such block that both still store reads back the same — or two different strings hashed for their blocks collide. -/
theorem same_digest_same_history {H : Hashes} (hH : H.Len32) {db db' : Db} (hd : EmptyDb db) (hd' : EmptyDb db')
    {evs evs' : List Ev} {c c' : Chain} (hg : GoodRun H (Chain.new db) evs) (hg' : GoodRun H (Chain.new db') evs')
    (h : (Chain.new db).run H evs = some c) (h' : (Chain.new db').run H evs' = some c')
    (hsm : ∀ r ∈ hist H (Chain.new db) [] evs, Small r) (hsm' : ∀ r ∈ hist H (Chain.new db') [] evs', Small r)
    (hl : c.last < 2 ^ 64) (hl' : c'.last < 2 ^ 64)
    {b b' : Nat} (h1 : 1 ≤ b) (h2 : c.genesis ≤ b) (h3 : b ≤ c.last) (h1' : 1 ≤ b') (h2' : c'.genesis ≤ b') (h3' : b' ≤ c'.last)
    {x : Bytes} (hx : c.blockDigest H b = some x) (hx' : c'.blockDigest H b' = some x) :
    (b = b' ∧ (hist H (Chain.new db) [] evs).take b = (hist H (Chain.new db') [] evs').take b ∧
      ∀ j, 1 ≤ j → c.genesis ≤ j → c'.genesis ≤ j → j ≤ b → c.getRaw H j = c'.getRaw H j) ∨
    ChainCollision H ((hist H (Chain.new db) [] evs).take b) ((hist H (Chain.new db') [] evs').take b') := by
  have hi := reach_inv hd hg h
  have hi' := reach_inv hd' hg' h'
  have ho := ok_run hH (inv_new (H := H) (empty_bound hd)) (fun r hr => (by cases hr)) hg h
  have ho' := ok_run hH (inv_new (H := H) (empty_bound hd')) (fun r hr => (by cases hr)) hg' h'
  generalize hist H (Chain.new db) [] evs = raws at *
  generalize hist H (Chain.new db') [] evs' = raws' at *
  have g1 : 1 ≤ c.genesis := by
    have := hi.fresh
    omega
  have g1' : 1 ≤ c'.genesis := by
    have := hi'.fresh
    omega
  obtain ⟨r, k1, k2⟩ := hi.live b g1 h2 h3
  obtain ⟨r', k1', k2'⟩ := hi'.live b' g1' h2' h3'
  rw [Chain.blockDigest, live_getRaw k2] at hx
  rw [Chain.blockDigest, live_getRaw k2'] at hx'
  have len : (raws.take b).length = b := by rw [List.length_take, hi.len]; omega
  have len' : (raws'.take b').length = b' := by rw [List.length_take, hi'.len]; omega
  have last : ∀ {l : List Raw} {n : Nat} {q : Raw}, 1 ≤ n → (l.take n).length = n → l[n - 1]? = some q →
      (l.take n).getLast? = some q := by
    intro l n q hn hl hq
    rw [List.getLast?_eq_getElem?, hl, List.getElem?_take, if_pos (by omega)]
    exact hq
  rcases chain_binds b (raws.take b) (raws'.take b') len (linked_take hi.linked b) (linked_take hi'.linked b')
    (fun q hq => ⟨ho q (List.mem_of_mem_take hq), hsm q (List.mem_of_mem_take hq)⟩)
    (fun q hq => ⟨ho' q (List.mem_of_mem_take hq), hsm' q (List.mem_of_mem_take hq)⟩)
    (by rw [len]; omega) (by rw [len']; omega) r r' x (last h1 len k1) (last h1' len' k1')
    (by rw [len]; exact hx) (by rw [len']; exact hx') with e | e
  · left
    have hb : b = b' := by rw [← len, ← len', e]
    subst hb
    refine ⟨rfl, e, fun j j1 j2 j3 j4 => ?_⟩
    obtain ⟨q, q1, q2⟩ := hi.live j g1 j2 (by omega)
    obtain ⟨q', q1', q2'⟩ := hi'.live j g1' j3 (by omega)
    rw [live_getRaw q2, live_getRaw q2']
    have := congrArg (fun l : List Raw => l[j - 1]?) e
    have this : (raws.take b)[j - 1]? = (raws'.take b)[j - 1]? := this
    rw [List.getElem?_take, List.getElem?_take, if_pos (by omega), if_pos (by omega), q1, q1'] at this
    exact this
  · exact Or.inr e

end Verif.Chain
