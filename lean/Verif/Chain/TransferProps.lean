import Verif.Chain.Transfer
import Verif.Chain.Theorems
set_option linter.unusedVariables false
set_option linter.unusedSimpArgs false
/-!
# C27: a replica that catches up by state transfer ends with the source's contents
-/
namespace Verif.Chain
open Verif.Bytes Verif.Kvbc

theorem CoreEq.refl (c : Chain) : CoreEq c c := ⟨rfl, rfl, rfl, rfl⟩
theorem CoreEq.symm {c c' : Chain} (h : CoreEq c c') : CoreEq c' c := ⟨h.1.symm, h.2.1.symm, h.2.2.1.symm, h.2.2.2.symm⟩
theorem CoreEq.trans {a b c : Chain} (h : CoreEq a b) (h' : CoreEq b c) : CoreEq a c :=
  ⟨h.1.trans h'.1, h.2.1.trans h'.2.1, h.2.2.1.trans h'.2.2.1, h.2.2.2.trans h'.2.2.2⟩

theorem inv_core {H : Hashes} {c cs : Chain} {raws : List Raw} (hi : Inv H cs raws) (he : CoreEq c cs)
    (hc : ∀ i r, c.cache = some (i, r) → 1 ≤ i ∧ c.last ≤ i ∧ (i = c.last → raws[c.last - 1]? = some r)) : Inv H c raws := by
  obtain ⟨db, bl, g, l, ca, st⟩ := c
  obtain ⟨db', bl', g', l', ca', st'⟩ := cs
  obtain ⟨e1, e2, e3, e4⟩ := he
  simp only at e1 e2 e3 e4
  subst e1; subst e2; subst e3; subst e4
  exact ⟨hi.len, hi.fresh, hi.range, hi.live, hi.gone, hi.linked, hc, hi.bound⟩

theorem append_core {H : Hashes} {c cs : Chain} {raws : List Raw} (hi : Inv H c raws) (hi' : Inv H cs raws) (he : CoreEq c cs)
    (u : Updates) : c.append H u = (cs.append H u).map (fun c' => { c' with st := c.st }) := by
  have h1 := parent_digest_eq hi
  have h2 := parent_digest_eq hi'
  obtain ⟨e1, e2, e3, e4⟩ := he
  have h3 : c.parentDigest H (c.last + 1) = cs.parentDigest H (cs.last + 1) := by rw [h1, h2, e4]
  simp only [Chain.append]
  rw [h3, e1, e2, e3, e4]
  cases cs.parentDigest H (cs.last + 1) with
  | none => rfl
  | some p =>
    cases onCats (catAdd H.m (cs.last + 1)) cs.db u with
    | none => rfl
    | some l => rfl

theorem prune_core {H : Hashes} {c cs : Chain} (he : CoreEq c cs) :
    c.prune H = (cs.prune H).map (fun c' => { c' with cache := c.cache, st := c.st }) := by
  obtain ⟨db, bl, g, l, ca, st⟩ := c
  obtain ⟨db', bl', g', l', ca', st'⟩ := cs
  obtain ⟨e1, e2, e3, e4⟩ := he
  simp only at e1 e2 e3 e4
  subst e1; subst e2; subst e3; subst e4
  simp only [Chain.prune]
  split
  · rfl
  · split
    · rfl
    · cases bl g with
      | none => rfl
      | some b =>
        simp only
        cases onCats (catPrune H.m g) db b.outs <;> rfl

theorem append_st {H : Hashes} {c c' : Chain} {u : Updates} (h : c.append H u = some c') : c'.st = c.st ∧ c'.last = c.last + 1 := by
  obtain ⟨p, l, _, _, rfl⟩ := append_some h
  exact ⟨rfl, rfl⟩

theorem assign_lookup {α : Type} (k : Key) (v : α) : ∀ (l : List (Key × α)), (assign k v l).lookup k = some v
  | [] => by simp [assign]
  | y :: ys => by
    rw [assign]
    split
    · simp [List.lookup_cons]
    · rename_i h
      split
      · simp [List.lookup_cons]
      · rw [List.lookup_cons, beq_eq_false_iff_ne.2 h]
        exact assign_lookup k v ys

/-- the genesis block id a block carries is the one the source had when it added it -/
theorem genesisOf_added {g : Nat} (hg : g < 2 ^ 64) {u u' : Updates} (h : addGenesisKey g u = some u') :
    genesisOf u' = some (some g) := by
  have key : leDecode (((leEncode 8 g).reverse.take 8).reverse) = g := by
    rw [List.take_of_length_le (by rw [List.length_reverse, leEncode_length]; exact Nat.le_refl _), List.reverse_reverse]
    exact leDecode_leEncode 8 g (by rw [show (256 : Nat) ^ 8 = 2 ^ 64 by decide]; exact hg)
  rw [addGenesisKey] at h
  split at h
  · cases h
    rw [genesisOf, assign_lookup]
    simp only [List.lookup_cons, beq_self_eq_true, Option.map_some]
    rw [key]
  · cases h
    rw [genesisOf, assign_lookup]
    simp only [assign_lookup, Option.map_some]
    rw [key]
  · cases h

theorem hist_prefix {H : Hashes} : ∀ {evs : List Ev} {c : Chain} {raws : List Raw}, NoDelete evs →
    ∃ t, hist H c raws evs = raws ++ t
  | [], c, raws, _ => ⟨[], by rw [hist, List.append_nil]⟩
  | e :: es, c, raws, hn => by
    rw [hist]
    cases h : c.step H e with
    | none => exact ⟨[], (List.append_nil _).symm⟩
    | some c' =>
      simp only
      have hn' : NoDelete es := fun e he => hn e (List.mem_cons_of_mem _ he)
      obtain ⟨t, ht⟩ := hist_prefix (H := H) (c := c') (raws := histStep c' raws e) hn'
      rw [ht]
      cases e with
      | add u =>
        simp only [histStep]
        cases c'.cache with
        | none => exact ⟨t, rfl⟩
        | some p => exact ⟨p.2 :: t, by simp⟩
      | failAdd r => exact ⟨t, rfl⟩
      | prune => exact ⟨t, rfl⟩
      | restart => exact ⟨t, rfl⟩
      | deleteLast => exact absurd rfl (hn _ List.mem_cons_self)

theorem hist_append {H : Hashes} : ∀ {evs es : List Ev} {c c' : Chain} {raws : List Raw}, c.run H evs = some c' →
    hist H c raws (evs ++ es) = hist H c' (hist H c raws evs) es
  | [], es, c, c', raws, h => by cases h; rfl
  | e :: evs, es, c, c', raws, h => by
    rw [Chain.run] at h
    rw [List.cons_append, hist, hist]
    cases h1 : c.step H e with
    | none => rw [h1] at h; cases h
    | some c1 => rw [h1] at h; exact hist_append h

theorem goodRun_append {H : Hashes} : ∀ {evs es : List Ev} {c c' : Chain}, GoodRun H c (evs ++ es) → c.run H evs = some c' →
    GoodRun H c evs ∧ GoodRun H c' es
  | [], es, c, c', hg, h => by cases h; exact ⟨trivial, hg⟩
  | e :: evs, es, c, c', hg, h => by
    rw [Chain.run] at h
    cases h1 : c.step H e with
    | none => rw [h1] at h; cases h
    | some c1 =>
      rw [h1] at h
      obtain ⟨k1, k2⟩ := goodRun_append (hg.2 c1 h1) h
      refine ⟨⟨hg.1, fun c2 h2 => ?_⟩, k2⟩
      rw [h1] at h2
      cases h2
      exact k1

theorem run_split {H : Hashes} : ∀ {evs es : List Ev} {c c' : Chain}, c.run H (evs ++ es) = some c' →
    ∃ c1, c.run H evs = some c1 ∧ c1.run H es = some c'
  | [], es, c, c', h => ⟨c, rfl, h⟩
  | e :: evs, es, c, c', h => by
    rw [List.cons_append, Chain.run] at h
    rw [Chain.run]
    cases h1 : c.step H e with
    | none => rw [h1] at h; cases h
    | some c1 => rw [h1] at h; exact run_split h

/-- what the source does next, up to its next block `r` -/
theorem next_block {H : Hashes} : ∀ {evs : List Ev} {cs cend : Chain} {raws : List Raw} {r : Raw}, Inv H cs raws →
    GoodRun H cs evs → NoDelete evs → cs.run H evs = some cend → (hist H cs raws evs)[raws.length]? = some r →
    ∃ g, genesisOf r.updates = some (some g) ∧
      ((cs.genesis = g ∧ ∃ noise u rest cs1 cs2, evs = noise ++ .add u :: rest ∧ cs.run H noise = some cs1 ∧ CoreEq cs1 cs ∧
          Inv H cs1 raws ∧ hist H cs raws noise = raws ∧ cs1.step H (.add u) = some cs2 ∧ cs1.append H r.updates = some cs2 ∧
          Inv H cs2 (raws ++ [r]) ∧ histStep cs2 raws (.add u) = raws ++ [r]) ∨
       (cs.genesis < g ∧ 1 ≤ cs.genesis ∧ cs.genesis < cs.last ∧ ∃ noise rest cs1 cs2, evs = noise ++ .prune :: rest ∧
          cs.run H noise = some cs1 ∧ CoreEq cs1 cs ∧ Inv H cs1 raws ∧ hist H cs raws noise = raws ∧
          cs1.step H .prune = some cs2 ∧ Inv H cs2 raws)) := by
  intro evs
  induction evs with
  | nil =>
    intro cs cend raws r hi _ _ _ hr
    rw [hist, List.getElem?_eq_none (Nat.le_refl _)] at hr
    cases hr
  | cons e es ih =>
    intro cs cend raws r hi hg hn h hr
    rw [Chain.run] at h
    rw [hist] at hr
    cases h1 : cs.step H e with
    | none => rw [h1] at h; cases h
    | some c1 =>
      rw [h1] at h hr
      simp only [Option.bind_some] at h
      simp only at hr
      have hi1 := inv_step hi hg.1 h1
      have hg1 := hg.2 c1 h1
      have hn1 : NoDelete es := fun e he => hn e (List.mem_cons_of_mem _ he)
      have noise : CoreEq c1 cs → histStep c1 raws e = raws → ∃ g, genesisOf r.updates = some (some g) ∧
          ((cs.genesis = g ∧ ∃ noise u rest cs1 cs2, e :: es = noise ++ .add u :: rest ∧ cs.run H noise = some cs1 ∧ CoreEq cs1 cs ∧
              Inv H cs1 raws ∧ hist H cs raws noise = raws ∧ cs1.step H (.add u) = some cs2 ∧ cs1.append H r.updates = some cs2 ∧
              Inv H cs2 (raws ++ [r]) ∧ histStep cs2 raws (.add u) = raws ++ [r]) ∨
           (cs.genesis < g ∧ 1 ≤ cs.genesis ∧ cs.genesis < cs.last ∧ ∃ noise rest cs1 cs2, e :: es = noise ++ .prune :: rest ∧
              cs.run H noise = some cs1 ∧ CoreEq cs1 cs ∧ Inv H cs1 raws ∧ hist H cs raws noise = raws ∧
              cs1.step H .prune = some cs2 ∧ Inv H cs2 raws)) := by
        intro hc hh
        rw [hh] at hi1 hr
        obtain ⟨g, k1, k2⟩ := ih hi1 hg1 hn1 h hr
        refine ⟨g, k1, ?_⟩
        rw [← hc.2.2.1, ← hc.2.2.2]
        have hrun : ∀ ns cs1, c1.run H ns = some cs1 → cs.run H (e :: ns) = some cs1 := by
          intro ns cs1 hns
          rw [Chain.run, h1]; exact hns
        have hhist : ∀ ns, hist H c1 raws ns = raws → hist H cs raws (e :: ns) = raws := by
          intro ns hns
          rw [hist, h1]; simp only; rw [hh]; exact hns
        rcases k2 with ⟨a1, ns, u, rest, cs1, cs2, a2, a3, a4, a5, a6, a7⟩ | ⟨a1, a1', a1'', ns, rest, cs1, cs2, a2, a3, a4, a5, a6, a7⟩
        · exact Or.inl ⟨a1, e :: ns, u, rest, cs1, cs2, by rw [a2]; rfl, hrun ns cs1 a3, a4.trans hc, a5, hhist ns a6, a7⟩
        · exact Or.inr ⟨a1, a1', a1'', e :: ns, rest, cs1, cs2, by rw [a2]; rfl, hrun ns cs1 a3, a4.trans hc, a5, hhist ns a6, a7⟩
      cases e with
      | restart => cases h1; exact noise ⟨rfl, rfl, rfl, rfl⟩ rfl
      | failAdd q => cases h1; exact noise ⟨rfl, rfl, rfl, rfl⟩ rfl
      | deleteLast => exact absurd rfl (hn _ List.mem_cons_self)
      | prune =>
        have hi1 : Inv H c1 raws := hi1
        obtain ⟨g, k1, k2⟩ := ih hi1 hg1 hn1 h hr
        refine ⟨g, k1, Or.inr ?_⟩
        have hp : c1.genesis = cs.genesis + 1 ∧ 1 ≤ cs.genesis ∧ cs.genesis ≠ cs.last := by
          obtain ⟨bl, l, p1, p2, _, _, rfl⟩ := prune_some h1
          exact ⟨rfl, p1, p2⟩
        have hle : c1.genesis ≤ g := by
          rcases k2 with ⟨a, _⟩ | ⟨a, _⟩ <;> omega
        have := hi.range
        exact ⟨by omega, hp.2.1, by omega, [], es, cs, c1, rfl, rfl, CoreEq.refl cs, hi, rfl, h1, hi1⟩
      | add u =>
        obtain ⟨g1, g2⟩ := hg.1 u rfl
        obtain ⟨u', b1, b2⟩ := addBlock_append h1
        obtain ⟨p1, p2, _⟩ := addGenesisKey_good g1 b1
        obtain ⟨q, hc, hq, hi'⟩ := inv_append hi p1 p2 (addGenesisKey_fresh g1 g2 b1) b2
        have hs : histStep c1 raws (.add u) = raws ++ [q] := by rw [histStep, hc]
        rw [hs] at hr
        obtain ⟨t, ht⟩ := hist_prefix (H := H) (c := c1) (raws := raws ++ [q]) hn1
        rw [ht, List.append_assoc, List.getElem?_append_right (Nat.le_refl _), Nat.sub_self] at hr
        simp only [List.singleton_append, List.getElem?_cons_zero, Option.some.injEq] at hr
        subst hr
        have hgl : cs.genesis < 2 ^ 64 := by
          have h1' : cs.addBlock H u = some c1 := h1
          rw [Chain.addBlock] at h1'
          split at h1'
          · rename_i hlt
            have := hi.range
            have e63 : (2 : Nat) ^ 63 ≤ 2 ^ 64 := by decide
            exact Nat.lt_of_lt_of_le (by omega) e63
          · cases h1'
        refine ⟨cs.genesis, by rw [hq]; exact genesisOf_added hgl b1, Or.inl ⟨rfl, [], u, es, cs, c1, rfl, rfl, CoreEq.refl cs,
          hi, rfl, h1, by rw [hq]; exact b2, hi', hs⟩⟩

/-- the catching-up replica is where the source was at some moment -/
structure J (H : Hashes) (db : Db) (evs : List Ev) (c : Chain) : Prop where
  at_ : ∃ evs1 evs2 cs, evs = evs1 ++ evs2 ∧ (Chain.new db).run H evs1 = some cs ∧ CoreEq c cs ∧
    Inv H cs (hist H (Chain.new db) [] evs1) ∧ Inv H c (hist H (Chain.new db) [] evs1)
  src : FromSource (hist H (Chain.new db) [] evs) c

theorem J.moment {H : Hashes} {db : Db} {evs : List Ev} {c : Chain} (h : J H db evs c) : AtSomeMoment H db evs c := by
  obtain ⟨evs1, evs2, cs, h1, h2, h3, _⟩ := h.at_
  exact ⟨evs1, evs2, cs, h1, h2, h3⟩

/-- the next move of a catching-up replica that holds the next raw block -/
theorem J.next {H : Hashes} {db : Db} (hd : EmptyDb db) {evs : List Ev} {cend c : Chain} (hg : GoodRun H (Chain.new db) evs)
    (hn : NoDelete evs) (hrun : (Chain.new db).run H evs = some cend) (hj : J H db evs c) {r : Raw}
    (hst : c.st (c.last + 1) = some r) :
    ∃ g, genesisOf r.updates = some (some g) ∧
      ((c.genesis = g ∧ ∃ c', linkTx H c (c.last + 1) r = some c' ∧ J H db evs c' ∧ RightAfter H db evs (c.last + 1) c') ∨
       (c.genesis < g ∧ 1 ≤ c.genesis ∧ c.genesis < c.last ∧ ∃ c', c.prune H = some c' ∧ J H db evs c')) := by
  obtain ⟨⟨evs1, evs2, cs, e1, e2, e3, e4, e5⟩, hsrc⟩ := hj
  have hr := hsrc (c.last + 1) r (Nat.lt_succ_self _) hst
  subst e1
  obtain ⟨cs', r1, r2⟩ := run_split hrun
  rw [e2] at r1; cases r1
  obtain ⟨g1, g2⟩ := goodRun_append hg e2
  have n2 : NoDelete evs2 := fun e he => hn e (List.mem_append.2 (Or.inr he))
  have hsrc' := hsrc
  rw [hist_append e2] at hr
  generalize hraws : hist H (Chain.new db) [] evs1 = raws at *
  have hlen : raws.length = c.last := e5.len
  rw [Nat.add_sub_cancel, ← hlen] at hr
  obtain ⟨g, k1, k2⟩ := next_block e4 g2 n2 r2 hr
  refine ⟨g, k1, ?_⟩
  rw [e3.2.2.1, e3.2.2.2]
  rcases k2 with ⟨a1, ns, u, rest, cs1, cs2, a2, a3, a4, a5, a6, a7, a8, a9, a10⟩ |
    ⟨a1, a1', a1'', ns, rest, cs1, cs2, a2, a3, a4, a5, a6, a7, a8⟩
  · left
    refine ⟨a1, ?_⟩
    have hcore : CoreEq c cs1 := e3.trans a4.symm
    have hap := append_core e5 a5 hcore r.updates
    rw [a8] at hap
    have hlk : linkTx H c (cs.last + 1) r = some { cs2 with st := fun i => if i = cs.last + 1 then none else c.st i } := by
      rw [linkTx, hap]; rfl
    have hl2 : cs2.last = cs.last + 1 := by
      rw [(append_st a8).2, a4.2.2.2]
    have hrun2 : (Chain.new db).run H (evs1 ++ (ns ++ [.add u])) = some cs2 := by
      rw [run_append e2, run_append a3, Chain.run, a7]
      rfl
    have hh2 : hist H (Chain.new db) [] (evs1 ++ (ns ++ [.add u])) = raws ++ [r] := by
      rw [hist_append e2, hraws, hist_append a3, a6, hist, a7]
      simp only
      rw [a10]
      rfl
    refine ⟨_, hlk, ⟨⟨evs1 ++ (ns ++ [.add u]), rest, cs2, by rw [a2]; simp, hrun2, ⟨rfl, rfl, rfl, rfl⟩, ?_, ?_⟩, ?_⟩, ?_⟩
    · rw [hh2]; exact a9
    · rw [hh2]; exact inv_core a9 ⟨rfl, rfl, rfl, rfl⟩ a9.cache
    · intro b q hb hq
      have hb : cs2.last < b := hb
      have hq : (if b = cs.last + 1 then none else c.st b) = some q := hq
      rw [if_neg (by omega)] at hq
      exact hsrc' b q (by rw [e3.2.2.2]; omega) hq
    · refine ⟨evs1 ++ ns, u, rest, cs2, by rw [a2]; simp, by rw [List.append_assoc]; exact hrun2, hl2, ⟨rfl, rfl, rfl, rfl⟩⟩
  · right
    refine ⟨a1, a1', a1'', ?_⟩
    have hcore : CoreEq c cs1 := e3.trans a4.symm
    have hp := prune_core (H := H) hcore
    have a7' : cs1.prune H = some cs2 := a7
    rw [a7'] at hp
    have hrun2 : (Chain.new db).run H (evs1 ++ (ns ++ [.prune])) = some cs2 := by
      rw [run_append e2, run_append a3, Chain.run, a7]
      rfl
    have hh2 : hist H (Chain.new db) [] (evs1 ++ (ns ++ [.prune])) = raws := by
      rw [hist_append e2, hraws, hist_append a3, a6, hist, a7]
      rfl
    have hl2 : cs2.last = cs.last := by
      obtain ⟨bl, l, _, _, _, _, rfl⟩ := prune_some a7'
      exact a4.2.2.2
    refine ⟨_, hp, ⟨⟨evs1 ++ (ns ++ [.prune]), rest, cs2, by rw [a2]; simp, hrun2, ⟨rfl, rfl, rfl, rfl⟩, ?_, ?_⟩, ?_⟩⟩
    · rw [hh2]; exact a8
    · rw [hh2]
      refine inv_core a8 ⟨rfl, rfl, rfl, rfl⟩ (fun i q hc => ?_)
      obtain ⟨c1, c2, c3⟩ := e5.cache i q hc
      refine ⟨c1, ?_, fun e => ?_⟩
      · show cs2.last ≤ i
        rw [hl2, ← e3.2.2.2]; exact c2
      · have e : i = cs2.last := e
        show raws[cs2.last - 1]? = some q
        rw [hl2, ← e3.2.2.2]
        exact c3 (by rw [e, hl2, e3.2.2.2])
    · intro b q hb hq
      have hb : cs2.last < b := hb
      exact hsrc' b q (by rw [e3.2.2.2]; omega) hq

/-- every step keeps the replica at a moment of the source -/
theorem J.step {H : Hashes} {db : Db} (hd : EmptyDb db) {evs : List Ev} {cend c c' : Chain} (hg : GoodRun H (Chain.new db) evs)
    (hn : NoDelete evs) (hrun : (Chain.new db).run H evs = some cend) (hj : J H db evs c)
    (h : TStep H (fun b r => (hist H (Chain.new db) [] evs)[b - 1]? = some r) c c') : J H db evs c' := by
  cases h with
  | @receive _ b r hp hr =>
    rw [Chain.addRaw] at hr
    split at hr
    · cases hr
    · cases hr
      obtain ⟨⟨evs1, evs2, cs, e1, e2, e3, e4, e5⟩, hsrc⟩ := hj
      refine ⟨⟨evs1, evs2, cs, e1, e2, e3, e4, inv_core e5 ⟨rfl, rfl, rfl, rfl⟩ e5.cache⟩, ?_⟩
      intro b' q hb hq
      have hq : (if b' = b then some r else c.st b') = some q := hq
      split at hq
      · rename_i e; cases hq; rw [e]; exact hp
      · exact hsrc b' q hb hq
  | prune h1 h2 h3 h4 h5 h6 =>
    obtain ⟨g, k1, k2⟩ := hj.next hd hg hn hrun h1
    rw [h2] at k1; cases k1
    rcases k2 with ⟨k, _⟩ | ⟨_, _, _, c2, k3, k4⟩
    · omega
    · rw [h6] at k3; cases k3; exact k4
  | move h1 h2 h3 =>
    obtain ⟨g, k1, k2⟩ := hj.next hd hg hn hrun h1
    rcases k2 with ⟨_, c2, k3, k4, _⟩ | ⟨k, k', k'', _⟩
    · rw [h3] at k3; cases k3; exact k4
    · have := h2 g k1 k' k''
      omega
  | crash =>
    obtain ⟨⟨evs1, evs2, cs, e1, e2, e3, e4, e5⟩, hsrc⟩ := hj
    exact ⟨⟨evs1, evs2, cs, e1, e2, e3, e4, inv_core e5 ⟨rfl, rfl, rfl, rfl⟩ (fun i r h => (by cases h))⟩, hsrc⟩

theorem J.start {H : Hashes} {db : Db} (hd : EmptyDb db) {evs : List Ev} {c : Chain} (hg : GoodRun H (Chain.new db) evs)
    (ha : AtSomeMoment H db evs c) (hc : CacheOk H c) (hs : FromSource (hist H (Chain.new db) [] evs) c) : J H db evs c := by
  obtain ⟨evs1, evs2, cs, e1, e2, e3⟩ := ha
  subst e1
  have hi := reach_inv hd (goodRun_append hg e2).1 e2
  refine ⟨⟨evs1, evs2, cs, rfl, e2, e3, hi, inv_core hi e3 (fun i r h => ?_)⟩, hs⟩
  obtain ⟨c1, c2, c3⟩ := hc i r h
  refine ⟨c1, c2, fun e => ?_⟩
  have hr := c3 e
  have hl : 1 ≤ cs.last := by rw [← e3.2.2.2, ← e]; exact c1
  have hgen : 1 ≤ cs.genesis := by
    have := hi.fresh
    omega
  obtain ⟨q, q1, q2⟩ := hi.live cs.last hgen hi.range (Nat.le_refl _)
  have hq := live_getRaw q2
  have : c.getRaw H c.last = cs.getRaw H cs.last := by
    obtain ⟨f1, f2, f3, f4⟩ := e3
    simp only [Chain.getRaw]
    rw [f1, f2, f4]
  rw [this, hq, Option.some.injEq] at hr
  rw [e3.2.2.2, q1, hr]

theorem steps_j {H : Hashes} {db : Db} (hd : EmptyDb db) {evs : List Ev} {cend c c' : Chain}
    (hg : GoodRun H (Chain.new db) evs) (hn : NoDelete evs) (hrun : (Chain.new db).run H evs = some cend)
    (hj : J H db evs c)
    (h : TSteps H (fun b r => (hist H (Chain.new db) [] evs)[b - 1]? = some r) c c') : J H db evs c' := by
  induction h with
  | refl => exact hj
  | step _ hst ih => exact ih.step hd hg hn hrun hst

/-- **C27.** A replica that starts with contents the source once had, and receives blocks of the source in any order, with the
process stopping anywhere, always has contents the source once had. -/
theorem transfer_safe {H : Hashes} {db : Db} (hd : EmptyDb db) {evs : List Ev} {cend c c' : Chain}
    (hg : GoodRun H (Chain.new db) evs) (hn : NoDelete evs) (hrun : (Chain.new db).run H evs = some cend)
    (ha : AtSomeMoment H db evs c) (hc : CacheOk H c) (hs : FromSource (hist H (Chain.new db) [] evs) c)
    (h : TSteps H (fun b r => (hist H (Chain.new db) [] evs)[b - 1]? = some r) c c') : AtSomeMoment H db evs c' := by
  have : J H db evs c' := steps_j hd hg hn hrun (J.start hd hg ha hc hs) h
  exact this.moment

theorem pruneN_j {H : Hashes} {db : Db} (hd : EmptyDb db) {evs : List Ev} {cend : Chain} (hg : GoodRun H (Chain.new db) evs)
    (hn : NoDelete evs) (hrun : (Chain.new db).run H evs = some cend) {r : Raw} {g : Nat}
    (hgen : genesisOf r.updates = some (some g)) : ∀ (n : Nat) (c : Chain), J H db evs c → c.st (c.last + 1) = some r →
    g - c.genesis = n → ∃ c1, pruneN H n c = some c1 ∧ J H db evs c1 ∧ c1.genesis = g ∧ c1.last = c.last ∧ c1.st = c.st := by
  intro n
  induction n with
  | zero =>
    intro c hj hst hgn
    obtain ⟨g', k1, k2⟩ := hj.next hd hg hn hrun hst
    rw [hgen] at k1; cases k1
    refine ⟨c, rfl, hj, ?_, rfl, rfl⟩
    rcases k2 with ⟨k, _⟩ | ⟨k, _⟩ <;> omega
  | succ n ih =>
    intro c hj hst hgn
    obtain ⟨g', k1, k2⟩ := hj.next hd hg hn hrun hst
    rw [hgen] at k1; cases k1
    rcases k2 with ⟨k, _⟩ | ⟨_, _, _, c1, k3, k4⟩
    · omega
    · have hp : c1.genesis = c.genesis + 1 ∧ c1.last = c.last ∧ c1.st = c.st := by
        obtain ⟨bl, l, _, _, _, _, rfl⟩ := prune_some k3
        exact ⟨rfl, rfl, rfl⟩
      obtain ⟨c2, m1, m2, m3, m4, m5⟩ := ih c1 k4 (by rw [hp.2.1, hp.2.2]; exact hst) (by omega)
      refine ⟨c2, ?_, m2, m3, m4.trans hp.2.1, m5.trans hp.2.2⟩
      rw [pruneN, k3]; exact m1

/-- linking one block succeeds -/
theorem link_one {H : Hashes} {db : Db} (hd : EmptyDb db) {evs : List Ev} {cend c : Chain} (hg : GoodRun H (Chain.new db) evs)
    (hn : NoDelete evs) (hrun : (Chain.new db).run H evs = some cend) (hj : J H db evs c) {r : Raw}
    (hst : c.st (c.last + 1) = some r) :
    ∃ c1 c2, pruneOnLink H c r = some c1 ∧ linkTx H c1 (c.last + 1) r = some c2 ∧ J H db evs c2 ∧ c2.last = c.last + 1 ∧
      RightAfter H db evs (c.last + 1) c2 ∧ ∀ i, c2.st i = if i = c.last + 1 then none else c.st i := by
  obtain ⟨g, k1, k2⟩ := hj.next hd hg hn hrun hst
  have hp : ∃ c1, pruneOnLink H c r = some c1 ∧ J H db evs c1 ∧ c1.genesis = g ∧ c1.last = c.last ∧ c1.st = c.st := by
    rw [pruneOnLink, k1]
    simp only
    split
    · exact pruneN_j hd hg hn hrun k1 _ c hj hst rfl
    · rename_i hgd
      refine ⟨c, rfl, hj, ?_, rfl, rfl⟩
      rcases k2 with ⟨k, _⟩ | ⟨_, k', k'', _⟩
      · exact k
      · exact absurd ⟨k', k''⟩ hgd
  obtain ⟨c1, p1, p2, p3, p4, p5⟩ := hp
  obtain ⟨g', q1, q2⟩ := p2.next hd hg hn hrun (r := r) (by rw [p4, p5]; exact hst)
  rw [k1] at q1; cases q1
  rcases q2 with ⟨_, c2, q3, q4, q5⟩ | ⟨q, _⟩
  · rw [p4] at q3 q5
    refine ⟨c1, c2, p1, q3, q4, ?_, q5, ?_⟩
    · rw [linkTx, Option.map_eq_some_iff] at q3
      obtain ⟨c3, q6, rfl⟩ := q3
      rw [← p4]
      exact (append_st q6).2
    · rw [linkTx, Option.map_eq_some_iff] at q3
      obtain ⟨c3, q6, rfl⟩ := q3
      intro i
      show (if i = c.last + 1 then none else c3.st i) = _
      rw [(append_st q6).1, p5]
  · omega

/-- **C27.** Linking never fails, and moves exactly the blocks up to the first one that is missing (or the given bound): the
replica then has the contents the source had right after it added that block. -/
theorem transfer_links {H : Hashes} {db : Db} (hd : EmptyDb db) {evs : List Ev} {cend : Chain}
    (hg : GoodRun H (Chain.new db) evs) (hn : NoDelete evs) (hrun : (Chain.new db).run H evs = some cend) :
    ∀ (n : Nat) (c : Chain), AtSomeMoment H db evs c → CacheOk H c → FromSource (hist H (Chain.new db) [] evs) c →
    ∃ c' m, link H n c = some c' ∧ c'.last = c.last + m ∧ m ≤ n ∧
      (∀ i, i < m → c.st (c.last + 1 + i) ≠ none) ∧ (m = n ∨ c.st (c.last + 1 + m) = none) ∧
      (if m = 0 then c' = c else RightAfter H db evs (c.last + m) c') ∧
      ∀ i, c'.st i = if c.last < i ∧ i ≤ c.last + m then none else c.st i := by
  intro n c ha hc hs
  have hj := J.start hd hg ha hc hs
  clear ha hc hs
  induction n generalizing c with
  | zero =>
    refine ⟨c, 0, rfl, rfl, Nat.le_refl _, fun i hi => (by omega), Or.inl rfl, by rw [if_pos rfl], fun i => ?_⟩
    rw [if_neg (by omega)]
  | succ n ih =>
    cases e : c.st (c.last + 1) with
    | none =>
      refine ⟨c, 0, by rw [link, e], rfl, Nat.zero_le _, fun i hi => (by omega), Or.inr e, by rw [if_pos rfl], fun i => ?_⟩
      rw [if_neg (by omega)]
    | some r =>
      obtain ⟨c1, c2, h1, h2, h3, h4, h5, h6⟩ := link_one hd hg hn hrun hj e
      obtain ⟨c', m, k1, k2, k3, k4, k5, k6, k7⟩ := ih c2 h3
      refine ⟨c', m + 1, ?_, by omega, by omega, ?_, ?_, ?_, ?_⟩
      · rw [link, e]
        simp only [h1, h2, Option.bind_some]
        exact k1
      · intro i hi
        cases i with
        | zero => rw [Nat.add_zero, e]; simp
        | succ i =>
          have := k4 i (by omega)
          rw [h4, h6, if_neg (by omega)] at this
          rw [show c.last + 1 + (i + 1) = c.last + 1 + 1 + i by omega]
          exact this
      · rcases k5 with k5 | k5
        · exact Or.inl (by omega)
        · right
          rw [h4, h6, if_neg (by omega)] at k5
          rw [show c.last + 1 + (m + 1) = c.last + 1 + 1 + m by omega]
          exact k5
      · rw [if_neg (by omega)]
        by_cases hm : m = 0
        · rw [if_pos hm] at k6
          rw [k6, hm]
          exact h5
        · rw [if_neg hm, h4] at k6
          rw [show c.last + (m + 1) = c.last + 1 + m by omega]
          exact k6
      · intro i
        rw [k7, h4, h6]
        by_cases c1 : c.last + 1 < i ∧ i ≤ c.last + 1 + m
        · rw [if_pos c1, if_pos (by omega)]
        · rw [if_neg c1]
          by_cases c2 : i = c.last + 1
          · rw [if_pos c2, if_pos (by omega)]
          · rw [if_neg c2, if_neg (by omega)]

/-- **C27.** After any steps and a restart, linking with all blocks up to `n` present gives the contents the source had right
after block `n`. -/
theorem transfer_complete {H : Hashes} {db : Db} (hd : EmptyDb db) {evs : List Ev} {cend c c' : Chain}
    (hg : GoodRun H (Chain.new db) evs) (hn : NoDelete evs) (hrun : (Chain.new db).run H evs = some cend)
    (ha : AtSomeMoment H db evs c) (hc : CacheOk H c) (hs : FromSource (hist H (Chain.new db) [] evs) c)
    (h : TSteps H (fun b r => (hist H (Chain.new db) [] evs)[b - 1]? = some r) c c') {n : Nat} (hlt : c'.last < n)
    (hall : ∀ i, c'.last < i → i ≤ n → c'.st i ≠ none) :
    ∃ c'', link H (n - c'.last) { c' with cache := none } = some c'' ∧ c''.last = n ∧ RightAfter H db evs n c'' := by
  have hj : J H db evs c' := steps_j hd hg hn hrun (J.start hd hg ha hc hs) h
  have hm : AtSomeMoment H db evs { c' with cache := none } := by
    obtain ⟨evs1, evs2, cs, h1, h2, h3⟩ := hj.moment
    exact ⟨evs1, evs2, cs, h1, h2, h3⟩
  obtain ⟨c'', m, k1, k2, k3, k4, k5, k6, _⟩ := transfer_links hd hg hn hrun (n - c'.last) { c' with cache := none } hm
    (fun i r h => (by cases h)) hj.src
  have k2 : c''.last = c'.last + m := k2
  have hmn : m = n - c'.last := by
    rcases k5 with k5 | k5
    · exact k5
    · have k5 : c'.st (c'.last + 1 + m) = none := k5
      by_cases hh : m = n - c'.last
      · exact hh
      · exact absurd k5 (hall _ (by omega) (by omega))
  refine ⟨c'', k1, by omega, ?_⟩
  rw [if_neg (by omega)] at k6
  have k6 : RightAfter H db evs (c'.last + m) c'' := k6
  rw [show c'.last + m = n by omega] at k6
  exact k6

/-- **C27.** A raw block is accepted exactly when it is beyond the last block; it changes nothing but its own slot, so an
already linked block is never replaced. -/
theorem addRaw_spec (c : Chain) (b : Nat) (r : Raw) :
    (b ≤ c.last → c.addRaw b r = none) ∧
    (c.last < b → ∃ c', c.addRaw b r = some c' ∧ CoreEq c' c ∧ c'.cache = c.cache ∧ c'.st b = some r ∧
      ∀ i, i ≠ b → c'.st i = c.st i) := by
  constructor
  · intro h
    rw [Chain.addRaw, if_pos h]
  · intro h
    refine ⟨{ c with st := fun i => if i = b then some r else c.st i }, by rw [Chain.addRaw, if_neg (by omega)], ⟨rfl, rfl, rfl, rfl⟩, rfl, ?_, ?_⟩
    · show (if b = b then some r else c.st b) = some r
      rw [if_pos rfl]
    · intro i hi
      show (if i = b then some r else c.st i) = c.st i
      rw [if_neg hi]

/-- **C27.** Whatever arrives, and wherever the process stops: a block is never both in the blockchain and among the raw blocks
waiting to be linked. -/
theorem transfer_no_leftovers {H : Hashes} {P : Nat → Raw → Prop} {c c' : Chain} (h : TSteps H P c c')
    (hc : ∀ b, b ≤ c.last → c.st b = none) : ∀ b, b ≤ c'.last → c'.st b = none := by
  induction h with
  | refl => exact hc
  | step _ hst ih =>
    cases hst with
    | receive _ hr =>
      rw [Chain.addRaw] at hr
      split at hr
      · cases hr
      · rename_i hgt
        cases hr
        intro b' hb
        have hb := hb
        simp only at hb ⊢
        rw [if_neg (by omega)]
        exact ih b' hb
    | prune _ _ _ _ _ hp =>
      obtain ⟨bl, l, _, _, _, _, rfl⟩ := prune_some hp
      exact ih
    | move _ _ hm =>
      rw [linkTx, Option.map_eq_some_iff] at hm
      obtain ⟨c3, q, rfl⟩ := hm
      obtain ⟨q1, q2⟩ := append_st q
      intro b hb
      simp only at hb ⊢
      rw [q2] at hb
      split
      · rfl
      · rw [q1]; exact ih b (by omega)
    | crash => exact ih

end Verif.Chain
