import Verif.Rp.Chunks
set_option linter.unusedVariables false
set_option linter.unusedSimpArgs false
/-!
# Reserved pages and checkpoints: a correct source (C41)
-/
namespace Verif.Rp
open Verif.Bytes Verif.St

variable {c : Cfg} {tp : Nat → Snap} {ops : List Op} {s : S} {a : A}

/-! ## A correct source -/

theorem applyElems_ok {known : Nat} : ∀ (es : List Elem) (D : List (Nat × Nat × Bytes)), es.Pairwise (fun a b => a.page < b.page) →
    (∀ e ∈ es, c.pageH e.page e.ckpt e.content = e.digest ∧ ∃ x, D[e.page]? = some x ∧ x.2.1 ≤ known) → ∃ L, applyElems c known es D = .ok (some L) := by
  intro es
  induction es with
  | nil => intro D _ _; exact ⟨D, rfl⟩
  | cons e es ih =>
    intro D hp he
    rw [List.pairwise_cons] at hp
    obtain ⟨h1, x, h2, h3⟩ := he e List.mem_cons_self
    rw [applyElems, if_neg (by rw [h1]; simp), h2]
    simp only
    rw [require, if_pos h3]
    simp only [bind, R.bind]
    refine ih _ hp.2 fun f hf => ?_
    obtain ⟨g1, y, g2, g3⟩ := he f (List.mem_cons_of_mem _ hf)
    have := hp.1 f hf
    exact ⟨g1, y, by rw [List.getElem?_set_ne (by omega)]; exact g2, g3⟩

theorem installAll_ok (check : Bool) : ∀ (es : List Elem) (m : Mem) (ws : List W), es.Pairwise (fun a b => a.page < b.page) → Inc pageLt m.pages → (∀ e ∈ es, get (e.page, e.ckpt) m.pages = none) →
    ∃ r, installAll c check es m ws = .ok r := by
  intro es
  induction es with
  | nil => intro m ws _ _ _; exact ⟨_, rfl⟩
  | cons e es ih =>
    intro m ws hp hi he
    rw [List.pairwise_cons] at hp
    rw [installAll]
    unfold Mem.setResPage
    rw [he e List.mem_cons_self]
    simp only [bind, R.bind]
    refine ih _ _ hp.2 (hi.put pageLt_strict _ _) fun f hf => ?_
    show get (f.page, f.ckpt) (put pageLt (e.page, e.ckpt) (e.digest, e.content) m.pages) = none
    have := hp.1 f hf
    rw [get_put pageLt_strict hi, if_neg (fun g => by have := (Prod.mk.inj g).1; omega)]
    exact he f (List.mem_cons_of_mem _ hf)

/-- The block that a correct replica sends is accepted, whatever the requesting replica has, and its pages are those of the checkpoint
afterwards. -/
theorem correct_source_accepted (ok : CfgOk c) (h : Run c tp ops s a) {d : Desc} (hf : a.fetching = true) (hk0 : 0 < d.num) (hk : a.last ≤ d.num) (hkl : d.num < 2 ^ 64) (hmb : d.maxBlock < 2 ^ 64)
    (hdg : d.maxDigest.length = 32) (hrvb : d.rvb.length < 2 ^ 64) (hdig : d.pagesDigest = Snap.digest c (tp d.num)) (hc : Continues c a d.num (tp d.num)) :
    ∃ s', s.step c (.install d (Snap.block c (tp d.num) a.last)) = .ok s' ∧
      Run c tp (ops ++ [.install d (Snap.block c (tp d.num) a.last)]) s' (a.step c tp true (.install d (Snap.block c (tp d.num) a.last))) := by
  have hi := run_inv ok h
  have hm := hi.m
  have hlt := hm.lastLt
  have hll := hm.last
  have hwf := hc.wf
  have hparse := parse_block ok hwf hkl hlt
  have hsm : ∀ x ∈ Snap.since c (tp d.num) a.last, x.1 < c.pages ∧ tp d.num x.1 = some x.2 ∧ a.last < x.2.1 := fun x hx => since_mem.1 hx
  have hso := since_sorted (c := c) (sn := tp d.num) (known := a.last)
  have hpw : ((Snap.since c (tp d.num) a.last).map (toElem c)).Pairwise (fun a b => a.page < b.page) := by
    rw [List.pairwise_map]
    exact hso
  have hdesc : (store s.mem.pages).desc c.pages a.last = Snap.lines c a.base := desc_lines hm.base
  have hD : ∀ p, p < c.pages → (Snap.lines c a.base)[p]? = some (Snap.line c a.base p) := by
    intro p hp
    unfold Snap.lines
    rw [List.getElem?_map, List.getElem?_range hp]
    rfl
  obtain ⟨L, hL⟩ := applyElems_ok (c := c) (known := a.last) ((Snap.since c (tp d.num) a.last).map (toElem c)) (Snap.lines c a.base) hpw (fun e he => by
    obtain ⟨x, hx, rfl⟩ := List.mem_map.1 he
    refine ⟨rfl, _, hD x.1 (hsm x hx).1, ?_⟩
    unfold Snap.line
    cases hb : a.base x.1 with
    | none => exact Nat.zero_le _
    | some y => exact (hm.baseWf x.1 y.1 y.2 hb).2.2.1)
  have hLeq : L = Snap.lines c (tp d.num) := by
    obtain ⟨a1, a2, a3⟩ := applyElems_spec c a.last _ _ hpw _ hL L rfl
    refine List.ext_getElem? fun p => ?_
    by_cases hp : p < c.pages
    · have hT : (Snap.lines c (tp d.num))[p]? = some (Snap.line c (tp d.num) p) := by
        unfold Snap.lines
        rw [List.getElem?_map, List.getElem?_range hp]
        rfl
      rw [hT]
      by_cases hx : ∃ x ∈ Snap.since c (tp d.num) a.last, x.1 = p
      · obtain ⟨x, hx, rfl⟩ := hx
        have h3 := (a3 _ (List.mem_map.2 ⟨x, hx, rfl⟩)).1
        have h3 : L[x.1]? = _ := h3
        rw [h3]
        unfold Snap.line
        rw [(hsm x hx).2.1]
        rfl
      · rw [a2 p (fun e he => by
          obtain ⟨x, hx', rfl⟩ := List.mem_map.1 he
          exact fun e => hx ⟨x, hx', e⟩), hD p hp]
        congr 1
        unfold Snap.line
        cases hs : tp d.num p with
        | none => rw [hc.grow p hs]
        | some y =>
          have hle : y.1 ≤ a.last := by
            refine Classical.byContradiction fun hn => hx ⟨(p, y), since_mem.2 ⟨hp, hs, by show a.last < y.1; omega⟩, rfl⟩
          rw [hc.below p y.1 y.2 hs hle]
    · have h1 : (Snap.lines c a.base).length = c.pages := by unfold Snap.lines; simp
      rw [List.getElem?_eq_none (by omega), List.getElem?_eq_none (by unfold Snap.lines; simp; omega)]
  have hv : checkV c (store s.mem.pages) s.mem.last d.pagesDigest (Snap.block c (tp d.num) a.last) = .ok (some ((Snap.since c (tp d.num) a.last).map (toElem c), Snap.lines c (tp d.num))) := by
    unfold checkV
    rw [hparse]
    simp only
    rw [if_neg (by rw [hll]; simp), hdesc, hL, hLeq]
    simp only [bind, R.bind]
    have hd2 : c.descH (Snap.lines c (tp d.num)) = d.pagesDigest := hdig.symm
    rw [if_pos hd2]
  have hleg : Legal c tp s a (.install d (Snap.block c (tp d.num) a.last)) := by
    refine ⟨hf, hk0, hk, hkl, hmb, hdg, hrvb, hdig, hc, fun es L' hes => ?_⟩
    rw [hv] at hes
    injection hes with hes
    injection hes with hes
    injection hes with e1 e2
    subst e1; subst e2
    refine ⟨fun _ => rfl, fun e he w b hsn _ => ?_⟩
    obtain ⟨x, hx, rfl⟩ := List.mem_map.1 he
    have hsn : tp d.num x.1 = some (w, b) := hsn
    rw [(hsm x hx).2.1] at hsn
    injection hsn with hsn
    show x.2.2 = b
    rw [hsn]
  obtain ⟨⟨m1, w1⟩, hia⟩ := installAll_ok (c := c) (decide (d.num ≠ s.mem.last)) ((Snap.since c (tp d.num) a.last).map (toElem c)) s.mem [] hpw hm.pg.inc (fun e he => by
    obtain ⟨x, hx, rfl⟩ := List.mem_map.1 he
    show get (x.1, x.2.1) s.mem.pages = none
    cases hg : get (x.1, x.2.1) s.mem.pages with
    | none => rfl
    | some y =>
      have := hm.pg.store (p := x.1) (k := x.2.1) hg
      have := (hsm x hx).2.2
      omega)
  obtain ⟨s', g1, g2⟩ := install_core ok hi hleg hv hia
  refine ⟨s', g1, ?_⟩
  have := Run.step h hleg (show s.step c (.install d (Snap.block c (tp d.num) a.last)) = .ok s' from g1)
  have hacc : s.accepts c (.install d (Snap.block c (tp d.num) a.last)) = true := by
    show (match checkV c (store s.mem.pages) s.mem.last d.pagesDigest (Snap.block c (tp d.num) a.last) with
      | .ok (some _) => true
      | _ => false) = true
    rw [hv]
  rw [hacc] at this
  exact this

/-- Transfer of the pages of checkpoint `d.num` from one correct replica to another: the source sends the block, the destination accepts
it, and afterwards has the same digest of the checkpoint and reads the same pages. -/
theorem transfer_agrees (ok : CfgOk c) {tp1 : Nat → Snap} {ops1 : List Op} {s1 : S} {a1 : A} (h1 : Run c tp1 ops1 s1 a1) (hf1 : a1.fetching = false) (h : Run c tp ops s a) (hf : a.fetching = true)
    {d : Desc} {sn : Snap × Info} (hs : a1.snap d.num = some sn) (hk : a1.last < d.num + c.maxStored) (hd : s1.digestOf d.num = .ok (d.maxBlock, d.maxDigest, d.pagesDigest))
    (htp : tp d.num = sn.1) (hc : Continues c a d.num (tp d.num)) (hle : a.last ≤ d.num) (hmb : d.maxBlock < 2 ^ 64) (hdg : d.maxDigest.length = 32) (hrvb : d.rvb.length < 2 ^ 64)
    {mc : Nat} (hmc : 0 < mc) (hb : chunkCount mc (Snap.block c sn.1 a.last) ≤ c.batch) (hcc : chunkCount mc (Snap.block c sn.1 a.last) < 2 ^ 16) (hsz : (Snap.block c sn.1 a.last).length < 2 ^ 32) :
    ∃ s1' l s', s1.fetch c mc ⟨1, a.last, d.num, 0⟩ = .ok (s1', some l) ∧ s.install c d (l.map (·.data)).flatten = .ok s' ∧ s'.digestOf d.num = s1.digestOf d.num ∧
      ∀ p len, p < c.pages → 0 < len → len ≤ c.pageSize → s'.load c p len = .ok ((sn.1 p).map (fun x => x.2.take len)) := by
  have hi1 := run_inv ok h1
  have hso := hi1.m.snapOk _ _ hs
  have hlt1 := hi1.m.lastLt
  have hlt := (run_inv ok h).m.lastLt
  obtain ⟨s1', l, q1, q2⟩ := fetch_complete ok h1 (f := ⟨1, a.last, d.num, 0⟩) hf1 hs hk (by simp) hmc hlt rfl hb hcc hsz
  have hq2 : (l.map (·.data)).flatten = Snap.block c (tp d.num) a.last := by rw [htp]; exact q2
  have hpic := (checkpoint_is_picture ok h1 hs hk).1
  have hd' := hpic.symm.trans hd
  injection hd' with hd'
  injection hd' with e1 hd'
  injection hd' with e2 e3
  have hdig : d.pagesDigest = Snap.digest c (tp d.num) := by rw [← e3, htp]
  obtain ⟨s', g1, g2⟩ := correct_source_accepted ok h hf hso.1 hle (by omega) hmb hdg hrvb hdig hc
  have hst := ok.stored
  have hsnap : (a.step c tp true (.install d (Snap.block c (tp d.num) a.last))).snap d.num = some (tp d.num, ⟨d.maxBlock, d.maxDigest, d.rvb⟩) := by
    show (if d.num = d.num then some (tp d.num, _) else a.snap d.num) = _
    rw [if_pos rfl]
  have hlast : (a.step c tp true (.install d (Snap.block c (tp d.num) a.last))).last = d.num := rfl
  refine ⟨s1', l, s', q1, by rw [hq2]; exact g1, ?_, fun p len hp h0 hl => ?_⟩
  · rw [(checkpoint_is_picture ok g2 hsnap (by rw [hlast]; omega)).1, hpic, e1, e2, htp]
  · rw [load_returns_saved ok g2 hp h0 hl]
    show R.ok (((tp d.num p).map (·.2)).map (·.take len)) = _
    rw [htp, Option.map_map]
    rfl

end Verif.Rp
