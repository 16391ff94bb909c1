import Verif.Trc.ClientLemmas
set_option linter.unusedVariables false
set_option linter.unusedSimpArgs false
/-!
# Thin replica client: what it delivers (C33)
-/
namespace Verif.Trc
open Verif.Bytes

/-! ## Specification: the sequence of updates from a position -/

def Pos.succ : Pos → Pos
  | .ev n => .ev (n + 1)
  | .eg n => .eg (n + 1)

/-- the genuine update after which position may come when `p` is next: `p` itself, or the first event group -/
def Next (W : World) (p q : Pos) : Prop := q = p ∨ ∃ n o, p = .ev n ∧ q = .eg o ∧ W.begins o

/-- `out` are genuine updates in order, without gap, from position `p` on; the next one is expected at the last argument -/
inductive Trace (W : World) (p : Pos) : List Upd → Pos → Prop where
  | nil : Trace W p [] p
  | snoc {out : List Upd} {q r : Pos} {u : Upd} : Trace W p out q → Next W q r → Eqv u (W.upd r) → Trace W p (out ++ [u]) r.succ

theorem gives_iff {W : World} {p : Pos} {u : Upd} : Gives W p u ↔ ∃ q, Next W p q ∧ Eqv u (W.upd q) := by
  constructor
  · rintro (h | ⟨n, o, h1, h2, h3⟩)
    · exact ⟨p, Or.inl rfl, h⟩
    · exact ⟨.eg o, Or.inr ⟨n, o, h1, rfl, h2⟩, h3⟩
  · rintro ⟨q, rfl | ⟨n, o, h1, rfl, h2⟩, h3⟩
    · exact Or.inl h3
    · exact Or.inr ⟨n, o, h1, h2, h3⟩

theorem upd_next (W : World) (q : Pos) : (W.upd q).next = q.succ := by cases q <;> rfl

theorem eqv_next {u v : Upd} (h : Eqv u v) : u.next = v.next := by
  cases u <;> cases v <;> simp only [Eqv] at h <;> simp only [Upd.next, h.1]

theorem trace_eg {W : World} {g : Nat} {out : List Upd} {q : Pos} (ht : Trace W (.eg g) out q) :
    q = .eg (g + out.length) ∧ ∀ j u, out[j]? = some u → Eqv u (W.upd (.eg (g + j))) := by
  induction ht with
  | nil => exact ⟨rfl, fun j u h => by simp at h⟩
  | @snoc out q r u _ hn he ih =>
    have hr : r = .eg (g + out.length) := by
      rcases hn with h | ⟨n, o, h, _⟩
      · rw [h, ih.1]
      · rw [ih.1] at h; cases h
    subst hr
    refine ⟨by simp [Pos.succ]; omega, ?_⟩
    intro j v hj
    rw [List.getElem?_append] at hj
    split at hj
    · exact ih.2 j v hj
    · rename_i hlt
      have : j - out.length = 0 := by
        cases hz : j - out.length with
        | zero => rfl
        | succ k => rw [hz] at hj; simp at hj
      rw [this] at hj
      cases hj
      have : j = out.length := by omega
      rw [this]; exact he

theorem trace_ev {W : World} {b : Nat} {out : List Upd} {q : Pos} (ht : Trace W (.ev b) out q) :
    (q = .ev (b + out.length) ∧ ∀ j u, out[j]? = some u → Eqv u (W.upd (.ev (b + j)))) ∨
    ∃ k o, k < out.length ∧ W.begins o ∧ q = .eg (o + (out.length - k)) ∧ (∀ j u, j < k → out[j]? = some u → Eqv u (W.upd (.ev (b + j)))) ∧
      ∀ j u, out[k + j]? = some u → Eqv u (W.upd (.eg (o + j))) := by
  have last : ∀ (out : List Upd) (u v : Upd) (j : Nat), (out ++ [u])[j]? = some v → ¬ j < out.length → j = out.length ∧ v = u := by
    intro out u v j hj hlt
    rw [List.getElem?_append_right (Nat.le_of_not_lt hlt)] at hj
    cases hz : j - out.length with
    | zero => rw [hz] at hj; cases hj; exact ⟨by omega, rfl⟩
    | succ k => rw [hz] at hj; simp at hj
  induction ht with
  | nil => exact Or.inl ⟨rfl, fun j u h => by simp at h⟩
  | @snoc out q r u _ hn he ih =>
    rcases ih with ⟨h1, h2⟩ | ⟨k, o, h1, h2, h3, h4, h5⟩
    · rcases hn with h | ⟨n, o, _, h, hb⟩
      · left
        rw [h1] at h
        subst h
        refine ⟨by simp [Pos.succ]; omega, ?_⟩
        intro j v hj
        by_cases hlt : j < out.length
        · rw [List.getElem?_append_left hlt] at hj
          exact h2 j v hj
        · obtain ⟨e1, e2⟩ := last _ _ _ _ hj hlt
          rw [e1, e2]; exact he
      · right
        subst h
        refine ⟨out.length, o, by simp, hb, by simp [Pos.succ], ?_, ?_⟩
        · intro j v hlt hj
          rw [List.getElem?_append_left hlt] at hj
          exact h2 j v hj
        · intro j v hj
          obtain ⟨e1, e2⟩ := last _ _ _ _ hj (by omega)
          have : j = 0 := by omega
          rw [this, e2]; exact he
    · right
      have hr : r = .eg (o + (out.length - k)) := by
        rcases hn with h | ⟨n, o', h, _⟩
        · rw [h, h3]
        · rw [h3] at h; cases h
      subst hr
      refine ⟨k, o, by simp; omega, h2, by simp [Pos.succ]; omega, ?_, ?_⟩
      · intro j v hlt hj
        rw [List.getElem?_append_left (by omega)] at hj
        exact h4 j v hlt hj
      · intro j v hj
        by_cases hlt : k + j < out.length
        · rw [List.getElem?_append_left hlt] at hj
          exact h5 j v hj
        · obtain ⟨e1, e2⟩ := last _ _ _ _ hj hlt
          have : j = out.length - k := by omega
          rw [this, e2]; exact he

/-! ## Rotating the data stream -/

structure RotInv (c0 c : Cl) : Prop where
  same : c = { c0 with
    srv := c.srv
    dataConn := c.dataConn }
  hash : ∀ j, (c.srv j).hash = none ∨ (c.srv j).hash = (c0.srv j).hash

theorem rotInv_reset {c0 c : Cl} (hi : RotInv c0 c) (i : Nat) (op : Op) : RotInv c0 (c.resetData i op) := by
  constructor
  · rw [Cl.resetData, hi.same]
  · intro j
    rw [Cl.resetData]
    dsimp only
    split
    · exact Or.inl rfl
    · split
      · exact Or.inl rfl
      · exact hi.hash j

theorem rotInv_setData {c0 c : Cl} (hi : RotInv c0 c) (i : Nat) (p : Option Pos) : RotInv c0 (c.setData i p) := by
  constructor
  · rw [Cl.setData, hi.same]
  · intro j
    rw [setData_hash]
    exact hi.hash j

theorem reset_noHash (c : Cl) (i : Nat) (op : Op) : ((c.resetData i op).srv i).hash = none := by
  rw [Cl.resetData]
  dsimp only
  rw [if_pos rfl]

/-- what holds when rotation found an update -/
structure RotFound (h : Bytes → Bytes) (best : Rec) (env : Env) (l : List Nat) (c0 c : Cl) (u : Upd) : Prop where
  rot : RotInv c0 c
  conn : c.dataConn ∈ l
  noHash : (c.srv c.dataConn).hash = none
  data : (c.srv c.dataConn).data = some u.next
  from_env : env.rdRot c.dataConn = .msg (some u)
  id : u.id = best.id
  hash : hashUpd h u = .ok best.hash

theorem rotate_inv {h : Bytes → Bytes} {best : Rec} {env : Env} {c0 : Cl} : ∀ {l : List Nat} {c c' : Cl} {o : Option Upd}, RotInv c0 c →
    rotate h best env l c = .ok (c', o) → RotInv c0 c' ∧ ∀ u, o = some u → RotFound h best env l c0 c' u
  | [], c, c', o, hi, hr => by
    rw [rotate] at hr
    cases hr
    exact ⟨hi, fun u hu => by cases hu⟩
  | i :: is, c, c', o, hi, hr => by
    have h1 := rotInv_reset hi i (env.opRot i)
    have lift : ∀ {c1 : Cl}, RotInv c0 c1 → rotate h best env is c1 = .ok (c', o) →
        RotInv c0 c' ∧ ∀ u, o = some u → RotFound h best env (i :: is) c0 c' u := by
      intro c1 h2 h3
      obtain ⟨h4, h5⟩ := rotate_inv h2 h3
      refine ⟨h4, fun u hu => ?_⟩
      have := h5 u hu
      exact ⟨this.rot, List.mem_cons_of_mem _ this.conn, this.noHash, this.data, this.from_env, this.id, this.hash⟩
    rw [rotate] at hr
    dsimp only at hr
    by_cases hop : env.opRot i ≠ .ok
    · rw [if_pos hop] at hr
      exact lift h1 hr
    · rw [if_neg hop] at hr
      cases hrd : env.rdRot i with
      | timeout => rw [hrd] at hr; exact lift (rotInv_setData h1 i none) hr
      | failure => rw [hrd] at hr; exact lift h1 hr
      | outOfRange => rw [hrd] at hr; exact lift h1 hr
      | notFound => rw [hrd] at hr; exact lift h1 hr
      | msg m =>
        rw [hrd] at hr
        cases m with
        | none => cases hr
        | some u =>
          dsimp only at hr
          have h2 := rotInv_setData h1 i (some u.next)
          by_cases hid : u.id ≠ best.id
          · rw [if_pos hid] at hr; exact lift h2 hr
          · rw [if_neg hid] at hr
            cases hx : hashUpd h u with
            | throw => rw [hx] at hr; cases hr
            | abort => rw [hx] at hr; cases hr
            | ok x =>
              rw [hx] at hr
              dsimp only at hr
              by_cases hb : x ≠ best.hash
              · rw [if_pos hb] at hr; exact lift h2 hr
              · rw [if_neg hb] at hr
                cases hr
                refine ⟨h2, fun v hv => ?_⟩
                cases hv
                refine ⟨h2, List.mem_cons_self, ?_, ?_, hrd, Classical.not_not.1 hid, by rw [hx, Classical.not_not.1 hb]⟩
                · show (((c.resetData i (env.opRot i)).setData i (some u.next)).srv i).hash = none
                  rw [setData_hash]; exact reset_noHash _ _ _
                · show (((c.resetData i (env.opRot i)).setData i (some u.next)).srv i).data = some u.next
                  rw [setData_data, if_pos rfl]

/-! ## One iteration -/

/-- after an unsuccessful iteration only the new data stream is open -/
theorem giveUp_inv {hon : Nat → Bool} {cfg : Cfg} {c c' : Cl} {env : Env} (hn : 0 < cfg.n) (hg : c.giveUp cfg env = .next c') :
    CliInv hon cfg c' ∧ c'.out = c.out ∧ c'.expect = c.expect ∧ c'.subOk = c.subOk := by
  rw [Cl.giveUp] at hg
  cases hg
  refine ⟨⟨Nat.mod_lt _ hn, ?_, ?_, reset_noHash _ _ _⟩, rfl, rfl, rfl⟩
  · intro i _ p hp
    rw [Cl.resetData] at hp
    dsimp only at hp
    split at hp
    · cases hp
    · split at hp
      · cases hp
      · rename_i h2
        rw [Cl.closeHash] at hp h2
        dsimp only at hp h2
        rw [if_neg h2] at hp
        cases hp
  · intro _ p hp
    rw [Cl.resetData] at hp
    dsimp only at hp
    rw [if_pos rfl] at hp
    dsimp only at hp
    split at hp
    · cases hp; rfl
    · cases hp

theorem expect_ev {c : Cl} {n : Nat} (h : c.expect = .ev n) : c.isEg = false := by
  rw [Cl.expect] at h
  split at h
  · cases h
  · rename_i hb; exact Bool.eq_false_iff.2 hb

theorem deliver_inv {W : World} {hon : Nat → Bool} {cfg : Cfg} {c : Cl} {u : Upd} {ms : List Nat} {q : Pos} (hconn : c.dataConn < cfg.n)
    (hn : Next W c.expect q) (he : Eqv u (W.upd q)) (hm : ∀ i ∈ ms, ∀ p, (c.srv i).hash = some p → p = q.succ)
    (hd : (c.srv c.dataConn).data = some u.next) (hh : (c.srv c.dataConn).hash = none) :
    CliInv hon cfg (c.deliver u ms) ∧ (c.deliver u ms).expect = q.succ ∧ (c.deliver u ms).out = c.out ++ [u] := by
  have hu : u.next = q.succ := by rw [eqv_next he, upd_next]
  have hexp : (c.deliver u ms).expect = q.succ := by
    rw [← hu]
    cases u with
    | eg a l i => simp [Cl.deliver, Cl.expect, Upd.isEg, Upd.next, Upd.id]
    | ev a l i =>
      have hq : ∃ n, q = .ev n := by
        cases q with
        | ev n => exact ⟨n, rfl⟩
        | eg n => exact he.elim
      obtain ⟨n, rfl⟩ := hq
      have hx : c.expect = .ev n := by
        rcases hn with h | ⟨_, _, _, h, _⟩
        · exact h.symm
        · cases h
      simp [Cl.deliver, Cl.expect, Upd.isEg, Upd.next, Upd.id, expect_ev hx]
  refine ⟨⟨hconn, ?_, ?_, ?_⟩, hexp, rfl⟩
  · intro i _ p hp
    rw [hexp]
    rw [Cl.deliver] at hp
    dsimp only at hp
    split at hp
    · rename_i hi; exact hm i hi p hp
    · cases hp
  · intro _ p hp
    rw [hexp, ← hu]
    rw [Cl.deliver] at hp
    dsimp only at hp
    split at hp
    · rw [hd] at hp; cases hp; rfl
    · dsimp only at hp; rw [hd] at hp; cases hp; rfl
  · rw [Cl.deliver]
    dsimp only
    split
    · exact hh
    · rfl

/-- the record that decides comes from an honest server -/
theorem best_genuine {W : World} {h : Bytes → Bytes} {hon : Nat → Bool} {cfg : Cfg} {c0 : Cl} {upd : Option Upd} {col : Col}
    (hf : FewFaulty cfg hon) (ci : CInv W h hon cfg c0 upd [] col) (hm : ¬ col.most < cfg.f + 1) :
    ∃ s q, (col.best, s) ∈ col.recs ∧ members col.recs col.best = s ∧ s.length = col.most ∧ Next W c0.expect q ∧ RecOf h (W.upd q) col.best := by
  obtain ⟨s, h1, h2⟩ := ci.best (by omega)
  obtain ⟨i, hi, hb⟩ := exists_honest hf (ci.nodup _ _ h1) (ci.range _ _ h1) (by omega)
  obtain ⟨u, g, d, hd, hr⟩ := ci.honest _ _ h1 i hi hb
  obtain ⟨q, hq, he⟩ := gives_iff.1 g
  exact ⟨s, q, h1, members_of_mem ci.keys h1, h2, hq, d, by rw [← hash_order he]; exact hd, by rw [hr, he.id, he.isEg]⟩

/-- how `iter` can continue -/
theorem iter_cases {cfg : Cfg} {h : Bytes → Bytes} {c : Cl} {env : Env} {r : It} (hr : iter cfg h c env = r) :
    (r = .abort ∧ readBlock h c env = .abort) ∨ (r = .exc .invalid ∧ readBlock h c env = .throw) ∨
    ∃ col upd, readBlock h c env = .ok (col, upd) ∧
      ((r = .abort ∧ collect cfg env (order cfg col.cl) col = .abort) ∨ (r = .exc .invalid ∧ collect cfg env (order cfg col.cl) col = .throw) ∨
       ∃ col', collect cfg env (order cfg col.cl) col = .ok col' ∧ decideIt cfg h env col' upd = r) := by
  rw [iter] at hr
  cases h1 : readBlock h c env with
  | abort => rw [h1] at hr; exact Or.inl ⟨hr.symm, rfl⟩
  | throw => rw [h1] at hr; exact Or.inr (Or.inl ⟨hr.symm, rfl⟩)
  | ok x =>
    obtain ⟨col, upd⟩ := x
    rw [h1] at hr
    dsimp only at hr
    refine Or.inr (Or.inr ⟨col, upd, rfl, ?_⟩)
    cases h2 : collect cfg env (order cfg col.cl) col with
    | abort => rw [h2] at hr; exact Or.inl ⟨hr.symm, rfl⟩
    | throw => rw [h2] at hr; exact Or.inr (Or.inl ⟨hr.symm, rfl⟩)
    | ok col' => rw [h2] at hr; exact Or.inr (Or.inr ⟨col', rfl, hr⟩)

theorem readBlock_upd {h : Bytes → Bytes} {c : Cl} {env : Env} {col : Col} {u : Upd} (hr : readBlock h c env = .ok (col, some u)) :
    env.rdData = .msg (some u) := by
  rw [readBlock] at hr
  dsimp only at hr
  split at hr
  · cases hr
  · cases hrd : env.rdData with
    | timeout => rw [hrd] at hr; cases hr
    | failure => rw [hrd] at hr; cases hr
    | outOfRange => rw [hrd] at hr; cases hr
    | notFound => rw [hrd] at hr; cases hr
    | msg m =>
      rw [hrd] at hr
      cases m with
      | none => cases hr
      | some v =>
        dsimp only at hr
        split at hr
        · cases hr; rfl
        · cases hx : hashUpd h v with
          | throw => rw [hx] at hr; cases hr
          | abort => rw [hx] at hr; cases hr
          | ok x => rw [hx] at hr; cases hr; rfl

theorem iter_step {W : World} {h : Bytes → Bytes} (hlen : ∀ x, (h x).length = 32) {hon : Nat → Bool} {cfg : Cfg} (hf : FewFaulty cfg hon)
    {c c' : Cl} {env : Env} (ck : CliInv hon cfg c) (eo : EnvOk W h hon c env) (eb : EnvBinding W h env) (hr : iter cfg h c env = .next c') :
    CliInv hon cfg c' ∧ ((c'.out = c.out ∧ c'.expect = c.expect) ∨
      ∃ u q, c'.out = c.out ++ [u] ∧ Next W c.expect q ∧ Eqv u (W.upd q) ∧ c'.expect = q.succ) := by
  rcases iter_cases hr with ⟨h1, _⟩ | ⟨h1, _⟩ | ⟨col, upd, h1, ⟨h2, _⟩ | ⟨h2, _⟩ | ⟨col', h2, h3⟩⟩
  · cases h1
  · cases h1
  · cases h2
  · cases h2
  · have hn : 0 < cfg.n := Nat.lt_of_le_of_lt (Nat.zero_le _) ck.conn
    have ci0 := readBlock_inv (W := W) ck eo h1 (order cfg col.cl)
    have ci := collect_inv hlen ck eo _ (order_nodup _ _) (order_range _ _) ci0 h2
    have hexp : col'.cl.expect = c.expect := by rw [ci.same]; rfl
    have hout : col'.cl.out = c.out := by rw [ci.same]
    have hdc : col'.cl.dataConn = c.dataConn := by rw [ci.same]
    rw [decideIt] at h3
    split at h3
    · split at h3
      · cases h3
      · split at h3
        · cases h3
        · split at h3
          · cases h3
          · obtain ⟨a, b, d, _⟩ := giveUp_inv (hon := hon) hn h3
            exact ⟨a, Or.inl ⟨b.trans hout, d.trans hexp⟩⟩
    · rename_i hm
      obtain ⟨s, q, g1, g2, g3, g4, d, g5, g6⟩ := best_genuine hf ci hm
      dsimp only at h3
      rw [g2] at h3
      have hbn : col'.best.next = q.succ := by
        rw [← upd_next W q]
        exact (recOf_next ⟨d, g5, g6⟩).symm
      have bid : col'.best.id = (W.upd q).id := by rw [g6]
      have beg : col'.best.isEg = (W.upd q).isEg := by rw [g6]
      have bh : col'.best.hash = d := by rw [g6]
      -- rotation
      have rotCase : (match rotate h col'.best env (env.rotOrder.filter (fun i => i ∈ s)) col'.cl with
            | .abort => It.abort
            | .throw => .exc .invalid
            | .ok (c, some u) => .next (c.deliver u s)
            | .ok (c, none) => c.giveUp cfg env) = .next c' →
          CliInv hon cfg c' ∧ ((c'.out = c.out ∧ c'.expect = c.expect) ∨
            ∃ u q, c'.out = c.out ++ [u] ∧ Next W c.expect q ∧ Eqv u (W.upd q) ∧ c'.expect = q.succ) := by
        intro h4
        cases hrot : rotate h col'.best env (env.rotOrder.filter (fun i => i ∈ s)) col'.cl with
        | abort => rw [hrot] at h4; cases h4
        | throw => rw [hrot] at h4; cases h4
        | ok x =>
          obtain ⟨c1, o⟩ := x
          rw [hrot] at h4
          obtain ⟨r1, r2⟩ := rotate_inv (c0 := col'.cl) ⟨rfl, fun j => Or.inr rfl⟩ hrot
          have he1 : c1.expect = c.expect := by rw [← hexp, r1.same]; rfl
          have ho1 : c1.out = c.out := by rw [← hout, r1.same]
          cases o with
          | none =>
            dsimp only at h4
            obtain ⟨a, b, d, _⟩ := giveUp_inv (hon := hon) hn h4
            exact ⟨a, Or.inl ⟨b.trans ho1, d.trans he1⟩⟩
          | some u =>
            dsimp only at h4
            cases h4
            have rf := r2 u rfl
            have hmem : c1.dataConn ∈ s := by
              have := (List.mem_filter.1 rf.conn).2
              exact of_decide_eq_true this
            have bd := eb.rot _ _ rf.from_env
            have hu : hashUpd h u = .ok d := by rw [rf.hash, bh]
            have hid : u.id = (W.upd q).id := by rw [rf.id, bid]
            have heq := bd.1 q d hu g5 hid (bd.2 q d hu g5 hid)
            obtain ⟨k1, k2, k3⟩ := deliver_inv (hon := hon) (ms := s) (ci.range _ _ g1 _ hmem) (he1 ▸ g4) heq (fun i hi p hp => by
              rcases rf.rot.hash i with e | e
              · rw [e] at hp; cases hp
              · rw [e] at hp; rw [← hbn]; exact ci.pos _ _ g1 i hi p hp) rf.data rf.noHash
            exact ⟨k1, Or.inr ⟨u, q, by rw [k3, ho1], g4, heq, k2⟩⟩
      by_cases hin : col'.cl.dataConn ∈ s
      · rw [if_pos hin] at h3
        obtain ⟨u, w1, ⟨d', w2, w3⟩, w4⟩ := ci.data _ _ g1 (hdc ▸ hin)
        rw [w1] at h3
        dsimp only at h3
        cases h3
        have hb := eb.data u (readBlock_upd (w1 ▸ h1))
        have e : d' = d := by rw [← bh, w3]
        have heq := hb q d (e ▸ w2) g5 (by rw [← bid, w3]) (by rw [← beg, w3])
        obtain ⟨k1, k2, k3⟩ := deliver_inv (hon := hon) (ms := s) (ci.range _ _ g1 _ hin) (hexp.symm ▸ g4) heq
          (fun i hi p hp => by rw [← hbn]; exact ci.pos _ _ g1 i hi p hp) (hdc.symm ▸ w4) (hdc.symm ▸ ci.dataHash)
        exact ⟨k1, Or.inr ⟨u, q, by rw [k3, hout], g4, heq, k2⟩⟩
      · rw [if_neg hin] at h3
        exact rotCase h3

/-! ## Runs -/

/-- a run: the answers of honest servers are honest, nobody finds collisions -/
inductive Runs (W : World) (h : Bytes → Bytes) (hon : Nat → Bool) (cfg : Cfg) (c0 : Cl) : Cl → Prop where
  | start : Runs W h hon cfg c0 c0
  | step {c c' : Cl} {env : Env} : Runs W h hon cfg c0 c → EnvOk W h hon c env → EnvBinding W h env → iter cfg h c env = .next c' →
      Runs W h hon cfg c0 c'

theorem subscribe_inv {hon : Nat → Bool} {cfg : Cfg} (hn : 0 < cfg.n) {c : Cl} (hc : ∀ i, (c.srv i).hash = none) (op : Op) (hc0 : c.dataConn = 0) :
    CliInv hon cfg (c.resetData 0 op) := by
  refine ⟨hn, ?_, ?_, reset_noHash _ _ _⟩
  · intro i _ p hp
    rw [Cl.resetData] at hp
    dsimp only at hp
    split at hp
    · cases hp
    · split at hp
      · cases hp
      · rw [hc] at hp; cases hp
  · intro _ p hp
    rw [Cl.resetData] at hp
    dsimp only at hp
    rw [if_pos rfl] at hp
    dsimp only at hp
    split at hp
    · cases hp; rfl
    · cases hp

theorem runs_trace {W : World} {h : Bytes → Bytes} (hlen : ∀ x, (h x).length = 32) {hon : Nat → Bool} {cfg : Cfg} (hf : FewFaulty cfg hon)
    {c0 c : Cl} (ci : CliInv hon cfg c0) (h0 : c0.out = []) (hr : Runs W h hon cfg c0 c) :
    CliInv hon cfg c ∧ Trace W c0.expect c.out c.expect := by
  induction hr with
  | start => rw [h0]; exact ⟨ci, .nil⟩
  | step _ eo eb hs ih =>
    obtain ⟨h1, h2 | ⟨u, q, h2, h3, h4, h5⟩⟩ := iter_step hlen hf ih.1 eo eb hs
    · exact ⟨h1, by rw [h2.1, h2.2]; exact ih.2⟩
    · exact ⟨h1, by rw [h2, h5]; exact .snoc ih.2 h3 h4⟩

/-- **C33.** With at most `f` faulty servers a subscription from block `b` delivers exactly the genuine blocks `b, b+1, …`, possibly
followed by exactly the genuine event groups `o, o+1, …` from one where an honest server's event groups begin: nothing is altered,
skipped, repeated or out of order. -/
theorem delivered_from_block {W : World} {h : Bytes → Bytes} (hlen : ∀ x, (h x).length = 32) {hon : Nat → Bool} {cfg : Cfg}
    (hn : 0 < cfg.n) (hf : FewFaulty cfg hon) {b : Nat} (hb : 1 ≤ b) {op : Op} {c : Cl} (hr : Runs W h hon cfg (Cl.fresh.subscribeB b op) c) :
    (∀ j u, c.out[j]? = some u → Eqv u (.ev (b + j) (W.block (b + j)) [])) ∨
    ∃ k o, k < c.out.length ∧ W.begins o ∧ (∀ j u, j < k → c.out[j]? = some u → Eqv u (.ev (b + j) (W.block (b + j)) [])) ∧
      ∀ j u, c.out[k + j]? = some u → Eqv u (.eg (o + j) (W.group (o + j)) []) := by
  have hi := runs_trace hlen hf (subscribe_inv hn (fun i => rfl) op rfl) rfl hr
  have he : (Cl.fresh.subscribeB b op).expect = .ev b := by
    simp only [Cl.subscribeB, Cl.resetData, Cl.expect]
    rw [if_neg (by decide)]
    congr 1
    omega
  have ht : Trace W (Cl.fresh.subscribeB b op).expect c.out c.expect := hi.2
  rw [he] at ht
  rcases trace_ev ht with ⟨_, h2⟩ | ⟨k, o, h1, h2, _, h4, h5⟩
  · exact Or.inl h2
  · exact Or.inr ⟨k, o, h1, h2, h4, h5⟩

/-- **C33.** With at most `f` faulty servers a subscription from event group `g` delivers exactly the genuine event groups
`g, g+1, …`. -/
theorem delivered_from_group {W : World} {h : Bytes → Bytes} (hlen : ∀ x, (h x).length = 32) {hon : Nat → Bool} {cfg : Cfg}
    (hn : 0 < cfg.n) (hf : FewFaulty cfg hon) {g : Nat} (hg : 1 ≤ g) {op : Op} {c : Cl} (hr : Runs W h hon cfg (Cl.fresh.subscribeG g op) c) :
    ∀ j u, c.out[j]? = some u → Eqv u (.eg (g + j) (W.group (g + j)) []) := by
  have hi := runs_trace hlen hf (subscribe_inv hn (fun i => rfl) op rfl) rfl hr
  have he : (Cl.fresh.subscribeG g op).expect = .eg g := by
    simp only [Cl.subscribeG, Cl.resetData, Cl.expect]
    rw [if_pos trivial]
    congr 1
    omega
  have ht : Trace W (Cl.fresh.subscribeG g op).expect c.out c.expect := hi.2
  rw [he] at ht
  exact (trace_eg ht).2

/-- **C33.** The assumption about collisions: it follows if hashing the received and the genuine update meets no collision. -/
theorem binding_of_noColl {W : World} {h : Bytes → Bytes} (hlen : ∀ x, (h x).length = 32) {u : Upd} (hu : u.id < 2 ^ 64)
    (hc : ∀ p, NoColl h u (W.upd p)) : Binding W h u :=
  fun p d h1 h2 hid hk => hash_binds hlen hk h1 h2 (hc p) hu (hid ▸ hu)

end Verif.Trc
