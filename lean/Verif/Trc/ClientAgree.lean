import Verif.Trc.ClientLive
set_option linter.unusedVariables false
set_option linter.unusedSimpArgs false
/-!
# Thin replica client: `f + 1` servers reported what is delivered (C33)
-/
namespace Verif.Trc
open Verif.Bytes

/-- in this iteration server `i` reported the record `r`: with its data, or with a hash message (padded to 32 bytes) -/
def Reported (h : Bytes → Bytes) (c : Cl) (env : Env) (i : Nat) (r : Rec) : Prop :=
  (i = c.dataConn ∧ ∃ u, env.rdData = .msg (some u) ∧ RecOf h u r) ∨
  (i ≠ c.dataConn ∧ ∃ m, env.rdHash i = .msg (some m) ∧ r = ⟨m.isEg, m.id, pad m.hash⟩)

structure RepInv (h : Bytes → Bytes) (c : Cl) (env : Env) (col : Col) : Prop where
  conn : col.cl.dataConn = c.dataConn
  out : col.cl.out = c.out
  keys : (col.recs.map (·.1)).Nodup
  rep : ∀ r s, (r, s) ∈ col.recs → ∀ i ∈ s, Reported h c env i r

theorem rep_record {h : Bytes → Bytes} {c : Cl} {env : Env} {col : Col} (ri : RepInv h c env col) {i : Nat} {r : Rec} (hr : Reported h c env i r) :
    RepInv h c env (col.record i r) := by
  refine ⟨by rw [record_cl]; exact ri.conn, by rw [record_cl]; exact ri.out, by rw [record_recs]; exact addRec_nodup ri.keys, ?_⟩
  rw [record_recs]
  intro r' s' hm j hj
  rcases addRec_mem ri.keys hm with ⟨h1, h2⟩ | ⟨h1, ⟨s, h2, h3⟩ | h2⟩
  · exact ri.rep _ _ h2 j hj
  · rw [h3] at hj
    rw [h1]
    split at hj
    · exact ri.rep _ _ h2 j hj
    · rcases List.mem_cons.1 hj with hj | hj
      · rw [hj]; exact hr
      · exact ri.rep _ _ h2 j hj
  · rw [h2, List.mem_singleton] at hj
    rw [h1, hj]; exact hr

theorem rep_new {h : Bytes → Bytes} {c c1 : Cl} {env : Env} (h1 : c1.dataConn = c.dataConn) (h2 : c1.out = c.out) : RepInv h c env (Col.new c1) :=
  ⟨h1, h2, List.nodup_nil, fun r s hm => by cases hm⟩

theorem rep_readBlock {h : Bytes → Bytes} {c : Cl} {env : Env} {col : Col} {upd : Option Upd} (hr : readBlock h c env = .ok (col, upd)) :
    RepInv h c env col := by
  rw [readBlock] at hr
  dsimp only at hr
  split at hr
  · cases hr; exact rep_new rfl rfl
  · cases hrd : env.rdData with
    | timeout => rw [hrd] at hr; cases hr; exact rep_new rfl rfl
    | failure => rw [hrd] at hr; cases hr; exact rep_new rfl rfl
    | outOfRange => rw [hrd] at hr; cases hr; exact ⟨rfl, rfl, List.nodup_nil, fun r s hm => by cases hm⟩
    | notFound => rw [hrd] at hr; cases hr; exact ⟨rfl, rfl, List.nodup_nil, fun r s hm => by cases hm⟩
    | msg m =>
      rw [hrd] at hr
      cases m with
      | none => cases hr
      | some v =>
        dsimp only at hr
        split at hr
        · cases hr; exact rep_new rfl rfl
        · cases hx : hashUpd h v with
          | throw => rw [hx] at hr; cases hr
          | abort => rw [hx] at hr; cases hr
          | ok x =>
            rw [hx] at hr
            cases hr
            exact rep_record (rep_new (c := c) (c1 := c.setData c.dataConn (some v.next)) rfl rfl) (Or.inl ⟨rfl, v, hrd, x, hx, rfl⟩)

theorem rep_readHash {h : Bytes → Bytes} {c : Cl} {env : Env} {col col' : Col} {i : Nat} (hi : i ≠ c.dataConn) (ri : RepInv h c env col)
    (hr : readHash col env i = .ok col') : RepInv h c env col' := by
  rw [readHash] at hr
  cases hrd : env.rdHash i with
  | timeout => rw [hrd] at hr; cases hr; exact ⟨ri.conn, ri.out, ri.keys, ri.rep⟩
  | failure => rw [hrd] at hr; cases hr; exact ri
  | outOfRange => rw [hrd] at hr; cases hr; exact ⟨ri.conn, ri.out, ri.keys, ri.rep⟩
  | notFound => rw [hrd] at hr; cases hr; exact ⟨ri.conn, ri.out, ri.keys, ri.rep⟩
  | msg m =>
    rw [hrd] at hr
    cases m with
    | none => cases hr
    | some m =>
      dsimp only at hr
      have h2 : RepInv h c env { col with cl := col.cl.setHash i (some m.next) } := ⟨ri.conn, ri.out, ri.keys, ri.rep⟩
      split at hr
      · cases hr; exact h2
      · split at hr
        · cases hr; exact h2
        · cases hr; exact rep_record h2 (Or.inr ⟨hi, m, hrd, rfl⟩)

theorem rep_collect {h : Bytes → Bytes} {cfg : Cfg} {c : Cl} {env : Env} : ∀ (todo : List Nat) {col col' : Col}, RepInv h c env col →
    collect cfg env todo col = .ok col' → RepInv h c env col'
  | [], col, col', ri, hr => by rw [collect] at hr; cases hr; exact ri
  | i :: is, col, col', ri, hr => by
    rw [collect] at hr
    by_cases hid : i = col.cl.dataConn
    · rw [if_pos hid] at hr
      exact rep_collect is ri hr
    · rw [if_neg hid] at hr
      dsimp only at hr
      split at hr
      · exact rep_collect is ri hr
      · have hx : RepInv h c env (if (col.cl.srv i).hash.isSome = true then col else
            { col with cl := col.cl.setHash i (some col.cl.expect) }) := by
          split
          · exact ri
          · exact ⟨ri.conn, ri.out, ri.keys, ri.rep⟩
        generalize (if (col.cl.srv i).hash.isSome = true then col else
            { col with cl := col.cl.setHash i (some col.cl.expect) }) = colx at hr hx
        cases hrh : readHash colx env i with
        | throw => rw [hrh] at hr; cases hr
        | abort => rw [hrh] at hr; cases hr
        | ok col1 =>
          rw [hrh] at hr
          dsimp only at hr
          have h2 := rep_readHash (fun e => hid (e.trans ri.conn.symm)) hx hrh
          split at hr
          · cases hr; exact h2
          · exact rep_collect is h2 hr

/-- **C33.** Whatever the servers do, an update is delivered only if in this iteration at least `f + 1` distinct servers reported one
and the same record with the id and the hash of the delivered update. -/
theorem delivered_agreed {h : Bytes → Bytes} (hlen : ∀ x, (h x).length = 32) {cfg : Cfg} {c c' : Cl} {env : Env} (hc : c.dataConn < cfg.n)
    (hnh : (c.srv c.dataConn).hash = none) (hr : iter cfg h c env = .next c') :
    c'.out = c.out ∨ ∃ (u : Upd) (r : Rec) (s : List Nat), c'.out = c.out ++ [u] ∧ s.Nodup ∧ cfg.f + 1 ≤ s.length ∧
      (∀ i ∈ s, i < cfg.n ∧ Reported h c env i r) ∧ u.id = r.id ∧ hashUpd h u = .ok r.hash := by
  let hon : Nat → Bool := fun _ => false
  let W : World := ⟨fun _ => [], fun _ => [], fun _ => False⟩
  have ck : CliInv hon cfg c := ⟨hc, (fun i h => by cases h), (fun h => by cases h), hnh⟩
  have eo : EnvOk W h hon c env := ⟨(fun h => by cases h), (fun i h => by cases h), (fun i h => by cases h)⟩
  rcases iter_cases hr with ⟨h1, _⟩ | ⟨h1, _⟩ | ⟨col, upd, h1, ⟨h2, _⟩ | ⟨h2, _⟩ | ⟨col', h2, h3⟩⟩
  · cases h1
  · cases h1
  · cases h2
  · cases h2
  · have hn : 0 < cfg.n := Nat.lt_of_le_of_lt (Nat.zero_le _) hc
    have ci := collect_inv hlen ck eo _ (order_nodup _ _) (order_range _ _) (readBlock_inv (W := W) ck eo h1 (order cfg col.cl)) h2
    have ri := rep_collect _ (rep_readBlock h1) h2
    rw [decideIt] at h3
    split at h3
    · split at h3
      · cases h3
      · split at h3
        · cases h3
        · split at h3
          · cases h3
          · obtain ⟨_, b, _⟩ := giveUp_inv (hon := hon) hn h3
            exact Or.inl (b.trans ri.out)
    · rename_i hm
      obtain ⟨s, g1, g2⟩ := ci.best (by omega)
      have g3 := members_of_mem ci.keys g1
      dsimp only at h3
      rw [g3] at h3
      have hs : ∀ i ∈ s, i < cfg.n ∧ Reported h c env i col'.best := fun i hi => ⟨ci.range _ _ g1 i hi, ri.rep _ _ g1 i hi⟩
      by_cases hin : col'.cl.dataConn ∈ s
      · rw [if_pos hin] at h3
        obtain ⟨u, w1, ⟨d', w2, w3⟩, _⟩ := ci.data _ _ g1 (ri.conn ▸ hin)
        rw [w1] at h3
        dsimp only at h3
        cases h3
        exact Or.inr ⟨u, col'.best, s, by rw [← ri.out]; rfl, ci.nodup _ _ g1, by omega, hs, by rw [w3], by rw [w2, w3]⟩
      · rw [if_neg hin] at h3
        dsimp only at h3
        cases hrot : rotate h col'.best env (env.rotOrder.filter (fun i => i ∈ s)) col'.cl with
        | abort => rw [hrot] at h3; cases h3
        | throw => rw [hrot] at h3; cases h3
        | ok x =>
          obtain ⟨c1, o⟩ := x
          rw [hrot] at h3
          obtain ⟨r1, r2⟩ := rotate_inv (c0 := col'.cl) ⟨rfl, fun j => Or.inr rfl⟩ hrot
          have ho1 : c1.out = c.out := by rw [← ri.out, r1.same]
          cases o with
          | none =>
            dsimp only at h3
            obtain ⟨_, b, _⟩ := giveUp_inv (hon := hon) hn h3
            exact Or.inl (b.trans ho1)
          | some u =>
            dsimp only at h3
            cases h3
            have rf := r2 u rfl
            exact Or.inr ⟨u, col'.best, s, by rw [← ho1]; rfl, ci.nodup _ _ g1, by omega, hs, rf.id, rf.hash⟩

end Verif.Trc
