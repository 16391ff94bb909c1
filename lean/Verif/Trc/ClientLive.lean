import Verif.Trc.ClientProps
set_option linter.unusedVariables false
set_option linter.unusedSimpArgs false
/-!
# Thin replica client: when a subscription ends, and when an update is delivered (C33)
-/
namespace Verif.Trc
open Verif.Bytes

/-- the honest servers can only send one thing next: the genuine update `q` -/
def Single (W : World) (p q : Pos) : Prop := ∀ r, Next W p r → r = q

theorem record_of_single {W : World} {h : Bytes → Bytes} {p q : Pos} (hs : Single W p q) {u u' : Upd} {r r' : Rec} (g : Gives W p u) (g' : Gives W p u')
    (hr : RecOf h u r) (hr' : RecOf h u' r') : r = r' := by
  obtain ⟨a, a1, a2⟩ := gives_iff.1 g
  obtain ⟨b, b1, b2⟩ := gives_iff.1 g'
  rw [hs a a1] at a2
  rw [hs b b1] at b2
  obtain ⟨d, d1, d2⟩ := hr
  obtain ⟨e, e1, e2⟩ := hr'
  rw [hash_order a2] at d1
  rw [hash_order b2] at e1
  rw [d1] at e1
  cases e1
  rw [d2, e2, a2.id, a2.isEg, b2.id, b2.isEg]

/-! ## No alarm without more than `f` faulty servers -/

theorem flat_nodup {recs : List (Rec × List Nat)} (hk : (recs.map (·.1)).Nodup) (hn : ∀ r s, (r, s) ∈ recs → s.Nodup)
    (hu : ∀ r s r' s', (r, s) ∈ recs → (r', s') ∈ recs → ∀ i, i ∈ s → i ∈ s' → r = r') : ((recs.map (·.2)).flatten).Nodup := by
  induction recs with
  | nil => exact List.nodup_nil
  | cons x l ih =>
    obtain ⟨r, s⟩ := x
    rw [List.map_cons, List.nodup_cons] at hk
    rw [List.map_cons, List.flatten_cons, List.nodup_append]
    refine ⟨hn r s List.mem_cons_self, ih hk.2 (fun r s hm => hn r s (List.mem_cons_of_mem _ hm))
      (fun r s r' s' h1 h2 => hu r s r' s' (List.mem_cons_of_mem _ h1) (List.mem_cons_of_mem _ h2)), ?_⟩
    intro a ha b hb hab
    subst hab
    rw [List.mem_flatten] at hb
    obtain ⟨s', h1, h2⟩ := hb
    obtain ⟨⟨r', s''⟩, h3, h4⟩ := List.mem_map.1 h1
    dsimp only at h4
    subst h4
    have := hu r s r' s'' List.mem_cons_self (List.mem_cons_of_mem _ h3) a ha h2
    exact hk.1 (List.mem_map.2 ⟨_, h3, this.symm⟩)

theorem flat_length (recs : List (Rec × List Nat)) : ((recs.map (·.2)).flatten).length = (recs.map (·.2.length)).sum := by
  rw [List.length_flatten, List.map_map]
  rfl

theorem split_length {α : Type} (p : α → Bool) : ∀ (l : List α), (l.filter p).length + (l.filter (fun x => !p x)).length = l.length
  | [] => rfl
  | a :: l => by
    have := split_length p l
    cases h : p a <;> simp [List.filter_cons, h] <;> omega

/-- all honest servers with a record have the same one, so at most `most` of them have one -/
theorem records_bounded {W : World} {h : Bytes → Bytes} {hon : Nat → Bool} {cfg : Cfg} {c0 : Cl} {upd : Option Upd} {col : Col} {q : Pos}
    (hf : FewFaulty cfg hon) (hs : Single W c0.expect q) (ci : CInv W h hon cfg c0 upd [] col) :
    (col.recs.map (·.2.length)).sum ≤ col.most + cfg.f := by
  have hnd := flat_nodup ci.keys ci.nodup ci.uniq
  rw [← flat_length, ← split_length hon]
  have mem : ∀ i, i ∈ (col.recs.map (·.2)).flatten → ∃ r s, (r, s) ∈ col.recs ∧ i ∈ s := by
    intro i hi
    rw [List.mem_flatten] at hi
    obtain ⟨s', h1, h2⟩ := hi
    obtain ⟨⟨r', s''⟩, h3, h4⟩ := List.mem_map.1 h1
    dsimp only at h4
    subst h4
    exact ⟨r', s'', h3, h2⟩
  have h1 : (((col.recs.map (·.2)).flatten).filter (fun x => !hon x)).length ≤ cfg.f := by
    refine Nat.le_trans (Verif.ListU.nodup_subset_length (List.Pairwise.filter _ hnd) ?_) hf
    intro i hi
    rw [List.mem_filter] at hi ⊢
    obtain ⟨r, s, h1, h2⟩ := mem i hi.1
    exact ⟨List.mem_range.2 (ci.range _ _ h1 i h2), hi.2⟩
  have h2 : (((col.recs.map (·.2)).flatten).filter hon).length ≤ col.most := by
    cases hl : ((col.recs.map (·.2)).flatten).filter hon with
    | nil => exact Nat.zero_le _
    | cons a l =>
      rw [← hl]
      have ha : a ∈ ((col.recs.map (·.2)).flatten).filter hon := by rw [hl]; exact List.mem_cons_self
      rw [List.mem_filter] at ha
      obtain ⟨r, s, g1, g2⟩ := mem a ha.1
      refine Nat.le_trans (Verif.ListU.nodup_subset_length (List.Pairwise.filter _ hnd) ?_) (ci.max _ _ g1)
      intro i hi
      rw [List.mem_filter] at hi
      obtain ⟨r', s', k1, k2⟩ := mem i hi.1
      obtain ⟨u, gu, ru⟩ := ci.honest _ _ g1 a g2 ha.2
      obtain ⟨u', gu', ru'⟩ := ci.honest _ _ k1 i k2 hi.2
      have e := record_of_single hs gu gu' ru ru'
      subst e
      have : s = s' := (members_of_mem ci.keys g1).symm.trans (members_of_mem ci.keys k1)
      rw [this]; exact k2
  omega

/-- **C33.** With at most `f` faulty servers, and honest servers that agree on what comes next, the subscription does not end with
`InternalError`, which means that more than `f` servers must be faulty. -/
theorem no_false_alarm {W : World} {h : Bytes → Bytes} (hlen : ∀ x, (h x).length = 32) {hon : Nat → Bool} {cfg : Cfg} (hf : FewFaulty cfg hon)
    {c : Cl} {env : Env} (ck : CliInv hon cfg c) (eo : EnvOk W h hon c env) {q : Pos} (hs : Single W c.expect q) :
    iter cfg h c env ≠ .exc .internal := by
  intro hr
  rcases iter_cases hr with ⟨h1, _⟩ | ⟨h1, _⟩ | ⟨col, upd, h1, ⟨h2, _⟩ | ⟨h2, _⟩ | ⟨col', h2, h3⟩⟩
  · cases h1
  · cases h1
  · cases h2
  · cases h2
  · have ci := collect_inv hlen ck eo _ (order_nodup _ _) (order_range _ _) (readBlock_inv (W := W) ck eo h1 (order cfg col.cl)) h2
    have hb := records_bounded hf hs ci
    rw [decideIt] at h3
    split at h3
    · split at h3
      · rename_i h4 h5
        omega
      · split at h3
        · cases h3
        · split at h3
          · cases h3
          · rw [Cl.giveUp] at h3; cases h3
    · dsimp only at h3
      split at h3
      · cases h3
      · split at h3
        · cases h3
        · cases h3
        · cases h3
        · rw [Cl.giveUp] at h3; cases h3

/-! ## A subscription ends only if an honest server says so -/

/-- server `i` answered `x` to a read in this iteration -/
def SaidOor (c : Cl) (env : Env) (i : Nat) : Prop := (i = c.dataConn ∧ env.rdData = .outOfRange) ∨ (i ≠ c.dataConn ∧ env.rdHash i = .outOfRange)
def SaidPruned (c : Cl) (env : Env) (i : Nat) : Prop := (i = c.dataConn ∧ env.rdData = .notFound) ∨ (i ≠ c.dataConn ∧ env.rdHash i = .notFound)

/-- the counters count servers -/
structure Counted (cfg : Cfg) (c0 : Cl) (env : Env) (todo : List Nat) (col : Col) : Prop where
  conn : col.cl.dataConn = c0.dataConn
  oor : ∃ l : List Nat, l.Nodup ∧ l.length = col.oor ∧ ∀ i ∈ l, i < cfg.n ∧ (i ∈ todo → i = c0.dataConn) ∧ SaidOor c0 env i
  pruned : ∃ l : List Nat, l.Nodup ∧ l.length = col.pruned ∧ ∀ i ∈ l, i < cfg.n ∧ (i ∈ todo → i = c0.dataConn) ∧ SaidPruned c0 env i

theorem counted_new {cfg : Cfg} {c0 c : Cl} {env : Env} {todo : List Nat} (hc : c.dataConn = c0.dataConn) : Counted cfg c0 env todo (Col.new c) :=
  ⟨hc, ⟨[], List.nodup_nil, rfl, fun i hi => by cases hi⟩, ⟨[], List.nodup_nil, rfl, fun i hi => by cases hi⟩⟩

theorem record_oor (col : Col) (i : Nat) (r : Rec) : (col.record i r).oor = col.oor := by rw [Col.record]; split <;> rfl
theorem record_pruned (col : Col) (i : Nat) (r : Rec) : (col.record i r).pruned = col.pruned := by rw [Col.record]; split <;> rfl

theorem counted_record {cfg : Cfg} {c0 : Cl} {env : Env} {todo : List Nat} {col : Col} (hc : Counted cfg c0 env todo col) (i : Nat) (r : Rec) :
    Counted cfg c0 env todo (col.record i r) :=
  ⟨by rw [record_cl]; exact hc.conn, by rw [record_oor]; exact hc.oor, by rw [record_pruned]; exact hc.pruned⟩

theorem counted_readBlock {h : Bytes → Bytes} {cfg : Cfg} {c : Cl} {env : Env} (hn : c.dataConn < cfg.n) {col : Col} {upd : Option Upd}
    (hr : readBlock h c env = .ok (col, upd)) (todo : List Nat) : Counted cfg c env todo col := by
  rw [readBlock] at hr
  dsimp only at hr
  split at hr
  · cases hr; exact counted_new rfl
  · cases hrd : env.rdData with
    | timeout => rw [hrd] at hr; cases hr; exact counted_new rfl
    | failure => rw [hrd] at hr; cases hr; exact counted_new rfl
    | outOfRange =>
      rw [hrd] at hr
      cases hr
      refine ⟨rfl, ?_, ⟨[], List.nodup_nil, rfl, fun i hi => by cases hi⟩⟩
      cases hsub : c.subOk with
      | true => exact ⟨[], List.nodup_nil, rfl, fun i hi => by cases hi⟩
      | false =>
        refine ⟨[c.dataConn], by simp, rfl, fun i hi => ?_⟩
        rw [List.mem_singleton] at hi
        exact ⟨hi ▸ hn, fun _ => hi, Or.inl ⟨hi, hrd⟩⟩
    | notFound =>
      rw [hrd] at hr
      cases hr
      refine ⟨rfl, ⟨[], List.nodup_nil, rfl, fun i hi => by cases hi⟩, ?_⟩
      refine ⟨[c.dataConn], by simp, rfl, fun i hi => ?_⟩
      rw [List.mem_singleton] at hi
      exact ⟨hi ▸ hn, fun _ => hi, Or.inl ⟨hi, hrd⟩⟩
    | msg m =>
      rw [hrd] at hr
      cases m with
      | none => cases hr
      | some v =>
        dsimp only at hr
        split at hr
        · cases hr; exact counted_new rfl
        · cases hx : hashUpd h v with
          | throw => rw [hx] at hr; cases hr
          | abort => rw [hx] at hr; cases hr
          | ok x => rw [hx] at hr; cases hr; exact counted_record (counted_new (c0 := c) (c := c.setData c.dataConn (some v.next)) rfl) _ _

theorem counted_readHash {cfg : Cfg} {c0 : Cl} {env : Env} {todo : List Nat} {col col' : Col} {i : Nat} (hi : i < cfg.n) (ht : i ∉ todo)
    (hd : i ≠ c0.dataConn) (hc : Counted cfg c0 env (i :: todo) col) (hr : readHash col env i = .ok col') : Counted cfg c0 env todo col' := by
  have hold : Counted cfg c0 env todo col := by
    refine ⟨hc.conn, ?_, ?_⟩
    · obtain ⟨l, h1, h2, h3⟩ := hc.oor
      exact ⟨l, h1, h2, fun j hj => ⟨(h3 j hj).1, fun hjt => (h3 j hj).2.1 (List.mem_cons_of_mem _ hjt), (h3 j hj).2.2⟩⟩
    · obtain ⟨l, h1, h2, h3⟩ := hc.pruned
      exact ⟨l, h1, h2, fun j hj => ⟨(h3 j hj).1, fun hjt => (h3 j hj).2.1 (List.mem_cons_of_mem _ hjt), (h3 j hj).2.2⟩⟩
  rw [readHash] at hr
  cases hrd : env.rdHash i with
  | timeout => rw [hrd] at hr; cases hr; exact ⟨hold.conn, hold.oor, hold.pruned⟩
  | failure => rw [hrd] at hr; cases hr; exact hold
  | outOfRange =>
    rw [hrd] at hr
    cases hr
    refine ⟨hold.conn, ?_, hold.pruned⟩
    dsimp only
    split
    · exact hold.oor
    · obtain ⟨l, h1, h2, h3⟩ := hc.oor
      refine ⟨i :: l, List.nodup_cons.2 ⟨fun hm => hd ((h3 i hm).2.1 List.mem_cons_self), h1⟩, by rw [List.length_cons, h2], ?_⟩
      intro j hj
      rcases List.mem_cons.1 hj with rfl | hj
      · exact ⟨hi, fun h => absurd h ht, Or.inr ⟨hd, hrd⟩⟩
      · exact ⟨(h3 j hj).1, fun hjt => (h3 j hj).2.1 (List.mem_cons_of_mem _ hjt), (h3 j hj).2.2⟩
  | notFound =>
    rw [hrd] at hr
    cases hr
    refine ⟨hold.conn, hold.oor, ?_⟩
    obtain ⟨l, h1, h2, h3⟩ := hc.pruned
    refine ⟨i :: l, List.nodup_cons.2 ⟨fun hm => hd ((h3 i hm).2.1 List.mem_cons_self), h1⟩, by rw [List.length_cons, h2], ?_⟩
    intro j hj
    rcases List.mem_cons.1 hj with rfl | hj
    · exact ⟨hi, fun h => absurd h ht, Or.inr ⟨hd, hrd⟩⟩
    · exact ⟨(h3 j hj).1, fun hjt => (h3 j hj).2.1 (List.mem_cons_of_mem _ hjt), (h3 j hj).2.2⟩
  | msg m =>
    rw [hrd] at hr
    cases m with
    | none => cases hr
    | some m =>
      dsimp only at hr
      have h2 : Counted cfg c0 env todo { col with cl := col.cl.setHash i (some m.next) } := ⟨hold.conn, hold.oor, hold.pruned⟩
      split at hr
      · cases hr; exact h2
      · split at hr
        · cases hr; exact h2
        · cases hr; exact counted_record h2 _ _

theorem counted_skip {cfg : Cfg} {c0 : Cl} {env : Env} {todo : List Nat} {col : Col} {i : Nat} (hc : Counted cfg c0 env (i :: todo) col) :
    Counted cfg c0 env todo col := by
  refine ⟨hc.conn, ?_, ?_⟩
  · obtain ⟨l, h1, h2, h3⟩ := hc.oor
    exact ⟨l, h1, h2, fun j hj => ⟨(h3 j hj).1, fun hjt => (h3 j hj).2.1 (List.mem_cons_of_mem _ hjt), (h3 j hj).2.2⟩⟩
  · obtain ⟨l, h1, h2, h3⟩ := hc.pruned
    exact ⟨l, h1, h2, fun j hj => ⟨(h3 j hj).1, fun hjt => (h3 j hj).2.1 (List.mem_cons_of_mem _ hjt), (h3 j hj).2.2⟩⟩

theorem counted_collect {cfg : Cfg} {c0 : Cl} {env : Env} : ∀ (todo : List Nat) {col col' : Col}, todo.Nodup → (∀ i ∈ todo, i < cfg.n) →
    Counted cfg c0 env todo col → collect cfg env todo col = .ok col' → Counted cfg c0 env [] col' := by
  intro todo
  induction todo with
  | nil => intro col col' _ _ hc hr; rw [collect] at hr; cases hr; exact hc
  | cons i is ih =>
    intro col col' hn hrg hc hr
    rw [List.nodup_cons] at hn
    have hrg' : ∀ j ∈ is, j < cfg.n := fun j hj => hrg j (List.mem_cons_of_mem _ hj)
    rw [collect] at hr
    by_cases hid : i = col.cl.dataConn
    · rw [if_pos hid] at hr
      exact ih hn.2 hrg' (counted_skip hc) hr
    · rw [if_neg hid] at hr
      dsimp only at hr
      have hid' : i ≠ c0.dataConn := by rw [← hc.conn]; exact hid
      split at hr
      · exact ih hn.2 hrg' (counted_skip hc) hr
      · have hx : Counted cfg c0 env (i :: is) (if (col.cl.srv i).hash.isSome = true then col else
            { col with cl := col.cl.setHash i (some col.cl.expect) }) := by
          split
          · exact hc
          · exact ⟨hc.conn, hc.oor, hc.pruned⟩
        generalize (if (col.cl.srv i).hash.isSome = true then col else
            { col with cl := col.cl.setHash i (some col.cl.expect) }) = colx at hr hx
        cases hrh : readHash colx env i with
        | throw => rw [hrh] at hr; cases hr
        | abort => rw [hrh] at hr; cases hr
        | ok col1 =>
          rw [hrh] at hr
          dsimp only at hr
          have hc2 := counted_readHash (hrg i List.mem_cons_self) hn.1 hid' hx hrh
          split at hr
          · cases hr
            obtain ⟨h1, ⟨l, a1, a2, a3⟩, ⟨l', b1, b2, b3⟩⟩ := hc2
            exact ⟨h1, ⟨l, a1, a2, fun j hj => ⟨(a3 j hj).1, fun h => (by cases h), (a3 j hj).2.2⟩⟩,
              ⟨l', b1, b2, fun j hj => ⟨(b3 j hj).1, fun h => (by cases h), (b3 j hj).2.2⟩⟩⟩
          · exact ih hn.2 hrg' hc2 hr

/-- **C33.** The subscription ends with `OutOfRangeSubscriptionRequest` only if an honest server said so, and with `UpdateNotFound` (the
update was pruned) only if an honest server said so. -/
theorem ends_only_if_honest {h : Bytes → Bytes} {hon : Nat → Bool} {cfg : Cfg} (hf : FewFaulty cfg hon) {c : Cl} {env : Env}
    (hn : c.dataConn < cfg.n) :
    (iter cfg h c env = .exc .outOfRange → ∃ i, i < cfg.n ∧ hon i = true ∧ SaidOor c env i) ∧
    (iter cfg h c env = .exc .notFound → ∃ i, i < cfg.n ∧ hon i = true ∧ SaidPruned c env i) := by
  have key : ∀ r, iter cfg h c env = .exc r → r = .outOfRange ∨ r = .notFound → ∃ col, Counted cfg c env [] col ∧
      ((r = .outOfRange ∧ col.oor ≥ cfg.f + 1) ∨ (r = .notFound ∧ col.pruned ≥ cfg.f + 1)) := by
    intro r hr hrr
    rcases iter_cases hr with ⟨h1, _⟩ | ⟨h1, _⟩ | ⟨col, upd, h1, ⟨h2, _⟩ | ⟨h2, _⟩ | ⟨col', h2, h3⟩⟩
    · cases h1
    · cases h1; rcases hrr with h | h <;> cases h
    · cases h2
    · cases h2; rcases hrr with h | h <;> cases h
    · have hc := counted_collect _ (order_nodup _ _) (order_range _ _) (counted_readBlock hn h1 (order cfg col.cl)) h2
      refine ⟨col', hc, ?_⟩
      rw [decideIt] at h3
      split at h3
      · split at h3
        · cases h3; rcases hrr with h | h <;> cases h
        · split at h3
          · rename_i h4; cases h3; exact Or.inl ⟨rfl, h4.2⟩
          · split at h3
            · rename_i h4; cases h3; exact Or.inr ⟨rfl, h4⟩
            · rw [Cl.giveUp] at h3; cases h3
      · dsimp only at h3
        split at h3
        · cases h3
        · split at h3
          · cases h3
          · cases h3; rcases hrr with h | h <;> cases h
          · cases h3
          · rw [Cl.giveUp] at h3; cases h3
  constructor
  · intro hr
    obtain ⟨col, hc, ⟨_, hk⟩ | ⟨he, _⟩⟩ := key _ hr (Or.inl rfl)
    · obtain ⟨l, h1, h2, h3⟩ := hc.oor
      obtain ⟨i, hi, hb⟩ := exists_honest hf h1 (fun i hi => (h3 i hi).1) (by omega)
      exact ⟨i, (h3 i hi).1, hb, (h3 i hi).2.2⟩
    · cases he
  · intro hr
    obtain ⟨col, hc, ⟨he, _⟩ | ⟨_, hk⟩⟩ := key _ hr (Or.inr rfl)
    · cases he
    · obtain ⟨l, h1, h2, h3⟩ := hc.pruned
      obtain ⟨i, hi, hb⟩ := exists_honest hf h1 (fun i hi => (h3 i hi).1) (by omega)
      exact ⟨i, (h3 i hi).1, hb, (h3 i hi).2.2⟩

/-! ## An update is delivered when the honest servers answer -/

/-- in this iteration honest servers answer when asked -/
structure Answering (hon : Nat → Bool) (cfg : Cfg) (c : Cl) (env : Env) : Prop where
  opHash : ∀ i, i < cfg.n → hon i = true → env.opHash i = .ok
  rdHash : ∀ i, i < cfg.n → hon i = true → ∃ m, env.rdHash i = .msg m
  opRot : ∀ i, i < cfg.n → hon i = true → env.opRot i = .ok
  rdRot : ∀ i, i < cfg.n → hon i = true → ∃ m, env.rdRot i = .msg m
  /-- the iteration order of the set covers all servers -/
  order : ∀ i, i < cfg.n → i ∈ env.rotOrder

theorem single_eq {W : World} {p q : Pos} (hs : Single W p q) : p = q := hs p (Or.inl rfl)

theorem gives_single {W : World} {p q : Pos} (hs : Single W p q) {u : Upd} (g : Gives W p u) : Eqv u (W.upd p) := by
  obtain ⟨r, h1, h2⟩ := gives_iff.1 g
  rw [hs r h1, ← single_eq hs] at h2
  exact h2

theorem expect_id (W : World) (c : Cl) : (W.upd c.expect).id = c.lat (W.upd c.expect).isEg + 1 := by
  cases h : c.isEg <;> simp [Cl.expect, h, World.upd, Upd.id, Upd.isEg, Cl.lat]

theorem expect_isEg (W : World) (c : Cl) : (W.upd c.expect).isEg = c.isEg := by
  cases h : c.isEg <;> simp [Cl.expect, h, World.upd, Upd.isEg]

/-- the answer of an honest server is recorded, and earlier records stay -/
theorem readHash_live {W : World} {h : Bytes → Bytes} (hlen : ∀ x, (h x).length = 32) {hon : Nat → Bool} {cfg : Cfg} {c0 : Cl} {env : Env}
    {col col' : Col} {i : Nat} (hl : ∀ k, col.cl.lat k = c0.lat k) (hr : readHash col env i = .ok col') :
    (∀ k, col'.cl.lat k = c0.lat k) ∧ col'.cl.dataConn = col.cl.dataConn ∧ (∀ r s, (r, s) ∈ col.recs → ∃ s', (r, s') ∈ col'.recs ∧ ∀ j ∈ s, j ∈ s') ∧
    ((col.recs.map (·.1)).Nodup → (col'.recs.map (·.1)).Nodup) ∧
    (∀ u d, Eqv u (W.upd c0.expect) → hashUpd h u = .ok d → env.rdHash i = .msg (some ⟨u.isEg, u.id, d⟩) → (col.recs.map (·.1)).Nodup →
      ∃ r s, (r, s) ∈ col'.recs ∧ i ∈ s) := by
  have old : ∀ r s, (r, s) ∈ col.recs → ∃ s', (r, s') ∈ col.recs ∧ ∀ j ∈ s, j ∈ s' := fun r s hm => ⟨s, hm, fun j hj => hj⟩
  rw [readHash] at hr
  cases hrd : env.rdHash i with
  | timeout => rw [hrd] at hr; cases hr; exact ⟨hl, rfl, old, id, fun u d _ _ h => by cases h⟩
  | failure => rw [hrd] at hr; cases hr; exact ⟨hl, rfl, old, id, fun u d _ _ h => by cases h⟩
  | outOfRange => rw [hrd] at hr; cases hr; exact ⟨hl, rfl, old, id, fun u d _ _ h => by cases h⟩
  | notFound => rw [hrd] at hr; cases hr; exact ⟨hl, rfl, old, id, fun u d _ _ h => by cases h⟩
  | msg m =>
    rw [hrd] at hr
    cases m with
    | none => cases hr
    | some m =>
      dsimp only at hr
      have hlat : (col.cl.setHash i (some m.next)).lat m.isEg = c0.lat m.isEg := hl m.isEg
      rw [hlat] at hr
      have hgood : ∀ u d, Eqv u (W.upd c0.expect) → hashUpd h u = .ok d → Rd.msg (some m) = .msg (some (⟨u.isEg, u.id, d⟩ : HashMsg)) →
          ¬ m.id < c0.lat m.isEg ∧ ¬ m.hash.length > 32 := by
        intro u d he hd hm
        cases hm
        dsimp only
        have h1 := expect_id W c0
        rw [← he.id, ← he.isEg] at h1
        exact ⟨by omega, by rw [hashUpd_length hlen hd]; omega⟩
      split at hr
      · rename_i hb
        cases hr
        exact ⟨hl, rfl, old, id, fun u d he hd hm => absurd hb (hgood u d he hd hm).1⟩
      · split at hr
        · rename_i hb
          cases hr
          exact ⟨hl, rfl, old, id, fun u d he hd hm => absurd hb (hgood u d he hd hm).2⟩
        · cases hr
          refine ⟨by rw [record_cl]; exact hl, by rw [record_cl]; rfl, ?_, ?_, ?_⟩
          · rw [record_recs]
            intro r s hm
            exact addRec_old hm
          · rw [record_recs]; exact addRec_nodup
          · rw [record_recs]
            intro u d _ _ _ hk
            obtain ⟨s, hs⟩ := exists_addRec i ⟨m.isEg, m.id, pad m.hash⟩ col.recs
            exact ⟨_, s, hs, mem_addRec_self hk hs⟩

theorem collect_live {W : World} {h : Bytes → Bytes} (hlen : ∀ x, (h x).length = 32) {hon : Nat → Bool} {cfg : Cfg} {c0 : Cl} {env : Env}
    (ck : CliInv hon cfg c0) (eo : EnvOk W h hon c0 env) (ha : Answering hon cfg c0 env) {q : Pos} (hs : Single W c0.expect q) :
    ∀ (todo : List Nat) {col col' : Col}, (∀ i ∈ todo, i < cfg.n) → (∀ k, col.cl.lat k = c0.lat k) → col.cl.dataConn = c0.dataConn →
    (col.recs.map (·.1)).Nodup → collect cfg env todo col = .ok col' →
    (∀ r s, (r, s) ∈ col.recs → ∃ s', (r, s') ∈ col'.recs ∧ ∀ j ∈ s, j ∈ s') ∧
    (col'.most ≥ cfg.f + 1 ∨ ∀ i ∈ todo, hon i = true → i ≠ c0.dataConn → ∃ r s, (r, s) ∈ col'.recs ∧ i ∈ s) := by
  intro todo
  induction todo with
  | nil =>
    intro col col' _ _ _ _ hr
    rw [collect] at hr
    cases hr
    exact ⟨fun r s hm => ⟨s, hm, fun j hj => hj⟩, Or.inr (fun i hi => by cases hi)⟩
  | cons i is ih =>
    intro col col' hrg hl hdc hk hr
    have hrg' : ∀ j ∈ is, j < cfg.n := fun j hj => hrg j (List.mem_cons_of_mem _ hj)
    rw [collect] at hr
    by_cases hid : i = col.cl.dataConn
    · rw [if_pos hid] at hr
      obtain ⟨a, b⟩ := ih hrg' hl hdc hk hr
      refine ⟨a, b.imp id (fun b j hj hb hjd => ?_)⟩
      rcases List.mem_cons.1 hj with hj | hj
      · exact absurd (hj.trans (hid.trans hdc)) hjd
      · exact b j hj hb hjd
    · rw [if_neg hid] at hr
      dsimp only at hr
      split at hr
      · rename_i hop
        obtain ⟨a, b⟩ := ih hrg' hl hdc hk hr
        refine ⟨a, b.imp id (fun b j hj hb hjd => ?_)⟩
        rcases List.mem_cons.1 hj with hj | hj
        · subst hj
          exact absurd (ha.opHash j (hrg j List.mem_cons_self) hb) hop.2
        · exact b j hj hb hjd
      · have hx1 : (∀ k, (if (col.cl.srv i).hash.isSome = true then col else
            { col with cl := col.cl.setHash i (some col.cl.expect) }).cl.lat k = c0.lat k) := by
          split
          · exact hl
          · exact hl
        have hx2 : (if (col.cl.srv i).hash.isSome = true then col else
            { col with cl := col.cl.setHash i (some col.cl.expect) }).cl.dataConn = c0.dataConn := by
          split
          · exact hdc
          · exact hdc
        have hx3 : (if (col.cl.srv i).hash.isSome = true then col else
            { col with cl := col.cl.setHash i (some col.cl.expect) }).recs = col.recs := by split <;> rfl
        generalize (if (col.cl.srv i).hash.isSome = true then col else
            { col with cl := col.cl.setHash i (some col.cl.expect) }) = colx at hr hx1 hx2 hx3
        cases hrh : readHash colx env i with
        | throw => rw [hrh] at hr; cases hr
        | abort => rw [hrh] at hr; cases hr
        | ok col1 =>
          rw [hrh] at hr
          dsimp only at hr
          obtain ⟨r1, r2, r3, r4, r5⟩ := readHash_live (W := W) (hon := hon) (cfg := cfg) hlen hx1 hrh
          rw [hx3] at r3 r4 r5
          split at hr
          · rename_i hm
            cases hr
            exact ⟨r3, Or.inl hm⟩
          · obtain ⟨a, b⟩ := ih hrg' r1 (r2.trans hx2) (r4 hk) hr
            constructor
            · intro r s hm
              obtain ⟨s1, m1, m2⟩ := r3 r s hm
              obtain ⟨s2, n1, n2⟩ := a r s1 m1
              exact ⟨s2, n1, fun j hj => n2 j (m2 j hj)⟩
            · refine b.imp id (fun b j hj hb hjd => ?_)
              rcases List.mem_cons.1 hj with hj | hj
              · subst hj
                obtain ⟨m, hm⟩ := ha.rdHash j (hrg j List.mem_cons_self) hb
                obtain ⟨u, d, g1, g2, g3⟩ := eo.hash j hb m hm
                have hexp : (c0.srv j).hash.getD c0.expect = c0.expect := by
                  cases hp : (c0.srv j).hash with
                  | none => rfl
                  | some p => exact ck.hash j hb p hp
                rw [hexp] at g1
                obtain ⟨r, s, k1, k2⟩ := r5 u d (gives_single hs g1) g2 (by rw [hm, g3]) hk
                obtain ⟨s', l1, l2⟩ := a r s k1
                exact ⟨r, s', l1, l2 j k2⟩
              · exact b j hj hb hjd

theorem rotate_live {h : Bytes → Bytes} {best : Rec} {env : Env} : ∀ {l : List Nat} {c c' : Cl},
    rotate h best env l c = .ok (c', none) → ∀ i ∈ l, env.opRot i = .ok → ∀ u, env.rdRot i = .msg (some u) → u.id = best.id → hashUpd h u ≠ .ok best.hash
  | [], c, c', hr, i, hi, _, _, _, _ => by cases hi
  | j :: is, c, c', hr, i, hi, h1, u, h2, h3 => by
    intro h4
    have tail : ∀ {c1 : Cl}, rotate h best env is c1 = .ok (c', none) → j ≠ i → False := by
      intro c1 hc hji
      rcases List.mem_cons.1 hi with e | e
      · exact hji e.symm
      · exact rotate_live hc i e h1 u h2 h3 h4
    rw [rotate] at hr
    dsimp only at hr
    by_cases hop : env.opRot j ≠ .ok
    · rw [if_pos hop] at hr
      exact tail hr (fun e => hop (e ▸ h1))
    · rw [if_neg hop] at hr
      cases hrd : env.rdRot j with
      | timeout => rw [hrd] at hr; exact tail hr (fun e => by rw [e, h2] at hrd; cases hrd)
      | failure => rw [hrd] at hr; exact tail hr (fun e => by rw [e, h2] at hrd; cases hrd)
      | outOfRange => rw [hrd] at hr; exact tail hr (fun e => by rw [e, h2] at hrd; cases hrd)
      | notFound => rw [hrd] at hr; exact tail hr (fun e => by rw [e, h2] at hrd; cases hrd)
      | msg m =>
        rw [hrd] at hr
        cases m with
        | none => cases hr
        | some v =>
          dsimp only at hr
          have hv : j = i → v = u := fun e => by rw [e, h2] at hrd; cases hrd; rfl
          by_cases hid : v.id ≠ best.id
          · rw [if_pos hid] at hr
            exact tail hr (fun e => hid (by rw [hv e, h3]))
          · rw [if_neg hid] at hr
            cases hx : hashUpd h v with
            | throw => rw [hx] at hr; cases hr
            | abort => rw [hx] at hr; cases hr
            | ok x =>
              rw [hx] at hr
              dsimp only at hr
              by_cases hb : x ≠ best.hash
              · rw [if_pos hb] at hr
                refine tail hr (fun e => hb ?_)
                rw [hv e, h4] at hx
                cases hx; rfl
              · rw [if_neg hb] at hr; cases hr

/-- **C33.** In an iteration in which the honest servers (at least `2f+2` servers, at most `f` faulty) answer, all with the same next
update, that update is delivered: unless a faulty server makes the client abort or throw (`crash_only_by_faulty`), neither silence nor
wrong answers of faulty servers prevent it. -/
theorem answering_delivers {W : World} {h : Bytes → Bytes} (hlen : ∀ x, (h x).length = 32) {hon : Nat → Bool} {cfg : Cfg} (hf : FewFaulty cfg hon)
    (hn : 2 * cfg.f + 2 ≤ cfg.n) {c : Cl} {env : Env} (ck : CliInv hon cfg c) (eo : EnvOk W h hon c env) (ha : Answering hon cfg c env) {q : Pos}
    (hs : Single W c.expect q) :
    (∃ c' u, iter cfg h c env = .next c' ∧ c'.out = c.out ++ [u]) ∨ iter cfg h c env = .abort ∨ iter cfg h c env = .exc .invalid := by
  rcases iter_cases rfl with ⟨h1, _⟩ | ⟨h1, _⟩ | ⟨col, upd, h1, ⟨h2, _⟩ | ⟨h2, _⟩ | ⟨col', h2, h3⟩⟩
  · exact Or.inr (Or.inl h1)
  · exact Or.inr (Or.inr h1)
  · exact Or.inr (Or.inl h2)
  · exact Or.inr (Or.inr h2)
  · have ci0 := readBlock_inv (W := W) ck eo h1 (order cfg col.cl)
    have ci := collect_inv hlen ck eo _ (order_nodup _ _) (order_range _ _) ci0 h2
    obtain ⟨_, hl⟩ := collect_live (W := W) hlen ck eo ha hs _ (order_range _ _) (fun k => by rw [ci0.same]; rfl) (by rw [ci0.same]) ci0.keys h2
    have hout : col'.cl.out = c.out := by rw [ci.same]
    have hdc : col'.cl.dataConn = c.dataConn := by rw [ci.same]
    have hm : ¬ col'.most < cfg.f + 1 := by
      rcases hl with hl | hl
      · omega
      · -- honest servers other than the data server
        have hall : ∀ i, i < cfg.n → hon i = true → i ≠ c.dataConn → ∃ r s, (r, s) ∈ col'.recs ∧ i ∈ s :=
          fun i hi hb hd => hl i (order_all _ _ hi) hb hd
        have hcount : cfg.f + 1 ≤ (((List.range cfg.n).filter hon).filter (fun i => i ≠ c.dataConn)).length := by
          have e1 := split_length hon (List.range cfg.n)
          have e2 := split_length (fun i => decide (i ≠ c.dataConn)) ((List.range cfg.n).filter hon)
          have e3 : (((List.range cfg.n).filter hon).filter (fun x => !decide (x ≠ c.dataConn))).length ≤ [c.dataConn].length :=
            Verif.ListU.nodup_subset_length (List.Pairwise.filter _ (List.Pairwise.filter _ List.nodup_range)) (fun x hx => by
              rw [List.mem_filter] at hx
              simpa using hx.2)
          rw [FewFaulty] at hf
          rw [List.length_range] at e1
          simp only [List.length_singleton] at e3
          omega
        have hnd : (((List.range cfg.n).filter hon).filter (fun i => i ≠ c.dataConn)).Nodup :=
          List.Pairwise.filter _ (List.Pairwise.filter _ List.nodup_range)
        cases hL : ((List.range cfg.n).filter hon).filter (fun i => i ≠ c.dataConn) with
        | nil => rw [hL] at hcount; simp at hcount
        | cons a l =>
          have hmem : ∀ i, i ∈ ((List.range cfg.n).filter hon).filter (fun i => i ≠ c.dataConn) →
              i < cfg.n ∧ hon i = true ∧ i ≠ c.dataConn := by
            intro i hi
            rw [List.mem_filter, List.mem_filter, List.mem_range] at hi
            exact ⟨hi.1.1, hi.1.2, of_decide_eq_true hi.2⟩
          obtain ⟨a1, a2, a3⟩ := hmem a (by rw [hL]; exact List.mem_cons_self)
          obtain ⟨r, s, g1, g2⟩ := hall a a1 a2 a3
          have hsub : (((List.range cfg.n).filter hon).filter (fun i => i ≠ c.dataConn)).length ≤ s.length := by
            refine Verif.ListU.nodup_subset_length hnd (fun i hi => ?_)
            obtain ⟨b1, b2, b3⟩ := hmem i hi
            obtain ⟨r', s', k1, k2⟩ := hall i b1 b2 b3
            obtain ⟨u, gu, ru⟩ := ci.honest _ _ g1 a g2 a2
            obtain ⟨u', gu', ru'⟩ := ci.honest _ _ k1 i k2 b2
            have e := record_of_single hs gu gu' ru ru'
            subst e
            have : s = s' := (members_of_mem ci.keys g1).symm.trans (members_of_mem ci.keys k1)
            rw [this]; exact k2
          have := ci.max _ _ g1
          omega
    obtain ⟨s, q', g1, g2, g3, g4, d, g5, g6⟩ := best_genuine hf ci hm
    rw [hs q' g4] at g5 g6
    rw [decideIt, if_neg hm] at h3
    dsimp only at h3
    rw [g2] at h3
    by_cases hin : col'.cl.dataConn ∈ s
    · rw [if_pos hin] at h3
      obtain ⟨u, w1, _, _⟩ := ci.data _ _ g1 (hdc ▸ hin)
      rw [w1] at h3
      dsimp only at h3
      exact Or.inl ⟨_, u, h3.symm, by rw [← hout]; rfl⟩
    · rw [if_neg hin] at h3
      dsimp only at h3
      cases hrot : rotate h col'.best env (env.rotOrder.filter (fun i => i ∈ s)) col'.cl with
      | abort => rw [hrot] at h3; exact Or.inr (Or.inl h3.symm)
      | throw => rw [hrot] at h3; exact Or.inr (Or.inr h3.symm)
      | ok x =>
        obtain ⟨c1, o⟩ := x
        rw [hrot] at h3
        obtain ⟨r1, _⟩ := rotate_inv (c0 := col'.cl) ⟨rfl, fun j => Or.inr rfl⟩ hrot
        cases o with
        | some u =>
          dsimp only at h3
          refine Or.inl ⟨_, u, h3.symm, ?_⟩
          have : c1.out = c.out := by rw [← hout, r1.same]
          rw [← this]; rfl
        | none =>
          exfalso
          obtain ⟨i, hi, hb⟩ := exists_honest hf (ci.nodup _ _ g1) (ci.range _ _ g1) (by omega)
          have hin := ci.range _ _ g1 i hi
          obtain ⟨m, hm'⟩ := ha.rdRot i hin hb
          obtain ⟨u, e1, e2⟩ := eo.rot i hb m hm'
          subst e1
          have he := gives_single hs e2
          have hq := single_eq hs
          refine rotate_live hrot i (List.mem_filter.2 ⟨ha.order i hin, decide_eq_true hi⟩) (ha.opRot i hin hb) u hm' ?_ ?_
          · rw [g6, he.id, hq]
          · rw [hash_order he, hq, g5, g6]

/-! ## What makes the client abort or throw -/

/-- server `i` sent something that an honest server does not send -/
def SentBad (h : Bytes → Bytes) (c : Cl) (env : Env) (i : Nat) : Prop :=
  (i = c.dataConn ∧ (env.rdData = .msg none ∨ ∃ u, env.rdData = .msg (some u) ∧ ∀ d, hashUpd h u ≠ .ok d)) ∨
  env.rdHash i = .msg none ∨ env.rdRot i = .msg none ∨ ∃ u, env.rdRot i = .msg (some u) ∧ ∀ d, hashUpd h u ≠ .ok d

theorem readBlock_bad {h : Bytes → Bytes} {c : Cl} {env : Env} (hr : readBlock h c env = .abort ∨ readBlock h c env = .throw) :
    (∃ p, (c.srv c.dataConn).data = some p) ∧ (env.rdData = .msg none ∨ ∃ u, env.rdData = .msg (some u) ∧ ∀ d, hashUpd h u ≠ .ok d) := by
  rw [readBlock] at hr
  dsimp only at hr
  cases hd : (c.srv c.dataConn).data with
  | none => rw [hd, if_pos rfl] at hr; rcases hr with hr | hr <;> cases hr
  | some p =>
    rw [hd, if_neg (by simp)] at hr
    refine ⟨⟨p, rfl⟩, ?_⟩
    cases hrd : env.rdData with
    | timeout => rw [hrd] at hr; rcases hr with hr | hr <;> cases hr
    | failure => rw [hrd] at hr; rcases hr with hr | hr <;> cases hr
    | outOfRange => rw [hrd] at hr; rcases hr with hr | hr <;> cases hr
    | notFound => rw [hrd] at hr; rcases hr with hr | hr <;> cases hr
    | msg m =>
      rw [hrd] at hr
      cases m with
      | none => exact Or.inl rfl
      | some v =>
        refine Or.inr ⟨v, rfl, fun d hd => ?_⟩
        dsimp only at hr
        rw [hd] at hr
        dsimp only at hr
        split at hr <;> rcases hr with hr | hr <;> cases hr

theorem collect_bad {cfg : Cfg} {env : Env} : ∀ (todo : List Nat) {col : Col}, (∀ i ∈ todo, i < cfg.n) →
    collect cfg env todo col = .abort ∨ collect cfg env todo col = .throw → ∃ i, i < cfg.n ∧ env.rdHash i = .msg none
  | [], col, _, hr => by rw [collect] at hr; rcases hr with hr | hr <;> cases hr
  | i :: is, col, hrg, hr => by
    have hrg' : ∀ j ∈ is, j < cfg.n := fun j hj => hrg j (List.mem_cons_of_mem _ hj)
    rw [collect] at hr
    by_cases hid : i = col.cl.dataConn
    · rw [if_pos hid] at hr
      exact collect_bad is hrg' hr
    · rw [if_neg hid] at hr
      dsimp only at hr
      split at hr
      · exact collect_bad is hrg' hr
      · generalize (if (col.cl.srv i).hash.isSome = true then col else
            { col with cl := col.cl.setHash i (some col.cl.expect) }) = colx at hr
        have hbad : readHash colx env i = .abort ∨ readHash colx env i = .throw → env.rdHash i = .msg none := by
          intro hx
          rw [readHash] at hx
          cases hrd : env.rdHash i with
          | timeout => rw [hrd] at hx; rcases hx with hx | hx <;> cases hx
          | failure => rw [hrd] at hx; rcases hx with hx | hx <;> cases hx
          | outOfRange => rw [hrd] at hx; rcases hx with hx | hx <;> cases hx
          | notFound => rw [hrd] at hx; rcases hx with hx | hx <;> cases hx
          | msg m =>
            cases m with
            | none => rfl
            | some m =>
              rw [hrd] at hx
              dsimp only at hx
              split at hx
              · rcases hx with hx | hx <;> cases hx
              · split at hx <;> rcases hx with hx | hx <;> cases hx
        cases hrh : readHash colx env i with
        | throw => exact ⟨i, hrg i List.mem_cons_self, hbad (Or.inr hrh)⟩
        | abort => exact ⟨i, hrg i List.mem_cons_self, hbad (Or.inl hrh)⟩
        | ok col1 =>
          rw [hrh] at hr
          dsimp only at hr
          split at hr
          · rcases hr with hr | hr <;> cases hr
          · exact collect_bad is hrg' hr

theorem rotate_bad {h : Bytes → Bytes} {best : Rec} {env : Env} : ∀ {l : List Nat} {c : Cl},
    rotate h best env l c = .abort ∨ rotate h best env l c = .throw →
    ∃ i ∈ l, env.rdRot i = .msg none ∨ ∃ u, env.rdRot i = .msg (some u) ∧ ∀ d, hashUpd h u ≠ .ok d
  | [], c, hr => by rw [rotate] at hr; rcases hr with hr | hr <;> cases hr
  | j :: is, c, hr => by
    have tail : ∀ {c1 : Cl}, rotate h best env is c1 = .abort ∨ rotate h best env is c1 = .throw →
        ∃ i ∈ j :: is, env.rdRot i = .msg none ∨ ∃ u, env.rdRot i = .msg (some u) ∧ ∀ d, hashUpd h u ≠ .ok d := by
      intro c1 hc
      obtain ⟨i, h1, h2⟩ := rotate_bad hc
      exact ⟨i, List.mem_cons_of_mem _ h1, h2⟩
    rw [rotate] at hr
    dsimp only at hr
    by_cases hop : env.opRot j ≠ .ok
    · rw [if_pos hop] at hr
      exact tail hr
    · rw [if_neg hop] at hr
      cases hrd : env.rdRot j with
      | timeout => rw [hrd] at hr; exact tail hr
      | failure => rw [hrd] at hr; exact tail hr
      | outOfRange => rw [hrd] at hr; exact tail hr
      | notFound => rw [hrd] at hr; exact tail hr
      | msg m =>
        rw [hrd] at hr
        cases m with
        | none => exact ⟨j, List.mem_cons_self, Or.inl hrd⟩
        | some v =>
          dsimp only at hr
          split at hr
          · exact tail hr
          · cases hx : hashUpd h v with
            | throw => exact ⟨j, List.mem_cons_self, Or.inr ⟨v, hrd, fun d hd => by rw [hx] at hd; cases hd⟩⟩
            | abort => exact ⟨j, List.mem_cons_self, Or.inr ⟨v, hrd, fun d hd => by rw [hx] at hd; cases hd⟩⟩
            | ok x =>
              rw [hx] at hr
              dsimp only at hr
              split at hr
              · exact tail hr
              · rcases hr with hr | hr <;> cases hr

/-- **C33.** If genuine updates can be hashed, the client aborts or throws `invalid_argument` only because of something a faulty server
sent (the examples show that one faulty server can cause it). -/
theorem crash_only_by_faulty {W : World} {h : Bytes → Bytes} (hlen : ∀ x, (h x).length = 32) {hon : Nat → Bool} {cfg : Cfg}
    {c : Cl} {env : Env} (ck : CliInv hon cfg c) (eo : EnvOk W h hon c env) (hw : ∀ p, ∃ d, hashUpd h (W.upd p) = .ok d)
    (hr : iter cfg h c env = .abort ∨ iter cfg h c env = .exc .invalid) : ∃ i, i < cfg.n ∧ hon i = false ∧ SentBad h c env i := by
  have hok : ∀ p u, Gives W p u → ∃ d, hashUpd h u = .ok d := by
    intro p u g
    obtain ⟨q, _, he⟩ := gives_iff.1 g
    rw [hash_order he]
    exact hw q
  have nothon : ∀ i, (hon i = true → False) → hon i = false := by
    intro i hi
    cases hb : hon i with
    | false => rfl
    | true => exact (hi hb).elim
  have hdata : (readBlock h c env = .abort ∨ readBlock h c env = .throw) → ∃ i, i < cfg.n ∧ hon i = false ∧ SentBad h c env i := by
    intro h1
    obtain ⟨⟨p, hp⟩, hb⟩ := readBlock_bad h1
    refine ⟨c.dataConn, ck.conn, nothon _ (fun hx => ?_), Or.inl ⟨rfl, hb⟩⟩
    rcases hb with hb | ⟨u, hb, hd⟩
    · obtain ⟨u, e, _⟩ := eo.data hx p _ hp hb
      cases e
    · obtain ⟨v, e, g⟩ := eo.data hx p _ hp hb
      cases e
      obtain ⟨d, hd'⟩ := hok _ _ g
      exact hd d hd'
  have hcol : ∀ col, (collect cfg env (order cfg col.cl) col = .abort ∨ collect cfg env (order cfg col.cl) col = .throw) →
      ∃ i, i < cfg.n ∧ hon i = false ∧ SentBad h c env i := by
    intro col h1
    obtain ⟨i, hi, hb⟩ := collect_bad _ (order_range _ _) h1
    refine ⟨i, hi, nothon _ (fun hx => ?_), Or.inr (Or.inl hb)⟩
    obtain ⟨u, d, _, _, e⟩ := eo.hash i hx _ hb
    cases e
  rcases iter_cases rfl with ⟨_, h1⟩ | ⟨_, h1⟩ | ⟨col, upd, h1, ⟨_, h2⟩ | ⟨_, h2⟩ | ⟨col', h2, h3⟩⟩
  · exact hdata (Or.inl h1)
  · exact hdata (Or.inr h1)
  · exact hcol col (Or.inl h2)
  · exact hcol col (Or.inr h2)
  · rw [← h3] at hr
    have ci := collect_inv hlen ck eo _ (order_nodup _ _) (order_range _ _) (readBlock_inv (W := W) ck eo h1 (order cfg col.cl)) h2
    rw [decideIt] at hr
    split at hr
    · split at hr
      · rcases hr with hr | hr <;> cases hr
      · split at hr
        · rcases hr with hr | hr <;> cases hr
        · split at hr
          · rcases hr with hr | hr <;> cases hr
          · rw [Cl.giveUp] at hr; rcases hr with hr | hr <;> cases hr
    · rename_i hm
      obtain ⟨s, g1, g2⟩ := ci.best (by omega)
      have g3 := members_of_mem ci.keys g1
      dsimp only at hr
      rw [g3] at hr
      have hrot : (rotate h col'.best env (env.rotOrder.filter (fun i => i ∈ s)) col'.cl = .abort ∨
          rotate h col'.best env (env.rotOrder.filter (fun i => i ∈ s)) col'.cl = .throw) → ∃ i, i < cfg.n ∧ hon i = false ∧ SentBad h c env i := by
        intro h4
        obtain ⟨i, hi, hb⟩ := rotate_bad h4
        have his : i ∈ s := of_decide_eq_true (List.mem_filter.1 hi).2
        refine ⟨i, ci.range _ _ g1 i his, nothon _ (fun hx => ?_), Or.inr (Or.inr hb)⟩
        rcases hb with hb | ⟨u, hb, hd⟩
        · obtain ⟨u, e, _⟩ := eo.rot i hx _ hb
          cases e
        · obtain ⟨v, e, g⟩ := eo.rot i hx _ hb
          cases e
          obtain ⟨d, hd'⟩ := hok _ _ g
          exact hd d hd'
      split at hr
      · rcases hr with hr | hr <;> cases hr
      · cases hrr : rotate h col'.best env (env.rotOrder.filter (fun i => i ∈ s)) col'.cl with
        | abort => exact hrot (Or.inl hrr)
        | throw => exact hrot (Or.inr hrr)
        | ok x =>
          obtain ⟨c1, o⟩ := x
          rw [hrr] at hr
          cases o with
          | none => dsimp only at hr; rw [Cl.giveUp] at hr; rcases hr with hr | hr <;> cases hr
          | some u => dsimp only at hr; rcases hr with hr | hr <;> cases hr

end Verif.Trc
