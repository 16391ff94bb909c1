import Verif.Client.Matcher
import Verif.Util.ListLemmas
set_option linter.unusedSimpArgs false
set_option linter.unusedVariables false
/-!
# C16: the client accepts a result only with a full matching quorum

The property is **false** as stated (`one_faulty_reply_decides`): `ReplyMetadata::operator<` ignores the result code while
`operator==` compares it, so two replies with different result codes are "equivalent" map keys *whatever their data*, and
replies with one result are counted for an entry created by a single reply with another result code.

* `quorum_partial`: the property under the extra hypothesis that no two replies to the request with the same primary carry
  different result codes.
* `honest_result_partial`: with fewer faulty destinations than the quorum, the result comes from an honest replica.
* `sent_unconditional`: what holds without the hypothesis.
-/
namespace Verif.Client
open Verif.Bytes

/-! ## Specification -/

/-- reply `r` says "`result`, `data`" to this request under the same primary -/
def Says (c : Config) (result : Nat) (data : Bytes) (primary : Option Nat) (r : Reply) : Prop :=
  r.seq = c.seq ∧ r.result = result ∧ r.data = data ∧ (if c.includePrimary then r.primary else none) = primary

/-- a full matching quorum: `waitFor` distinct destinations, each of which sent a reply with this result and data -/
def QuorumSays (c : Config) (evs : List Ev) (result : Nat) (data : Bytes) (primary : Option Nat) (senders : List Nat) : Prop :=
  senders.Nodup ∧ senders.length = c.quorum.waitFor ∧
    ∀ i ∈ senders, i ∈ c.quorum.dests ∧ ∃ r, .reply r ∈ evs ∧ r.sender = i ∧ Says c result data primary r

/-- result codes agree: no two replies of destinations to this request under the same primary carry different result codes -/
def ResultsAgree (c : Config) (evs : List Ev) : Prop :=
  ∀ r r', .reply r ∈ evs → .reply r' ∈ evs → valid c r → valid c r' →
    (keyOf c r).primary = (keyOf c r').primary → r.result = r'.result

/-! ## Comparator -/

theorem optLt_total {a b : Option Nat} (h1 : optLt a b = false) (h2 : optLt b a = false) : a = b := by
  cases a <;> cases b <;> simp_all [optLt]
  omega

theorem equiv_primary_seq {a b : Key} (h1 : a.lt b = false) (h2 : b.lt a = false) : a.primary = b.primary ∧ a.seq = b.seq := by
  simp only [Key.lt, Bool.or_eq_false_iff, metaLt] at h1 h2
  have hp := optLt_total h1.1.1 h2.1.1
  refine ⟨hp, ?_⟩
  have e1 := h1.1.2
  have e2 := h2.1.2
  simp only [hp, beq_self_eq_true, Bool.true_and, decide_eq_false_iff_not] at e1 e2
  omega

theorem equiv_eq {a b : Key} (h1 : a.lt b = false) (h2 : b.lt a = false) (hr : a.result = b.result) : a = b := by
  obtain ⟨hp, hs⟩ := equiv_primary_seq h1 h2
  have e1 : metaEq a b = true := by simp [metaEq, hp, hs, hr]
  have e2 : metaEq b a = true := by simp [metaEq, hp, hs, hr]
  simp only [Key.lt, Bool.or_eq_false_iff, e1, e2, Bool.true_and, decide_eq_false_iff_not] at h1 h2
  have hd : a.data = b.data := List.le_antisymm (List.not_lt.1 h2.2) (List.not_lt.1 h1.2)
  obtain ⟨p, s, r, d⟩ := a
  obtain ⟨p', s', r', d'⟩ := b
  simp_all

/-- The comparator used for the map is not a strict weak order: equivalence is not transitive. -/
theorem comparator_not_weak_order : ∃ a b k : Key, k.lt a = false ∧ a.lt k = false ∧ k.lt b = false ∧ b.lt k = false ∧
    a.lt b = true :=
  ⟨⟨some 0, 1, 0, [1]⟩, ⟨some 0, 1, 0, [2]⟩, ⟨some 0, 1, 1, []⟩, by decide⟩

/-! ## Invariant -/

/-- bookkeeping of the per-entry replica map -/
theorem mem_assign {id : Nat} {d : Bytes} {v : List (Nat × Bytes)} {x : Nat × Bytes} (h : x ∈ assign id d v) :
    x = (id, d) ∨ x ∈ v := by
  induction v with
  | nil => simpa [assign] using h
  | cons y t ih =>
    obtain ⟨i, z⟩ := y
    simp only [assign] at h
    split at h
    · rcases List.mem_cons.1 h with h | h
      · exact Or.inl h
      · exact Or.inr (List.mem_cons_of_mem _ h)
    · rcases List.mem_cons.1 h with h | h
      · exact Or.inr (by simp [h])
      · rcases ih h with h | h
        · exact Or.inl h
        · exact Or.inr (List.mem_cons_of_mem _ h)

theorem assign_keys {id : Nat} {d : Bytes} {v : List (Nat × Bytes)} (h : (v.map (·.1)).Nodup) :
    ((assign id d v).map (·.1)).Nodup := by
  induction v with
  | nil => simp [assign]
  | cons y t ih =>
    obtain ⟨i, z⟩ := y
    simp only [List.map_cons, List.nodup_cons] at h
    simp only [assign]
    split
    · rename_i hi
      subst hi
      simpa using h
    · rename_i hi
      simp only [List.map_cons, List.nodup_cons]
      refine ⟨?_, ih h.2⟩
      intro hm
      obtain ⟨x, hx, hx1⟩ := List.mem_map.1 hm
      rcases mem_assign hx with rfl | hx
      · exact hi hx1.symm
      · exact h.1 (List.mem_map.2 ⟨x, hx, hx1⟩)

/-- invariant of one entry after the events `past` -/
structure EInv (c : Config) (past : List Ev) (e : Key × List (Nat × Bytes)) : Prop where
  nodup : (e.2.map (·.1)).Nodup
  key : ∃ r, .reply r ∈ past ∧ valid c r = true ∧ keyOf c r = e.1
  mem : ∀ x ∈ e.2, ∃ r, .reply r ∈ past ∧ valid c r = true ∧ r.sender = x.1 ∧ r.rsi = x.2 ∧
    (keyOf c r).primary = e.1.primary ∧ (ResultsAgree c past → keyOf c r = e.1)

theorem EInv.mono {c : Config} {past past' : List Ev} {e : Key × List (Nat × Bytes)} (h : EInv c past e)
    (hs : ∀ x ∈ past, x ∈ past') : EInv c past' e := by
  refine ⟨h.nodup, ?_, ?_⟩
  · obtain ⟨r, a, b⟩ := h.key
    exact ⟨r, hs _ a, b⟩
  · intro x hx
    obtain ⟨r, a, b, d, e1, f, g⟩ := h.mem x hx
    refine ⟨r, hs _ a, b, d, e1, f, fun ha => g ?_⟩
    intro r1 r2 h1 h2
    exact ha r1 r2 (hs _ h1) (hs _ h2)

theorem upd_inv {c : Config} {past : List Ev} {r : Reply} (hr : .reply r ∈ past) (hv : valid c r = true) {m : Entries}
    (h : ∀ e ∈ m, EInv c past e) : ∀ e ∈ upd (keyOf c r) r.sender r.rsi m, EInv c past e := by
  have new : EInv c past (keyOf c r, [(r.sender, r.rsi)]) := by
    refine ⟨by simp, ⟨r, hr, hv, rfl⟩, ?_⟩
    intro x hx
    simp at hx; subst hx
    exact ⟨r, hr, hv, rfl, rfl, rfl, fun _ => rfl⟩
  induction m with
  | nil => intro e he; simp [upd] at he; subst he; exact new
  | cons y t ih =>
    obtain ⟨k', v⟩ := y
    intro e he
    have hy := h (k', v) (by simp)
    simp only [upd] at he
    split at he
    · rcases List.mem_cons.1 he with rfl | he
      · exact hy
      · exact ih (fun x hx => h x (by simp [hx])) e he
    · rename_i g1
      split at he
      · rcases List.mem_cons.1 he with rfl | he
        · exact new
        · exact h e he
      · rename_i g2
        rcases List.mem_cons.1 he with rfl | he
        · have g1' : k'.lt (keyOf c r) = false := by simpa using g1
          have g2' : (keyOf c r).lt k' = false := by simpa using g2
          refine ⟨assign_keys hy.nodup, hy.key, ?_⟩
          intro x hx
          rcases mem_assign hx with rfl | hx
          · refine ⟨r, hr, hv, rfl, rfl, (equiv_primary_seq g2' g1').1, fun ha => ?_⟩
            obtain ⟨r', a, b, d⟩ := hy.key
            simp only at d
            have hp : (keyOf c r).primary = (keyOf c r').primary := by rw [d]; exact (equiv_primary_seq g2' g1').1
            have hres := ha r r' hr a hv b hp
            refine equiv_eq g2' g1' ?_
            rw [← d]; exact hres
          · exact hy.mem x hx
        · exact h e (by simp [he])

/-- what a match tells, whatever the replies -/
structure MInv (c : Config) (past : List Ev) (x : Match) : Prop where
  nodup : (x.rsi.map (·.1)).Nodup
  count : x.rsi.length = c.quorum.waitFor
  key : ∃ r, .reply r ∈ past ∧ valid c r = true ∧ keyOf c r = ⟨x.primary, c.seq, x.result, x.data⟩
  mem : ∀ p ∈ x.rsi, ∃ r, .reply r ∈ past ∧ valid c r = true ∧ r.sender = p.1 ∧ r.rsi = p.2 ∧
    (keyOf c r).primary = x.primary ∧ (ResultsAgree c past → keyOf c r = ⟨x.primary, c.seq, x.result, x.data⟩)

theorem keyOf_seq {c : Config} {r : Reply} (h : valid c r = true) : (keyOf c r).seq = c.seq := by
  simp only [valid, Bool.and_eq_true, beq_iff_eq] at h
  simp [keyOf, h.1]

theorem findMatch_inv {c : Config} {past : List Ev} {m : Entries} (h : ∀ e ∈ m, EInv c past e) {x : Match}
    (hx : findMatch c m = some x) : MInv c past x := by
  unfold findMatch at hx
  cases hf : m.find? (fun e => e.2.length == c.quorum.waitFor) with
  | none => rw [hf] at hx; simp at hx
  | some e =>
    rw [hf] at hx
    simp only [Option.map_some, Option.some.injEq] at hx
    have hm := List.mem_of_find?_eq_some hf
    have hl := List.find?_some hf
    simp only [beq_iff_eq] at hl
    have he := h e hm
    obtain ⟨r, a, b, d⟩ := he.key
    have hk : e.1 = ⟨x.primary, c.seq, x.result, x.data⟩ := by
      have := keyOf_seq b
      rw [d] at this
      subst hx
      obtain ⟨⟨p, s, rr, dd⟩, v⟩ := e
      simp_all
    have hr : x.rsi = e.2 := by subst hx; rfl
    refine ⟨by rw [hr]; exact he.nodup, by rw [hr]; exact hl, ⟨r, a, b, by rw [d, hk]⟩, ?_⟩
    intro p hp
    rw [hr] at hp
    obtain ⟨r, q1, q2, q3, q4, q5, q6⟩ := he.mem p hp
    refine ⟨r, q1, q2, q3, q4, ?_, fun ha => by rw [q6 ha, hk]⟩
    rw [q5, hk]

theorem run_inv (c : Config) (hpo : c.primaryOnly = false) (evs : List Ev) :
    ∀ (past : List Ev) (m : Entries), (∀ e ∈ m, EInv c past e) → ∀ x, run c m evs = some x →
      ∃ seen, (∀ e ∈ seen, e ∈ past ∨ e ∈ evs) ∧ MInv c seen x := by
  induction evs with
  | nil => intro past m _ x hx; simp [run] at hx
  | cons ev t ih =>
    intro past m hm x hx
    cases ev with
    | clear =>
      simp only [run] at hx
      obtain ⟨seen, h1, h2⟩ := ih past [] (by simp) x hx
      exact ⟨seen, fun e he => (h1 e he).imp id (fun h => List.mem_cons_of_mem _ h), h2⟩
    | reply r =>
      simp only [run] at hx
      have hm' : ∀ e ∈ m, EInv c (.reply r :: past) e := fun e he => (hm e he).mono (fun y hy => List.mem_cons_of_mem _ hy)
      have lift : (∃ seen, (∀ e ∈ seen, e ∈ .reply r :: past ∨ e ∈ t) ∧ MInv c seen x) →
          ∃ seen, (∀ e ∈ seen, e ∈ past ∨ e ∈ .reply r :: t) ∧ MInv c seen x := by
        rintro ⟨seen, h1, h2⟩
        refine ⟨seen, fun e he => ?_, h2⟩
        rcases h1 e he with h | h
        · rcases List.mem_cons.1 h with h | h
          · exact Or.inr (by simp [h])
          · exact Or.inl h
        · exact Or.inr (List.mem_cons_of_mem _ h)
      split at hx
      · exact lift (ih _ m hm' x hx)
      · rw [hpo] at hx
        simp only [Bool.false_eq_true, if_false] at hx
        unfold onReply at hx
        by_cases hv : valid c r = true
        · rw [if_pos hv] at hx
          have hu := upd_inv (r := r) (past := .reply r :: past) (by simp) hv hm'
          simp only at hx
          cases hf : findMatch c (upd (keyOf c r) r.sender r.rsi m) with
          | none =>
            rw [hf] at hx
            exact lift (ih _ _ hu x hx)
          | some y =>
            rw [hf] at hx
            simp only [Option.some.injEq] at hx
            subst hx
            exact lift ⟨.reply r :: past, fun e he => Or.inl he, findMatch_inv hu hf⟩
        · rw [if_neg hv] at hx
          exact lift (ih _ m hm' x hx)

theorem valid_dest {c : Config} {r : Reply} (h : valid c r = true) : r.sender ∈ c.quorum.dests := by
  simp only [valid, Bool.and_eq_true, List.contains_iff_mem] at h
  exact h.2

/-- **C16 (partial).** If result codes of replies under one primary never differ, whatever the client returns for a request
was said by `waitFor` distinct destinations, for every arrival order, duplicates and clearing of replies.
Missing from the full property: it fails without the hypothesis, see `one_faulty_reply_decides`. -/
theorem quorum_partial (c : Config) (hpo : c.primaryOnly = false) (evs : List Ev) (x : Match)
    (hagree : ResultsAgree c evs) (h : run c [] evs = some x) :
    QuorumSays c evs x.result x.data x.primary (x.rsi.map (·.1)) := by
  obtain ⟨seen, h1, h2⟩ := run_inv c hpo evs [] [] (by simp) x h
  have hsub : ∀ e ∈ seen, e ∈ evs := fun e he => (h1 e he).resolve_left (by simp)
  refine ⟨h2.nodup, by simpa using h2.count, ?_⟩
  intro i hi
  obtain ⟨p, hp, rfl⟩ := List.mem_map.1 hi
  obtain ⟨r, q1, q2, q3, q4, q5, q6⟩ := h2.mem p hp
  have hk := q6 (fun r1 r2 a b => hagree r1 r2 (hsub _ a) (hsub _ b))
  refine ⟨q3 ▸ valid_dest q2, r, hsub _ q1, q3, ?_⟩
  simp only [keyOf, Key.mk.injEq] at hk
  exact ⟨hk.2.1, hk.2.2.1, hk.2.2.2, hk.1⟩

/-- **C16 (partial), honest result.** If fewer destinations are faulty than the quorum size and result codes agree, the
returned result and data were sent by an honest replica. -/
theorem honest_result_partial (c : Config) (hpo : c.primaryOnly = false) (evs : List Ev) (x : Match)
    (hagree : ResultsAgree c evs) (h : run c [] evs = some x) (faulty : List Nat) (hf : faulty.length < c.quorum.waitFor) :
    ∃ r, .reply r ∈ evs ∧ r.sender ∉ faulty ∧ r.sender ∈ c.quorum.dests ∧ Says c x.result x.data x.primary r := by
  obtain ⟨h1, h2, h3⟩ := quorum_partial c hpo evs x hagree h
  have : ∃ i ∈ x.rsi.map (·.1), i ∉ faulty := ListU.exists_not_mem h1 (by omega)
  obtain ⟨i, hi, hn⟩ := this
  obtain ⟨hd, r, a, b, d⟩ := h3 i hi
  exact ⟨r, a, b ▸ hn, b ▸ hd, d⟩

/-- What holds without any hypothesis on the replies: the returned result and data were sent by *one* destination, and
`waitFor` distinct destinations sent *some* reply to this request under the same primary. -/
theorem sent_unconditional (c : Config) (hpo : c.primaryOnly = false) (evs : List Ev) (x : Match)
    (h : run c [] evs = some x) :
    (∃ r, .reply r ∈ evs ∧ r.sender ∈ c.quorum.dests ∧ Says c x.result x.data x.primary r) ∧
    (x.rsi.map (·.1)).Nodup ∧ x.rsi.length = c.quorum.waitFor ∧
    ∀ p ∈ x.rsi, p.1 ∈ c.quorum.dests ∧ ∃ r, .reply r ∈ evs ∧ r.sender = p.1 ∧ r.rsi = p.2 ∧ r.seq = c.seq := by
  obtain ⟨seen, h1, h2⟩ := run_inv c hpo evs [] [] (by simp) x h
  have hsub : ∀ e ∈ seen, e ∈ evs := fun e he => (h1 e he).resolve_left (by simp)
  refine ⟨?_, h2.nodup, h2.count, ?_⟩
  · obtain ⟨r, a, b, d⟩ := h2.key
    simp only [keyOf, Key.mk.injEq] at d
    exact ⟨r, hsub _ a, valid_dest b, d.2.1, d.2.2.1, d.2.2.2, d.1⟩
  · intro p hp
    obtain ⟨r, q1, q2, q3, q4, q5, q6⟩ := h2.mem p hp
    refine ⟨q3 ▸ valid_dest q2, r, hsub _ q1, q3, q4, ?_⟩
    have := keyOf_seq q2
    simpa [keyOf] using this

/-! ## Counterexample -/

/-- honest replies of replicas `ids`, all with the same contents -/
def honestReplies (p : Option Nat) (seq result : Nat) (data : Bytes) (ids : List Nat) : List Ev :=
  ids.map fun i => .reply ⟨p, seq, result, data, i, []⟩

theorem assign_new {id : Nat} {d : Bytes} {v : List (Nat × Bytes)} (h : id ∉ v.map (·.1)) : assign id d v = v ++ [(id, d)] := by
  induction v with
  | nil => rfl
  | cons y t ih =>
    obtain ⟨i, z⟩ := y
    simp only [List.map_cons, List.mem_cons, not_or] at h
    simp only [assign, if_neg (Ne.symm h.1), ih h.2, List.cons_append]

theorem attack_run (c : Config) (hpo : c.primaryOnly = false) (p : Option Nat) (res bad : Nat) (data evil : Bytes)
    (hne : bad ≠ res) :
    ∀ (ids : List Nat) (v : List (Nat × Bytes)), ids ≠ [] → (∀ i ∈ ids, i ∈ c.quorum.dests) → ids.Nodup →
      (∀ i ∈ ids, i ∉ v.map (·.1)) → v.length + ids.length = c.quorum.waitFor →
      ∃ rsi, run c [(⟨if c.includePrimary then p else none, c.seq, bad, evil⟩, v)] (honestReplies p c.seq res data ids) =
        some ⟨bad, evil, rsi, if c.includePrimary then p else none⟩ := by
  intro ids
  induction ids with
  | nil => intro v h; exact absurd rfl h
  | cons i ids ih =>
    intro v _ hd hn hv hc
    obtain ⟨n1, n2⟩ := List.nodup_cons.1 hn
    have hval : valid c ⟨p, c.seq, res, data, i, []⟩ = true := by
      simp [valid, hd i (by simp)]
    have hk1 : Key.lt ⟨if c.includePrimary then p else none, c.seq, bad, evil⟩ (keyOf c ⟨p, c.seq, res, data, i, []⟩) = false := by
      simp only [Key.lt, metaLt, metaEq, keyOf]
      have : optLt (if c.includePrimary then p else none) (if c.includePrimary then p else none) = false := by
        cases (if c.includePrimary then p else none) <;> simp [optLt]
      simp [this, hne]
    have hk2 : Key.lt (keyOf c ⟨p, c.seq, res, data, i, []⟩) ⟨if c.includePrimary then p else none, c.seq, bad, evil⟩ = false := by
      simp only [Key.lt, metaLt, metaEq, keyOf]
      have : optLt (if c.includePrimary then p else none) (if c.includePrimary then p else none) = false := by
        cases (if c.includePrimary then p else none) <;> simp [optLt]
      simp [this, Ne.symm hne]
    have hstep : onReply c [(⟨if c.includePrimary then p else none, c.seq, bad, evil⟩, v)] ⟨p, c.seq, res, data, i, []⟩ =
        ([(⟨if c.includePrimary then p else none, c.seq, bad, evil⟩, v ++ [(i, [])])],
          findMatch c [(⟨if c.includePrimary then p else none, c.seq, bad, evil⟩, v ++ [(i, [])])]) := by
      unfold onReply
      rw [if_pos hval]
      simp only [upd, hk1, hk2, Bool.false_eq_true, if_false, assign_new (hv i (by simp))]
    simp only [honestReplies, List.map_cons, run, ne_eq, not_true_eq_false, if_false, hpo, Bool.false_eq_true, hstep]
    by_cases hids : ids = []
    · subst hids
      simp at hc
      refine ⟨v ++ [(i, [])], ?_⟩
      simp [findMatch, hc]
    · have hlen : ids.length > 0 := List.length_pos_iff.2 hids
      have hnm : findMatch c [(⟨if c.includePrimary then p else none, c.seq, bad, evil⟩, v ++ [(i, [])])] = none := by
        simp only [findMatch, List.find?_cons, List.length_append, List.length_singleton]
        have : (v.length + 1 == c.quorum.waitFor) = false := by simp at hc ⊢; omega
        simp [this]
      rw [hnm]
      refine ih (v ++ [(i, [])]) hids (fun j hj => hd j (by simp [hj])) n2 ?_ (by simp at hc ⊢; omega)
      intro j hj
      simp only [List.map_append, List.map_cons, List.map_nil, List.mem_append, List.mem_singleton, not_or]
      refine ⟨hv j (by simp [hj]), ?_⟩
      rintro rfl
      exact n1 hj

/-- **BUG18: the property C16 is false.**  For every quorum size of at least 2: if one (faulty) destination `b` is the first to
reply, with any data `evil` and a result code different from the honest one, and then `waitFor - 1` honest replicas reply with
`data`, the client returns `evil` with the faulty result code as the outcome of a full quorum. -/
theorem one_faulty_reply_decides (c : Config) (hpo : c.primaryOnly = false) (p : Option Nat) (b : Nat) (ids : List Nat)
    (res bad : Nat) (data evil : Bytes) (hne : bad ≠ res) (hb : b ∈ c.quorum.dests) (hd : ∀ i ∈ ids, i ∈ c.quorum.dests)
    (hn : (b :: ids).Nodup) (hq : (b :: ids).length = c.quorum.waitFor) (h2 : ids ≠ []) :
    ∃ rsi, run c [] (.reply ⟨p, c.seq, bad, evil, b, []⟩ :: honestReplies p c.seq res data ids) =
      some ⟨bad, evil, rsi, if c.includePrimary then p else none⟩ := by
  have hval : valid c ⟨p, c.seq, bad, evil, b, []⟩ = true := by simp [valid, hb]
  have hlen : ids.length > 0 := List.length_pos_iff.2 h2
  obtain ⟨n1, n2⟩ := List.nodup_cons.1 hn
  have hstep : onReply c [] ⟨p, c.seq, bad, evil, b, []⟩ =
      ([(⟨if c.includePrimary then p else none, c.seq, bad, evil⟩, [(b, [])])], none) := by
    unfold onReply
    rw [if_pos hval]
    simp only [upd, findMatch, keyOf, List.find?_cons, List.length_singleton]
    have : (1 == c.quorum.waitFor) = false := by simp at hq ⊢; omega
    simp [this]
  simp only [run, ne_eq, not_true_eq_false, if_false, hpo, Bool.false_eq_true, hstep]
  refine attack_run c hpo p res bad data evil hne ids [(b, [])] h2 hd n2 ?_ (by simp at hq ⊢; omega)
  intro j hj
  simp only [List.map_cons, List.map_nil, List.mem_singleton]
  rintro rfl
  exact n1 hj

/-- n = 4, f = 1, linearizable quorum of 3: replica 3 is faulty -/
example : ∃ rsi, run ⟨⟨3, [0, 1, 2, 3]⟩, 7, true, false⟩ []
    (.reply ⟨some 0, 7, 1, [66], 3, []⟩ :: honestReplies (some 0) 7 0 [1, 2] [0, 1]) = some ⟨1, [66], rsi, some 0⟩ :=
  one_faulty_reply_decides _ rfl _ 3 [0, 1] 0 1 [1, 2] [66] (by decide) (by decide) (by decide) (by decide) (by decide) (by decide)

/-- non-vacuity of `quorum_partial`: three honest replies and a faulty one with the same result code -/
example : run ⟨⟨3, [0, 1, 2, 3]⟩, 7, true, false⟩ []
    (.reply ⟨some 0, 7, 0, [66], 3, []⟩ :: honestReplies (some 0) 7 0 [1, 2] [0, 0, 1, 2]) =
      some ⟨0, [1, 2], [(0, []), (1, []), (2, [])], some 0⟩ := by decide

/-- A primary-only request is answered by any one replica that names itself primary, whether or not it is a destination. -/
theorem primary_only_trusts_one (c : Config) (hpo : c.primaryOnly = true) (i res : Nat) (data rsi : Bytes) (evs : List Ev) :
    run c [] (.reply ⟨some i, c.seq, res, data, i, rsi⟩ :: evs) = some ⟨res, data, [(i, rsi)], some i⟩ := by
  simp [run, hpo]

/-! ## Quorum configuration -/

/-- Every accepted quorum configuration waits for no more replies than there are destinations, which all are replicas of the
cluster (read-only ones included); a linearizable quorum waits for 2f+c+1, a byzantine-safe one for f+1. -/
theorem toMofN_sound (k : Cluster) (q : Quorum) (m : MofN) (h : toMofN k q = some m) (hall : 2 * k.f + k.c + 1 ≤ k.all.length) :
    m.waitFor ≤ m.dests.length ∧ (∀ r ∈ m.dests, r ∈ k.all ∨ r ∈ k.ro) ∧
    (match q with
     | .linearizable d => m.waitFor = 2 * k.f + k.c + 1 ∧ m.dests = (if d = [] then k.all else d)
     | .byzantineSafe d => m.waitFor = k.f + 1 ∧ m.dests = (if d = [] then k.all else d)
     | .all d => m.waitFor = m.dests.length ∧ m.dests = (if d = [] then k.all else d)
     | .mofn m' => m = m') := by
  have hvd : ∀ d, validDests k d = true → ∀ r ∈ d, r ∈ k.all ∨ r ∈ k.ro := by
    intro d hd r hr
    simp only [validDests, Bool.and_eq_true, List.all_eq_true, Bool.or_eq_true, List.contains_iff_mem] at hd
    exact hd.2 r hr
  cases q with
  | linearizable d =>
    simp only [toMofN] at h
    split at h
    · rename_i hd; simp only [List.isEmpty_iff] at hd
      simp only [Option.some.injEq] at h; subst h
      exact ⟨hall, fun r hr => Or.inl hr, rfl, by simp [hd]⟩
    · rename_i hd; simp only [List.isEmpty_iff] at hd
      split at h
      · simp at h
      · split at h
        · rename_i hv
          simp only [Option.some.injEq] at h; subst h
          exact ⟨by simp only; omega, hvd d hv, rfl, by simp [hd]⟩
        · simp at h
  | byzantineSafe d =>
    simp only [toMofN] at h
    split at h
    · rename_i hd; simp only [List.isEmpty_iff] at hd
      simp only [Option.some.injEq] at h; subst h
      exact ⟨by simp only; omega, fun r hr => Or.inl hr, rfl, by simp [hd]⟩
    · rename_i hd; simp only [List.isEmpty_iff] at hd
      split at h
      · simp at h
      · split at h
        · rename_i hv
          simp only [Option.some.injEq] at h; subst h
          exact ⟨by simp only; omega, hvd d hv, rfl, by simp [hd]⟩
        · simp at h
  | all d =>
    simp only [toMofN] at h
    split at h
    · rename_i hd; simp only [List.isEmpty_iff] at hd
      simp only [Option.some.injEq] at h; subst h
      exact ⟨Nat.le_refl _, fun r hr => Or.inl hr, rfl, by simp [hd]⟩
    · rename_i hd; simp only [List.isEmpty_iff] at hd
      split at h
      · rename_i hv
        simp only [Option.some.injEq] at h; subst h
        exact ⟨Nat.le_refl _, hvd d hv, rfl, by simp [hd]⟩
      · simp at h
  | mofn m' =>
    simp only [toMofN] at h
    split at h
    · simp at h
    · split at h
      · rename_i hv
        simp only [Option.some.injEq] at h; subst h
        exact ⟨by omega, hvd _ hv, rfl⟩
      · simp at h

/-- The client's choice of quorum protects it: for linearizable and byzantine-safe requests with at most `f` faulty replicas
and agreeing result codes, the returned result was sent by an honest destination. -/
theorem honest_result_for_safe_quorums_partial (k : Cluster) (q : Quorum) (m : MofN) (hq : toMofN k q = some m)
    (hall : 2 * k.f + k.c + 1 ≤ k.all.length) (hkind : (∃ d, q = .linearizable d) ∨ ∃ d, q = .byzantineSafe d)
    (c : Config) (hc : c.quorum = m) (hpo : c.primaryOnly = false) (evs : List Ev) (x : Match) (hagree : ResultsAgree c evs)
    (h : run c [] evs = some x) (faulty : List Nat) (hf : faulty.length ≤ k.f) :
    ∃ r, .reply r ∈ evs ∧ r.sender ∉ faulty ∧ Says c x.result x.data x.primary r := by
  have hw : faulty.length < c.quorum.waitFor := by
    have := (toMofN_sound k q m hq hall).2.2
    rw [hc]
    rcases hkind with ⟨d, rfl⟩ | ⟨d, rfl⟩ <;> simp only at this <;> omega
  obtain ⟨r, a, b, _, d⟩ := honest_result_partial c hpo evs x hagree h faulty hw
  exact ⟨r, a, b, d⟩

/-- BUG19: the length fields of a reply are not checked against the message (msg_receiver.cpp:72-82): a reply whose
replica-specific length exceeds its reply length makes the client copy bytes outside the message. -/
theorem reply_lengths_oob (msg : Bytes) (span dataLen rsiLen : Nat) (h1 : dataLen < rsiLen) (h2 : rsiLen < 2 ^ 32)
    (h3 : msg.length < 2 ^ 32 - rsiLen) : splitReply msg span dataLen rsiLen = none := by
  unfold splitReply
  have : (dataLen + (2 ^ 32 - rsiLen)) % 2 ^ 32 = dataLen + (2 ^ 32 - rsiLen) := Nat.mod_eq_of_lt (by omega)
  simp only [this]
  have hs : slice msg (replyHdr + span) (dataLen + (2 ^ 32 - rsiLen)) = none := by
    unfold slice; rw [if_neg (by omega)]
  rw [hs]

/-- With consistent lengths, body and replica-specific part are the bytes the replica put there. -/
theorem reply_lengths_ok (hdr span body rsi : Bytes) (hh : hdr.length = replyHdr)
    (hlen : (body ++ rsi).length < 2 ^ 32) :
    splitReply (hdr ++ span ++ body ++ rsi) span.length (body ++ rsi).length rsi.length = some (body, rsi) := by
  unfold splitReply
  have : ((body ++ rsi).length + (2 ^ 32 - rsi.length)) % 2 ^ 32 = body.length := by
    simp at hlen ⊢; omega
  simp only [this]
  rw [slice_mid (a := hdr ++ span) (b := body) (c := rsi) rfl (by simp [hh]) rfl]
  rw [slice_mid (a := hdr ++ span ++ body) (b := rsi) (c := []) (by simp) (by simp [hh]; omega) rfl]

end Verif.Client
