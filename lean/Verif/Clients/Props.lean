import Verif.Clients.Proofs2
/-! # C14: clients manager bookkeeping -/
set_option linter.unusedSimpArgs false
set_option linter.unusedVariables false
namespace Verif.Clients
open Verif.Bytes

/-! ## bounds, for every sequence of calls (no assumption on the calls) -/

/-- after any sequence of calls, at most `maxReqs` request numbers of one client are in process -/
theorem pending_bounded {c : Cfg} (hn : c.ids.Nodup) {os : List Op} {s : St} (h : run c init os = some s) (id : Nat)
    {L : List Nat} (hL : L.Nodup) (hin : ∀ q ∈ L, inProcess c s id q = true) : L.length ≤ c.maxReqs := by
  have hs := run_shaped hn h id
  have : ∀ q ∈ L, q ∈ (s.info id).reqs.map (·.1) := by
    intro q hq
    have := hin q hq
    unfold inProcess at this
    simp only [Bool.and_eq_true] at this
    exact hasReq_iff.1 this.2
  have h1 := Verif.ListU.nodup_subset_length hL this
  rw [List.length_map] at h1
  exact Nat.le_trans h1 hs.reqLen

/-- after any sequence of calls, replies to at most `maxReqs` request numbers of one client are retained -/
theorem replies_bounded {c : Cfg} (hn : c.ids.Nodup) {os : List Op} {s : St} (h : run c init os = some s) (id : Nat)
    {L : List Nat} (hL : L.Nodup) (hin : ∀ q ∈ L, hasReply c s id q = true) : L.length ≤ c.maxReqs := by
  have hs := run_shaped hn h id
  have : ∀ q ∈ L, q ∈ (s.info id).reps.map (·.1) := by
    intro q hq
    have := hin q hq
    unfold hasReply at this
    simp only [Bool.and_eq_true] at this
    exact hasRep_iff.1 this.2
  have h1 := Verif.ListU.nodup_subset_length hL this
  have h2 : ((s.info id).reps.map (·.2)).length ≤ (List.range c.maxReqs).length :=
    Verif.ListU.nodup_subset_length hs.repIdx (by
      intro x hx
      obtain ⟨p, hp, rfl⟩ := List.mem_map.1 hx
      exact List.mem_range.2 (hs.repLt p hp))
  rw [List.length_map] at h1 h2
  rw [List.length_range] at h2
  omega

/-- a request is admitted exactly when the client is known, fewer than `maxReqs` of its requests are in process, and
the request is neither in process nor answered -/
theorem admitted_iff {c : Cfg} (hn : c.ids.Nodup) {os : List Op} {s : St} (h : run c init os = some s) (id seq : Nat) :
    canBecomePending c s id seq = true ↔
      id ∈ c.ids ∧ inProcess c s id seq = false ∧ hasReply c s id seq = false ∧
      ∃ L : List Nat, L.Nodup ∧ (∀ q, q ∈ L ↔ inProcess c s id q = true) ∧ L.length < c.maxReqs := by
  have hs := run_shaped hn h id
  unfold canBecomePending inProcess hasReply
  by_cases hid : id ∈ c.ids
  · simp only [hid, not_true_eq_false, if_false, decide_true, Bool.true_and, true_and]
    constructor
    · intro hc
      split at hc; · cases hc
      split at hc; · cases hc
      split at hc; · cases hc
      rename_i h1 h2 h3
      refine ⟨by simpa using h2, by simpa using h3, (s.info id).reqs.map (·.1), hs.reqKeys, ?_, ?_⟩
      · intro q; exact hasReq_iff.symm
      · have := hs.reqLen; rw [List.length_map]; omega
    · rintro ⟨h1, h2, L, l1, l2, l3⟩
      have hle : ((s.info id).reqs.map (·.1)).length ≤ L.length :=
        Verif.ListU.nodup_subset_length hs.reqKeys (fun q hq => (l2 q).2 (hasReq_iff.2 hq))
      rw [List.length_map] at hle
      rw [if_neg (by omega), if_neg (by simp [h1]), if_neg (by simp [h2])]
  · simp [hid]

/-- adding a request puts exactly that request in process, and only if it was admitted; other clients see no change -/
theorem add_effect {c : Cfg} (s : St) (id seq time : Nat) (cid : Bytes) (id' q : Nat) :
    inProcess c (addGuarded c s id seq time cid) id' q = true ↔
      inProcess c s id' q = true ∨ (id' = id ∧ q = seq ∧ canBecomePending c s id seq = true) := by
  unfold addGuarded
  by_cases hc : canBecomePending c s id seq = true
  · rw [if_pos hc]
    have hid : id ∈ c.ids := by
      unfold canBecomePending at hc; split at hc
      · cases hc
      · rename_i h; simpa using h
    have hnr : (s.info id).hasReq seq = false := by
      unfold canBecomePending at hc
      split at hc; · cases hc
      split at hc; · cases hc
      split at hc; · cases hc
      rename_i h; simpa using h
    by_cases he : id' = id
    · subst he
      unfold inProcess
      simp only [St.setInfo, if_true, Info.emplace, hnr]
      simp only [Bool.false_eq_true, if_false, Info.hasReq, List.any_cons, Bool.and_eq_true, decide_eq_true_eq, Bool.or_eq_true, beq_iff_eq, hid, true_and]
      constructor
      · rintro (h | h)
        · exact Or.inr ⟨h.symm, hc⟩
        · exact Or.inl h
      · rintro (h | h)
        · exact Or.inr h
        · exact Or.inl h.1.symm
    · unfold inProcess
      simp only [St.setInfo, he, if_false, false_and, or_false]
  · rw [if_neg hc]; simp [hc]

/-- a request with a retained reply is never admitted: after trying to add it, it is in process only if it already was -/
theorem answered_not_admitted {c : Cfg} (s : St) (id seq time : Nat) (cid : Bytes) (h : hasReply c s id seq = true) :
    canBecomePending c s id seq = false ∧
    (inProcess c (addGuarded c s id seq time cid) id seq = true ↔ inProcess c s id seq = true) := by
  have hc : canBecomePending c s id seq = false := by
    unfold canBecomePending
    unfold hasReply at h
    simp only [Bool.and_eq_true, decide_eq_true_eq] at h
    rw [if_neg (by simpa using h.1)]
    split; · rfl
    split; · rfl
    rw [if_pos h.2]
  exact ⟨hc, by rw [add_effect]; simp [hc]⟩

/-! ## clients do not affect each other -/

/-- the client a call is about -/
def Op.client : Op → Option Nat
  | .add id .. => some id
  | .mark id _ => some id
  | .outOfBounds id _ => some id
  | .remove id _ => some id
  | .clear => none
  | .deleteReply id _ => some id
  | .reply id .. => some id
  | .setKey id _ => some id
  | .load _ => none

theorem loadPages_congr {c : Cfg} {first len : Nat} {pg pg' : Nat → Option Bytes} : ∀ k i,
    (∀ j, j < k → pg (first + (i + j)) = pg' (first + (i + j))) → loadPages c first len pg i k = loadPages c first len pg' i k := by
  intro k
  induction k with
  | zero => intro i _; rfl
  | succ k ih =>
    intro i h
    have h0 := h 0 (by omega)
    simp only [Nat.add_zero] at h0
    have h1 := ih (i + 1) (fun j hj => by have := h (j + 1) (by omega); rw [show i + 1 + j = i + (j + 1) by omega]; exact this)
    simp only [loadPages, h0, h1]

/-- `savedReply` looks only at the client's own table and reply pages -/
theorem savedReply_congr {c : Cfg} (hc : CfgOk c) {s s' : St} {id : Nat} (hm : 0 < c.maxReqs) (hsh : Shape c.maxReqs (s.info id))
    (hi : (s'.info id).reps = (s.info id).reps)
    (hp : ∀ idx j, idx < c.maxReqs → j < perReq c → s'.pages (slotPage c id idx + j) = s.pages (slotPage c id idx + j))
    (seq primary : Nat) : savedReply c s' id seq primary = savedReply c s id seq primary := by
  have hlt : getIndex seq (s.info id).reps < c.maxReqs := by
    unfold getIndex
    split
    · rename_i p h; exact hsh.repLt p (List.mem_of_find?_eq_some h)
    · exact hm
  have hpr : 0 < perReq c := perReq_pos (data := []) hc (by simpa using hc.room)
  unfold savedReply
  by_cases hid : id ∈ c.ids
  · simp only [hid, not_true_eq_false, if_false]
    simp only [hi, reqOffset_eq hc hlt hpr]
    have h0 := hp (getIndex seq (s.info id).reps) 0 hlt hpr
    rw [Nat.add_zero] at h0
    rw [show replyPage c id + getIndex seq (s.info id).reps * perReq c = slotPage c id (getIndex seq (s.info id).reps) from rfl, h0]
    cases hh : s.pages (slotPage c id (getIndex seq (s.info id).reps)) with
    | none => rfl
    | some h =>
      simp only
      by_cases hmax : replyLenOf h + hdrLen > c.maxReply
      · simp only [hmax, if_true]
      · have hle := numPages_le_perReq hc.pos (show hdrLen + replyLenOf h ≤ c.maxReply by omega)
        rw [loadPages_congr (pg := s'.pages) (pg' := s.pages) _ 0 (fun j hj => by
          have := hp (getIndex seq (s.info id).reps) j hlt (by omega)
          rw [Nat.zero_add]; exact this)]
  · simp only [hid, not_false_eq_true, if_true]

theorem setInfo_other (s : St) {id id' : Nat} (i : Info) (h : id' ≠ id) : (s.setInfo id i).info id' = s.info id' := by
  simp [St.setInfo, h]

theorem step_other {c : Cfg} (hc : CfgOk c) {s s' : St} {o : Op} {id id' : Nat} (ho : OpOk c s o) (hcl : o.client = some id)
    (hne : id' ≠ id) (hid' : id' ∈ c.ids) (hs : step c s o = some s') :
    s'.info id' = s.info id' ∧
    ∀ idx j, idx < c.maxReqs → j < perReq c → s'.pages (slotPage c id' idx + j) = s.pages (slotPage c id' idx + j) := by
  cases o with
  | add a seq time cid =>
    simp only [Op.client, Option.some.injEq] at hcl; subst hcl
    simp only [step, Option.some.injEq] at hs; subst hs
    unfold addGuarded
    split
    · exact ⟨setInfo_other _ _ hne, fun _ _ _ _ => rfl⟩
    · exact ⟨rfl, fun _ _ _ _ => rfl⟩
  | mark a seq =>
    simp only [Op.client, Option.some.injEq] at hcl; subst hcl
    simp only [step] at hs
    split at hs <;> (injection hs with hs; subst hs)
    · exact ⟨setInfo_other _ _ hne, fun _ _ _ _ => rfl⟩
    · exact ⟨rfl, fun _ _ _ _ => rfl⟩
  | outOfBounds a seq =>
    simp only [Op.client, Option.some.injEq] at hcl; subst hcl
    simp only [step] at hs
    split at hs <;> (injection hs with hs; subst hs)
    · exact ⟨setInfo_other _ _ hne, fun _ _ _ _ => rfl⟩
    · exact ⟨rfl, fun _ _ _ _ => rfl⟩
  | remove a seq =>
    simp only [Op.client, Option.some.injEq] at hcl; subst hcl
    simp only [step] at hs
    split at hs <;> (injection hs with hs; subst hs)
    · exact ⟨setInfo_other _ _ hne, fun _ _ _ _ => rfl⟩
    · exact ⟨rfl, fun _ _ _ _ => rfl⟩
  | clear => cases hcl
  | deleteReply a idx =>
    simp only [Op.client, Option.some.injEq] at hcl; subst hcl
    simp only [step] at hs
    split at hs <;> (injection hs with hs; subst hs)
    · exact ⟨setInfo_other _ _ hne, fun _ _ _ _ => rfl⟩
    · exact ⟨rfl, fun _ _ _ _ => rfl⟩
  | reply a seq primary idx result data =>
    simp only [Op.client, Option.some.injEq] at hcl; subst hcl
    simp only [step, Option.map_eq_some_iff] at hs
    obtain ⟨r, hr, rfl⟩ := hs
    obtain ⟨hlt, h1 | ⟨hid, h1⟩⟩ := newReply_some hr
    · rw [h1.2]; exact ⟨rfl, fun _ _ _ _ => rfl⟩
    · obtain ⟨o1, o2, o3, o4, o5, o6⟩ := ho
      rw [h1]
      refine ⟨setInfo_other _ _ hne, fun x j hx hj => ?_⟩
      show savePages c (replyPage c a + reqOffset c idx) _ 0 _ s.pages _ = _
      rw [reqOffset_eq hc hlt (perReq_pos hc o6), show replyPage c a + idx * perReq c = slotPage c a idx from rfl,
        savePages_get, if_neg]
      rintro ⟨u, v⟩
      have hle := enc_pages_le (seq := seq) (result := result) hc o6
      have := slotPage_ne (id := id') (id' := a) (idx := x) (idx' := idx) (j := j)
        (j' := slotPage c id' x + j - slotPage c a idx) hid' hx hlt hj (by omega) (by omega)
      exact hne this.1
  | setKey a key =>
    simp only [Op.client, Option.some.injEq] at hcl; subst hcl
    simp only [step] at hs
    split at hs
    · split at hs
      · injection hs with hs; subst hs
        refine ⟨rfl, fun x j hx hj => ?_⟩
        show savePage c s.pages _ key _ = _
        unfold savePage
        rw [if_neg]
        unfold slotPage replyPage keyPage
        exact key_disjoint c hx hj
      · cases hs
    · injection hs with hs; subst hs; exact ⟨rfl, fun _ _ _ _ => rfl⟩
  | load pg => cases hcl

/-- a call about one client changes no answer about another client: not what is in process, pending, admitted or
answered, and not the retained replies themselves -/
theorem clients_isolated {c : Cfg} (hc : CfgOk c) (hm : 0 < c.maxReqs) {os : List Op} {s s' : St} (hr : run c init os = some s)
    {o : Op} {id id' : Nat} (ho : OpOk c s o) (hcl : o.client = some id) (hne : id' ≠ id) (hid' : id' ∈ c.ids)
    (hs : step c s o = some s') (seq primary : Nat) :
    hasReply c s' id' seq = hasReply c s id' seq ∧ inProcess c s' id' seq = inProcess c s id' seq ∧
    isPending c s' id' seq = isPending c s id' seq ∧ canBecomePending c s' id' seq = canBecomePending c s id' seq ∧
    savedReply c s' id' seq primary = savedReply c s id' seq primary := by
  obtain ⟨h1, h2⟩ := step_other hc ho hcl hne hid' hs
  refine ⟨?_, ?_, ?_, ?_, savedReply_congr hc hm (run_shaped hc.ids hr id') (by rw [h1]) h2 seq primary⟩
  · unfold hasReply; rw [h1]
  · unfold inProcess; rw [h1]
  · unfold isPending; rw [h1]
  · unfold canBecomePending; rw [h1]

/-! ## retained replies -/

theorem inv_init (c : Cfg) : Inv c init :=
  ⟨fun _ => shape_empty _, fun _ _ _ _ => Or.inl rfl, fun id q x hm => by simp [init] at hm⟩

theorem inv_runOk {c : Cfg} (hc : CfgOk c) : ∀ os s s', Inv c s → RunOk c s os s' → Inv c s' := by
  intro os
  induction os with
  | nil => intro s s' h hr; exact hr ▸ h
  | cons o os ih =>
    intro s s' h hr
    obtain ⟨ho, s1, hs, hr⟩ := hr
    exact ih s1 s' (inv_step hc h ho hs) hr

/-- a record that is kept: at its index, with its pages -/
def Kept (c : Cfg) (s : St) (id seq idx result : Nat) (data : Bytes) : Prop :=
  (seq, idx) ∈ (s.info id).reps ∧ Holds c s.pages id idx seq result data

/-- a call that may replace the reply in slot `idx` of client `id` -/
def Op.touches (id idx : Nat) : Op → Prop
  | .reply id' _ _ idx' _ _ => id' = id ∧ idx' = idx
  | .deleteReply id' idx' => id' = id ∧ idx' = idx
  | .load _ => True
  | _ => False

theorem kept_setInfo {c : Cfg} {s : St} {a id seq idx result : Nat} {data : Bytes} {i : Info}
    (h : Kept c s id seq idx result data) (hi : ∀ p ∈ (s.info a).reps, p.2 = idx → id = a → p ∈ i.reps) :
    Kept c (s.setInfo a i) id seq idx result data := by
  refine ⟨?_, h.2⟩
  simp only [St.setInfo]
  split
  · rename_i e; subst e; exact hi _ h.1 rfl rfl
  · exact h.1

theorem kept_step {c : Cfg} (hc : CfgOk c) {s s' : St} {o : Op} {id seq idx result : Nat} {data : Bytes} (hinv : Inv c s)
    (ho : OpOk c s o) (ht : ¬ o.touches id idx) (hs : step c s o = some s') (h : Kept c s id seq idx result data) :
    Kept c s' id seq idx result data := by
  have hid : id ∈ c.ids := (hinv.recs id seq idx h.1).1
  have hlt0 : idx < c.maxReqs := (hinv.shaped id).repLt _ h.1
  cases o with
  | add a seq' time cid =>
    simp only [step, Option.some.injEq] at hs; subst hs
    unfold addGuarded
    split
    · refine kept_setInfo h (fun p hp _ _ => ?_)
      unfold Info.emplace; split <;> exact hp
    · exact h
  | mark a seq' =>
    simp only [step] at hs
    split at hs <;> (injection hs with hs; subst hs)
    · exact kept_setInfo h (fun p hp _ _ => hp)
    · exact h
  | outOfBounds a seq' =>
    simp only [step] at hs
    split at hs <;> (injection hs with hs; subst hs)
    · refine kept_setInfo h (fun p hp _ _ => ?_)
      unfold Info.removeOutOfBounds
      split
      · exact hp
      · split <;> exact hp
    · exact h
  | remove a seq' =>
    simp only [step] at hs
    split at hs <;> (injection hs with hs; subst hs)
    · exact kept_setInfo h (fun p hp _ _ => hp)
    · exact h
  | clear =>
    simp only [step, Option.some.injEq] at hs; subst hs
    exact h
  | deleteReply a x =>
    simp only [step] at hs
    split at hs <;> (injection hs with hs; subst hs)
    · refine kept_setInfo h (fun p hp he hia => ?_)
      subst hia
      refine deleteRep_keep (hinv.shaped id).repSeq hp ?_
      intro e
      exact ht ⟨rfl, by omega⟩
    · exact h
  | reply a q primary x r d =>
    simp only [step, Option.map_eq_some_iff] at hs
    obtain ⟨w, hr, rfl⟩ := hs
    obtain ⟨hlt, h1 | ⟨haid, h1⟩⟩ := newReply_some hr
    · rw [h1.2]; exact h
    · obtain ⟨o1, o2, o3, o4, o5, o6⟩ := ho
      have hne : ¬ (id = a ∧ idx = x) := fun e => ht ⟨e.1.symm, e.2.symm⟩
      rw [h1, reqOffset_eq hc hlt (perReq_pos hc o6), show replyPage c a + x * perReq c = slotPage c a x from rfl]
      refine ⟨?_, h.2.of_write hc hid hlt0 hlt hne o6⟩
      show (seq, idx) ∈ ((s.setInfo a { s.info a with reps := insertRep q x (deleteRep x (s.info a).reps) }).info id).reps
      simp only [St.setInfo]
      split
      · rename_i e
        subst e
        refine insertRep_keep (deleteRep_keep (hinv.shaped id).repSeq h.1 ?_)
        intro e; exact hne ⟨rfl, e⟩
      · exact h.1
  | setKey a key =>
    simp only [step] at hs
    split at hs
    · split at hs
      · injection hs with hs; subst hs
        exact ⟨h.1, h.2.of_key hc hlt0⟩
      · cases hs
    · injection hs with hs; subst hs; exact h
  | load pg => exact absurd trivial ht

/-- calls that leave a slot alone -/
def RunKeep (c : Cfg) (id idx : Nat) (os : List Op) : Prop := ∀ o ∈ os, ¬ o.touches id idx

theorem kept_run {c : Cfg} (hc : CfgOk c) {id seq idx result : Nat} {data : Bytes} : ∀ os s s', Inv c s → RunOk c s os s' →
    RunKeep c id idx os → Kept c s id seq idx result data → Kept c s' id seq idx result data := by
  intro os
  induction os with
  | nil => intro s s' _ hr _ h; exact hr ▸ h
  | cons o os ih =>
    intro s s' hinv hr hk h
    obtain ⟨ho, s1, hs, hr⟩ := hr
    exact ih s1 s' (inv_step hc hinv ho hs) hr (fun x hx => hk x (List.mem_cons_of_mem _ hx))
      (kept_step hc hinv ho (hk o List.mem_cons_self) hs h)

/-- A reply given to a client for a request that had none is retained: whatever calls follow, by any client, as long as
no other reply is stored or deleted in the same slot of the same client (and the pages are not replaced), the request counts
as answered, is not admitted again, and asking for the reply gives exactly the stored result and data. -/
theorem reply_retained {c : Cfg} (hc : CfgOk c) {os0 os : List Op} {s0 s1 s2 : St} {id seq p0 idx result : Nat} {data : Bytes}
    {sent : Option Reply} (h0 : RunOk c init os0 s0) (hid : id ∈ c.ids) (hnew : hasReply c s0 id seq = false)
    (hok : ReplyOk c id seq result data) (hr : newReply c s0 id seq p0 idx result data = some (s1, sent))
    (h1 : RunOk c s1 os s2) (hk : RunKeep c id idx os) (primary : Nat) :
    sent = some ⟨p0, seq, result, data⟩ ∧ hasReply c s2 id seq = true ∧ canBecomePending c s2 id seq = false ∧
    savedReply c s2 id seq primary = some (some ⟨primary, seq, result, data⟩) := by
  have hinv0 := inv_runOk hc os0 init s0 (inv_init c) h0
  have hs1 : step c s0 (.reply id seq p0 idx result data) = some s1 := by simp [step, hr]
  have hinv1 := inv_step hc hinv0 (o := .reply id seq p0 idx result data) hok hs1
  have hinv2 := inv_runOk hc os s1 s2 hinv1 h1
  obtain ⟨hlt, h2 | ⟨_, h2⟩⟩ := newReply_some hr
  · exact absurd hid h2.1
  · have hkept : Kept c s1 id seq idx result data := by
      obtain ⟨o1, o2, o3, o4, o5, o6⟩ := hok
      have e1 : s1 = _ := congrArg Prod.fst h2
      rw [reqOffset_eq hc hlt (perReq_pos hc o6), show replyPage c id + idx * perReq c = slotPage c id idx from rfl] at e1
      rw [e1]
      refine ⟨?_, Holds.written hc o3 o4 o5 o6⟩
      show (seq, idx) ∈ ((s0.setInfo id { s0.info id with reps := insertRep seq idx (deleteRep idx (s0.info id).reps) }).info id).reps
      simp only [St.setInfo, if_true]
      unfold insertRep
      rw [if_neg]
      · exact List.mem_cons_self
      · intro hany
        obtain ⟨p, hp, hpe⟩ := List.any_eq_true.1 hany
        simp only [Bool.or_eq_true, beq_iff_eq] at hpe
        rcases hpe with hpe | hpe
        · have hm := (deleteRep_sublist idx _).subset hp
          have : hasReply c s0 id seq = true := by
            unfold hasReply
            simp only [hid, decide_true, Bool.true_and]
            exact hasRep_iff.2 (List.mem_map.2 ⟨p, hm, hpe⟩)
          rw [hnew] at this; cases this
        · exact deleteRep_idx (hinv0.shaped id).repIdx (fun p hp => (hinv0.recs id p.1 p.2 hp).2.2.1) idx p hp hpe
    have hk2 := kept_run hc os s1 s2 hinv1 h1 hk hkept
    have hhas : hasReply c s2 id seq = true := by
      unfold hasReply
      simp only [hid, decide_true, Bool.true_and]
      exact hasRep_iff.2 (List.mem_map.2 ⟨_, hk2.1, rfl⟩)
    exact ⟨congrArg Prod.snd h2, hhas, (answered_not_admitted s2 id seq 0 [] hhas).1,
      savedReply_of_holds hc hid (hinv2.shaped id).repSeq hk2.1 hlt hk2.2⟩

/-- every answered request can be re-answered: asking for its reply never aborts and returns a reply carrying that
request number -/
theorem answered_has_reply {c : Cfg} (hc : CfgOk c) {os : List Op} {s : St} (h : RunOk c init os s) {id seq : Nat}
    (hr : hasReply c s id seq = true) (primary : Nat) :
    ∃ result data, savedReply c s id seq primary = some (some ⟨primary, seq, result, data⟩) := by
  have hinv := inv_runOk hc os init s (inv_init c) h
  unfold hasReply at hr
  simp only [Bool.and_eq_true, decide_eq_true_eq] at hr
  obtain ⟨p, hp, rfl⟩ := List.mem_map.1 (hasRep_iff.1 hr.2)
  obtain ⟨_, _, _, result, data, hH⟩ := hinv.recs id p.1 p.2 hp
  exact ⟨result, data, savedReply_of_holds hc hr.1 (hinv.shaped id).repSeq hp ((hinv.shaped id).repLt _ hp) hH⟩

/-- restart: a new process starts with empty tables and the same pages, and loads them (ReplicaImp.cpp:4623) -/
def restart (c : Cfg) (s : St) : Option St := loadInfo c { info := init.info, pages := s.pages }

/-- a restart succeeds and forgets no answered request -/
theorem restart_keeps_answers {c : Cfg} (hc : CfgOk c) {os : List Op} {s : St} (h : RunOk c init os s) :
    ∃ s', restart c s = some s' ∧ ∀ id seq, hasReply c s id seq = true → hasReply c s' id seq = true ∧
      ∀ primary, ∃ result data, savedReply c s' id seq primary = some (some ⟨primary, seq, result, data⟩) := by
  have hinv := inv_runOk hc os init s (inv_init c) h
  obtain ⟨f, hf⟩ := loadClients_total hc hinv.pages c.ids (fun _ h => h) init.info
  refine ⟨{ info := f, pages := s.pages }, by simp [restart, loadInfo, hf], ?_⟩
  intro id seq hr
  unfold hasReply at hr
  simp only [Bool.and_eq_true, decide_eq_true_eq] at hr
  obtain ⟨p, hp, rfl⟩ := List.mem_map.1 (hasRep_iff.1 hr.2)
  obtain ⟨_, hint, _, result, data, hH⟩ := hinv.recs id p.1 p.2 hp
  obtain ⟨l1, _⟩ := loadClients_spec _ _ _ hc.ids hf id
  have hL := loopInv_final hc hinv.pages hr.1 (i0 := init.info id) (shape_empty _) (by simp [init]) (by simp [init]) (l1 ⟨hr.1, hint⟩)
  have hhas := hL.found rfl p.2 p.1 result data ((hinv.shaped id).repLt _ hp) hH
  refine ⟨by unfold hasReply; simp [hr.1, hhas], fun primary => ?_⟩
  obtain ⟨q, hq, hqe⟩ := List.mem_map.1 (hasRep_iff.1 hhas)
  obtain ⟨r, d, hH'⟩ := hL.done q.1 q.2 hq (hL.shape.repLt _ hq)
  refine ⟨r, d, ?_⟩
  rw [← hqe]
  exact savedReply_of_holds hc hr.1 hL.shape.repSeq hq (hL.shape.repLt _ hq) hH'

/-! ## earliest pending request -/

theorem earliestReq_spec (l : List (Nat × ReqInfo)) : ∀ acc : Option Nat,
    (∀ t, earliestReq acc l = some t → (acc = some t ∨ ∃ p ∈ l, p.2.time = t ∧ p.2.committed = false ∧ t ≠ 0)) ∧
    (∀ t0, acc = some t0 → ∃ t, earliestReq acc l = some t ∧ t ≤ t0) ∧
    (∀ p ∈ l, p.2.committed = false → p.2.time ≠ 0 → ∃ t, earliestReq acc l = some t ∧ t ≤ p.2.time) := by
  induction l with
  | nil =>
    intro acc
    refine ⟨fun t h => Or.inl h, fun t0 h => ⟨t0, h, Nat.le_refl _⟩, fun p hp => by simp at hp⟩
  | cons a l ih =>
    intro acc
    have hstep : earliestReq acc (a :: l) = earliestReq (if a.2.time ≠ 0 ∧ laterThan acc a.2.time = true ∧
        a.2.committed = false then some a.2.time else acc) l := rfl
    rw [hstep]
    by_cases hcnd : a.2.time ≠ 0 ∧ laterThan acc a.2.time = true ∧ a.2.committed = false
    · rw [if_pos hcnd]
      obtain ⟨i1, i2, i3⟩ := ih (some a.2.time)
      refine ⟨?_, ?_, ?_⟩
      · intro t ht
        rcases i1 t ht with h | ⟨p, hp, h⟩
        · injection h with h
          exact Or.inr ⟨a, List.mem_cons_self, h, hcnd.2.2, h ▸ hcnd.1⟩
        · exact Or.inr ⟨p, List.mem_cons_of_mem _ hp, h⟩
      · intro t0 h0
        obtain ⟨t, ht, hle⟩ := i2 _ rfl
        subst h0
        have : t0 > a.2.time := by simpa [laterThan] using hcnd.2.1
        exact ⟨t, ht, by omega⟩
      · intro p hp hc1 hc2
        rcases List.mem_cons.1 hp with rfl | hp
        · exact i2 _ rfl
        · exact i3 p hp hc1 hc2
    · rw [if_neg hcnd]
      obtain ⟨i1, i2, i3⟩ := ih acc
      refine ⟨?_, i2, ?_⟩
      · intro t ht
        rcases i1 t ht with h | ⟨p, hp, h⟩
        · exact Or.inl h
        · exact Or.inr ⟨p, List.mem_cons_of_mem _ hp, h⟩
      · intro p hp hc1 hc2
        rcases List.mem_cons.1 hp with rfl | hp
        · cases acc with
          | none => exact absurd ⟨hc2, rfl, hc1⟩ hcnd
          | some t0 =>
            obtain ⟨t, ht, hle⟩ := i2 t0 rfl
            refine ⟨t, ht, ?_⟩
            have : ¬ t0 > p.2.time := fun h => hcnd ⟨hc2, by simpa [laterThan] using h, hc1⟩
            omega
        · exact i3 p hp hc1 hc2

theorem earliest_fold (s : St) (l : List Nat) : ∀ acc : Option Nat,
    let r := l.foldl (fun a id => earliestReq a (s.info id).reqs) acc
    (∀ t, r = some t → (acc = some t ∨ ∃ id ∈ l, ∃ p ∈ (s.info id).reqs, p.2.time = t ∧ p.2.committed = false ∧ t ≠ 0)) ∧
    (∀ t0, acc = some t0 → ∃ t, r = some t ∧ t ≤ t0) ∧
    (∀ id ∈ l, ∀ p ∈ (s.info id).reqs, p.2.committed = false → p.2.time ≠ 0 → ∃ t, r = some t ∧ t ≤ p.2.time) := by
  induction l with
  | nil =>
    intro acc
    refine ⟨fun t h => Or.inl h, fun t0 h => ⟨t0, h, Nat.le_refl _⟩, fun id hid => by simp at hid⟩
  | cons a l ih =>
    intro acc
    obtain ⟨e1, e2, e3⟩ := earliestReq_spec (s.info a).reqs acc
    obtain ⟨i1, i2, i3⟩ := ih (earliestReq acc (s.info a).reqs)
    refine ⟨?_, ?_, ?_⟩
    · intro t ht
      rcases i1 t ht with h | ⟨id, hid, h⟩
      · rcases e1 t h with h | ⟨p, hp, h⟩
        · exact Or.inl h
        · exact Or.inr ⟨a, List.mem_cons_self, p, hp, h⟩
      · exact Or.inr ⟨id, List.mem_cons_of_mem _ hid, h⟩
    · intro t0 h0
      obtain ⟨t1, ht1, hle1⟩ := e2 t0 h0
      obtain ⟨t, ht, hle⟩ := i2 t1 ht1
      exact ⟨t, ht, by omega⟩
    · intro id hid p hp hc1 hc2
      rcases List.mem_cons.1 hid with rfl | hid
      · obtain ⟨t1, ht1, hle1⟩ := e3 p hp hc1 hc2
        obtain ⟨t, ht, hle⟩ := i2 t1 ht1
        exact ⟨t, ht, by omega⟩
      · exact i3 id hid p hp hc1 hc2

/-- the earliest time reported is the time of some uncommitted request of some client, no uncommitted request is older,
and nothing is reported exactly when there is no uncommitted request (with a proper time) -/
theorem earliest_correct (c : Cfg) (s : St) :
    (∀ t, earliest c s = some t → (∃ id ∈ c.ids, ∃ p ∈ (s.info id).reqs, p.2.time = t ∧ p.2.committed = false) ∧
      ∀ id ∈ c.ids, ∀ p ∈ (s.info id).reqs, p.2.committed = false → p.2.time ≠ 0 → t ≤ p.2.time) ∧
    (earliest c s = none → ∀ id ∈ c.ids, ∀ p ∈ (s.info id).reqs, p.2.committed = false → p.2.time = 0) := by
  obtain ⟨e1, e2, e3⟩ := earliest_fold s c.ids none
  refine ⟨fun t ht => ⟨?_, ?_⟩, ?_⟩
  · rcases e1 t ht with h | ⟨id, hid, p, hp, h⟩
    · cases h
    · exact ⟨id, hid, p, hp, h.1, h.2.1⟩
  · intro id hid p hp hc1 hc2
    obtain ⟨t', ht', hle⟩ := e3 id hid p hp hc1 hc2
    have : some t = some t' := by rw [← ht, ← ht']; rfl
    injection this with this
    omega
  · intro hn id hid p hp hc1
    apply Classical.byContradiction
    intro hc2
    obtain ⟨t', ht', hle⟩ := e3 id hid p hp hc1 hc2
    have : (none : Option Nat) = some t' := by rw [← hn, ← ht']; rfl
    cases this

/-! ## what goes wrong (findings) -/

/-- a small concrete configuration: pages of 32 bytes, replies up to 64 bytes, one request per client -/
def exCfg : Cfg := { pageSize := 32, maxReply := 64, maxReqs := 1, ids := [0, 1, 7], internal := [] }

theorem exCfg_ok : CfgOk exCfg := ⟨by decide, by decide, by decide, by decide, by decide⟩

/-- Finding: request number 0.  A client that uses request number 0 once gets a reply that is never replaced in the
table: its next request, number 5, is answered but not recorded as answered (so it is admitted and executed again), and a
retransmission of request 0 aborts the process. -/
theorem zero_seq_breaks :
    ∃ s, run exCfg init [.reply 7 0 0 0 0 [1, 2], .reply 7 5 0 0 0 [3, 4]] = some s ∧
      hasReply exCfg s 7 5 = false ∧ canBecomePending exCfg s 7 5 = true ∧
      hasReply exCfg s 7 0 = true ∧ savedReply exCfg s 7 0 0 = none := by
  refine ⟨_, rfl, ?_, ?_, ?_, ?_⟩ <;> decide +kernel

/-- Finding: the index in batch comes from the client's message and is not validated; a committed request with an index
above the configured batch size aborts every replica that executes it. -/
theorem index_in_batch_aborts (c : Cfg) (s : St) (id seq p result idx : Nat) (data : Bytes) (h : c.maxReqs ≤ idx) :
    newReply c s id seq p idx result data = none := by
  unfold newReply
  rw [if_pos (by omega)]

/-- Finding: a reply is retained only until the next reply in the same slot; after that the old request is
admitted again. -/
theorem evicted_readmitted :
    ∃ s, run exCfg init [.reply 7 3 0 0 0 [1, 2], .reply 7 5 0 0 0 [3, 4]] = some s ∧
      hasReply exCfg s 7 3 = false ∧ canBecomePending exCfg s 7 3 = true := by
  refine ⟨_, rfl, ?_, ?_⟩ <;> decide +kernel

/-! ## the hypotheses are met -/

/-- a two page reply of client 7 survives the requests, replies and key exchange of client 1 -/
example : ∃ s0 s1 s2 sent,
    RunOk exCfg init [.add 7 9 100 [], .mark 7 9] s0 ∧ hasReply exCfg s0 7 9 = false ∧
    ReplyOk exCfg 7 9 0 (List.replicate 20 5) ∧
    newReply exCfg s0 7 9 2 0 0 (List.replicate 20 5) = some (s1, sent) ∧
    RunOk exCfg s1 [.remove 7 9, .add 1 9 101 [], .reply 1 9 2 0 0 (List.replicate 36 8), .setKey 1 [1, 2, 3]] s2 ∧
    RunKeep exCfg 7 0 [.remove 7 9, .add 1 9 101 [], .reply 1 9 2 0 0 (List.replicate 36 8), .setKey 1 [1, 2, 3]] := by
  have hok : ∀ id ∈ [7, 1], ∀ n, 0 < n → n ≤ 36 → ∀ b, ReplyOk exCfg id 9 0 (List.replicate n b) := by
    intro id _ n hn hn2 b
    refine ⟨by simp [exCfg], by decide, by decide, by decide, ?_, ?_⟩
    · intro h; have := congrArg List.length h; simp at this; omega
    · simp [hdrLen, exCfg]; omega
  refine ⟨_, _, _, _, ⟨trivial, _, rfl, trivial, _, rfl, rfl⟩, by decide +kernel, hok 7 (by simp) 20 (by omega) (by omega) 5, rfl,
    ⟨trivial, _, rfl, trivial, _, rfl, hok 1 (by simp) 36 (by omega) (by omega) 8, _, rfl, trivial, _, rfl, rfl⟩, ?_⟩
  intro o ho
  simp only [List.mem_cons, List.not_mem_nil, or_false] at ho
  rcases ho with rfl | rfl | rfl | rfl
  · exact fun h => h
  · exact fun h => h
  · rintro ⟨h, _⟩; omega
  · exact fun h => h

end Verif.Clients
