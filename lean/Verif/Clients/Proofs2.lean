import Verif.Clients.Proofs
/-! # The records and the pages agree -/
set_option linter.unusedSimpArgs false
set_option linter.unusedVariables false
namespace Verif.Clients
open Verif.Bytes

/-- a sane configuration -/
structure CfgOk (c : Cfg) : Prop where
  ids : c.ids.Nodup
  page : hdrLen ≤ c.pageSize
  small : c.maxReqs * perReq c ≤ 65536
  room : hdrLen ≤ c.maxReply
  reply : c.maxReply < 2 ^ 32

theorem CfgOk.pos {c : Cfg} (h : CfgOk c) : 0 < c.pageSize := by have := h.page; unfold hdrLen at this; omega

/-- first page of slot `idx` of client `id` -/
def slotPage (c : Cfg) (id idx : Nat) : Nat := replyPage c id + idx * perReq c

/-- the pages of slot `idx` of client `id` hold this reply -/
structure Holds (c : Cfg) (pg : Nat → Option Bytes) (id idx seq result : Nat) (data : Bytes) : Prop where
  seqLt : seq < 2 ^ 64
  resLt : result < 2 ^ 32
  ne : data ≠ []
  fits : hdrLen + data.length ≤ c.maxReply
  pages : ∀ j, j < numPages c (encode seq result data).length →
    pg (slotPage c id idx + j) = some (padded c (chunk c (encode seq result data) j))

/-- what the caller of a reply operation guarantees -/
def ReplyOk (c : Cfg) (id seq result : Nat) (data : Bytes) : Prop :=
  id ∉ c.internal ∧ seq ≠ 0 ∧ seq < 2 ^ 64 ∧ result < 2 ^ 32 ∧ data ≠ [] ∧ hdrLen + data.length ≤ c.maxReply

theorem enc_pos (seq result : Nat) (data : Bytes) : 0 < (encode seq result data).length := by
  rw [encode_length]; unfold hdrLen; omega

theorem reqOffset_eq {c : Cfg} (hc : CfgOk c) {idx : Nat} (h : idx < c.maxReqs) (hq : 0 < perReq c) : reqOffset c idx = idx * perReq c := by
  unfold reqOffset
  apply Nat.mod_eq_of_lt
  have : (idx + 1) * perReq c ≤ c.maxReqs * perReq c := Nat.mul_le_mul_right _ (by omega)
  rw [Nat.add_mul, Nat.one_mul] at this
  have := hc.small
  omega

theorem enc_pages_le {c : Cfg} (hc : CfgOk c) {seq result : Nat} {data : Bytes} (h : hdrLen + data.length ≤ c.maxReply) :
    numPages c (encode seq result data).length ≤ perReq c :=
  numPages_le_perReq hc.pos (by rw [encode_length]; exact h)

theorem perReq_pos {c : Cfg} (hc : CfgOk c) {data : Bytes} (h : hdrLen + data.length ≤ c.maxReply) : 0 < perReq c :=
  Nat.lt_of_lt_of_le (numPages_pos hc.pos (enc_pos 0 0 data)) (enc_pages_le hc h)

theorem Holds.first {c : Cfg} (hc : CfgOk c) {pg : Nat → Option Bytes} {id idx seq result : Nat} {data : Bytes}
    (h : Holds c pg id idx seq result data) :
    ∃ p, pg (slotPage c id idx) = some p ∧ msgTypeOf p = replyCode ∧ primaryOf p = 0 ∧ seqOf p = seq ∧
      resultOf p = result ∧ replyLenOf p = data.length := by
  have h0 := h.pages 0 (numPages_pos hc.pos (enc_pos seq result data))
  refine ⟨_, h0, ?_⟩
  have hd : data.length < 2 ^ 32 := by have := h.fits; have := hc.reply; omega
  obtain ⟨e1, e2, e3, e4, e5, _⟩ := encode_fields seq result data h.seqLt h.resLt hd
  refine ⟨?_, ?_, ?_, ?_, ?_⟩
  · unfold msgTypeOf; rw [header_of_page c hc.page _ _ _ _ _ (by decide)]; exact e1
  · unfold primaryOf; rw [header_of_page c hc.page _ _ _ _ _ (by decide)]; exact e2
  · unfold seqOf; rw [header_of_page c hc.page _ _ _ _ _ (by decide)]; exact e3
  · unfold resultOf; rw [header_of_page c hc.page _ _ _ _ _ (by decide)]; exact e4
  · unfold replyLenOf; rw [header_of_page c hc.page _ _ _ _ _ (by decide)]; exact e5

theorem getIndex_of_mem {reps : List (Nat × Nat)} (hs : (reps.map (·.1)).Nodup) {seq idx : Nat} (h : (seq, idx) ∈ reps) :
    getIndex seq reps = idx := by
  unfold getIndex
  split
  · rename_i p hp
    have h1 := List.mem_of_find?_eq_some hp
    have h2 : p.1 = seq := by have := List.find?_some hp; simpa using this
    have := Verif.ListU.inj_of_nodup_map hs h1 h h2
    rw [this]
  · rename_i hp
    have := List.find?_eq_none.1 hp _ h
    simp at this

/-- a recorded reply whose pages are intact is read back as it was written -/
theorem savedReply_of_holds {c : Cfg} (hc : CfgOk c) {s : St} {id seq idx result primary : Nat} {data : Bytes}
    (hid : id ∈ c.ids) (hs : ((s.info id).reps.map (·.1)).Nodup) (hm : (seq, idx) ∈ (s.info id).reps) (hidx : idx < c.maxReqs)
    (h : Holds c s.pages id idx seq result data) : savedReply c s id seq primary = some (some ⟨primary, seq, result, data⟩) := by
  have hd : data.length < 2 ^ 32 := by have := h.fits; have := hc.reply; omega
  obtain ⟨e1, e2, e3, e4, e5, e6⟩ := encode_fields seq result data h.seqLt h.resLt hd
  obtain ⟨p, p0, p1, p2, p3, p4, p5⟩ := h.first hc
  have hne : data.length ≠ 0 := by
    intro e; exact h.ne (List.length_eq_zero_iff.1 e)
  unfold savedReply
  rw [if_neg (by simpa using hid)]
  simp only [getIndex_of_mem hs hm, reqOffset_eq hc hidx (perReq_pos hc h.fits)]
  rw [show replyPage c id + idx * perReq c = slotPage c id idx from rfl, p0]
  simp only [p1, p2, p5]
  rw [if_neg (by simp), if_neg (by simp), if_neg hne, if_neg (by have := h.fits; omega)]
  have hl : hdrLen + data.length = (encode seq result data).length := (encode_length _ _ _).symm
  rw [hl, loadPages_eq hc.pos (enc_pos _ _ _) _ _ h.pages _ 0 (by omega) (fun _ => trivial)]
  have hnp := numPages_pos hc.pos (enc_pos seq result data)
  rw [if_neg (by omega)]
  simp only [Nat.zero_mul, List.drop_zero, e3, e4, e6]
  simp

/-- page identity: slots of different (client, index) pairs do not share pages -/
theorem slotPage_ne {c : Cfg} {id id' idx idx' j j' : Nat} (hid : id ∈ c.ids) (h1 : idx < c.maxReqs) (h2 : idx' < c.maxReqs)
    (hj : j < perReq c) (hj' : j' < perReq c) (he : slotPage c id idx + j = slotPage c id' idx' + j') :
    id = id' ∧ idx = idx' ∧ j = j' := by
  unfold slotPage replyPage keyPage at he
  obtain ⟨e1, e2, e3⟩ := slot_disjoint c h1 h2 hj hj' (by omega)
  exact ⟨idxOf_inj hid e1, e2, e3⟩

theorem Holds.of_write {c : Cfg} (hc : CfgOk c) {pg : Nat → Option Bytes} {id idx seq result : Nat} {data : Bytes}
    {id' idx' seq' result' : Nat} {data' : Bytes} (h : Holds c pg id idx seq result data) (hid : id ∈ c.ids)
    (h1 : idx < c.maxReqs) (h2 : idx' < c.maxReqs) (hne : ¬ (id = id' ∧ idx = idx')) (hf : hdrLen + data'.length ≤ c.maxReply) :
    Holds c (savePages c (slotPage c id' idx') (encode seq' result' data') 0
      (numPages c (encode seq' result' data').length) pg) id idx seq result data := by
  refine ⟨h.seqLt, h.resLt, h.ne, h.fits, fun j hj => ?_⟩
  rw [savePages_get, if_neg, h.pages j hj]
  rintro ⟨a, b⟩
  have hjle : j < perReq c := Nat.lt_of_lt_of_le hj (enc_pages_le hc h.fits)
  have hle := enc_pages_le (seq := seq') (result := result') hc hf
  have := slotPage_ne (id' := id') (j := j) (j' := slotPage c id idx + j - slotPage c id' idx') hid h1 h2 hjle (by omega) (by omega)
  exact hne ⟨this.1, this.2.1⟩

theorem Holds.written {c : Cfg} (hc : CfgOk c) {pg : Nat → Option Bytes} {id idx seq result : Nat} {data : Bytes}
    (h1 : seq < 2 ^ 64) (h2 : result < 2 ^ 32) (h3 : data ≠ []) (h4 : hdrLen + data.length ≤ c.maxReply) :
    Holds c (savePages c (slotPage c id idx) (encode seq result data) 0
      (numPages c (encode seq result data).length) pg) id idx seq result data := by
  refine ⟨h1, h2, h3, h4, fun j hj => ?_⟩
  rw [savePages_get, if_pos (by omega)]
  congr 3; omega

theorem Holds.of_key {c : Cfg} (hc : CfgOk c) {pg : Nat → Option Bytes} {id idx seq result : Nat} {data : Bytes} {id' : Nat} {key : Bytes}
    (h : Holds c pg id idx seq result data) (h1 : idx < c.maxReqs) :
    Holds c (savePage c pg (keyPage c id') key) id idx seq result data := by
  refine ⟨h.seqLt, h.resLt, h.ne, h.fits, fun j hj => ?_⟩
  have hjle : j < perReq c := Nat.lt_of_lt_of_le hj (enc_pages_le hc h.fits)
  unfold savePage
  rw [if_neg, h.pages j hj]
  unfold slotPage replyPage keyPage
  exact key_disjoint c h1 hjle

/-- every slot page is empty or holds a complete reply with a nonzero request number -/
def PagesOk (c : Cfg) (pg : Nat → Option Bytes) : Prop :=
  ∀ id ∈ c.ids, ∀ idx, idx < c.maxReqs → pg (slotPage c id idx) = none ∨
    ∃ seq result data, seq ≠ 0 ∧ Holds c pg id idx seq result data

/-- records point to pages holding that reply -/
def RecOk (c : Cfg) (s : St) : Prop :=
  ∀ id seq idx, (seq, idx) ∈ (s.info id).reps → id ∈ c.ids ∧ id ∉ c.internal ∧ seq ≠ 0 ∧
    ∃ result data, Holds c s.pages id idx seq result data

structure Inv (c : Cfg) (s : St) : Prop where
  shaped : Shaped c s
  pages : PagesOk c s.pages
  recs : RecOk c s

/-- assumptions on the calls: replies are as `sendResponses` makes them (ReplicaImp.cpp:5696-5752) and carry a nonzero
request number; pages installed by state transfer hold replies, and no slot with a record became empty -/
def OpOk (c : Cfg) (s : St) : Op → Prop
  | .reply id seq _ _ result data => ReplyOk c id seq result data
  | .load pg => PagesOk c pg ∧ ∀ id seq idx, (seq, idx) ∈ (s.info id).reps → pg (slotPage c id idx) ≠ none
  | _ => True

/-- a run in which every call satisfies `OpOk` -/
def RunOk (c : Cfg) : St → List Op → St → Prop
  | s, [], s' => s = s'
  | s, o :: os, s' => OpOk c s o ∧ ∃ s1, step c s o = some s1 ∧ RunOk c s1 os s'

theorem slot_none_of_write {c : Cfg} (hc : CfgOk c) {pg : Nat → Option Bytes} {id idx id' idx' seq' result' : Nat} {data' : Bytes}
    (hn : pg (slotPage c id idx) = none) (hid : id ∈ c.ids)
    (h1 : idx < c.maxReqs) (h2 : idx' < c.maxReqs) (hne : ¬ (id = id' ∧ idx = idx')) (hf : hdrLen + data'.length ≤ c.maxReply) :
    savePages c (slotPage c id' idx') (encode seq' result' data') 0
      (numPages c (encode seq' result' data').length) pg (slotPage c id idx) = none := by
  rw [savePages_get, if_neg, hn]
  rintro ⟨a, b⟩
  have hle := enc_pages_le (seq := seq') (result := result') hc hf
  have := slotPage_ne (id' := id') (j := 0) (j' := slotPage c id idx - slotPage c id' idx') hid h1 h2 (perReq_pos hc hf) (by omega) (by omega)
  exact hne ⟨this.1, this.2.1⟩

/-- one iteration of the load loop when the slot holds a reply -/
theorem loadOne_holds {c : Cfg} (hc : CfgOk c) {pg : Nat → Option Bytes} {id idx seq result : Nat} {data : Bytes} (i : Info)
    (h : Holds c pg id idx seq result data) :
    loadOne c pg id i idx = some (Info.removeOld { i with reps := insertRep seq idx (deleteRep idx i.reps) } seq) := by
  obtain ⟨p, p0, p1, p2, p3, p4, p5⟩ := h.first hc
  unfold loadOne
  rw [show replyPage c id + idx * perReq c = slotPage c id idx from rfl, p0]
  simp only [p1, p2, p3, p5]
  rw [if_neg (by simp), if_neg (by simp), if_neg (by have := h.fits; omega)]

theorem loadOne_none {c : Cfg} {pg : Nat → Option Bytes} {id idx : Nat} (i : Info) (h : pg (slotPage c id idx) = none) :
    loadOne c pg id i idx = some i := by
  unfold loadOne
  rw [show replyPage c id + idx * perReq c = slotPage c id idx from rfl, h]

/-- with good pages the load loop never aborts -/
theorem loadLoop_total {c : Cfg} (hc : CfgOk c) {pg : Nat → Option Bytes} (hp : PagesOk c pg) {id : Nat} (hid : id ∈ c.ids) :
    ∀ k idx i, idx + k = c.maxReqs → ∃ i', loadLoop c pg id idx k i = some i' := by
  intro k
  induction k with
  | zero => intro idx i _; exact ⟨i, rfl⟩
  | succ k ih =>
    intro idx i he
    simp only [loadLoop]
    rcases hp id hid idx (by omega) with h | ⟨seq, result, data, _, h⟩
    · rw [loadOne_none i h]; exact ih _ _ (by omega)
    · rw [loadOne_holds hc i h]; exact ih _ _ (by omega)

theorem loadClients_total {c : Cfg} (hc : CfgOk c) {pg : Nat → Option Bytes} (hp : PagesOk c pg) :
    ∀ l, (∀ x ∈ l, x ∈ c.ids) → ∀ f, ∃ f', loadClients c pg l f = some f' := by
  intro l
  induction l with
  | nil => intro _ f; exact ⟨f, rfl⟩
  | cons a t ih =>
    intro hl f
    simp only [loadClients]
    split
    · exact ih (fun x hx => hl x (List.mem_cons_of_mem _ hx)) f
    · obtain ⟨i', hi'⟩ := loadLoop_total hc hp (hl a List.mem_cons_self) c.maxReqs 0 (f a) (by omega)
      rw [hi']
      exact ih (fun x hx => hl x (List.mem_cons_of_mem _ hx)) _

/-- invariant of the load loop -/
structure LoopInv (c : Cfg) (pg : Nat → Option Bytes) (id : Nat) (i0 : Info) (idx : Nat) (i : Info) : Prop where
  shape : Shape c.maxReqs i
  nz : ∀ p ∈ i.reps, p.1 ≠ 0
  done : ∀ q x, (q, x) ∈ i.reps → x < idx → ∃ r d, Holds c pg id x q r d
  rest : ∀ q x, (q, x) ∈ i.reps → idx ≤ x → (q, x) ∈ i0.reps
  /-- when nothing was known before, every slot passed is known -/
  found : i0.reps = [] → ∀ x q r d, x < idx → Holds c pg id x q r d → i.hasRep q = true

theorem Holds.unique {c : Cfg} (hc : CfgOk c) {pg : Nat → Option Bytes} {id idx q q' r r' : Nat} {d d' : Bytes}
    (h : Holds c pg id idx q r d) (h' : Holds c pg id idx q' r' d') : q = q' := by
  obtain ⟨p, p0, _, _, p3, _, _⟩ := h.first hc
  obtain ⟨p', p0', _, _, p3', _, _⟩ := h'.first hc
  rw [p0] at p0'; injection p0' with e
  rw [← p3, ← p3', e]

theorem loopInv_step {c : Cfg} (hc : CfgOk c) {pg : Nat → Option Bytes} (hp : PagesOk c pg) {id : Nat} (hid : id ∈ c.ids) {i0 : Info}
    (h0 : ∀ q x, (q, x) ∈ i0.reps → pg (slotPage c id x) ≠ none) {idx : Nat} {i i' : Info} (hlt : idx < c.maxReqs)
    (h : LoopInv c pg id i0 idx i) (hl : loadOne c pg id i idx = some i') : LoopInv c pg id i0 (idx + 1) i' := by
  have hsh := shape_loadOne h.shape hlt hl
  rcases hp id hid idx hlt with hn | ⟨seq, result, data, hseq, hh⟩
  · rw [loadOne_none i hn] at hl
    injection hl with hl; subst hl
    refine ⟨hsh, h.nz, ?_, fun q x hm hx => h.rest q x hm (by omega), ?_⟩
    · intro q x hm hx
      rcases Nat.lt_or_ge x idx with hx' | hx'
      · exact h.done q x hm hx'
      · have : x = idx := by omega
        subst this
        exact absurd hn (h0 q x (h.rest q x hm (Nat.le_refl _)))
    · intro he x q r d hx hH
      rcases Nat.lt_or_ge x idx with hx' | hx'
      · exact h.found he x q r d hx' hH
      · have : x = idx := by omega
        subst this
        obtain ⟨p, p0, _⟩ := hH.first hc
        rw [hn] at p0; cases p0
  · rw [loadOne_holds hc i hh] at hl
    injection hl with hl; subst hl
    have hmem : ∀ p, p ∈ (Info.removeOld { i with reps := insertRep seq idx (deleteRep idx i.reps) } seq).reps →
        (p ∈ i.reps ∧ p.2 ≠ idx) ∨ p = (seq, idx) := by
      intro p hp'
      rcases insertRep_mem hp' with h1 | h1
      · exact Or.inl ⟨(deleteRep_sublist idx i.reps).subset h1, deleteRep_idx h.shape.repIdx h.nz idx p h1⟩
      · exact Or.inr h1.1
    refine ⟨hsh, ?_, ?_, ?_, ?_⟩
    · intro p hp'
      rcases hmem p hp' with h1 | h1
      · exact h.nz p h1.1
      · rw [h1]; exact hseq
    · intro q x hm hx
      rcases hmem _ hm with h1 | h1
      · have : x ≠ idx := h1.2
        exact h.done q x h1.1 (by omega)
      · injection h1 with e1 e2
        subst e1 e2
        exact ⟨result, data, hh⟩
    · intro q x hm hx
      rcases hmem _ hm with h1 | h1
      · exact h.rest q x h1.1 (by omega)
      · injection h1 with e1 e2
        omega
    · intro he x q r d hx hH
      -- everything recorded so far sits at smaller indices
      have hall : ∀ p ∈ i.reps, p.2 < idx := by
        intro p hp'
        rcases Nat.lt_or_ge p.2 idx with h1 | h1
        · exact h1
        · have := h.rest p.1 p.2 hp' h1
          rw [he] at this; simp at this
      have hkeep : ∀ p ∈ i.reps, p ∈ insertRep seq idx (deleteRep idx i.reps) := by
        intro p hp'
        exact insertRep_keep (deleteRep_keep h.shape.repSeq hp' (by have := hall p hp'; omega))
      rcases Nat.lt_or_ge x idx with hx' | hx'
      · have := hasRep_iff.1 (h.found he x q r d hx' hH)
        obtain ⟨p, hp', hpq⟩ := List.mem_map.1 this
        exact hasRep_iff.2 (List.mem_map.2 ⟨p, hkeep p hp', hpq⟩)
      · have : x = idx := by omega
        subst this
        have hqs : q = seq := hH.unique hc hh
        subst hqs
        apply hasRep_iff.2
        show q ∈ (insertRep q x (deleteRep x i.reps)).map (·.1)
        unfold insertRep
        split
        · rename_i hany
          obtain ⟨p, hp', hpe⟩ := List.any_eq_true.1 hany
          have hx2 := hall p ((deleteRep_sublist x i.reps).subset hp')
          have : p.1 = q := by
            simp only [Bool.or_eq_true, beq_iff_eq] at hpe
            rcases hpe with h1 | h1
            · exact h1
            · omega
          exact List.mem_map.2 ⟨p, hp', this⟩
        · simp

theorem loopInv_final {c : Cfg} (hc : CfgOk c) {pg : Nat → Option Bytes} (hp : PagesOk c pg) {id : Nat} (hid : id ∈ c.ids) {i0 i' : Info}
    (hsh : Shape c.maxReqs i0) (hnz : ∀ p ∈ i0.reps, p.1 ≠ 0)
    (h0 : ∀ q x, (q, x) ∈ i0.reps → pg (slotPage c id x) ≠ none) (hl : loadLoop c pg id 0 c.maxReqs i0 = some i') :
    LoopInv c pg id i0 c.maxReqs i' := by
  refine loadLoop_ind (LoopInv c pg id i0) (fun idx i i' hlt h hl => loopInv_step hc hp hid h0 hlt h hl) _ 0 i0 i' (by omega) ?_ hl
  exact ⟨hsh, hnz, fun q x _ hx => absurd hx (by omega), fun q x hm _ => hm, fun _ x q r d hx => absurd hx (by omega)⟩

theorem recs_sub {c : Cfg} {s : St} {id : Nat} {i : Info} (h : RecOk c s) (hsub : ∀ p ∈ i.reps, p ∈ (s.info id).reps) :
    RecOk c (s.setInfo id i) := by
  intro id' q x hm
  simp only [St.setInfo] at hm
  split at hm
  · rename_i e
    subst e
    exact h id' q x (hsub _ hm)
  · exact h id' q x hm

theorem inv_step {c : Cfg} (hc : CfgOk c) {s s' : St} {o : Op} (h : Inv c s) (ho : OpOk c s o) (hs : step c s o = some s') : Inv c s' := by
  have hsh := step_shaped hc.ids h.shaped hs
  cases o with
  | add id seq time cid =>
    simp only [step, Option.some.injEq] at hs; subst hs
    unfold addGuarded at hsh ⊢
    split
    · rename_i hcb
      rw [if_pos hcb] at hsh
      refine ⟨hsh, h.pages, recs_sub h.recs ?_⟩
      intro p hp
      unfold Info.emplace at hp
      split at hp <;> exact hp
    · exact h
  | mark id seq =>
    simp only [step] at hs
    split at hs <;> (injection hs with hs; subst hs)
    · exact ⟨hsh, h.pages, recs_sub h.recs (fun p hp => hp)⟩
    · exact h
  | outOfBounds id seq =>
    simp only [step] at hs
    split at hs <;> (injection hs with hs; subst hs)
    · refine ⟨hsh, h.pages, recs_sub h.recs (fun p hp => ?_)⟩
      unfold Info.removeOutOfBounds at hp
      split at hp
      · exact hp
      · split at hp <;> exact hp
    · exact h
  | remove id seq =>
    simp only [step] at hs
    split at hs <;> (injection hs with hs; subst hs)
    · exact ⟨hsh, h.pages, recs_sub h.recs (fun p hp => hp)⟩
    · exact h
  | clear =>
    simp only [step, Option.some.injEq] at hs; subst hs
    exact ⟨hsh, h.pages, fun id q x hm => h.recs id q x hm⟩
  | deleteReply id idx =>
    simp only [step] at hs
    split at hs <;> (injection hs with hs; subst hs)
    · exact ⟨hsh, h.pages, recs_sub h.recs (fun p hp => (deleteRep_sublist idx _).subset hp)⟩
    · exact h
  | reply id seq primary idx result data =>
    simp only [step, Option.map_eq_some_iff] at hs
    obtain ⟨r, hr, rfl⟩ := hs
    obtain ⟨hlt, h1 | ⟨hid, h1⟩⟩ := newReply_some hr
    · rw [h1.2]; exact h
    · obtain ⟨o1, o2, o3, o4, o5, o6⟩ := ho
      have hoff : replyPage c id + reqOffset c idx = slotPage c id idx := by
        rw [reqOffset_eq hc hlt (perReq_pos hc o6)]; rfl
      rw [hoff] at h1
      rw [h1] at hsh ⊢
      have hw := Holds.written (pg := s.pages) (id := id) (idx := idx) hc o3 o4 o5 o6
      refine ⟨hsh, ?_, ?_⟩
      · intro id' hid' idx' hlt'
        by_cases he : id' = id ∧ idx' = idx
        · obtain ⟨rfl, rfl⟩ := he
          exact Or.inr ⟨seq, result, data, o2, hw⟩
        · rcases h.pages id' hid' idx' hlt' with hn | ⟨q, r', d, hq, hH⟩
          · exact Or.inl (slot_none_of_write hc hn hid' hlt' hlt he o6)
          · exact Or.inr ⟨q, r', d, hq, hH.of_write hc hid' hlt' hlt he o6⟩
      · intro id' q x hm
        have hm' : (q, x) ∈ ((s.setInfo id { s.info id with reps := insertRep seq idx (deleteRep idx (s.info id).reps) }).info id').reps := hm
        simp only [St.setInfo] at hm'
        by_cases hie : id' = id
        · subst hie
          rw [if_pos rfl] at hm'
          rcases insertRep_mem hm' with h2 | h2
          · have hold := (deleteRep_sublist idx _).subset h2
            have hnz : ∀ p ∈ (s.info id').reps, p.1 ≠ 0 := fun p hp => (h.recs id' p.1 p.2 hp).2.2.1
            have hxi := deleteRep_idx (h.shaped id').repIdx hnz idx _ h2
            obtain ⟨k1, k2, k3, r', d, k4⟩ := h.recs id' q x hold
            exact ⟨k1, k2, k3, r', d, k4.of_write hc k1 ((h.shaped id').repLt _ hold) hlt (fun e => hxi e.2) o6⟩
          · obtain ⟨e, _⟩ := h2
            injection e with e1 e2
            subst e1 e2
            exact ⟨hid, o1, o2, result, data, hw⟩
        · rw [if_neg hie] at hm'
          obtain ⟨k1, k2, k3, r', d, k4⟩ := h.recs id' q x hm'
          exact ⟨k1, k2, k3, r', d, k4.of_write hc k1 ((h.shaped id').repLt _ hm') hlt (fun e => hie e.1) o6⟩
  | setKey id key =>
    simp only [step] at hs
    split at hs
    · split at hs
      · injection hs with hs; subst hs
        rename_i hid hk
        refine ⟨hsh, ?_, ?_⟩
        · intro id' hid' idx' hlt'
          rcases h.pages id' hid' idx' hlt' with hn | ⟨q, r', d, hq, hH⟩
          · have hpr : 0 < perReq c := perReq_pos (data := []) hc (by simpa using hc.room)
            refine Or.inl ?_
            show savePage c s.pages (keyPage c id) key (slotPage c id' idx') = none
            unfold savePage
            rw [if_neg, hn]
            have := key_disjoint c (i := c.ids.idxOf id') (i' := c.ids.idxOf id) hlt' hpr
            unfold slotPage replyPage keyPage
            simpa using this
          · exact Or.inr ⟨q, r', d, hq, hH.of_key hc hlt'⟩
        · intro id' q x hm
          obtain ⟨k1, k2, k3, r', d, k4⟩ := h.recs id' q x hm
          exact ⟨k1, k2, k3, r', d, k4.of_key hc ((h.shaped id').repLt _ hm)⟩
      · cases hs
    · injection hs with hs; subst hs; exact h
  | load pg =>
    obtain ⟨hpg, hne⟩ := ho
    simp only [step, loadInfo] at hs
    split at hs
    · cases hs
    · rename_i f hf
      injection hs with hs; subst hs
      refine ⟨hsh, hpg, ?_⟩
      intro j q x hm
      obtain ⟨h1, h2⟩ := loadClients_spec _ _ _ hc.ids hf j
      by_cases hj : j ∈ c.ids ∧ j ∉ c.internal
      · have hL := loopInv_final hc hpg hj.1 (h.shaped j) (fun p hp => (h.recs j p.1 p.2 hp).2.2.1)
          (fun q x hm => hne j q x hm) (h1 hj)
        obtain ⟨r, d, hH⟩ := hL.done q x hm (hL.shape.repLt _ hm)
        exact ⟨hj.1, hj.2, hL.nz _ hm, r, d, hH⟩
      · have hm' : (q, x) ∈ (f j).reps := hm
        rw [h2 hj] at hm'
        obtain ⟨k1, k2, _⟩ := h.recs j q x hm'
        exact absurd ⟨k1, k2⟩ hj

end Verif.Clients
