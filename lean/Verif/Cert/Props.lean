import Verif.Cert.Proofs2
/-!
C09: property theorems about message certificates.

`run p {} ops` is a new certificate after `addMsg` was called with the (sender, message) pairs `ops`, in this order;
`support eqv ops m` is the set of distinct senders whose first message is equivalent to `m`.
-/
namespace Concord.Cert

variable {M : Type} {p : Params M}

theorem run_keys (hp : p.Ok) (hst : p.selfTrust = false) {ops : List (Nat × M)} (hids : ∀ e ∈ ops, e.1 < p.n) :
    ∃ C, PInv p C (run p {} ops) :=
  pinv_run hp (pinv_init hp) ops hids (by simp [hst])

theorem firstOf_run0 (ops : List (Nat × M)) (id : Nat) : firstOf (run p {} ops).msgs id = firstOf ops id := by
  rw [firstOf_run]; rfl

theorem cnt_sublist {eqv : M → M → Bool} {C l : List (Nat × M)} (hk : keysNodup C) (hs : C ⊆ l) (m : M) :
    cnt eqv C m ≤ cnt eqv l m := by
  have hnd : C.Nodup := List.Nodup.of_map _ hk
  exact (hnd.subperm hs).countP_le _

theorem cnt_pos_cover (hp : p.Ok) {C : List (Nat × M)} {s : St M} (h : PInv p C s) {m : M}
    (hpos : 0 < cnt p.eqv C m) : ∃ c ∈ s.classes, c.size = cnt p.eqv C m := by
  unfold cnt at hpos
  rw [List.countP_pos_iff] at hpos
  obtain ⟨e, he, hem⟩ := hpos
  obtain ⟨c, hc, r, hr, hre⟩ := h.cover e he
  obtain ⟨r', hr', hs⟩ := h.reps c hc
  have := keys_inj h.ckeys hr hr'
  subst this
  refine ⟨c, hc, hs.trans (cnt_eqv hp.eqv (hp.eqv.trans _ _ _ hre (hp.eqv.symm _ _ hem)) _)⟩

/-- **C09** (client replies, read-only replicas, state transfer: no trusted own message). The certificate is
complete exactly when some message has a quorum of distinct senders agreeing with it: repeated messages from one
sender and the order of arrival do not matter. -/
theorem complete_iff_quorum (hp : p.Ok) (hst : p.selfTrust = false) (ops : List (Nat × M))
    (hids : ∀ e ∈ ops, e.1 < p.n) :
    (run p {} ops).complete = true ↔ ∃ m, p.required ≤ (support p.eqv ops m).card := by
  obtain ⟨C, h⟩ := run_keys hp hst hids
  have hsr : p.selfRequired = false := by
    cases hs : p.selfRequired
    · rfl
    · rw [hp.selfOk hs] at hst; cases hst
  have hcard : ∀ m, (support p.eqv ops m).card = cnt p.eqv (run p {} ops).msgs m :=
    fun m => card_support h.keys (fun id => firstOf_run0 ops id) m
  constructor
  · intro hc
    obtain ⟨-, h1⟩ := h.comp.1 hc
    cases hb : (run p {} ops).best with
    | none => have := (h.best0 hb).2; have := hp.req; omega
    | some b =>
      obtain ⟨c, hcb, hcs⟩ := h.best1 b hb
      obtain ⟨r, hr, hrs⟩ := h.reps c (List.mem_of_getElem? hcb)
      refine ⟨r, ?_⟩
      rw [hcard]
      have := cnt_sublist (eqv := p.eqv) h.ckeys h.sub r
      omega
  · rintro ⟨m, hm⟩
    rw [hcard] at hm
    cases hc : (run p {} ops).complete
    · have hC := h.count (by simp [hc])
      have hpos : 0 < cnt p.eqv C m := by rw [hC]; have := hp.req; omega
      obtain ⟨c, hcc, hcs⟩ := cnt_pos_cover hp h hpos
      have := h.bestMax c hcc
      rw [hC] at hcs
      rw [h.comp.2 ⟨hsr, by omega⟩] at hc; cases hc
    · rfl

/-- `isFull` (without a trusted own message): all replicas sent equivalent messages -/
theorem full_iff_all (hp : p.Ok) (hst : p.selfTrust = false) (hka : p.keepAll = true) (ops : List (Nat × M))
    (hids : ∀ e ∈ ops, e.1 < p.n) :
    (run p {} ops).full = true ↔ ∃ m, p.n ≤ (support p.eqv ops m).card := by
  obtain ⟨C, h⟩ := run_keys hp hst hids
  have hsr : p.selfRequired = false := by
    cases hs : p.selfRequired
    · rfl
    · rw [hp.selfOk hs] at hst; cases hst
  have hcard : ∀ m, (support p.eqv ops m).card = cnt p.eqv (run p {} ops).msgs m :=
    fun m => card_support h.keys (fun id => firstOf_run0 ops id) m
  have hn2 : 2 ≤ p.n := le_trans hp.req hp.reqn
  constructor
  · intro hc
    obtain ⟨-, h1⟩ := h.ful.1 hc
    cases hb : (run p {} ops).best with
    | none => have := (h.best0 hb).2; omega
    | some b =>
      obtain ⟨c, hcb, hcs⟩ := h.best1 b hb
      obtain ⟨r, hr, hrs⟩ := h.reps c (List.mem_of_getElem? hcb)
      refine ⟨r, ?_⟩
      rw [hcard]
      have := cnt_sublist (eqv := p.eqv) h.ckeys h.sub r
      omega
  · rintro ⟨m, hm⟩
    rw [hcard] at hm
    cases hc : (run p {} ops).full
    · have hC := h.count (by simp [hc, hka])
      have hpos : 0 < cnt p.eqv C m := by rw [hC]; omega
      obtain ⟨c, hcc, hcs⟩ := cnt_pos_cover hp h hpos
      have := h.bestMax c hcc
      rw [hC] at hcs
      rw [h.ful.2 ⟨hsr, by omega⟩] at hc; cases hc
    · rfl

/-- Two messages that both have a majority quorum are equivalent: the certified content is unique. -/
theorem quorum_unique (he : IsEqv p.eqv) (hmaj : p.n < 2 * p.required) (ops : List (Nat × M))
    (hids : ∀ e ∈ ops, e.1 < p.n) {m m' : M} (h : p.required ≤ (support p.eqv ops m).card)
    (h' : p.required ≤ (support p.eqv ops m').card) : p.eqv m m' = true := by
  by_contra hne
  have hd : Disjoint (support p.eqv ops m) (support p.eqv ops m') := by
    rw [Finset.disjoint_left]
    intro x hx hx'
    simp only [support, Finset.mem_filter] at hx hx'
    obtain ⟨-, a, ha, hea⟩ := hx
    obtain ⟨-, b, hb, heb⟩ := hx'
    rw [ha] at hb; cases hb
    exact hne (he.trans _ _ _ hea (he.symm _ _ heb))
  have hsub : support p.eqv ops m ∪ support p.eqv ops m' ⊆ Finset.range p.n := by
    intro x hx
    have : x ∈ senders ops := by
      rcases Finset.mem_union.1 hx with hx | hx <;> exact (Finset.mem_filter.1 hx).1
    obtain ⟨e, he1, he2⟩ := List.mem_map.1 (List.mem_toFinset.1 this)
    subst he2
    exact Finset.mem_range.2 (hids e he1)
  have := Finset.card_le_card hsub
  rw [Finset.card_union_of_disjoint hd, Finset.card_range] at this
  omega

/-- The message handed to the caller (`bestCorrectMsg`) was sent by somebody and has at least `maxFails + 1`
agreeing senders; once the certificate is complete it has a quorum of them. -/
theorem bestCorrectMsg_supported (hp : p.Ok) (hst : p.selfTrust = false) (ops : List (Nat × M))
    (hids : ∀ e ∈ ops, e.1 < p.n) {m : M} (hm : (run p {} ops).bestCorrectMsg p = some m) :
    (∃ id, firstOf ops id = some m) ∧ p.maxFails + 1 ≤ (support p.eqv ops m).card ∧
    ((run p {} ops).complete = true → p.required ≤ (support p.eqv ops m).card) := by
  obtain ⟨C, h⟩ := run_keys hp hst hids
  have hcard : ∀ m, (support p.eqv ops m).card = cnt p.eqv (run p {} ops).msgs m :=
    fun m => card_support h.keys (fun id => firstOf_run0 ops id) m
  unfold St.bestCorrectMsg at hm
  rw [h.noSelf] at hm
  simp only [Bool.false_or, decide_eq_true_eq] at hm
  split at hm
  · next hsz =>
    cases hb : (run p {} ops).best with
    | none => rw [hb] at hm; cases hm
    | some b =>
      rw [hb] at hm
      obtain ⟨c, hcb, hcs⟩ := h.best1 b hb
      simp only [hcb] at hm
      obtain ⟨r, hr, hrs⟩ := h.reps c (List.mem_of_getElem? hcb)
      have hr' := (msgOf_iff h.keys).2 (h.sub hr)
      rw [hr'] at hm; obtain rfl : r = m := by simpa using hm
      have hle := cnt_sublist (eqv := p.eqv) h.ckeys h.sub r
      refine ⟨⟨c.rep, ?_⟩, ?_, ?_⟩
      · rw [← firstOf_run0 (p := p)]; exact hr'
      · rw [hcard]; omega
      · intro hc
        have := (h.comp.1 hc).2
        rw [hcard]; omega
  · cases hm

/-- a complete certificate does hand out a message -/
theorem bestCorrectMsg_exists (hp : p.Ok) (hst : p.selfTrust = false) (hmf : p.maxFails + 1 ≤ p.required)
    (ops : List (Nat × M)) (hids : ∀ e ∈ ops, e.1 < p.n) (hc : (run p {} ops).complete = true) :
    ((run p {} ops).bestCorrectMsg p).isSome = true := by
  obtain ⟨C, h⟩ := run_keys hp hst hids
  have h1 := (h.comp.1 hc).2
  unfold St.bestCorrectMsg
  rw [if_pos (by simp; right; omega)]
  cases hb : (run p {} ops).best with
  | none => have := (h.best0 hb).2; have := hp.req; omega
  | some b =>
    obtain ⟨c, hcb, hcs⟩ := h.best1 b hb
    obtain ⟨r, hr, hrs⟩ := h.reps c (List.mem_of_getElem? hcb)
    simp only [hcb]
    rw [(msgOf_iff h.keys).2 (h.sub hr)]; rfl

/-- `isInconsistent` is reported only when there are more than `maxFails + 1` senders that pairwise disagree. -/
theorem inconsistent_means_conflict (hp : p.Ok) (hst : p.selfTrust = false) (ops : List (Nat × M))
    (hids : ∀ e ∈ ops, e.1 < p.n) (hi : (run p {} ops).isInconsistent p = true) :
    ∃ S : List (Nat × M), p.maxFails + 1 < S.length ∧ (∀ e ∈ S, firstOf ops e.1 = some e.2) ∧
      S.Pairwise (fun a b => p.eqv a.2 b.2 = false) := by
  obtain ⟨C, h⟩ := run_keys hp hst hids
  have hl : p.maxFails + 1 < (run p {} ops).classes.length := by simpa [St.isInconsistent] using hi
  have key : ∀ cs : List Cls, (∀ c ∈ cs, c ∈ (run p {} ops).classes) →
      cs.Pairwise (fun c d => ∀ m m', (c.rep, m) ∈ C → (d.rep, m') ∈ C → ¬ p.eqv m m' = true) →
      ∃ S : List (Nat × M), S.map (·.1) = cs.map (·.rep) ∧ (∀ e ∈ S, e ∈ C) ∧
        S.Pairwise (fun a b => p.eqv a.2 b.2 = false) := by
    intro cs
    induction cs with
    | nil => intro _ _; exact ⟨[], rfl, by simp, by simp⟩
    | cons c cs ih =>
      intro h1 h2
      rw [List.pairwise_cons] at h2
      obtain ⟨S, hS1, hS2, hS3⟩ := ih (fun d hd => h1 d (by simp [hd])) h2.2
      obtain ⟨r, hr, -⟩ := h.reps c (h1 c (by simp))
      refine ⟨(c.rep, r) :: S, by simp [hS1], ?_, ?_⟩
      · intro e he
        rcases List.mem_cons.1 he with he | he
        · subst he; exact hr
        · exact hS2 e he
      · rw [List.pairwise_cons]
        refine ⟨?_, hS3⟩
        intro e he
        have : e.1 ∈ cs.map (·.rep) := by rw [← hS1]; exact List.mem_map.2 ⟨e, he, rfl⟩
        obtain ⟨d, hd, hde⟩ := List.mem_map.1 this
        have := h2.1 d hd r e.2 hr (by rw [hde]; exact hS2 e he)
        simpa using this
  obtain ⟨S, hS1, hS2, hS3⟩ := key _ (fun c hc => hc) h.uniq
  refine ⟨S, ?_, ?_, hS3⟩
  · have := congrArg List.length hS1
    simp at this; omega
  · intro e he
    rw [← firstOf_run0 (p := p)]
    exact (msgOf_iff h.keys).2 (h.sub (hS2 e he))

/-- `addMsg` keeps a message exactly when its sender was not heard before -/
theorem addMsg_kept_iff (ops : List (Nat × M)) (id : Nat) (m : M) :
    ((run p {} ops).addMsg p id m).2 = true ↔ firstOf ops id = none := by
  rw [← firstOf_run0 (p := p)]
  unfold St.addMsg
  have : firstOf (run p {} ops).msgs id = none ↔ (run p {} ops).hasMsg id = false := by
    unfold firstOf St.hasMsg
    simp [List.find?_eq_none]
  rw [this]
  split
  · next h => simp [h]
  · next h =>
    simp only [Bool.not_eq_true] at h
    simp only [h, iff_true]
    split
    · split <;> rfl
    · rfl

/-- `getAllMsgs` / `selfMsg`: the stored message of each sender is its first one -/
theorem stored_is_first (ops : List (Nat × M)) (id : Nat) : (run p {} ops).msgOf id = firstOf ops id :=
  firstOf_run0 ops id

/-- every class representative has a stored message: the unchecked `find(..)->second` is always defined -/
theorem representatives_present (hp : p.Ok) (hst : p.selfTrust = false) (ops : List (Nat × M))
    (hids : ∀ e ∈ ops, e.1 < p.n) : ∀ c ∈ (run p {} ops).classes, ((run p {} ops).msgOf c.rep).isSome = true := by
  obtain ⟨C, h⟩ := run_keys hp hst hids
  intro c hc
  obtain ⟨r, hr, -⟩ := h.reps c hc
  rw [(msgOf_iff h.keys).2 (h.sub hr)]; rfl

/-- `resetAndFree` brings the certificate back to the initial state -/
theorem reset_is_initial (ops : List (Nat × M)) : (run p {} ops).reset = {} := by
  unfold St.reset
  cases ops with
  | nil => rfl
  | cons e ops =>
    have : (run p {} (e :: ops)).msgs ≠ [] := by
      intro hm
      have := firstOf_run0 (p := p) (e :: ops) e.1
      rw [hm] at this
      simp [firstOf] at this
    simp only
    rw [if_neg (by simpa using this)]

/-! ### The replica's own message is trusted and required (checkpoint certificates of replicas) -/

/-- Without the replica's own message a checkpoint certificate is never complete. -/
theorem self_required (hp : p.Ok) (hsr : p.selfRequired = true) (ops : List (Nat × M))
    (hids : ∀ e ∈ ops, e.1 < p.n) (hno : ∀ e ∈ ops, e.1 ≠ p.self) :
    (run p {} ops).complete = false ∧ (run p {} ops).full = false := by
  obtain ⟨C, h⟩ := pinv_run hp (pinv_init hp) ops hids (fun _ => hno)
  constructor
  · cases hc : (run p {} ops).complete
    · rfl
    · have := (h.comp.1 hc).1; rw [hsr] at this; cases this
  · cases hc : (run p {} ops).full
    · rfl
    · have := (h.ful.1 hc).1; rw [hsr] at this; cases this

/-- Exact behaviour with a trusted and required own message `m`: the certificate is complete when the number of
distinct senders agreeing with `m` (the replica included), **plus one if some of the others were heard before the
replica's own message**, reaches the quorum. -/
theorem self_complete_iff (hp : p.Ok) (hsr : p.selfRequired = true)
    (pre post : List (Nat × M)) (m : M) (hids : ∀ e ∈ pre, e.1 < p.n) (hno : ∀ e ∈ pre, e.1 ≠ p.self) :
    (run p {} (pre ++ (p.self, m) :: post)).complete = true ↔
      p.required ≤ (support p.eqv (pre ++ (p.self, m) :: post) m).card
        + (if (support p.eqv pre m).Nonempty then 1 else 0) := by
  have hst := hp.selfOk hsr
  obtain ⟨C, h⟩ := pinv_run hp (pinv_init hp) pre hids (fun _ => hno)
  obtain ⟨C1, h1⟩ := sinv_start hp hst hsr h m
  obtain ⟨C2, h2⟩ := sinv_run h1 post
  have hb : (0 < cnt p.eqv (run p {} pre).msgs m) ↔ (support p.eqv pre m).Nonempty := by
    rw [← card_support (ops := pre) h.keys (fun id => firstOf_run0 pre id) m, Finset.card_pos]
  have e : run p {} (pre ++ (p.self, m) :: post) =
      run p (St.addMsg p (run p {} pre) p.self m).1 post := by
    rw [run_append]; rfl
  rw [e]
  simp only [hb] at h2
  have hcard : (support p.eqv (pre ++ (p.self, m) :: post) m).card = cnt p.eqv (run p (St.addMsg p (run p {} pre) p.self m).1 post).msgs m := by
    apply card_support h2.keys
    intro id
    rw [← e]; exact firstOf_run0 _ id
  rw [hcard, h2.comp]
  have hle : cnt p.eqv C2 m ≤ cnt p.eqv (run p (St.addMsg p (run p {} pre) p.self m).1 post).msgs m :=
    h2.sub.countP_le
  rw [h2.size]
  constructor
  · intro hh; omega
  · intro hh
    by_cases hc : (run p (St.addMsg p (run p {} pre) p.self m).1 post).complete = true
    · have := h2.comp.1 hc; rw [h2.size] at this; exact this
    · have := h2.count (by simp [hc])
      rw [← this] at hh; exact hh

/-- What the property asks for holds one way: a quorum of agreeing senders that includes the replica completes the
certificate. -/
theorem self_quorum_completes (hp : p.Ok) (hsr : p.selfRequired = true)
    (pre post : List (Nat × M)) (m : M) (hids : ∀ e ∈ pre, e.1 < p.n) (hno : ∀ e ∈ pre, e.1 ≠ p.self)
    (hq : p.required ≤ (support p.eqv (pre ++ (p.self, m) :: post) m).card) :
    (run p {} (pre ++ (p.self, m) :: post)).complete = true :=
  (self_complete_iff hp hsr pre post m hids hno).2 (by omega)

/-- Partial: the other direction holds only up to one sender. Missing for the full property: `p.required` instead of
`p.required - 1`; `self_double_count` shows that the code does not have it. -/
theorem self_complete_quorum_partial (hp : p.Ok) (hsr : p.selfRequired = true)
    (pre post : List (Nat × M)) (m : M) (hids : ∀ e ∈ pre, e.1 < p.n) (hno : ∀ e ∈ pre, e.1 ≠ p.self)
    (hc : (run p {} (pre ++ (p.self, m) :: post)).complete = true) :
    p.required - 1 ≤ (support p.eqv (pre ++ (p.self, m) :: post) m).card ∧
    ((∀ e ∈ pre, p.eqv m e.2 = false) → p.required ≤ (support p.eqv (pre ++ (p.self, m) :: post) m).card) := by
  have := (self_complete_iff hp hsr pre post m hids hno).1 hc
  constructor
  · split at this <;> omega
  · intro hne
    rw [if_neg] at this
    · exact this
    · rintro ⟨x, hx⟩
      simp only [support, Finset.mem_filter] at hx
      obtain ⟨-, a, ha, hea⟩ := hx
      have := hne (x, a) (mem_of_find ha)
      simp only at this
      rw [hea] at this; cases this

/-- The checkpoint certificate of a replica (CheckpointInfo.hpp 100-107): `F` faulty, `C` slow. -/
def checkpointParams (F C self : Nat) (eqv : M → M → Bool) : Params M :=
  { n := 3 * F + 2 * C + 1, maxFails := F, required := 2 * F + C + 1, self := self, selfTrust := true,
    selfRequired := true, keepAll := true, eqv := eqv }

/-- The full property fails for every configuration with `F ≥ 1`: `2F + C - 1` peers' checkpoint messages followed by
the replica's own complete the certificate, although only `2F + C` distinct replicas agree. (For F = 1, C = 0 one
peer, possibly faulty, suffices.) -/
theorem self_double_count (F C : Nat) (hF : 1 ≤ F) (eqv : M → M → Bool) (he : IsEqv eqv) (m : M) :
    let p := checkpointParams F C 0 eqv
    let ops := (List.range' 1 (2 * F + C - 1)).map (fun i => (i, m)) ++ [(0, m)]
    (run p {} ops).complete = true ∧ (senders ops).card = 2 * F + C ∧ p.required = 2 * F + C + 1 := by
  intro p ops
  have hp : p.Ok := ⟨he, by show 2 ≤ 2 * F + C + 1; omega, by show 2 * F + C + 1 ≤ 3 * F + 2 * C + 1; omega, fun _ => rfl⟩
  have hsend : (senders ops).card = 2 * F + C := by
    have hnd : (ops.map (·.1)).Nodup := by
      simp only [ops, List.map_append, List.map_map, List.map_cons, List.map_nil]
      rw [List.nodup_append]
      refine ⟨?_, by simp, ?_⟩
      · have : ((fun x : Nat × M => x.1) ∘ fun i => (i, m)) = id := rfl
        rw [this, List.map_id]; exact List.nodup_range'
      · intro a ha b hb hab
        simp at ha hb; omega
    unfold senders
    rw [List.toFinset_card_of_nodup hnd]
    simp [ops]; omega
  have hall : ∀ e ∈ ops, e.2 = m := by
    intro e he; simp [ops] at he
    rcases he with ⟨i, -, rfl⟩ | rfl <;> rfl
  have hsup : ∀ l : List (Nat × M), (∀ e ∈ l, e.2 = m) → support eqv l m = senders l := by
    intro l hl
    unfold support
    apply Finset.filter_true_of_mem
    intro x hx
    obtain ⟨e, he1, he2⟩ := List.mem_map.1 (List.mem_toFinset.1 hx)
    cases hf : l.find? (fun e => e.1 == x) with
    | none => have := List.find?_eq_none.1 hf e he1; simp [he2] at this
    | some y =>
      refine ⟨y.2, by unfold firstOf; rw [hf]; rfl, ?_⟩
      rw [hl y (List.mem_of_find?_eq_some hf)]; exact he.refl m
  refine ⟨?_, hsend, rfl⟩
  have := (self_complete_iff hp rfl ((List.range' 1 (2 * F + C - 1)).map (fun i => (i, m))) [] m
    (by intro e he; simp at he; obtain ⟨i, hi, rfl⟩ := he; show i < 3 * F + 2 * C + 1; omega)
    (by intro e he; simp at he; obtain ⟨i, hi, rfl⟩ := he; show i ≠ 0; omega)).2
  apply this
  show 2 * F + C + 1 ≤ (support eqv ops m).card + _
  rw [hsup ops hall, hsend, if_pos]
  rw [show p.eqv = eqv from rfl, hsup _ (by intro e he; simp at he; obtain ⟨i, -, rfl⟩ := he; rfl)]
  exact ⟨1, by simp [senders]; omega⟩

/-! ### Non-vacuity -/

private def eqN : Nat → Nat → Bool := fun a b => a == b
theorem eqN_isEqv : IsEqv eqN := 
  ⟨fun a => by simp [eqN], fun a b h => by simp only [eqN, beq_iff_eq] at *; omega,
    fun a b c h1 h2 => by simp only [eqN, beq_iff_eq] at *; omega⟩

/-- a client of a 4-replica system (SimpleClientImp.cpp 110, 178): quorum 3, f = 1 -/
private def pc : Params Nat :=
  { n := 4, maxFails := 1, required := 3, self := 9, selfTrust := false, selfRequired := false, keepAll := true, eqv := eqN }
example : pc.Ok := ⟨eqN_isEqv, by decide, by decide, by decide⟩
-- a conflicting and a repeated reply do not count; the third agreeing sender completes
example : (run pc {} [(0, 7), (1, 8), (0, 7), (2, 7)]).complete = false := by decide
example : (run pc {} [(0, 7), (1, 8), (0, 7), (2, 7), (3, 7)]).complete = true := by decide
example : (run pc {} [(0, 7), (1, 8), (0, 7), (2, 7), (3, 7)]).bestCorrectMsg pc = some 7 := by decide
example : (run pc {} [(0, 7), (1, 8), (2, 9)]).isInconsistent pc = true := by decide
example : (checkpointParams 1 0 0 eqN).Ok := ⟨eqN_isEqv, by decide, by decide, by decide⟩
example : (run (checkpointParams 1 0 0 eqN) {} [(1, 7), (0, 7)]).complete = true := by decide
example : (run (checkpointParams 1 0 0 eqN) {} [(0, 7), (1, 7)]).complete = false := by decide

end Concord.Cert
