import Verif.Exec.Props
import Verif.Clients.Proofs2
/-! # C13: when can a request be executed twice; counterexamples for C12 and C13; link to the clients manager -/
set_option linter.unusedSimpArgs false
set_option linter.unusedVariables false
namespace Verif.Exec

variable {Blk Rep : Type}

/-- the reply of `r` is recorded in slot `(cl, i)` -/
def Writes (c : Cfg) (r : Req) (cl i : Nat) : Prop :=
  ¬ r.client ∈ c.internal ∧ r.client ∈ c.clients ∧ r.client = cl ∧ r.idx = i

theorem storeAll_get {c : Cfg} {cl i : Nat} : ∀ (g : List Req) (xs : List Rep) (t : Tbl Rep), xs.length = g.length →
    (storeAll c t g xs cl i = t cl i ∧ ∀ r ∈ g, ¬ Writes c r cl i) ∨
    (∃ r ∈ g, Writes c r cl i ∧ ∃ x, storeAll c t g xs cl i = some (r.seq, x)) := by
  intro g
  induction g with
  | nil => intro xs t hl; cases xs with
    | nil => exact .inl ⟨rfl, by intro r hr; cases hr⟩
    | cons _ _ => simp at hl
  | cons a l ih =>
    intro xs t hl
    cases xs with
    | nil => simp at hl
    | cons x xs =>
      rcases ih xs (store c t a x) (by simpa using hl) with ⟨h1, h2⟩ | ⟨r, hr, h1, h2⟩
      · simp only [storeAll]
        by_cases hw : Writes c a cl i
        · refine .inr ⟨a, List.mem_cons_self .., hw, x, ?_⟩
          rw [h1]
          unfold store
          rw [if_neg hw.1, if_neg (by simp [hw.2.1]), if_pos ⟨hw.2.2.1.symm, hw.2.2.2.symm⟩]
        · refine .inl ⟨?_, ?_⟩
          · rw [h1]
            unfold store
            split
            · rfl
            · split
              · rfl
              · rename_i e1 e2
                apply if_neg
                rintro ⟨e3, e4⟩
                exact hw ⟨e1, Decidable.not_not.1 e2, e3.symm, e4.symm⟩
          · intro r hr
            rcases List.mem_cons.1 hr with rfl | hr
            · exact hw
            · exact h2 r hr
      · exact .inr ⟨r, List.mem_cons_of_mem _ hr, h1, h2⟩

/-- one batch: a slot keeps its contents or holds the reply of a request executed in the batch; if a request of the
batch writes the slot, it holds such a reply -/
theorem batch_slot {c : Cfg} {app : App Blk Rep} {s : Nat} {b : Batch} {w : World Blk Rep} {cl i : Nat} :
    ((batchStep c app s b w).tbl cl i = w.tbl cl i ∧ (b.reqs = [] ∨ ∀ r ∈ chosen c w.tbl b, ¬ Writes c r cl i)) ∨
    (∃ r ∈ chosen c w.tbl b, Writes c r cl i ∧ ∃ x, (batchStep c app s b w).tbl cl i = some (r.seq, x)) := by
  unfold batchStep chosen
  split
  · rename_i hb; exact .inl ⟨rfl, .inl hb⟩
  · simp only
    rcases storeAll_get (c := c) (cl := cl) (i := i) (wanted c w.tbl b) _ _ (runAll_length (app := app) (s := s)
      (t := if b.time > w.time then b.time else w.time + c.eps) (wanted c w.tbl b) (first c b).length
      (runAll app s (if b.time > w.time then b.time else w.time + c.eps) (first c b) 0 w.chain).1) with ⟨h1, h2⟩ | ⟨r, hr, h1, h2⟩
    · rw [h1]
      rcases storeAll_get (c := c) (cl := cl) (i := i) (first c b) _ w.tbl (runAll_length (app := app) (s := s)
        (t := if b.time > w.time then b.time else w.time + c.eps) (first c b) 0 w.chain) with ⟨h3, h4⟩ | ⟨r, hr, h3, h4⟩
      · refine .inl ⟨h3, .inr ?_⟩
        intro r hr
        rcases List.mem_append.1 hr with hr | hr
        · exact h4 r hr
        · exact h2 r hr
      · exact .inr ⟨r, List.mem_append_left _ hr, h3, h4⟩
    · exact .inr ⟨r, List.mem_append_right _ hr, h1, h2⟩

/-- C13 at the level of batches: if a client's request is executed for batch `a` and an ordinary request with the same
client and number is executed again for a later batch `b`, then in between (batch `a` included) the client's reply slot
was taken by another request of the same client with the same index and a different number. -/
theorem repeated_only_after_eviction {c : Cfg} {app : App Blk Rep} {log : Nat → Batch} {time0 : Int} {a b : Nat} (hab : a < b)
    {r r' : Req} (hr : r ∈ chosen c (world c app log time0 a).tbl (log (a + 1)))
    (hr' : r' ∈ wanted c (world c app log time0 b).tbl (log (b + 1)))
    (hcl : r'.client = r.client) (hq : r'.seq = r.seq) (hk : r.client ∈ c.clients) (hi : ¬ r.client ∈ c.internal)
    (hx : r.idx < c.maxReqs) :
    ∃ m, a ≤ m ∧ m < b ∧ ∃ e ∈ chosen c (world c app log time0 m).tbl (log (m + 1)),
      e.client = r.client ∧ e.idx = r.idx ∧ e.seq ≠ r.seq := by
  apply Classical.byContradiction
  intro hno
  have hno : ∀ m, a ≤ m → m < b → ∀ e ∈ chosen c (world c app log time0 m).tbl (log (m + 1)),
      e.client = r.client → e.idx = r.idx → e.seq = r.seq := by
    intro m h1 h2 e he h3 h4
    apply Classical.byContradiction
    intro h5
    exact hno ⟨m, h1, h2, e, he, h3, h4, h5⟩
  have key : ∀ m, a < m → m ≤ b → ∃ x, (world c app log time0 m).tbl r.client r.idx = some (r.seq, x) := by
    intro m
    induction m with
    | zero => intro h; omega
    | succ m ih =>
      intro h1 h2
      show ∃ x, (batchStep c app (m + 1) (log (m + 1)) (world c app log time0 m)).tbl r.client r.idx = some (r.seq, x)
      rcases batch_slot (c := c) (app := app) (s := m + 1) (b := log (m + 1)) (w := world c app log time0 m) (cl := r.client) (i := r.idx)
        with ⟨h3, h4⟩ | ⟨e, he, h3, x, h4⟩
      · rw [h3]
        by_cases hm : a = m
        · subst hm
          rcases h4 with h4 | h4
          · exfalso
            have hr0 := hr
            unfold chosen first wanted specialsOf at hr0
            rw [h4] at hr0
            cases hsep : c.sep <;> simp [hsep] at hr0
          · exact absurd ⟨hi, hk, rfl, rfl⟩ (h4 r hr)
        · exact ih (by omega) (by omega)
      · refine ⟨x, ?_⟩
        rw [h4, hno m (by omega) (by omega) e he h3.2.2.1 h3.2.2.2]
  obtain ⟨x, hx'⟩ := key b hab (Nat.le_refl _)
  unfold wanted at hr'
  have := (List.mem_filter.1 hr').2
  simp only [decide_eq_true_eq] at this
  exact this.2.2.1 ⟨by rw [hcl]; exact hk, r.idx, hx, x, by rw [hcl, hq]; exact hx'⟩

theorem mem_attempts {full : List Req} {ks : List Nat} {r : Req} (h : r ∈ attempts full ks) : r ∈ full := by
  unfold attempts at h
  obtain ⟨l, hl, hr⟩ := List.mem_flatten.1 h
  obtain ⟨k, _, rfl⟩ := List.mem_map.1 hl
  exact List.mem_of_mem_take hr

theorem mem_callsFor {s : Nat} {calls : List (Nat × Req)} {r : Req} : r ∈ callsFor s calls ↔ (s, r) ∈ calls := by
  unfold callsFor
  simp only [List.mem_map, List.mem_filter, beq_iff_eq]
  constructor
  · rintro ⟨⟨a, b⟩, ⟨h1, h2⟩, h3⟩; simp only at h2 h3; rw [← h2, ← h3]; exact h1
  · intro h; exact ⟨(s, r), ⟨h, rfl⟩, rfl⟩

/-- every application call is for a request chosen by the specification -/
theorem call_chosen {c : Cfg} {app : App Blk Rep} {log : Nat → Batch} {time0 : Int} (he : 0 ≤ c.eps) (hd : 0 < c.maxDel)
    (hns : NoSpecial c log) {es : List Ev} {s : St Blk Rep} (h : Run c app log (init time0) es s) {k : Nat} {r : Req}
    (hr : (k + 1, r) ∈ s.calls) : k ≤ s.lastExec ∧ r ∈ wanted c (world c app log time0 k).tbl (log (k + 1)) := by
  have hi := inv_run he hd h (.inl hns)
  have hle := ((in_order h).2.1 _ hr).2.1
  simp only at hle
  refine ⟨by omega, ?_⟩
  have hch : chosen c (world c app log time0 k).tbl (log (k + 1)) = wanted c (world c app log time0 k).tbl (log (k + 1)) := by
    rw [← callsOf_prog]
    exact (congrArg callsOf (noSpecial_prog hns (world c app log time0 k) (k + 1)).1).trans (callsOf_group _)
  rw [← hch]
  have hr' := mem_callsFor.2 hr
  rcases Nat.lt_or_ge k s.lastExec with hlt | hge
  · obtain ⟨ks, -, h2⟩ := hi.past k hlt
    rw [h2] at hr'
    rcases List.mem_append.1 hr' with hr' | hr'
    · exact mem_attempts hr'
    · exact hr'
  · have hk : k = s.lastExec := by omega
    subst hk
    have hp := hi.phase
    unfold PhaseOk at hp
    split at hp
    · rw [hp.2.2.2.2] at hr'; cases hr'
    · obtain ⟨_, _, _, _, _, _, ks, h1, h2⟩ := hp
      rw [h2] at hr'; exact mem_attempts hr'
    · rename_i p _ _ _ _
      obtain ⟨dn, T, e1, _, _, _, _, ks, h1, h2⟩ := hp
      rw [h2] at hr'
      rcases List.mem_append.1 hr' with hr' | hr'
      · exact mem_attempts hr'
      · obtain ⟨m, hm⟩ := @callsOf_take dn p
        rw [hm, e1] at hr'
        unfold nextProg at hr'
        rw [callsOf_prog] at hr'
        exact List.mem_of_mem_take hr'
    · obtain ⟨_, _, ks, h1, h2⟩ := hp
      rw [h2] at hr'; exact mem_attempts hr'
    · obtain ⟨_, _, ks, h1, h2⟩ := hp
      rw [h2] at hr'; exact mem_attempts hr'

/-- C13 for runs: if the application is called for the same client and request number under two different sequence
numbers, then in between another request of that client with the same index (and another number) was executed.  So a
client whose requests carry indices that are not reused for other numbers is never served twice. -/
theorem executed_again_only_after_eviction_partial {c : Cfg} {app : App Blk Rep} {log : Nat → Batch} {time0 : Int} (he : 0 ≤ c.eps)
    (hd : 0 < c.maxDel) (hns : NoSpecial c log) {es : List Ev} {s : St Blk Rep} (h : Run c app log (init time0) es s)
    {a b : Nat} {r r' : Req} (h1 : (a + 1, r) ∈ s.calls) (h2 : (b + 1, r') ∈ s.calls) (hab : a < b)
    (hcl : r'.client = r.client) (hq : r'.seq = r.seq) (hk : r.client ∈ c.clients) (hi : ¬ r.client ∈ c.internal)
    (hx : r.idx < c.maxReqs) :
    ∃ m e, a ≤ m ∧ m < b ∧ (m + 1, e) ∈ s.calls ∧ e.client = r.client ∧ e.idx = r.idx ∧ e.seq ≠ r.seq := by
  have c1 := call_chosen he hd hns h h1
  have c2 := call_chosen he hd hns h h2
  obtain ⟨m, m1, m2, e, e1, e2⟩ := repeated_only_after_eviction (app := app) (time0 := time0) hab (List.mem_append_right _ c1.2) c2.2 hcl hq hk hi hx
  refine ⟨m, e, m1, m2, ?_, e2⟩
  obtain ⟨ks, -, h3⟩ := (inv_run he hd h (.inl hns)).past m (by omega)
  rw [← mem_callsFor, h3]
  exact List.mem_append_right _ e1

/-- C13: within one batch, without crashes, a request is executed twice only if the batch contains it twice -/
theorem within_batch_partial {c : Cfg} {app : App Blk Rep} {log : Nat → Batch} {time0 : Int} (he : 0 ≤ c.eps) (hd : 0 < c.maxDel)
    (hns : NoSpecial c log) {es : List Ev} {s : St Blk Rep} (h : Run c app log (init time0) es s) (hc : s.crashes = 0)
    {k : Nat} (hdist : ((log (k + 1)).reqs.map (fun r => (r.client, r.seq))).Nodup) :
    ((callsFor (k + 1) s.calls).map (fun r => (r.client, r.seq))).Nodup := by
  obtain ⟨h1, ⟨m, h2⟩, h3⟩ := each_batch_once he hd h hc
  have hch : ∀ k, chosen c (world c app log time0 k).tbl (log (k + 1)) = wanted c (world c app log time0 k).tbl (log (k + 1)) := by
    intro k
    rw [← callsOf_prog]
    exact (congrArg callsOf (noSpecial_prog hns (world c app log time0 k) (k + 1)).1).trans (callsOf_group _)
  have hsub : (callsFor (k + 1) s.calls).Sublist (log (k + 1)).reqs := by
    rcases Nat.lt_trichotomy k s.lastExec with hlt | heq | hgt
    · rw [h1 k hlt, hch]; exact List.filter_sublist
    · subst heq; rw [h2, hch]; exact (List.take_sublist _ _).trans List.filter_sublist
    · rw [h3 (k + 1) (by omega)]; exact List.nil_sublist _
  exact (hsub.map _).nodup hdist

/-! ## concrete runs -/

set_option maxRecDepth 20000

/-- run a list of events -/
def exec {Blk Rep : Type} (c : Cfg) (app : App Blk Rep) (log : Nat → Batch) (s : St Blk Rep) : List Ev → Option (St Blk Rep)
  | [] => some s
  | e :: es => match step c app log s e with
    | none => none
    | some s' => exec c app log s' es

theorem exec_run {c : Cfg} {app : App Blk Rep} {log : Nat → Batch} : ∀ (es : List Ev) (s s' : St Blk Rep),
    exec c app log s es = some s' → Run c app log s es s' := by
  intro es
  induction es with
  | nil => intro s s' h; cases h; exact .nil
  | cons e es ih =>
    intro s s' h
    unfold exec at h
    split at h
    · cases h
    · rename_i s1 h1
      exact run_trans (run_one h1) (ih s1 s' h)

/-- an application that appends one block with the request's contents -/
def exApp : App Nat Nat := ⟨fun _ _ _ _ r => ([r.body], r.body + 1)⟩

def exCfg (sep : Bool) : Cfg := { sep := sep, n := 4, clients := [10, 11, 20], internal := [20], maxReqs := 1, eps := 1, maxDel := 5 }

def rq (client seq body : Nat) : Req := { client := client, seq := seq, idx := 0, len := 3, special := false, replicaOk := false, body := body }

/-- three batches: requests of clients 10 and 11 -/
def exLog : Nat → Batch
  | 1 => ⟨0, 5, [rq 10 1 7]⟩
  | 2 => ⟨0, 6, [rq 11 1 8, rq 10 2 9]⟩
  | _ => ⟨0, 7, [rq 10 2 9, rq 11 5 3]⟩

/-- the view of a state used in examples -/
def view (s : St Nat Nat) : Nat × Nat × List Nat × List (Nat × Nat) × Int × Nat :=
  (s.lastExec, s.lastBlock, s.chain, s.calls.map (fun p => (p.1, p.2.body)), s.time, s.crashes)

/-- a crash in the middle of batch 2, one during recovery, and the result of three batches -/
def exRun : List Ev :=
  [.commit 1, .start, .tick, .instr, .instr, .finish, .commit 2, .commit 3, .start, .tick, .instr, .instr, .instr, .crash,
   .boot, .del, .crash, .boot, .del, .up, .tick, .instr, .crash, .boot, .del, .up, .tick, .instr, .instr, .instr, .instr,
   .finish, .start, .tick, .instr, .instr, .finish]

theorem exNoSpecial (sep : Bool) : NoSpecial (exCfg sep) exLog := by
  intro _ s r hr
  unfold exLog at hr
  split at hr <;> simp [rq] at hr <;> rcases hr with rfl | rfl <;> rfl

/-- non-vacuity: the crash theorem's hypotheses are met by a run with three crashes; the chain is that of a clean run -/
theorem crash_example : ∃ s, Run (exCfg true) exApp exLog (init 0) exRun s ∧ s.crashes = 3 ∧ s.lastExec = 3 ∧
    s.chain = [7, 8, 9, 3] ∧ s.calls.map (fun p => (p.1, p.2.body)) = [(1, 7), (2, 8), (2, 9), (2, 8), (2, 8), (2, 9), (3, 3)] := by
  have h : ∃ s, exec (exCfg true) exApp exLog (init 0) exRun = some s ∧ s.crashes = 3 ∧ s.lastExec = 3 ∧ s.chain = [7, 8, 9, 3] ∧
      s.calls.map (fun p => (p.1, p.2.body)) = [(1, 7), (2, 8), (2, 9), (2, 8), (2, 8), (2, 9), (3, 3)] := ⟨_, rfl, by decide⟩
  obtain ⟨s, h1, h2⟩ := h
  exact ⟨s, exec_run _ _ _ h1, h2⟩

/-- non-vacuity of `recovers`: stopped in the middle of batch 2 with a block from batch 1 -/
theorem recovers_example : ∃ s d, Run (exCfg true) exApp exLog (init 0) (exRun.take 14) s ∧ s.phase = .down ∧ s.desc = some d ∧
    d.seq > s.lastExec ∧ 0 < s.lastBlock ∧ ∀ r ∈ (exLog (s.lastExec + 1)).reqs, r.idx < (exCfg true).maxReqs := by
  have h : ∃ s, exec (exCfg true) exApp exLog (init 0) (exRun.take 14) = some s ∧ s.phase = .down ∧ s.desc = some ⟨2, [true, true], 5⟩ ∧
    s.lastExec = 1 ∧ s.lastBlock = 1 := ⟨_, rfl, rfl, rfl, rfl, rfl⟩
  obtain ⟨s, h1, h2, h3, h4, h5⟩ := h
  refine ⟨s, _, exec_run _ _ _ h1, h2, h3, by rw [h4]; decide, by rw [h5]; decide, ?_⟩
  rw [h4]
  decide

/-- a batch with one special request (a reconfiguration command or a key exchange) -/
def spLog : Nat → Batch := fun _ => ⟨0, 5, [{ rq 10 1 7 with special := true }]⟩

/-- Counterexample to C12 in the default configuration: the process dies after the descriptor of a batch with a special
request is durable and before the request is executed.  After recovery the batch counts as executed and the special
request was never passed to the application, although without the crash it is. -/
theorem special_lost :
    (∃ s, Run (exCfg true) exApp spLog (init 0) [.commit 1, .start, .crash, .boot, .up, .tick, .finish] s ∧
      s.phase = .idle ∧ s.lastExec = 1 ∧ s.calls = [] ∧ s.chain = []) ∧
    (∃ s, Run (exCfg true) exApp spLog (init 0) [.commit 1, .start, .tick, .instr, .instr, .finish] s ∧
      s.phase = .idle ∧ s.lastExec = 1 ∧ s.calls = [(1, { rq 10 1 7 with special := true })] ∧ s.chain = [7]) := by
  constructor
  · have h : ∃ s, exec (exCfg true) exApp spLog (init 0) [.commit 1, .start, .crash, .boot, .up, .tick, .finish] = some s ∧
        s.phase = .idle ∧ s.lastExec = 1 ∧ s.calls = [] ∧ s.chain = [] := ⟨_, rfl, rfl, rfl, rfl, rfl⟩
    obtain ⟨s, h1, h2⟩ := h
    exact ⟨s, exec_run _ _ _ h1, h2⟩
  · have h : ∃ s, exec (exCfg true) exApp spLog (init 0) [.commit 1, .start, .tick, .instr, .instr, .finish] = some s ∧
        s.phase = .idle ∧ s.lastExec = 1 ∧ s.calls = [(1, { rq 10 1 7 with special := true })] ∧ s.chain = [7] := ⟨_, rfl, rfl, rfl, rfl, rfl⟩
    obtain ⟨s, h1, h2⟩ := h
    exact ⟨s, exec_run _ _ _ h1, h2⟩

/-- once the only block lies beyond the last block id in the metadata, the replica can never execute again: every restart
throws while deleting that block (replica_state_sync_imp.cpp:116-119) -/
theorem stuck_forever {c : Cfg} {app : App Blk Rep} {log : Nat → Batch} {s s' : St Blk Rep} {es : List Ev} (hm : 0 < c.maxDel)
    (h : Run c app log s es s') (hp : s.phase = .down) (h1 : s.chain.length = 1) (h0 : s.lastBlock = 0) :
    (s'.phase = .down ∨ s'.phase = .syncing 0) ∧ s'.chain = s.chain ∧ s'.lastBlock = 0 ∧ s'.lastExec = s.lastExec ∧ s'.calls = s.calls := by
  induction h with
  | nil => exact ⟨.inl hp, rfl, h0, rfl, rfl⟩
  | @snoc es s1 s2 e _ hs ih =>
    obtain ⟨a1, a2, a3, a4, a5⟩ := ih
    have hl : s1.chain.length > s1.lastBlock := by rw [a2, a3]; omega
    have hl1 : s1.chain.length = 1 := by rw [a2]; exact h1
    rcases a1 with a1 | a1
    · cases e <;> simp only [step, a1] at hs
      · cases hs; exact ⟨.inl rfl, a2, a3, a4, a5⟩
      · split at hs
        · cases hs; exact ⟨.inl rfl, a2, a3, a4, a5⟩
        · cases hs
      all_goals first | (cases hs; done) | (cases hs; exact ⟨.inr rfl, a2, a3, a4, a5⟩)
    · have hm' : ¬ c.maxDel = 0 := by omega
      cases e <;> simp only [step, a1] at hs
      · cases hs; exact ⟨.inr rfl, a2, a3, a4, a5⟩
      · split at hs
        · cases hs; exact ⟨.inr rfl, a2, a3, a4, a5⟩
        · cases hs
      all_goals first | (cases hs; done) | skip
      · cases hs; exact ⟨.inl rfl, a2, a3, a4, a5⟩
      · simp only [hm', hl, if_true, if_false] at hs
        rw [if_pos hl1] at hs
        cases hs
        exact ⟨.inl rfl, a2, a3, a4, a5⟩
      · rw [if_pos ⟨by omega, hl⟩] at hs; cases hs

/-- the state of `stuck_forever` is reached: a crash while the first batch, which adds the first block, is executed -/
theorem first_block_stuck : ∃ s, Run (exCfg true) exApp exLog (init 0) [.commit 1, .start, .tick, .instr, .crash] s ∧
    ∀ es s', Run (exCfg true) exApp exLog s es s' → s'.lastExec = 0 ∧ s'.phase ≠ .idle := by
  have h : ∃ s, exec (exCfg true) exApp exLog (init 0) [.commit 1, .start, .tick, .instr, .crash] = some s ∧
      s.phase = .down ∧ s.chain.length = 1 ∧ s.lastBlock = 0 ∧ s.lastExec = 0 := ⟨_, rfl, rfl, rfl, rfl, rfl⟩
  obtain ⟨s, h1, h2, h3, h4, h5⟩ := h
  refine ⟨s, exec_run _ _ _ h1, ?_⟩
  intro es s' hr
  have := stuck_forever (by decide) hr h2 h3 h4
  refine ⟨by rw [this.2.2.2.1, h5], ?_⟩
  rcases this.1 with h | h <;> rw [h] <;> intro hh <;> cases hh

/-- Counterexamples to C13: (1) a batch that contains the same request twice executes it twice; (2) a request re-proposed
after its reply was evicted by a newer request is executed again; (3) requests of internal clients, whose replies are
not recorded, are executed each time they are proposed. -/
def dupLog : Nat → Batch := fun _ => ⟨0, 5, [rq 10 1 7, rq 10 1 7]⟩
def replayLog : Nat → Batch
  | 1 => ⟨0, 5, [rq 10 1 7]⟩
  | 2 => ⟨0, 6, [rq 10 2 8]⟩
  | _ => ⟨0, 7, [rq 10 1 7]⟩
def internalLog : Nat → Batch := fun _ => ⟨0, 5, [rq 20 1 7]⟩

theorem duplicate_executed_twice : ∃ s, Run (exCfg true) exApp dupLog (init 0)
    [.commit 1, .start, .tick, .instr, .instr, .instr, .instr, .finish] s ∧ s.crashes = 0 ∧ s.chain = [7, 7] ∧
    s.calls = [(1, rq 10 1 7), (1, rq 10 1 7)] := by
  have h : ∃ s, exec (exCfg true) exApp dupLog (init 0) [.commit 1, .start, .tick, .instr, .instr, .instr, .instr, .finish] = some s ∧
      s.crashes = 0 ∧ s.chain = [7, 7] ∧ s.calls = [(1, rq 10 1 7), (1, rq 10 1 7)] := ⟨_, rfl, rfl, rfl, rfl⟩
  obtain ⟨s, h1, h2⟩ := h
  exact ⟨s, exec_run _ _ _ h1, h2⟩

theorem replay_executed_twice : ∃ s es, Run (exCfg true) exApp replayLog (init 0) es s ∧ s.crashes = 0 ∧ s.chain = [7, 8, 7] ∧
    s.calls = [(1, rq 10 1 7), (2, rq 10 2 8), (3, rq 10 1 7)] := by
  have h : ∃ s, exec (exCfg true) exApp replayLog (init 0) [.commit 1, .commit 2, .commit 3, .start, .tick, .instr, .instr, .finish,
        .start, .tick, .instr, .instr, .finish, .start, .tick, .instr, .instr, .finish] = some s ∧
      s.crashes = 0 ∧ s.chain = [7, 8, 7] ∧ s.calls = [(1, rq 10 1 7), (2, rq 10 2 8), (3, rq 10 1 7)] := ⟨_, rfl, rfl, rfl, rfl⟩
  obtain ⟨s, h1, h2⟩ := h
  exact ⟨s, _, exec_run _ _ _ h1, h2⟩

theorem internal_executed_twice : ∃ s es, Run (exCfg true) exApp internalLog (init 0) es s ∧ s.crashes = 0 ∧
    s.calls = [(1, rq 20 1 7), (2, rq 20 1 7)] := by
  have h : ∃ s, exec (exCfg true) exApp internalLog (init 0) [.commit 1, .commit 2, .start, .tick, .instr, .instr, .finish,
        .start, .tick, .instr, .instr, .finish] = some s ∧
      s.crashes = 0 ∧ s.calls = [(1, rq 20 1 7), (2, rq 20 1 7)] := ⟨_, rfl, rfl, rfl⟩
  obtain ⟨s, h1, h2⟩ := h
  exact ⟨s, _, exec_run _ _ _ h1, h2⟩

/-! ## the reply table used here is the clients manager of C14 -/

/-- the table of a clients manager state -/
def tableOf (i : Verif.Clients.Info) (idx : Nat) : Option Nat := (i.reps.find? (fun p => p.2 == idx)).map (·.1)

theorem tableOf_iff {m : Nat} {i : Verif.Clients.Info} (h : Verif.Clients.Shape m i) {idx q : Nat} :
    tableOf i idx = some q ↔ (q, idx) ∈ i.reps := by
  unfold tableOf
  constructor
  · intro h1
    obtain ⟨p, hp, rfl⟩ := Option.map_eq_some_iff.1 h1
    have h2 := List.find?_some hp
    simp only [beq_iff_eq] at h2
    have := List.mem_of_find?_eq_some hp
    rw [← h2]
    exact this
  · intro h1
    cases hf : i.reps.find? (fun p => p.2 == idx) with
    | none =>
      have := List.find?_eq_none.1 hf _ h1
      simp at this
    | some p =>
      have h2 := List.find?_some hf
      simp only [beq_iff_eq] at h2
      have h3 := List.mem_of_find?_eq_some hf
      have := Verif.ListU.inj_of_nodup_map h.repIdx h3 h1 h2
      rw [this]; rfl

/-- `hasReply` of the clients manager is `hasReply` of this model -/
theorem bridge_hasReply {c : Verif.Clients.Cfg} {s : Verif.Clients.St} (h : Verif.Clients.Shaped c s) (id q : Nat) :
    Verif.Clients.hasReply c s id q = true ↔ id ∈ c.ids ∧ ∃ idx, idx < c.maxReqs ∧ tableOf (s.info id) idx = some q := by
  unfold Verif.Clients.hasReply
  simp only [Bool.and_eq_true, decide_eq_true_eq, Verif.Clients.hasRep_iff, List.mem_map]
  constructor
  · rintro ⟨h1, ⟨a, b⟩, h2, rfl⟩
    exact ⟨h1, b, (h id).repLt _ h2, (tableOf_iff (h id)).2 h2⟩
  · rintro ⟨h1, idx, h2, h3⟩
    exact ⟨h1, (q, idx), (tableOf_iff (h id)).1 h3, rfl⟩

/-- storing a reply in the clients manager is `store` of this model, provided the request number is not zero and does not
already occupy another index (a request is not executed while it has a reply, and batches name a request once) -/
theorem bridge_store {c : Verif.Clients.Cfg} (hc : Verif.Clients.CfgOk c) {s s' : Verif.Clients.St} (h : Verif.Clients.Inv c s)
    {id q p idx res : Nat} {data : Verif.Bytes.Bytes} {r : Option Verif.Clients.Reply}
    (hok : Verif.Clients.ReplyOk c id q res data)
    (hs : Verif.Clients.newReply c s id q p idx res data = some (s', r)) (hid : id ∈ c.ids)
    (hfree : ∀ j, j ≠ idx → tableOf (s.info id) j ≠ some q) (cl j : Nat) :
    tableOf (s'.info cl) j = if cl = id ∧ j = idx then some q else tableOf (s.info cl) j := by
  obtain ⟨hlt, hor⟩ := Verif.Clients.newReply_some hs
  rcases hor with ⟨hn, -⟩ | ⟨-, hr⟩
  · exact absurd hid hn
  cases hr
  by_cases hcl : cl = id
  · subst hcl
    have hsh := h.shaped cl
    have hsh' := Verif.Clients.shape_store hsh q idx hlt
    have hinfo : ((s.setInfo cl { s.info cl with reps := Verif.Clients.insertRep q idx (Verif.Clients.deleteRep idx (s.info cl).reps) }).info cl) =
        { s.info cl with reps := Verif.Clients.insertRep q idx (Verif.Clients.deleteRep idx (s.info cl).reps) } := by
      simp [Verif.Clients.St.setInfo]
    show tableOf ((s.setInfo cl { s.info cl with reps := Verif.Clients.insertRep q idx (Verif.Clients.deleteRep idx (s.info cl).reps) }).info cl) j = _
    rw [hinfo]
    have h0 : ∀ p ∈ (s.info cl).reps, p.1 ≠ 0 := fun p hp => (h.recs cl p.1 p.2 hp).2.2.1
    have hdel := Verif.Clients.deleteRep_idx hsh.repIdx h0 idx
    have hnoq : ∀ p ∈ Verif.Clients.deleteRep idx (s.info cl).reps, p.1 ≠ q := by
      intro p hp e
      have hm := (Verif.Clients.deleteRep_sublist idx (s.info cl).reps).subset hp
      exact hfree p.2 (hdel p hp) ((tableOf_iff hsh).2 (by rw [← e]; exact hm))
    have hins : Verif.Clients.insertRep q idx (Verif.Clients.deleteRep idx (s.info cl).reps) = (q, idx) :: Verif.Clients.deleteRep idx (s.info cl).reps := by
      unfold Verif.Clients.insertRep
      rw [if_neg]
      simp only [List.any_eq_true, not_exists, not_and, Bool.or_eq_true, beq_iff_eq, not_or]
      intro p hp
      exact ⟨hnoq p hp, hdel p hp⟩
    by_cases hj : j = idx
    · subst hj
      simp only [and_self, if_true]
      exact (tableOf_iff hsh').2 (by rw [hins]; exact List.mem_cons_self ..)
    · simp only [hj, and_false, if_false]
      apply Option.ext
      intro x
      show tableOf _ j = some x ↔ tableOf _ j = some x
      rw [tableOf_iff hsh', tableOf_iff hsh, hins]
      constructor
      · intro hm
        rcases List.mem_cons.1 hm with hm | hm
        · cases hm; exact absurd rfl hj
        · exact (Verif.Clients.deleteRep_sublist idx (s.info cl).reps).subset hm
      · intro hm
        exact List.mem_cons_of_mem _ (Verif.Clients.deleteRep_keep hsh.repSeq hm hj)
  · show tableOf ((s.setInfo id _).info cl) j = _
    simp [Verif.Clients.St.setInfo, hcl]

end Verif.Exec
