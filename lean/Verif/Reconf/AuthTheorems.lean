import Verif.Reconf.AuthSpec
set_option linter.unusedVariables false
set_option linter.unusedSimpArgs false
/-!
# Reconfiguration commands: who can cause what

The statements are about `dispatch`, the processing of one request, and about `run`, the processing of a
history of requests; `Op`, `SignedBy` and `BySender` (AuthSpec) say who has signed a request.
-/
namespace Verif.Auth

theorem dispatch_frame {e : Env} {s s' : St} {seq : Nat} {r : Req} {b : Bool} (h : dispatch e s seq r = .done s' b) : Frame e s r s' :=
  loop_frame seq order s false true (Frame.refl e s r) s' (.inl ⟨b, h⟩)

/-- the records that only the operator may write -/
def operatorKeys (k : Key) : Bool :=
  match k with
  | .wedge | .download | .install | .keyExchange | .addRemove | .addRemoveWedge | .restart | .prune | .pruneCompact => true
  | .cliKeyExchange _ | .cliScale _ | .cliRestart _ => true
  | _ => false

/-! ### one request -/

/-- Without the operator's signature a request changes neither the stop point nor a command record, and
starts no action but a snapshot. -/
theorem operator_only {e : Env} {s s' : St} {seq : Nat} {r : Req} {b : Bool} (h : dispatch e s seq r = .done s' b) (ho : ¬ Op e r) :
    s'.stop = s.stop ∧ (∀ k, operatorKeys k = true → s'.chain k = s.chain k) ∧
    ∃ l, s'.acts = s.acts ++ l ∧ ∀ a ∈ l, ∃ q, a = .snapshot q := by
  have f := dispatch_frame h
  refine ⟨f.stop.resolve_right ho, ?_, ?_⟩
  · intro k hk
    rcases f.chain k with h1 | ⟨_, h2⟩
    · exact h1
    · cases k <;> simp only [operatorKeys, Bool.false_eq_true] at hk <;> exact absurd h2 ho
  · obtain ⟨l, h1, h2⟩ := f.acts
    exact ⟨l, h1, fun a ha => (h2 a ha).elim (fun h => absurd h ho) (fun h => h.1)⟩

/-- A record of a client's or replica's own key, scaling or restart changes only by a request that carries
that sender's number and verifies under the sender's key; replica records only for replica numbers. -/
theorem own_records {e : Env} {s s' : St} {seq : Nat} {r : Req} {b : Bool} (h : dispatch e s seq r = .done s' b) (x : Nat) :
    (∀ k, k = .cliKey x ∨ k = .cliScaled x ∨ k = .cliRestarted x → s'.chain k ≠ s.chain k →
      s'.chain k = some r.text ∧ x = r.id ∧ SignedBy e s r (pid x)) ∧
    (∀ k, k = .repMain x ∨ k = .repTls x → s'.chain k ≠ s.chain k →
      s'.chain k = some r.text ∧ x = r.id ∧ x < e.n ∧ SignedBy e s r (pid x)) := by
  have f := dispatch_frame h
  constructor
  · intro k hk hne
    rcases f.chain k with h1 | ⟨h1, h2⟩
    · exact absurd h1 hne
    · rcases hk with rfl | rfl | rfl <;> (obtain ⟨h2, h3⟩ := h2; subst h2; exact ⟨h1, rfl, h3⟩)
  · intro k hk hne
    rcases f.chain k with h1 | ⟨h1, h2⟩
    · exact absurd h1 hne
    · rcases hk with rfl | rfl <;> (obtain ⟨h2, h3, h4⟩ := h2; subst h2; exact ⟨h1, rfl, h3, h4⟩)

/-- A verification key changes only by a `ClientExchangePublicKey` signed by its sender, only for the
clients it names (or the sender's group), only for client numbers, and only to the key it carries. -/
theorem verification_keys {e : Env} {s s' : St} {seq : Nat} {r : Req} {b : Bool} (h : dispatch e s seq r = .done s' b) (c : Nat)
    (hc : s'.keys c ≠ s.keys c) :
    BySender e s r ∧ (e.ext c = true ∨ e.svc c = true) ∧ ∃ key aff, r.cmd = .clientKey key aff ∧ c ∈ targets e r aff ∧ s'.keys c = some key := by
  rcases (dispatch_frame h).keys with h1 | ⟨h1, key, aff, h2, h3⟩
  · exact absurd (congrFun h1 c) hc
  · obtain ⟨h4, h5, h6⟩ := h3 c hc
    exact ⟨h1, h6, key, aff, h2, h4, h5⟩

/-- the same for the keys in the reserved pages -/
theorem stored_keys {e : Env} {s s' : St} {seq : Nat} {r : Req} {b : Bool} (h : dispatch e s seq r = .done s' b) (c : Nat)
    (hc : s'.stored c ≠ s.stored c) :
    BySender e s r ∧ ∃ key aff, r.cmd = .clientKey key aff ∧ c ∈ targets e r aff ∧ s'.stored c = some key := by
  rcases (dispatch_frame h).stored with h1 | ⟨h1, key, aff, h2, h3⟩
  · exact absurd (congrFun h1 c) hc
  · obtain ⟨h4, h5⟩ := h3 c hc
    exact ⟨h1, key, aff, h2, h4, h5⟩

/-- What a request without a valid signature can do when requests are signed at all: nothing, except that a
`ClientExchangePublicKey` publishes the unchanged client keys in a new block and overwrites a key file. -/
theorem unsigned {e : Env} {s s' : St} {seq : Nat} {r : Req} {b : Bool} (h : dispatch e s seq r = .done s' b)
    (hs : e.signing = true) (ho : ¬ Op e r) (hb : ¬ BySender e s r) :
    s'.stop = s.stop ∧ s'.keys = s.keys ∧ s'.stored = s.stored ∧ s'.acts = s.acts ∧
    (∀ k, k ≠ .clientsKeys → s'.chain k = s.chain k) ∧
    ((∀ key aff, r.cmd ≠ .clientKey key aff) → s'.chain = s.chain ∧ s'.files = s.files) := by
  have f := dispatch_frame h
  refine ⟨f.stop.resolve_right ho, f.keys.resolve_right (fun h => hb h.1), f.stored.resolve_right (fun h => hb h.1), ?_, ?_, ?_⟩
  · obtain ⟨l, h1, h2⟩ := f.acts
    cases l with
    | nil => rw [h1]; simp
    | cons a l =>
      rcases h2 a List.mem_cons_self with h3 | ⟨_, h3 | h3⟩
      · exact absurd h3 ho
      · rw [hs] at h3; cases h3
      · exact absurd h3 hb
  · intro k hk
    rcases f.chain k with h1 | ⟨_, h2⟩
    · exact h1
    · cases k <;> first | exact absurd rfl hk | exact absurd h2 ho | exact absurd h2.2 hb | exact absurd h2.2.2 hb
  · intro hn
    constructor
    · funext k
      rcases f.chain k with h1 | ⟨_, h2⟩
      · exact h1
      · cases k <;> first | exact absurd h2 ho | exact absurd h2.2 hb | exact absurd h2.2.2 hb | (obtain ⟨a, c, h2⟩ := h2; exact absurd h2 (hn a c))
    · funext g
      rcases f.files g with h1 | ⟨a, c, h2, _⟩
      · exact h1
      · exact absurd h2 (hn a c)

/-! ### exact effect on the stop point, and the records that an accepted command leaves -/

/-- the commands that stop the system -/
def stops : Cmd → Bool
  | .wedge _ | .addRemoveWedge _ _ _ | .restart _ _ => true
  | .install v _ => v != 0
  | _ => false

/-- the records an operator command leaves -/
def records (e : Env) : Cmd → List Key
  | .wedge _ => [.wedge]
  | .download _ => [.download]
  | .install _ _ => [.install]
  | .keyExchange _ _ => [.keyExchange]
  | .addRemove _ => [.addRemove]
  | .addRemoveWedge _ _ _ => [.addRemoveWedge, .wedge] ++ (List.range e.n).map .cliScale
  | .restart _ _ => [.restart, .wedge]
  | .prune _ => [.prune]
  | .pruneCompact => [.pruneCompact]
  | .clientKeyExchange t => (if t.isEmpty then e.clients else t).map .cliKeyExchange
  | .clientsAddRemove _ => e.clients.map .cliScale
  | .clientsRestart _ => e.clients.map .cliRestart
  | _ => []

theorem loop_cons {e : Env} {seq : Nat} {r : Req} {h : H} {hs : List H} {s s' : St} {v ok b : Bool}
    (hl : loop e seq r (h :: hs) s v ok = .done s' b) :
    (check e s r h = some false ∧ loop e seq r hs s v ok = .done s' b) ∨
    (check e s r h = some true ∧ ((∃ s1 b1, handle e s seq r h = .done s1 b1 ∧ loop e seq r hs s1 true (ok && b1) = .done s' b) ∨
      (handle e s seq r h = .thrown s' ∧ b = false))) := by
  unfold loop at hl
  cases hc : check e s r h with
  | none => rw [hc] at hl; cases hl
  | some c =>
    rw [hc] at hl
    cases c with
    | false => exact .inl ⟨rfl, hl⟩
    | true =>
      simp only at hl
      cases hh : handle e s seq r h with
      | done s1 b1 => rw [hh] at hl; exact .inr ⟨rfl, .inl ⟨s1, b1, rfl, hl⟩⟩
      | thrown s1 => rw [hh] at hl; simp only at hl; cases hl; exact .inr ⟨rfl, .inr ⟨rfl, rfl⟩⟩
      | abort => rw [hh] at hl; cases hl

theorem block_stop (s : St) (ks : List Key) (v : Nat × Cmd) : (s.block ks v).stop = s.stop := rfl

theorem setKeys_stop (e : Env) (key : Nat) (cs : List Nat) : ∀ s : St, (setKeys e key s cs).1.stop = s.stop := by
  induction cs with
  | nil => intro s; rfl
  | cons c cs ih =>
    intro s
    unfold setKeys
    have h1 : (setKey e s key (pid c)).1.stop = s.stop := by
      unfold setKey; simp only; split
      · split <;> rfl
      · rfl
    split
    · rename_i s1 hs1; rw [hs1] at h1; rw [ih, h1]
    · rename_i s1 hs1; rw [hs1] at h1; exact h1

theorem handle_stop {e : Env} {s : St} {seq : Nat} {r : Req} {h : H} (hne : h ≠ .bftOp) {s1 : St}
    (hh : (∃ b, handle e s seq r h = .done s1 b) ∨ handle e s seq r h = .thrown s1) : s1.stop = s.stop := by
  cases h with
  | bftOp => exact absurd rfl hne
  | bftCli =>
    simp only [handle] at hh
    unfold bftCli at hh
    split at hh
    · rename_i key aff hc
      have h2 := setKeys_stop e key (if aff.isEmpty then e.group r.id else aff) s
      generalize setKeys e key s (if aff.isEmpty then e.group r.id else aff) = res at hh h2
      obtain ⟨s2, b2⟩ := res
      cases b2 <;> (rcases hh with ⟨b, hh⟩ | hh <;> cases hh; exact h2)
    · rcases hh with ⟨b, hh⟩ | hh <;> cases hh; rfl
  | kvOp =>
    rcases hh with ⟨b, hh⟩ | hh <;> cases hh
    unfold kvOp; split <;> rfl
  | snap =>
    rcases hh with ⟨b, hh⟩ | hh <;> cases hh
    unfold snap; split
    · split <;> rfl
    · rfl
  | intKv =>
    rcases hh with ⟨b, hh⟩ | hh <;> cases hh
    unfold intKv; split
    · split
      · split
        · rfl
        · split <;> rfl
      · rfl
    · split <;> rfl
    · rfl
    · rfl
  | kvCli =>
    rcases hh with ⟨b, hh⟩ | hh <;> cases hh
    unfold kvCli; split <;> rfl
  | pruneOp =>
    rcases hh with ⟨b, hh⟩ | hh <;> cases hh
    unfold pruneOp; split <;> rfl
  | post =>
    rcases hh with ⟨b, hh⟩ | hh <;> cases hh
    unfold post; split
    · simp only; split <;> rfl
    · rfl

theorem loop_stop {e : Env} {seq : Nat} {r : Req} (hs : List H) (hn : H.bftOp ∉ hs) : ∀ {s s' : St} {v ok b : Bool},
    loop e seq r hs s v ok = .done s' b → s'.stop = s.stop := by
  induction hs with
  | nil => intro s s' v ok b h; cases h; rfl
  | cons h hs ih =>
    intro s s' v ok b hl
    have hne : h ≠ .bftOp := fun e => hn (e ▸ List.mem_cons_self)
    have hn' : H.bftOp ∉ hs := fun h => hn (List.mem_cons_of_mem _ h)
    rcases loop_cons hl with ⟨_, h1⟩ | ⟨_, ⟨s1, b1, h1, h2⟩ | ⟨h1, _⟩⟩
    · exact ih hn' h1
    · rw [ih hn' h2, handle_stop hne (.inl ⟨b1, h1⟩)]
    · exact handle_stop hne (.inr h1)

theorem act_stop (s : St) (a : Act) : (s.act a).stop = s.stop := rfl

theorem bftOp_stop (e : Env) (s : St) (seq : Nat) (r : Req) :
    (bftOp e s seq r).1.stop = if stops r.cmd = true then (s.setStop seq).stop else s.stop := by
  unfold bftOp
  split
  all_goals (rename_i hc; try rw [hc])
  · simp only [stops, if_true]; split <;> rfl
  · simp only [stops, Bool.false_eq_true, if_false]; split <;> rfl
  · rfl
  · rfl
  · rename_i v b
    by_cases hv : v = 0
    · rw [if_pos hv, hv]; rfl
    · have h1 : stops (.install v b) = true := by simpa [stops] using hv
      rw [if_neg hv, if_pos h1]; rfl
  · simp only [stops, Bool.false_eq_true, if_false]; split <;> rfl
  · rename_i h1 h2 h3 h4 h5
    have : stops r.cmd = false := by
      unfold stops
      cases hcmd : r.cmd <;> simp only <;> first | (exact absurd hcmd (by first | exact h1 _ | exact h2 _ _ | exact h3 _ _ _ | exact h4 _ _ | exact h5 _ _ | exact hc _)) | rfl
    rw [this]; rfl

theorem setStop_stop (s : St) (seq : Nat) : (s.setStop seq).stop = if seq = 0 then none else some ((seq + 300) - (seq + 300) % 150) := by
  unfold St.setStop
  split <;> rfl

/-- handlers before the one that stops do not throw -/
theorem handle_nothrow {e : Env} {s : St} {seq : Nat} {r : Req} {h : H} (hne : h ≠ .bftCli) (s1 : St) : handle e s seq r h ≠ .thrown s1 := by
  cases h <;> first | exact absurd rfl hne | (intro hh; cases hh)

theorem loop_stop_exact {e : Env} {seq : Nat} {r : Req} (l1 l2 : List H) (h1 : H.bftOp ∉ l1) (h2 : H.bftOp ∉ l2) (h3 : H.bftCli ∉ l1) :
    ∀ {s s' : St} {v ok b : Bool}, loop e seq r (l1 ++ .bftOp :: l2) s v ok = .done s' b →
    s'.stop = if e.opValid r.text r.sig = true ∧ stops r.cmd = true then (if seq = 0 then none else some ((seq + 300) - (seq + 300) % 150)) else s.stop := by
  induction l1 with
  | nil =>
    intro s s' v ok b hl
    rcases loop_cons hl with ⟨hc, hl⟩ | ⟨hc, ⟨s1, b1, hh, hl⟩ | ⟨hh, _⟩⟩
    · rw [loop_stop l2 h2 hl, if_neg]
      intro ⟨h, _⟩
      simp only [check, h] at hc; cases hc
    · cases hh
      rw [loop_stop l2 h2 hl, bftOp_stop]
      have ho : e.opValid r.text r.sig = true := Option.some.inj hc
      by_cases hst : stops r.cmd = true
      · rw [if_pos hst, if_pos ⟨ho, hst⟩, setStop_stop]
      · rw [if_neg hst, if_neg (fun h => hst h.2)]
    · cases hh
  | cons h l1 ih =>
    intro s s' v ok b hl
    have hne : h ≠ .bftOp := fun e => h1 (e ▸ List.mem_cons_self)
    have hne3 : h ≠ .bftCli := fun e => h3 (e ▸ List.mem_cons_self)
    have h1' : H.bftOp ∉ l1 := fun h => h1 (List.mem_cons_of_mem _ h)
    have h3' : H.bftCli ∉ l1 := fun h => h3 (List.mem_cons_of_mem _ h)
    rcases loop_cons hl with ⟨_, hl⟩ | ⟨_, ⟨s1, b1, hh, hl⟩ | ⟨hh, _⟩⟩
    · exact ih h1' h3' hl
    · rw [ih h1' h3' hl, handle_stop hne (.inl ⟨b1, hh⟩)]
    · exact absurd hh (handle_nothrow hne3 _)

/-- **The stop point, exactly**: a request moves it iff the operator has signed it and it is a command that
stops the system; then it is the second checkpoint after the request (for number 0 it is removed). -/
theorem stop_exact {e : Env} {s s' : St} {seq : Nat} {r : Req} {b : Bool} (h : dispatch e s seq r = .done s' b) :
    s'.stop = if e.opValid r.text r.sig = true ∧ stops r.cmd = true then (if seq = 0 then none else some ((seq + 300) - (seq + 300) % 150)) else s.stop :=
  loop_stop_exact [.kvOp, .snap, .intKv, .kvCli] [.bftCli, .pruneOp, .post] (by decide) (by decide) (by decide) h

theorem kvOp_records (e : Env) (s : St) (r : Req) (k : Key) (hk : k ∈ records e r.cmd) : (kvOp e s r).1.chain k = some r.text := by
  unfold kvOp
  unfold records at hk
  have hb : ∀ ks : List Key, k ∈ ks → (s.block ks r.text).chain k = some r.text :=
    fun ks h => if_pos (List.contains_iff_mem.2 h)
  split <;> rename_i hc <;> (try rw [hc] at hk) <;> first
    | exact hb _ hk
    | cases hk
    | (exfalso; revert hk; cases hcmd : r.cmd <;> simp_all)

/-- **An operator's command is recorded** under every key it belongs to, whatever else happens to the
request. -/
theorem operator_recorded {e : Env} {s s' : St} {seq : Nat} {r : Req} {b : Bool} (h : dispatch e s seq r = .done s' b) (ho : Op e r)
    (k : Key) (hk : k ∈ records e r.cmd) : s'.chain k = some r.text := by
  have ho : e.opValid r.text r.sig = true := ho
  rcases loop_cons h with ⟨hc, _⟩ | ⟨_, ⟨s1, b1, hh, hl⟩ | ⟨hh, _⟩⟩
  · simp only [check, ho] at hc; cases hc
  · cases hh
    rcases (loop_frame seq _ _ _ _ (Frame.refl e _ r) s' (.inl ⟨b, hl⟩)).chain k with h1 | ⟨h1, _⟩
    · rw [h1]; exact kvOp_records e s r k hk
    · exact h1
  · cases hh

/-! ### histories -/

/-- processing of a history of requests with their sequence numbers; `none`: the process has ended -/
def run (e : Env) : St → List (Nat × Req) → Option St
  | s, [] => some s
  | s, (seq, r) :: h => (match dispatch e s seq r with
    | .done s' _ => run e s' h
    | .thrown s' => run e s' h
    | .abort => none)

theorem run_cons {e : Env} {s s' : St} {q : Nat × Req} {h : List (Nat × Req)} (hr : run e s (q :: h) = some s') :
    ∃ s1 b, dispatch e s q.1 q.2 = .done s1 b ∧ run e s1 h = some s' := by
  obtain ⟨seq, r⟩ := q
  unfold run at hr
  rcases dispatch_cases e s seq r with ⟨s1, b, hd⟩ | hd
  · rw [hd] at hr; exact ⟨s1, b, hd, hr⟩
  · rw [hd] at hr; cases hr

theorem run_cons' {e : Env} {s s1 : St} {q : Nat × Req} {h : List (Nat × Req)} {b : Bool} (hd : dispatch e s q.1 q.2 = .done s1 b) :
    run e s (q :: h) = run e s1 h := by
  obtain ⟨seq, r⟩ := q
  show (match dispatch e s seq r with | .done s' _ => run e s' h | .thrown s' => run e s' h | .abort => none) = _
  have : dispatch e s seq r = .done s1 b := hd
  rw [this]

/-- something a history changes was changed by one of its requests -/
theorem changed_by {α : Type} (e : Env) (f : St → α) (h : List (Nat × Req)) : ∀ (s s' : St), run e s h = some s' →
    f s' = f s ∨ ∃ pre q post s1 s2 b, h = pre ++ q :: post ∧ run e s pre = some s1 ∧ dispatch e s1 q.1 q.2 = .done s2 b ∧
      f s2 ≠ f s1 ∧ f s' = f s2 := by
  classical
  induction h with
  | nil => intro s s' hr; cases hr; exact .inl rfl
  | cons q h ih =>
    intro s s' hr
    obtain ⟨s1, b, hd, hr⟩ := run_cons hr
    rcases ih s1 s' hr with h1 | ⟨pre, q2, post, s2, s3, b2, h1, h2, h3⟩
    · by_cases hf : f s1 = f s
      · exact .inl (h1.trans hf)
      · exact .inr ⟨[], q, h, s, s1, b, rfl, rfl, hd, hf, h1⟩
    · refine .inr ⟨q :: pre, q2, post, s2, s3, b2, by rw [h1]; rfl, ?_, h3⟩
      rw [run_cons' hd]; exact h2

/-- **Custody of the verification keys**: after any history, the key of any principal is the initial one or
was put there by a `ClientExchangePublicKey` that named it and that its sender had signed with the key in
force at that time.  In particular keys of replicas never change this way. -/
theorem key_custody {e : Env} {s s' : St} {h : List (Nat × Req)} (hr : run e s h = some s') (c : Nat) :
    s'.keys c = s.keys c ∨ ∃ pre q post s1 key aff, h = pre ++ q :: post ∧ run e s pre = some s1 ∧ BySender e s1 q.2 ∧
      (e.ext c = true ∨ e.svc c = true) ∧ q.2.cmd = .clientKey key aff ∧ c ∈ targets e q.2 aff ∧ s'.keys c = some key := by
  rcases changed_by e (fun s => s.keys c) h s s' hr with h1 | ⟨pre, q, post, s1, s2, b, h1, h2, h3, h4, h5⟩
  · exact .inl h1
  · obtain ⟨g1, g2, key, aff, g3, g4, g5⟩ := verification_keys h3 c h4
    exact .inr ⟨pre, q, post, s1, key, aff, h1, h2, g1, g2, g3, g4, h5.trans g5⟩

/-- **Custody of the stop point**: after any history it is the initial one or the one that belongs to an
operator's stopping command. -/
theorem stop_custody {e : Env} {s s' : St} {h : List (Nat × Req)} (hr : run e s h = some s') :
    s'.stop = s.stop ∨ ∃ q ∈ h, Op e q.2 ∧ stops q.2.cmd = true ∧
      s'.stop = if q.1 = 0 then none else some ((q.1 + 300) - (q.1 + 300) % 150) := by
  rcases changed_by e (fun s => s.stop) h s s' hr with h1 | ⟨pre, q, post, s1, s2, b, h1, h2, h3, h4, h5⟩
  · exact .inl h1
  · have hx := stop_exact h3
    by_cases hc : e.opValid q.2.text q.2.sig = true ∧ stops q.2.cmd = true
    · rw [if_pos hc] at hx
      exact .inr ⟨q, by rw [h1]; simp, hc.1, hc.2, h5.trans hx⟩
    · rw [if_neg hc] at hx; exact absurd hx h4

/-- **Custody of the records**: whatever stands under an operator's key after a history is the initial value
or the text of a request of the history that the operator has signed; under a client's (replica's) own key
it is the text of a request with its number, signed with its key then in force. -/
theorem record_custody {e : Env} {s s' : St} {h : List (Nat × Req)} (hr : run e s h = some s') (k : Key) :
    s'.chain k = s.chain k ∨ ∃ pre q post s1, h = pre ++ q :: post ∧ run e s pre = some s1 ∧ s'.chain k = some q.2.text ∧
      (operatorKeys k = true → Op e q.2) ∧
      (∀ x, k = .cliKey x ∨ k = .cliScaled x ∨ k = .cliRestarted x ∨ k = .repMain x ∨ k = .repTls x →
        x = q.2.id ∧ SignedBy e s1 q.2 (pid x)) := by
  rcases changed_by e (fun s => s.chain k) h s s' hr with h1 | ⟨pre, q, post, s1, s2, b, h1, h2, h3, h4, h5⟩
  · exact .inl h1
  · refine .inr ⟨pre, q, post, s1, h1, h2, ?_, ?_, ?_⟩
    · rcases (dispatch_frame h3).chain k with g | ⟨g, _⟩
      · exact absurd g h4
      · exact h5.trans g
    · intro hk
      refine Classical.byContradiction fun ho => h4 ((operator_only h3 ho).2.1 k hk)
    · intro x hx
      rcases hx with rfl | rfl | rfl | rfl | rfl
      · exact ((own_records h3 x).1 _ (.inl rfl) h4).2
      · exact ((own_records h3 x).1 _ (.inr (.inl rfl)) h4).2
      · exact ((own_records h3 x).1 _ (.inr (.inr rfl)) h4).2
      · have := ((own_records h3 x).2 _ (.inl rfl) h4).2; exact ⟨this.1, this.2.2⟩
      · have := ((own_records h3 x).2 _ (.inr rfl) h4).2; exact ⟨this.1, this.2.2⟩

/-- every started action goes back to a request of the history that the operator has signed, except
snapshots -/
theorem action_custody {e : Env} (h : List (Nat × Req)) : ∀ {s s' : St}, run e s h = some s' → ∀ a ∈ s'.acts,
    a ∈ s.acts ∨ (∃ q ∈ h, Op e q.2) ∨ ∃ q, a = .snapshot q := by
  induction h with
  | nil => intro s s' hr a ha; cases hr; exact .inl ha
  | cons q h ih =>
    intro s s' hr a ha
    obtain ⟨s1, b, hd, hr⟩ := run_cons hr
    rcases ih hr a ha with h1 | ⟨q2, h1, h2⟩ | h1
    · obtain ⟨l, h2, h3⟩ := (dispatch_frame hd).acts
      rw [h2] at h1
      rcases List.mem_append.1 h1 with h1 | h1
      · exact .inl h1
      · rcases h3 a h1 with h3 | ⟨h3, _⟩
        · exact .inr (.inl ⟨q, List.mem_cons_self, h3⟩)
        · exact .inr (.inr h3)
    · exact .inr (.inl ⟨q2, List.mem_cons_of_mem _ h1, h2⟩)
    · exact .inr (.inr h1)

/-! ### the process does not end -/

/-- keys are held only for replicas, external clients and read-only replicas -/
def KeysFor (e : Env) (s : St) : Prop := ∀ x, s.keys x ≠ none → x < e.n ∨ e.ext x = true ∨ e.ro x = true

theorem KeysFor.step {e : Env} (hv : ∀ c, e.svc c = false) {s s' : St} {r : Req} (f : Frame e s r s') (h : KeysFor e s) : KeysFor e s' := by
  intro x hx
  rcases f.keys with h1 | ⟨_, key, aff, _, h3⟩
  · exact h x (by rw [← h1]; exact hx)
  · by_cases he : s'.keys x = s.keys x
    · exact h x (by rw [← he]; exact hx)
    · obtain ⟨_, _, h4 | h4⟩ := h3 x he
      · exact .inr (.inl h4)
      · rw [hv x] at h4; cases h4

theorem check_some {e : Env} {s : St} (h : KeysFor e s) (r : Req) (hh : H) : check e s r hh ≠ none := by
  have h1 : verifySig e s r.id r ≠ none := by
    unfold verifySig
    split
    · intro h; cases h
    · rename_i k hk
      rw [if_pos (h _ (by rw [hk]; intro h; cases h))]
      intro h; cases h
  have h2 : cliCheck e s r ≠ none := by
    unfold cliCheck
    split
    · exact h1
    · intro h; cases h
  cases hh <;> simp only [check]
  all_goals first
    | exact h2
    | (intro h; cases h)
    | (split
       · split
         · intro h; cases h
         · exact h2
       · intro h; cases h)
    | (split
       · intro h; cases h
       · exact h1)

theorem handle_some (e : Env) (s : St) (seq : Nat) (r : Req) (h : H) : handle e s seq r h ≠ .abort := by
  cases h <;> try (intro hh; cases hh; done)
  intro hh
  simp only [handle] at hh
  unfold bftCli at hh
  split at hh
  · split at hh <;> cases hh
  · cases hh

theorem loop_some {e : Env} (hv : ∀ c, e.svc c = false) (seq : Nat) (r : Req) (hs : List H) : ∀ (s : St) (v ok : Bool), KeysFor e s →
    loop e seq r hs s v ok ≠ .abort := by
  induction hs with
  | nil => intro s v ok _ h; cases h
  | cons h hs ih =>
    intro s v ok hk hl
    unfold loop at hl
    cases hc : check e s r h with
    | none => exact check_some hk r h hc
    | some b =>
      rw [hc] at hl
      cases b with
      | false => exact ih s v ok hk hl
      | true =>
        simp only at hl
        cases hh : handle e s seq r h with
        | done s1 b =>
          rw [hh] at hl
          exact ih s1 true (ok && b) (KeysFor.step hv (handle_frame (Frame.refl e s r) seq h hc s1 (.inl ⟨b, hh⟩)) hk) hl
        | thrown s1 => rw [hh] at hl; cases hl
        | abort => exact handle_some e s seq r h hh

/-- **No history of requests ends the process**, if there are no client services and keys are held only for
replicas, external clients and read-only replicas.  (AuthExamples: with a client service it can.) -/
theorem no_abort {e : Env} (hv : ∀ c, e.svc c = false) (h : List (Nat × Req)) : ∀ {s : St}, KeysFor e s → ∃ s', run e s h = some s' ∧ KeysFor e s' := by
  induction h with
  | nil => intro s hk; exact ⟨s, rfl, hk⟩
  | cons q h ih =>
    intro s hk
    rcases dispatch_cases e s q.1 q.2 with ⟨s1, b, hd⟩ | hd
    · rw [run_cons' hd]; exact ih (KeysFor.step hv (dispatch_frame hd) hk)
    · exact absurd hd (loop_some hv q.1 q.2 order s false true hk)

end Verif.Auth
