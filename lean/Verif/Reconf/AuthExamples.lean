import Verif.Reconf.AuthAgree
set_option linter.unusedVariables false
/-!
# Reconfiguration commands: the hypotheses can be met, and what the code permits

Four replicas (keys 100..103), clients 10, 11 (keys 110, 111; one group each), optionally a client service
20.  The operator's signature is 1; a signature with key `k` is `k`.
-/
namespace Verif.Auth

def env (service : Bool) : Env where
  n := 4
  ro := fun _ => false
  ext := fun x => x == 10 || x == 11
  svc := fun x => service && x == 20
  opValid := fun _ s => s == 1
  valid := fun k _ s => s == k
  keyOk := fun k => k != 99
  group := fun x => [x]
  gid := fun x => x
  clients := [10, 11]
  signing := true
  saveFile := true
  self := 0
  dbCkpt := true

def start : St := { keys := fun x => if x < 4 then some (100 + x) else if x = 10 ∨ x = 11 then some (100 + x) else none }

/-- what one request leads to -/
def after (service : Bool) (s : St) (seq : Nat) (r : Req) : St :=
  match dispatch (env service) s seq r with
  | .done s' _ => s'
  | .thrown s' => s'
  | .abort => s

def ended (service : Bool) (s : St) (seq : Nat) (r : Req) : Bool :=
  match dispatch (env service) s seq r with
  | .abort => true
  | _ => false

def success (service : Bool) (s : St) (seq : Nat) (r : Req) : Bool :=
  match dispatch (env service) s seq r with
  | .done _ b => b
  | _ => false

/-! #### the hypotheses can be met -/

def wedgeBy (sig : Nat) : Req := ⟨7, .wedge false, sig⟩

theorem start_keysFor : KeysFor (env false) start := by
  intro x hx
  unfold start at hx
  simp only at hx
  by_cases h1 : x < 4
  · exact .inl h1
  · rw [if_neg h1] at hx
    by_cases h2 : x = 10 ∨ x = 11
    · refine .inr (.inl ?_)
      rcases h2 with rfl | rfl <;> rfl
    · rw [if_neg h2] at hx; exact absurd rfl hx

/-- the operator stops the system: the stop point is the second checkpoint, the command is on the chain,
and the reply says success -/
theorem operator_wedges : Op (env false) (wedgeBy 1) ∧ (after false start 10 (wedgeBy 1)).stop = some 300 ∧
    (after false start 10 (wedgeBy 1)).chain .wedge = some (7, .wedge false) ∧ success false start 10 (wedgeBy 1) = true :=
  ⟨rfl, by decide, by decide, by decide⟩

/-- a wrong signature: nothing happens (`operator_only`, `unsigned` meet their hypotheses) -/
theorem nobody_wedges : ¬ Op (env false) (wedgeBy 2) ∧ (after false start 10 (wedgeBy 2)).stop = none ∧
    (after false start 10 (wedgeBy 2)).acts = [] := by
  refine ⟨fun h => ?_, by decide, by decide⟩
  have h : ((2 : Nat) == 1) = true := h
  cases h

/-- client 10 rotates its own key -/
def rotate : Req := ⟨10, .clientKey 500 [], 110⟩

theorem client_rotates : BySender (env false) start rotate ∧ (after false start 10 rotate).keys 10 = some 500 ∧
    (after false start 10 rotate).keys 11 = some 111 ∧ (after false start 10 rotate).stored 10 = some 500 ∧
    (after false start 10 rotate).chain (.cliKey 10) = some (10, .clientKey 500 []) ∧ success false start 10 rotate = true :=
  ⟨⟨110, rfl, rfl⟩, by decide, by decide, by decide, by decide, by decide⟩

/-- a replica publishes its own key -/
theorem replica_publishes : (after false start 10 ⟨2, .mainKey 77, 102⟩).chain (.repMain 2) = some (2, .mainKey 77) := by decide

/-- a history that meets the hypotheses of `no_abort`, `key_custody`, `stop_custody` and
`unsigned_requests_do_not_interfere`: signed and unsigned requests, and the keys and the stop point change -/
def history : List (Nat × Req) := [(1, wedgeBy 2), (2, rotate), (3, wedgeBy 1), (4, ⟨10, .clientKey 600 [], 110⟩)]

theorem history_runs : ∃ s, run (env false) start history = some s ∧ s.keys 10 = some 500 ∧ s.stop = some 300 ∧ s.blocks = 4 := by
  refine ⟨after false (after false (after false (after false start 1 (wedgeBy 2)) 2 rotate) 3 (wedgeBy 1)) 4 ⟨10, .clientKey 600 [], 110⟩, ?_, ?_, ?_, ?_⟩
  · rfl
  · decide
  · decide
  · decide

/-! #### what the code permits -/

/-- the response says success although nobody has signed the request: the last handler "verifies" everything -/
theorem unsigned_gets_success : success false start 10 (wedgeBy 2) = true ∧ ¬ Op (env false) (wedgeBy 2) := ⟨by decide, nobody_wedges.1⟩

/-- an unsigned `ClientExchangePublicKey` adds a block and overwrites the key file of a client group with a
key of the sender's choice -/
theorem unsigned_writes_file : (after false start 10 ⟨10, .clientKey 666 [], 0⟩).files 10 = some 666 ∧
    (after false start 10 ⟨10, .clientKey 666 [], 0⟩).blocks = 1 ∧
    (after false start 10 ⟨10, .clientKey 666 [], 0⟩).keys 10 = some 110 := by decide

/-- client 10 replaces the key of client 11: nothing relates the sender to the clients it names -/
theorem client_takes_over_another : (after false start 10 ⟨10, .clientKey 666 [11], 110⟩).keys 11 = some 666 := by decide

/-- so the property "the key of a client changes only by its own signature" is false of the code -/
theorem own_key_only_false : ¬ ∀ (e : Env) (s s' : St) (seq : Nat) (r : Req) (b : Bool) (c : Nat), dispatch e s seq r = .done s' b →
    s'.keys c ≠ s.keys c → SignedBy e s r c := by
  intro h
  have h1 := h (env false) start (after false start 10 ⟨10, .clientKey 666 [11], 110⟩) 10 ⟨10, .clientKey 666 [11], 110⟩ true 11 (by rfl)
    (by rw [client_takes_over_another]; decide)
  obtain ⟨k, hk, hv⟩ := h1
  have : k = 111 := by have h2 : start.keys 11 = some 111 := by decide
                       rw [h2] at hk; exact (Option.some.inj hk).symm
  subst this
  cases hv

/-- an operator's command can be sent again by anyone at any time: the signed text has neither a number nor
a time, and the stop point moves again -/
theorem operator_command_replayed : ∀ e s s' seq r b, dispatch e s seq r = .done s' b → Op e r → stops r.cmd = true → seq ≠ 0 →
    s'.stop = some ((seq + 300) - (seq + 300) % 150) := by
  intro e s s' seq r b h ho hs hq
  have ho : e.opValid r.text r.sig = true := ho
  rw [stop_exact h, if_pos ⟨ho, hs⟩, if_neg hq]

/-- a key that cannot be parsed is stored in the reserved pages before parsing throws -/
theorem malformed_key_stored : (after false start 10 ⟨10, .clientKey 99 [], 110⟩).stored 10 = some 99 ∧
    (after false start 10 ⟨10, .clientKey 99 [], 110⟩).keys 10 = some 110 ∧ success false start 10 ⟨10, .clientKey 99 [], 110⟩ = false := by decide

/-- with a client service: client 10 gives it a key, and then any request that names it as sender ends the
process, signed or not -/
theorem client_service_ends_the_process :
    ended true (after true start 10 ⟨10, .clientKey 500 [20], 110⟩) 11 ⟨20, .query 0, 0⟩ = true := by decide

/-- two replicas, the same ordered requests; one of them also gets a read-only request with the
reconfiguration flag (the operator's command sent again): they no longer agree -/
theorem read_only_reconfiguration_diverges :
    let q : CReq := ⟨{ reconfig := true }, wedgeBy 1, 0⟩
    let u : CReq := ⟨{}, ⟨0, .query 0, 0⟩, 5⟩
    let x : CReq := ⟨{ readOnly := true, reconfig := true }, wedgeBy 1, 0⟩
    let a : Rep := { st := start, last := 100 }
    ordOf [.ord q, .ord u, .ro x] = ordOf [.ord q, .ord u] ∧
    (runRep (env false) a [.ord q, .ord u, .ro x]).st.blocks = 2 ∧ (runRep { env false with self := 1 } a [.ord q, .ord u]).st.blocks = 1 := by
  refine ⟨rfl, by decide, by decide⟩

/-- a later copy moves the stop point of one replica only -/
theorem read_only_reconfiguration_moves_stop :
    (runRep (env false) { st := start, last := 160 } [.ro ⟨{ readOnly := true, reconfig := true }, wedgeBy 1, 0⟩]).st.stop = some 450 := by decide

/-- `replicas_agree_partial` meets its hypotheses with a harmless read-only request in between -/
theorem agree_example :
    let q : CReq := ⟨{ reconfig := true }, wedgeBy 1, 0⟩
    let x : CReq := ⟨{ readOnly := true }, wedgeBy 1, 0⟩
    let a : Rep := { st := start, last := 100 }
    Agree (runRep { env false with self := 1 } a [.ord q, .ro x]) (runRep { env false with self := 2 } a [.ord q]) := by
  intro q x a
  refine replicas_agree_partial (env false) 1 2 _ _ a a ⟨Sim.refl _ _ _, rfl, rfl, rfl, rfl, rfl, rfl⟩ ?_ ?_ rfl
  · intro y hy
    simp only [List.mem_cons, List.not_mem_nil, or_false, reduceCtorEq, false_or, Ev.ro.injEq] at hy
    subst hy
    exact ⟨rfl, rfl, rfl⟩
  · intro y hy
    simp only [List.mem_cons, List.not_mem_nil, or_false, reduceCtorEq] at hy

end Verif.Auth
