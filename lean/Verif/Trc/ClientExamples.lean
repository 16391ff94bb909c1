import Verif.Trc.ClientLive
set_option linter.unusedVariables false
set_option linter.unusedSimpArgs false
/-!
# Thin replica client: examples and findings (C33)
-/
namespace Verif.Trc.Examples
open Verif.Bytes Verif.Trc

/-- a 32-byte hash for the examples -/
def hx (b : Bytes) : Bytes := leEncode 32 (b.foldl (fun a x => (a * 257 + x.toNat + 1) % 2 ^ 256) 0)

theorem hx_length (b : Bytes) : (hx b).length = 32 := by
  rw [hx, leEncode_length]

def cfg : Cfg := ⟨4, 1⟩

def wBlock (n : Nat) : List (Bytes × Bytes) := [([UInt8.ofNat n], [1, UInt8.ofNat n]), ([200], [3])]
def wGroup (n : Nat) : List Bytes := [[1, UInt8.ofNat n], [7, UInt8.ofNat n]]

/-- event groups can begin with number 1 -/
def W1 : World := ⟨wBlock, wGroup, fun o => o = 1⟩

def hashOf (u : Upd) : Bytes := match hashUpd hx u with
  | .ok d => d
  | _ => []

def msgOf (u : Upd) : HashMsg := ⟨u.isEg, u.id, hashOf u⟩

/-- every server answers with the update at `p` -/
def env0 (W : World) (p : Pos) : Env where
  rdData := .msg (some (W.upd p))
  opHash := fun _ => .ok
  rdHash := fun _ => .msg (some (msgOf (W.upd p)))
  rotOrder := [0, 1, 2, 3]
  opRot := fun _ => .ok
  rdRot := fun _ => .msg (some (W.upd p))
  opNext := .ok

/-- observation of an outcome -/
def outOf : It → Option (List Upd)
  | .next c => some c.out
  | _ => none
def excOf : It → Option Exc
  | .exc e => some e
  | _ => none
def aborts : It → Bool
  | .abort => true
  | _ => false

def cl (it : It) : Cl := match it with
  | .next c => c
  | _ => .fresh

/-- only server 3 is faulty -/
def hon (i : Nat) : Bool := i ≠ 3

theorem few : FewFaulty cfg hon := by
  show (_ : Nat) ≤ 1
  decide

/-! ## A run: server 3 lies about the hash, the data server is silent once -/

/-- block 1: server 0 sends the data; servers 1 and 2 the hash -/
def e1 : Env := { env0 W1 (.ev 1) with
  rdHash := fun i => if i = 3 then .msg (some ⟨false, 1, [66]⟩) else .msg (some (msgOf (W1.upd (.ev 1)))) }
/-- block 2: server 0 times out, the data come from server 2 -/
def e2 : Env := { env0 W1 (.ev 2) with
  rdData := .timeout
  rotOrder := [2, 1, 0, 3] }
/-- event group 1 -/
def e3 : Env := env0 W1 (.eg 1)

def s0 : Cl := Cl.fresh.subscribeB 1 .ok
def s1 : Cl := cl (iter cfg hx s0 e1)
def s2 : Cl := cl (iter cfg hx s1 e2)
def s3 : Cl := cl (iter cfg hx s2 e3)

/-- The client delivers blocks 1 and 2 and goes on with event group 1. -/
theorem run_out : outOf (runC cfg hx s0 [e1, e2, e3]) = some [W1.upd (.ev 1), W1.upd (.ev 2), W1.upd (.eg 1)] := by decide +kernel

theorem eqv_self (W : World) (p : Pos) : Eqv (W.upd p) (W.upd p) := Eqv.refl _

theorem s0_next : iter cfg hx s0 e1 = .next s1 := by
  have : (outOf (iter cfg hx s0 e1)).isSome = true := by decide +kernel
  rw [s1]
  cases h : iter cfg hx s0 e1 with
  | next c => rfl
  | exc e => rw [h] at this; cases this
  | abort => rw [h] at this; cases this
theorem s1_next : iter cfg hx s1 e2 = .next s2 := by
  have : (outOf (iter cfg hx s1 e2)).isSome = true := by decide +kernel
  rw [s2]
  cases h : iter cfg hx s1 e2 with
  | next c => rfl
  | exc e => rw [h] at this; cases this
  | abort => rw [h] at this; cases this
theorem s2_next : iter cfg hx s2 e3 = .next s3 := by
  have : (outOf (iter cfg hx s2 e3)).isSome = true := by decide +kernel
  rw [s3]
  cases h : iter cfg hx s2 e3 with
  | next c => rfl
  | exc e => rw [h] at this; cases this
  | abort => rw [h] at this; cases this

/-- answers that are all the update `u` from honest servers are honest answers -/
theorem envOk_of {W : World} {c : Cl} {env : Env} {p : Pos} {u : Upd} {hon : Nat → Bool} (hi : CliInv hon cfg c) (hp : c.expect = p) (g : Gives W p u) (d : Bytes)
    (hd : hashUpd hx u = .ok d)
    (h1 : hon c.dataConn = true → ∀ m, env.rdData = .msg m → m = some u)
    (h2 : ∀ i, hon i = true → ∀ m, env.rdHash i = .msg m → m = some ⟨u.isEg, u.id, d⟩)
    (h3 : ∀ i, hon i = true → ∀ m, env.rdRot i = .msg m → m = some u) : EnvOk W hx hon c env := by
  constructor
  · intro hb q m hq hm
    refine ⟨u, h1 hb m hm, ?_⟩
    rw [hi.data hb q hq, hp]; exact g
  · intro i hb m hm
    refine ⟨u, d, ?_, hd, h2 i hb m hm⟩
    cases hs : (c.srv i).hash with
    | none => rw [Option.getD_none, hp]; exact g
    | some q => rw [Option.getD_some, hi.hash i hb q hs, hp]; exact g
  · intro i hb m hm
    exact ⟨u, h3 i hb m hm, by rw [hp]; exact g⟩

theorem d1 : hashUpd hx (W1.upd (.ev 1)) = .ok (hashOf (W1.upd (.ev 1))) := by decide +kernel
theorem d2 : hashUpd hx (W1.upd (.ev 2)) = .ok (hashOf (W1.upd (.ev 2))) := by decide +kernel
theorem d3 : hashUpd hx (W1.upd (.eg 1)) = .ok (hashOf (W1.upd (.eg 1))) := by decide +kernel

theorem inv0 : CliInv hon cfg s0 := subscribe_inv (by decide) (fun _ => rfl) _ rfl

theorem ok1 : EnvOk W1 hx hon s0 e1 := by
  refine envOk_of inv0 (by decide) (Or.inl (eqv_self _ _)) _ d1 ?_ ?_ ?_
  · intro _ m hm; cases hm; rfl
  · intro i hb m hm
    have : i ≠ 3 := of_decide_eq_true hb
    simp only [e1, if_neg this] at hm
    cases hm; rfl
  · intro i _ m hm; cases hm; rfl

/-- the hypotheses about collisions: what is received is genuine here, so nothing is left to bind -/
theorem binds (p : Pos) (hp : p = .ev 1 ∨ p = .ev 2 ∨ p = .eg 1) (hb : ∀ q, (W1.upd q).id = (W1.upd p).id → (W1.upd q).isEg = (W1.upd p).isEg → q = p) :
    Binding W1 hx (W1.upd p) := by
  intro q d _ _ hid hk
  rw [hb q hid.symm hk.symm]
  exact Eqv.refl _

theorem upd_inj (q p : Pos) (hid : (W1.upd q).id = (W1.upd p).id) (hk : (W1.upd q).isEg = (W1.upd p).isEg) : q = p := by
  cases q <;> cases p <;> simp_all [World.upd, Upd.id, Upd.isEg]

theorem conf_of {p q' : Pos} (hq : ∀ q, (W1.upd q).id = (W1.upd p).id → q = p ∨ q = q') (hne : hashUpd hx (W1.upd p) ≠ hashUpd hx (W1.upd q')) :
    NoConfusion W1 hx (W1.upd p) := by
  intro q d h1 h2 h3
  rcases hq q h3.symm with h | h
  · rw [h]
  · rw [h] at h2; exact absurd (h1.trans h2.symm) hne

theorem bind1 : EnvBinding W1 hx e1 := by
  have b := binds (.ev 1) (Or.inl rfl) (fun q => upd_inj q _)
  have n : NoConfusion W1 hx (W1.upd (.ev 1)) := conf_of (q' := .eg 1) (by
    intro q hq
    cases q with
    | ev n => left; simp only [World.upd, Upd.id] at hq; rw [hq]
    | eg n => right; simp only [World.upd, Upd.id] at hq; rw [hq]) (by decide +kernel)
  constructor
  · intro u hu; cases hu; exact b
  · intro i u hu; cases hu; exact ⟨b, n⟩
theorem bind2 : EnvBinding W1 hx e2 := by
  have b := binds (.ev 2) (Or.inr (Or.inl rfl)) (fun q => upd_inj q _)
  have n : NoConfusion W1 hx (W1.upd (.ev 2)) := conf_of (q' := .eg 2) (by
    intro q hq
    cases q with
    | ev n => left; simp only [World.upd, Upd.id] at hq; rw [hq]
    | eg n => right; simp only [World.upd, Upd.id] at hq; rw [hq]) (by decide +kernel)
  constructor
  · intro u hu; cases hu
  · intro i u hu; cases hu; exact ⟨b, n⟩
theorem bind3 : EnvBinding W1 hx e3 := by
  have b := binds (.eg 1) (Or.inr (Or.inr rfl)) (fun q => upd_inj q _)
  have n : NoConfusion W1 hx (W1.upd (.eg 1)) := conf_of (q' := .ev 1) (by
    intro q hq
    cases q with
    | ev n => right; simp only [World.upd, Upd.id] at hq; rw [hq]
    | eg n => left; simp only [World.upd, Upd.id] at hq; rw [hq]) (by decide +kernel)
  constructor
  · intro u hu; cases hu; exact b
  · intro i u hu; cases hu; exact ⟨b, n⟩

theorem inv1 : CliInv hon cfg s1 := (iter_step hx_length few inv0 ok1 bind1 s0_next).1

theorem ok2 : EnvOk W1 hx hon s1 e2 := by
  refine envOk_of inv1 (by decide +kernel) (Or.inl (eqv_self _ _)) _ d2 ?_ ?_ ?_
  · intro _ m hm; cases hm
  · intro i hb m hm; cases hm; rfl
  · intro i _ m hm; cases hm; rfl

theorem inv2 : CliInv hon cfg s2 := (iter_step hx_length few inv1 ok2 bind2 s1_next).1

theorem ok3 : EnvOk W1 hx hon s2 e3 := by
  refine envOk_of inv2 (by decide +kernel) (Or.inr ⟨3, 1, rfl, rfl, eqv_self _ _⟩) _ d3 ?_ ?_ ?_
  · intro _ m hm; cases hm; rfl
  · intro i hb m hm; cases hm; rfl
  · intro i _ m hm; cases hm; rfl

/-- The run meets the hypotheses of `delivered_from_block`, with a lying server, a rotation and the change to event groups. -/
theorem run_reachable : Runs W1 hx hon cfg s0 s3 ∧ s3.out = [W1.upd (.ev 1), W1.upd (.ev 2), W1.upd (.eg 1)] ∧ FewFaulty cfg hon :=
  ⟨.step (.step (.step .start ok1 bind1 s0_next) ok2 bind2 s1_next) ok3 bind3 s2_next, by decide +kernel, few⟩

/-- `answering_delivers` and `no_false_alarm` apply in state `s3` (event groups: nothing but the next group can come). -/
theorem answering_example : ∃ env, CliInv hon cfg s3 ∧ EnvOk W1 hx hon s3 env ∧ Answering hon cfg s3 env ∧ Single W1 s3.expect (.eg 2) ∧
    2 * cfg.f + 2 ≤ cfg.n ∧ outOf (iter cfg hx s3 env) = some (s3.out ++ [W1.upd (.eg 2)]) := by
  have inv3 : CliInv hon cfg s3 := (iter_step hx_length few inv2 ok3 bind3 s2_next).1
  have hexp : s3.expect = .eg 2 := by decide +kernel
  refine ⟨{ env0 W1 (.eg 2) with rdData := .failure }, inv3, ?_, ?_, ?_, by decide, by decide +kernel⟩
  · have d : hashUpd hx (W1.upd (.eg 2)) = .ok (hashOf (W1.upd (.eg 2))) := by decide +kernel
    refine envOk_of inv3 hexp (Or.inl (eqv_self _ _)) _ d ?_ ?_ ?_
    · intro _ m hm; cases hm
    · intro i hb m hm; cases hm; rfl
    · intro i _ m hm; cases hm; rfl
  · constructor
    · intro i _ _; rfl
    · intro i _ _; exact ⟨_, rfl⟩
    · intro i _ _; rfl
    · intro i _ _; exact ⟨_, rfl⟩
    · intro i hi
      have : i < 4 := hi
      have : i = 0 ∨ i = 1 ∨ i = 2 ∨ i = 3 := by omega
      rcases this with rfl | rfl | rfl | rfl <;> decide
  · intro r hr
    rw [hexp] at hr
    rcases hr with h | ⟨n, o, h, _⟩
    · exact h
    · cases h

/-- `ends_only_if_honest`: two servers say that the update was pruned. -/
theorem pruned_example : excOf (iter cfg hx s0 { env0 W1 (.ev 1) with
    rdData := .notFound
    rdHash := fun i => if i = 1 then .notFound else .timeout }) = some .notFound := by decide +kernel
theorem out_of_range_example : excOf (iter cfg hx s0 { env0 W1 (.ev 1) with
    rdData := .outOfRange
    rdHash := fun i => if i = 1 then .outOfRange else .timeout }) = some .outOfRange := by decide +kernel

/-! ## Findings -/

/-- the first event group of the events of `wGroup 1` as a block: its only key is one event, its value the other -/
def fake : Upd := .ev 1 [([1, 1], [7, 1])] []

/-- only server 2 is faulty -/
def hon2 (i : Nat) : Bool := i ≠ 2

def g0 : Cl := Cl.fresh.subscribeG 1 .ok
def gEnv : Env := { env0 W1 (.eg 1) with
  rdData := .timeout
  rotOrder := [2, 1, 0, 3]
  rdRot := fun i => if i = 2 then .msg (some fake) else .msg (some (W1.upd (.eg 1))) }

/-- **BUG43.** An event group and a block with the same id can have the same hash although no collision is involved (`fake` is hashed
through the same byte string), and where the data stream is rotated the client does not compare the kind of the update with what the
servers agreed on: a single faulty server that reports the right hash makes the client deliver a block it made up from the events of an
event group.  The client then asks for event group 1 again, so its events are delivered twice. -/
theorem type_confusion : FewFaulty cfg hon2 ∧ CliInv hon2 cfg g0 ∧ EnvOk W1 hx hon2 g0 gEnv ∧
    (∃ c, iter cfg hx g0 gEnv = .next c ∧ c.out = [fake] ∧ c.expect = .eg 1) ∧ hashUpd hx fake = hashUpd hx (W1.upd (.eg 1)) ∧
    ∀ p, ¬ Eqv fake (W1.upd p) := by
  have hi : CliInv hon2 cfg g0 := subscribe_inv (by decide) (fun _ => rfl) _ rfl
  refine ⟨(by show (_ : Nat) ≤ 1; decide), hi, ?_, ?_, by decide +kernel, ?_⟩
  · refine envOk_of hi (by decide) (Or.inl (eqv_self _ _)) _ d3 ?_ ?_ ?_
    · intro _ m hm; cases hm
    · intro i hb m hm; cases hm; rfl
    · intro i hb m hm
      have : i ≠ 2 := of_decide_eq_true hb
      simp only [gEnv, if_neg this] at hm
      cases hm; rfl
  · have h1 : outOf (iter cfg hx g0 gEnv) = some [fake] := by decide +kernel
    have h2 : (cl (iter cfg hx g0 gEnv)).expect = .eg 1 := by decide +kernel
    cases h : iter cfg hx g0 gEnv with
    | exc e => rw [h] at h1; cases h1
    | abort => rw [h] at h1; cases h1
    | next c =>
      rw [h] at h1 h2
      exact ⟨c, rfl, Option.some.inj h1, h2⟩
  · intro p he
    cases p with
    | eg n => exact he.elim
    | ev n =>
      have := he.2.length_eq
      simp [wBlock, W1] at this

/-- **BUG43.** One faulty server ends the client process: by a hash message (or data message) with neither of its two parts, or by an
event group that contains an event twice. -/
theorem one_server_aborts_client :
    aborts (iter cfg hx s0 { env0 W1 (.ev 1) with rdHash := fun i => if i = 1 then .msg none else .msg (some (msgOf (W1.upd (.ev 1)))) }) = true ∧
    aborts (iter cfg hx g0 { env0 W1 (.eg 1) with rdData := .msg (some (.eg 1 [[5], [5]] [])) }) = true := by
  constructor <;> decide +kernel

/-- **BUG43.** One faulty server ends the subscription of a client: by data with a key twice, `hashUpdate` throws `invalid_argument`. -/
theorem one_server_ends_subscription :
    excOf (iter cfg hx s0 { env0 W1 (.ev 1) with rdData := .msg (some (.ev 1 [([5], [1]), ([5], [2])] [])) }) = some .invalid := by
  decide +kernel

/-- **BUG43.** What is not covered by the hash is whatever the data server says: correlation id and record time, and the order of the
entries. -/
theorem info_not_verified : outOf (iter cfg hx s0 { env0 W1 (.ev 1) with rdData := .msg (some (.ev 1 [([200], [3]), ([1], [1, 1])] [66, 66])) }) =
    some [.ev 1 [([200], [3]), ([1], [1, 1])] [66, 66]] := by decide +kernel

/-- **BUG43.** Honest servers that pruned to different event groups: the subscription ends with `InternalError`, which says that more than
`f` servers are faulty, though none is. -/
theorem pruning_mismatch_internal_error :
    excOf (iter cfg hx s0 { env0 W1 (.eg 1) with
      rdData := .msg (some (W1.upd (.eg 1)))
      rdHash := fun i => .msg (some (msgOf (W1.upd (.eg (i + 1))))) }) = some .internal := by decide +kernel

/-- a subscription from block 10 -/
def t0 : Cl := Cl.fresh.subscribeB 10 .ok
def t1 : Cl := cl (iter cfg hx t0 (env0 W1 (.ev 10)))
/-- the same client subscribes again, from block 1 -/
def t2 : Cl := t1.subscribeB 1 .ok

/-- **BUG43.** A second subscription on the same client uses hash streams opened for the first: server 1 goes on with block 11 although
blocks are requested from 1 on, so one faulty data server that also sends block 11 makes the client skip blocks 1 to 10.  (`CliInv`
does not hold after such a `Subscribe`; the theorems are about a client's first subscription.) -/
theorem resubscribe_uses_old_streams : (t2.srv 1).hash = some (.ev 11) ∧ t2.expect = .ev 1 ∧
    outOf (iter cfg hx t2 { env0 W1 (.ev 11) with
      rdHash := fun i => .msg (some (msgOf (W1.upd (.ev (if i = 1 then 11 else 1))))) }) = some [W1.upd (.ev 11)] := by
  refine ⟨by decide +kernel, by decide +kernel, by decide +kernel⟩

end Verif.Trc.Examples
