import Verif.Keys.Own
/-!
# Where the code falls short, and examples
-/
set_option linter.unusedSimpArgs false
set_option linter.unusedVariables false
namespace Verif.Keys
open Verif.Bytes

/-! ## A cluster of four, seen by replica 0 -/

/-- keys 10 to 13, the secret of the replica is 100 -/
def cfg (me : Nat) : Cfg := ⟨4, me, 0, 4096, ⟨[100], fun r => [UInt8.ofNat (10 + r)]⟩, false, 2⟩

/-- replica `r` announces `k`, generated at `sn` -/
def msg (r : Nat) (k : Key) (sn : Nat) : Msg := ⟨0, k, r, sn, 0⟩

def exec (me : Nat) (m : Msg) (req : Nat) (x : R St) : R St := x.bind (fun s => executeKeyExchange (cfg me) s 77 m req)
def gen (me sn : Nat) (p : Pair) (x : R St) : R St := x.bind (fun s => .ok (generate (cfg me) s sn p).1)
def again (me : Nat) (x : R St) : R St := x.bind (fun s => restart (cfg me) s)

/-- the secret with which the replica signs at `q` -/
def secretIn (x : R St) (q : Nat) : Option Bytes := x.toOption.bind (fun s => (sysAt s.mgr q).map (·.secret))

/-- the key with which it verifies replica `r` at `q` -/
def keyIn (x : R St) (r q : Nat) : Option Key := x.toOption.bind (fun s => (sysAt s.mgr q).map (fun y => y.vk r))

def err (x : R St) : Option Err :=
  match x with
  | .error e => some e
  | .ok _ => none

theorem R.ok_of_err {x : R St} (h : err x = none) : ∃ s, x = .ok s := by
  cases x with
  | error e => simp [err] at h
  | ok s => exact ⟨s, rfl⟩

theorem run_exec {me : Nat} {x : R St} {h : List (Nat × Ex)} (hr : ∀ s, x = .ok s → Run (cfg me) s h) (r : Nat) (k : Key) (sn req : Nat)
    (hsn : sn < 2 ^ 64) (ha : (x.toOption.map (fun s => accepts (cfg me) s (msg r k sn) req)) = some true) :
    ∀ s, exec me (msg r k sn) req x = .ok s → Run (cfg me) s (h ++ [(req, ⟨r, sn, k⟩)]) := by
  intro s hs
  cases x with
  | error e => simp [exec, Except.bind] at hs
  | ok s0 =>
    have ha : accepts (cfg me) s0 (msg r k sn) req = true := Option.some.inj ha
    exact .exec 77 (msg r k sn) req (hr s0 rfl) hsn ha hs

theorem run_gen' {me : Nat} {x : R St} {h : List (Nat × Ex)} (hr : ∀ s, x = .ok s → Run (cfg me) s h) (sn : Nat) (p : Pair) :
    ∀ s, gen me sn p x = .ok s → Run (cfg me) s h := by
  intro s hs
  cases x with
  | error e => simp [gen, Except.bind] at hs
  | ok s0 =>
    simp [gen, Except.bind] at hs
    rw [← hs]
    exact .gen sn p (hr s0 rfl)

theorem run_again {me : Nat} {x : R St} {h : List (Nat × Ex)} (hr : ∀ s, x = .ok s → Run (cfg me) s h) :
    ∀ s, again me x = .ok s → Run (cfg me) s h := by
  intro s hs
  cases x with
  | error e => simp [again, Except.bind] at hs
  | ok s0 => exact .restart (hr s0 rfl) hs

theorem run_boot (me : Nat) : ∀ s, (.ok (boot (cfg me)) : R St) = .ok s → Run (cfg me) s [] := by
  intro s hs
  cases hs
  exact .start _

/-! ## BUG69: after a restart a replica signs with its first secret -/

/-- **Whenever another replica exchanged its key in a later checkpoint, a restart brings back the configured secret**: at the sequence numbers at which
that later exchange is in force the replica signs with it, although all others verify with the exchanged key. -/
theorem restart_forgets_secret {c : Cfg} {s s' : St} {h : List (Nat × Ex)} (hr : Run c s h) (hps : c.pageSize < 2 ^ 63)
    (ho : InOrder (h.map (·.2))) (hx : restart c s = .ok s') (q : Nat) (e : Nat × Ex) (he : e ∈ h) (hq : InForce e.2 q)
    (hl : ∀ p ∈ s.privs, p.1 / 150 < e.2.sn / 150) :
    ∃ y, sysAt s'.mgr q = some y ∧ y.secret = c.init.secret := by
  obtain ⟨y, d, h1, h2, _, _, h5⟩ := restart_secret hr hps ho hx q
  refine ⟨y, h1, ?_⟩
  have := h5 e he hq
  rw [h2]
  unfold secretAt
  have : (s.privs.filter (fun p => decide (effectiveFrom p.1 = d))) = [] := by
    rw [List.filter_eq_nil_iff]
    intro p hp
    have := hl p hp
    simp
    show ¬ (p.1 / 150 + 2 = d)
    omega
  rw [this]
  rfl

/-- replica 0 exchanges its key at 10, replica 1 at 160 -/
def signed : R St := exec 0 (msg 1 [55] 160) 170 (exec 0 (msg 0 [201] 10) 20 (gen 0 10 ⟨[1], [201]⟩ (.ok (boot (cfg 0)))))

set_option maxRecDepth 100000 in
/-- before the restart it signs with its new secret, after it with the first one; the key of the history is the exchanged one -/
theorem restart_signs_with_old_key :
    secretIn signed 700 = some [1] ∧ secretIn (again 0 signed) 700 = some [100] ∧
    keyAt (cfg 0).init.vk [⟨0, 10, [201]⟩, ⟨1, 160, [55]⟩] 0 700 = [201] := by
  decide +kernel

set_option maxRecDepth 100000 in
/-- this is a run, with the exchanges in order -/
theorem signed_run : ∃ s, again 0 signed = .ok s ∧ Run (cfg 0) s [(20, ⟨0, 10, [201]⟩), (170, ⟨1, 160, [55]⟩)] := by
  obtain ⟨s, hs⟩ := R.ok_of_err (x := again 0 signed) (by decide +kernel)
  refine ⟨s, hs, ?_⟩
  have h1 := run_gen' (run_boot 0) 10 ⟨[1], [201]⟩
  have h2 := run_exec h1 0 [201] 10 20 (by decide) (by decide +kernel)
  have h3 := run_exec h2 1 [55] 160 170 (by decide) (by decide +kernel)
  exact run_again h3 s hs

/-- the hypotheses of the main theorem are met, and what it says is not trivial -/
example : InOrder ([(20, (⟨0, 10, [201]⟩ : Ex)), (170, ⟨1, 160, [55]⟩)].map (·.2)) ∧ (cfg 0).pageSize < 2 ^ 63 ∧
    keyAt (cfg 0).init.vk [⟨0, 10, [201]⟩, ⟨1, 160, [55]⟩] 1 450 = [11] ∧
    keyAt (cfg 0).init.vk [⟨0, 10, [201]⟩, ⟨1, 160, [55]⟩] 1 451 = [55] := by
  refine ⟨?_, ?_, ?_, ?_⟩
  · unfold InOrder
    decide +kernel
  · decide +kernel
  · decide +kernel
  · decide +kernel

/-! ## BUG70: exchanges out of order -/

/-- replica 1 generated its key at 450 and replica 2 at 440, but the first is executed first -/
def crossed (me : Nat) : R St := exec me (msg 2 [66] 440) 470 (exec me (msg 1 [55] 450) 460 (.ok (boot (cfg me))))

set_option maxRecDepth 100000 in
/-- replicas that stay up forget the key of replica 2 from checkpoint 5 on and use that of replica 1 one checkpoint early; a replica that is
restarted has the right ones -/
theorem crossed_exchanges_diverge :
    keyIn (crossed 0) 2 700 = some [66] ∧ keyIn (crossed 0) 2 800 = some [12] ∧ keyIn (again 0 (crossed 0)) 2 800 = some [66] ∧
    keyIn (crossed 0) 1 700 = some [55] ∧ keyIn (again 0 (crossed 0)) 1 700 = some [11] ∧
    keyAt (cfg 0).init.vk [⟨1, 450, [55]⟩, ⟨2, 440, [66]⟩] 2 800 = [66] ∧
    keyAt (cfg 0).init.vk [⟨1, 450, [55]⟩, ⟨2, 440, [66]⟩] 1 700 = [11] := by
  decide +kernel

set_option maxRecDepth 100000 in
theorem crossed_run : ∃ s, crossed 0 = .ok s ∧ Run (cfg 0) s [(460, ⟨1, 450, [55]⟩), (470, ⟨2, 440, [66]⟩)] := by
  obtain ⟨s, hs⟩ := R.ok_of_err (x := crossed 0) (by decide +kernel)
  refine ⟨s, hs, ?_⟩
  have h2 := run_exec (run_boot 0) 1 [55] 450 460 (by decide) (by decide +kernel)
  exact run_exec h2 2 [66] 440 470 (by decide) (by decide +kernel) s hs

/-! ## BUG71: the secret is not saved before the key is announced -/

set_option maxRecDepth 100000 in
/-- replica 0 announces a key and is restarted before the exchange is executed: it installs the public key and signs with the old secret -/
theorem crash_loses_secret :
    secretIn (exec 0 (msg 0 [201] 10) 20 (again 0 (gen 0 10 ⟨[1], [201]⟩ (.ok (boot (cfg 0)))))) 500 = some [100] ∧
    keyIn (exec 1 (msg 0 [201] 10) 20 (.ok (boot (cfg 1)))) 0 500 = some [201] := by
  decide +kernel

/-! ## BUG72: anyone may exchange the key of anyone -/

/-- the client that sent the request is not looked at -/
theorem any_client_exchanges (c : Cfg) (s : St) (a b : Nat) (m : Msg) (req : Nat) :
    executeKeyExchange c s a m req = executeKeyExchange c s b m req := rfl

/-- **Any client replaces the key of any replica**: every other replica takes the key over if it is new and the page has room. -/
theorem client_installs_key {c : Cfg} {s : St} {h : List (Nat × Ex)} (hr : Run c s h) (hps : c.pageSize < 2 ^ 63)
    (client r sn req : Nat) (k : Key) (hrn : r < c.n) (hme : r ≠ c.me) (hsn : req / 300 * 300 ≤ sn) (h64 : sn < 2 ^ 64)
    (ho : InOrder (h.map (·.2) ++ [⟨r, sn, k⟩])) (hnew : ∀ e ∈ h, e.2.sn ≠ sn)
    (hroom : (encKeys (insertAt sn k (s.store r))).length ≤ c.pageSize) :
    ∃ s', executeKeyExchange c s client ⟨0, k, r, sn, c.epoch⟩ req = .ok s' ∧
      ∀ q, sn / 150 + 2 ≤ (q - 1) / 150 → ∃ y, sysAt s'.mgr q = some y ∧ y.vk r = k := by
  have hi := run_inv hr hps (inOrder_prefix ho)
  have hk : keyExists s r sn = false := by
    cases hk : keyExists s r sn with
    | false => rfl
    | true =>
      unfold keyExists at hk
      rw [hasKey_iff, hi.store] at hk
      obtain ⟨p, hp, e⟩ := hk
      unfold storeOf at hp
      obtain ⟨x, hx, ex⟩ := List.mem_map.1 hp
      obtain ⟨y, hy, ey⟩ := List.mem_map.1 (List.mem_filter.1 hx).1
      exact absurd (by rw [ey, ← e, ← ex]) (hnew y hy)
  have ha : accepts c s ⟨0, k, r, sn, c.epoch⟩ req = true := by
    unfold accepts workWindow
    have : ¬ sn < req / 300 * 300 := by omega
    simp [hk, this]
  obtain ⟨s', hs'⟩ : ∃ s', executeKeyExchange c s client ⟨0, k, r, sn, c.epoch⟩ req = .ok s' := by
    unfold executeKeyExchange onKeyExchange
    rw [if_pos ha]
    unfold push
    simp only
    rw [if_neg (by omega), if_neg (by omega)]
    simp only
    unfold install
    rw [if_neg hme]
    exact ⟨_, rfl⟩
  refine ⟨s', hs', fun q hq => ?_⟩
  have hr' := Run.exec client ⟨0, k, r, sn, c.epoch⟩ req hr h64 ha hs'
  obtain ⟨y, e1, e2⟩ := keys_follow_history_partial hr' hps (by rw [List.map_append]; exact ho) r q hme
  refine ⟨y, e1, ?_⟩
  rw [e2, List.map_append, keyAt_eq]
  show lastKey _ (_ ++ [(⟨r, sn, k⟩ : Ex)]) r _ = k
  rw [lastKey_snoc, if_pos]
  exact ⟨rfl, hq⟩

/-- **A client stops a replica that has announced a key** by a request with the same number and another key. -/
theorem client_stops_replica {c : Cfg} {s : St} (client sn req : Nat) (p : Pair) (k : Key) (hc : candAt s sn = some p) (hk : k ≠ p.pub)
    (hn : c.me < c.n) (ha : accepts c s ⟨0, k, c.me, sn, c.epoch⟩ req = true) :
    executeKeyExchange c s client ⟨0, k, c.me, sn, c.epoch⟩ req = .error .abort := by
  unfold executeKeyExchange onKeyExchange
  rw [if_pos ha]
  unfold push
  simp only
  rw [if_neg (by omega)]
  split
  · rename_i h
    split at h
    · simpa using h.symm
    · simp at h
  · next s1 h =>
    split at h
    · simp at h
    · simp only [Except.ok.injEq] at h
      have hc' : candAt s1 sn = some p := by rw [← h]; exact hc
      unfold install
      simp only [if_true]
      rw [hc']
      simp only
      rw [if_pos (fun e => hk e.symm)]

set_option maxRecDepth 100000 in
example : err (exec 0 (msg 0 [9] 10) 20 (gen 0 10 ⟨[1], [201]⟩ (.ok (boot (cfg 0))))) = some .abort := by
  decide +kernel

/-! ## BUG73: a key may come into force inside the window of a replica that has not seen it -/

set_option maxRecDepth 100000 in
/-- generated at 149 and executed at 151, a key is in force from 301 on, inside the window 151..450 of a replica at the stable checkpoint 150 -/
theorem early_key :
    (accepts (cfg 0) (boot (cfg 0)) (msg 1 [55] 149) 151 = true) ∧
    keyIn (exec 0 (msg 1 [55] 149) 151 (.ok (boot (cfg 0)))) 1 301 = some [55] ∧
    keyIn (.ok (boot (cfg 2))) 1 301 = some [11] := by
  decide +kernel

/-! ## BUG74: the page of a replica is full after 50 keys -/

theorem encKeys_length (l : List (Nat × Key)) (h : ∀ p ∈ l, p.2.length = 64) : (encKeys l).length = 69 + 80 * l.length := by
  have h1 : ((l.map encEntry).flatten).length = 80 * l.length := by
    induction l with
    | nil => rfl
    | cons p l ih =>
      have := encEntry_length p
      have := h p (by simp)
      have := ih (fun q hq => h q (by simp [hq]))
      simp only [List.map_cons, List.flatten_cons, List.length_append, List.length_cons]
      omega
  have h2 : keysName.length = 44 := by decide +kernel
  simp only [encKeys, List.length_append, leEncode_length, encStr, h1, h2, List.length_cons, List.length_nil]

theorem insertAt_length {α : Type} (c : Nat) (y : α) (l : List (Nat × α)) : (insertAt c y l).length = l.length + 1 := by
  induction l with
  | nil => rfl
  | cons p l ih =>
    obtain ⟨d, z⟩ := p
    unfold insertAt
    split
    · simp
    · simp [ih]

/-- **The 51st key exchange of a replica stops all replicas**: with pages of 4096 bytes and keys of 64 characters the execution fails an assertion
on each of them, and again after each restart. -/
theorem page_full {c : Cfg} {s : St} (client : Nat) (m : Msg) (req : Nat) (hp : c.pageSize = 4096) (hn : m.rep < c.n)
    (h50 : (s.store m.rep).length = 50) (hk : ∀ p ∈ s.store m.rep, p.2.length = 64) (hm : m.key.length = 64)
    (ha : accepts c s m req = true) : executeKeyExchange c s client m req = .error .abort := by
  have hl : (encKeys (insertAt m.sn m.key (s.store m.rep))).length = 69 + 80 * 51 := by
    rw [encKeys_length, insertAt_length, h50]
    intro p h
    rcases (mem_insertAt _ _ _ _).1 h with rfl | h
    · exact hm
    · exact hk p h
  unfold executeKeyExchange onKeyExchange
  rw [if_pos ha]
  unfold push
  simp only
  rw [if_neg (by omega), if_pos (by rw [hl, hp]; decide)]

/-- fifty exchanges of replica 1, one per work window -/
def fifty : Nat → R St
  | 0 => .ok (boot (cfg 0))
  | k + 1 => exec 0 (msg 1 (List.replicate 64 7) (300 * k + 1)) (300 * k + 2) (fifty k)

set_option maxRecDepth 1000000 in
/-- the hypotheses are met: fifty exchanges succeed, the next one does not -/
theorem page_full_reachable : err (fifty 50) = none ∧ err (fifty 51) = some .abort := by
  decide +kernel

/-! ## BUG75: a replica that is not there -/

/-- **An exchange for a replica id outside of the cluster writes outside of the array of keys**, on every replica. -/
theorem unknown_replica {c : Cfg} {s : St} (client : Nat) (m : Msg) (req : Nat) (hn : c.n ≤ m.rep) (ha : accepts c s m req = true) :
    executeKeyExchange c s client m req = .error .oob := by
  unfold executeKeyExchange onKeyExchange
  rw [if_pos ha]
  unfold push
  simp only
  rw [if_pos hn]

set_option maxRecDepth 100000 in
example : accepts (cfg 0) (boot (cfg 0)) (msg 4 [1] 10) 20 = true := by decide +kernel

/-! ## BUG76: bytes that are not a key exchange -/

/-- **A request with the key exchange flag whose bytes name another class ends every replica that executes it.** -/
theorem garbage_stops_replicas (c : Cfg) (s : St) (client req : Nat) (nm rest : Bytes) (hl : nm.length < 2 ^ 63) (hn : nm ≠ msgName) :
    executeBytes c s client (encStr nm ++ rest) req = .error .thrown := by
  unfold executeBytes decMsg
  rw [decStr_enc _ _ hl]
  simp only
  rw [if_pos hn]

/-- a length of 2^63 or more does the same -/
theorem long_string_stops_replicas (c : Cfg) (s : St) (client req n : Nat) (rest : Bytes) (h1 : 2 ^ 63 ≤ n) (h2 : n < 2 ^ 64) :
    executeBytes c s client (leEncode 8 n ++ rest) req = .error .thrown := by
  unfold executeBytes decMsg decStr
  rw [decNat_enc _ _ h2]
  simp only
  rw [if_pos (by omega)]

/-! ## BUG77: the assertion after state transfer is stronger than what counts as exchanged -/

/-- like `cfg`, with an exchange at the start: `2f + c = 2` -/
def cfgOn (me : Nat) : Cfg := { cfg me with exchangeOnStart := true }

set_option maxRecDepth 100000 in
/-- one key, that of the replica itself, counts as exchanged; a state transfer then fails the assertion -/
theorem transfer_aborts :
    ((exec 1 (msg 0 [201] 10) 20 (.ok (boot (cfg 1)))).toOption.map (fun s2 =>
      (exchanged (cfgOn 0) s2.store, err (transferred (cfgOn 0) (boot (cfgOn 0)) s2.pages)))) = some (true, some .abort) := by
  decide +kernel

/-! ## BUG78: an empty key is announced -/

/-- keys announced at 1 and, again, at 301; the first exchange is executed; the key is announced at 301 once more -/
def twice : R St := exec 0 (msg 0 [201] 1) 2 (gen 0 301 ⟨[2], [202]⟩ (gen 0 1 ⟨[1], [201]⟩ (.ok (boot (cfg 0)))))

set_option maxRecDepth 100000 in
/-- the last message has no key, and the exchange announced before now stops the replica -/
theorem empty_key_sent :
    (twice.toOption.map (fun s => (generate (cfg 0) s 301 ⟨[3], [203]⟩).2)) = some (some (msg 0 [] 301)) ∧
    err (exec 0 (msg 0 [201] 301) 302 (gen 0 301 ⟨[3], [203]⟩ twice)) = some .abort := by
  decide +kernel

/-! ## Non-vacuity of the other theorems -/

/-- the public key of secret `[x]` is `[x + 200]`, as in the runs above (the configured pair is 100 and 10) -/
def pubOf (b : Bytes) : Key := if b = [100] then [10] else b.map (fun x => x + 200)

set_option maxRecDepth 100000 in
/-- replica 0 stays up -/
theorem own_run : ∃ s, signed = .ok s ∧ OwnRun pubOf (cfg 0) s [(20, ⟨0, 10, [201]⟩), (170, ⟨1, 160, [55]⟩)] := by
  have h0 : OwnRun pubOf (cfg 0) (boot (cfg 0)) [] := .start (by decide +kernel)
  have h1 := OwnRun.gen 10 ⟨[1], [201]⟩ h0 (by decide +kernel) (by intro _; decide +kernel)
  obtain ⟨s2, e2⟩ := R.ok_of_err (x := executeKeyExchange (cfg 0) (generate (cfg 0) (boot (cfg 0)) 10 ⟨[1], [201]⟩).1 77 (msg 0 [201] 10) 20) (by decide +kernel)
  have h2 := OwnRun.exec 77 (msg 0 [201] 10) 20 h1 (by decide) (by decide +kernel) (by intro _; decide +kernel) e2
  obtain ⟨s3, e3⟩ := R.ok_of_err (x := signed) (by decide +kernel)
  have e3' : executeKeyExchange (cfg 0) s2 77 (msg 1 [55] 160) 170 = .ok s3 := by
    have : signed = executeKeyExchange (cfg 0) s2 77 (msg 1 [55] 160) 170 := by
      have e2' : exec 0 (msg 0 [201] 10) 20 (gen 0 10 ⟨[1], [201]⟩ (.ok (boot (cfg 0)))) = .ok s2 := e2
      unfold signed
      rw [e2']
      rfl
    rw [← this]
    exact e3
  have ha : accepts (cfg 0) s2 (msg 1 [55] 160) 170 = true := by
    have : ((executeKeyExchange (cfg 0) (generate (cfg 0) (boot (cfg 0)) 10 ⟨[1], [201]⟩).1 77 (msg 0 [201] 10) 20).toOption.map
        (fun s => accepts (cfg 0) s (msg 1 [55] 160) 170)) = some true := by decide +kernel
    rw [e2] at this
    exact Option.some.inj this
  exact ⟨s3, e3, .exec 77 (msg 1 [55] 160) 170 h2 (by decide) ha (by intro h; exact absurd h (by decide)) e3'⟩

set_option maxRecDepth 100000 in
/-- a state transfer: replica 3 gets the two exchanges from replica 0 -/
theorem transfer_run : ∃ s, Run (cfg 3) s [(20, ⟨0, 10, [201]⟩), (170, ⟨1, 160, [55]⟩)] := by
  obtain ⟨s2, _, r2⟩ := own_run
  obtain ⟨s', _, r⟩ := transfer_works (Run.start (cfg 3)) r2.live.run ⟨_, rfl⟩ (by decide +kernel) rfl rfl
    (by unfold InOrder; decide +kernel) (Or.inl rfl)
  exact ⟨s', r⟩

end Verif.Keys
