import Verif.Reconf.AuthTheorems
set_option linter.unusedVariables false
set_option linter.unusedSimpArgs false
/-!
# Reconfiguration commands: requests without a valid signature do not interfere; replicas agree
-/
namespace Verif.Auth

/-- Two states that differ at most in the started actions (`a = false`) and at most in the published client
keys, the number of blocks and the key files (`p = false`). -/
structure Sim (a p : Bool) (s t : St) : Prop where
  stop : s.stop = t.stop
  keys : s.keys = t.keys
  stored : s.stored = t.stored
  chain : ∀ k, p = true ∨ k ≠ .clientsKeys → s.chain k = t.chain k
  acts : a = true → s.acts = t.acts
  pubd : p = true → s.blocks = t.blocks ∧ s.files = t.files ∧ s.published = t.published

theorem Sim.refl (a p : Bool) (s : St) : Sim a p s s := ⟨rfl, rfl, rfl, fun _ _ => rfl, fun _ => rfl, fun _ => ⟨rfl, rfl, rfl⟩⟩

theorem Sim.symm {a p : Bool} {s t : St} (h : Sim a p s t) : Sim a p t s :=
  ⟨h.stop.symm, h.keys.symm, h.stored.symm, fun k hk => (h.chain k hk).symm, fun hk => (h.acts hk).symm,
    fun hk => ⟨(h.pubd hk).1.symm, (h.pubd hk).2.1.symm, (h.pubd hk).2.2.symm⟩⟩

theorem Sim.trans {a p : Bool} {s t u : St} (h : Sim a p s t) (g : Sim a p t u) : Sim a p s u :=
  ⟨h.stop.trans g.stop, h.keys.trans g.keys, h.stored.trans g.stored, fun k hk => (h.chain k hk).trans (g.chain k hk),
    fun hk => (h.acts hk).trans (g.acts hk),
    fun hk => ⟨(h.pubd hk).1.trans (g.pubd hk).1, (h.pubd hk).2.1.trans (g.pubd hk).2.1, (h.pubd hk).2.2.trans (g.pubd hk).2.2⟩⟩

theorem Sim.block {a p : Bool} {s t : St} (h : Sim a p s t) (ks : List Key) (v : Nat × Cmd) : Sim a p (s.block ks v) (t.block ks v) := by
  refine ⟨h.stop, h.keys, h.stored, ?_, h.acts, ?_⟩
  · intro k hk
    show (if ks.contains k then some v else s.chain k) = (if ks.contains k then some v else t.chain k)
    rw [h.chain k hk]
  · intro hp
    exact ⟨congrArg (· + 1) (h.pubd hp).1, (h.pubd hp).2⟩

theorem Sim.act {a p : Bool} {s t : St} (h : Sim a p s t) (x : Act) : Sim a p (s.act x) (t.act x) :=
  ⟨h.stop, h.keys, h.stored, h.chain, fun ha => congrArg (· ++ [x]) (h.acts ha), h.pubd⟩

theorem Sim.setStop {a p : Bool} {s t : St} (h : Sim a p s t) (n : Nat) : Sim a p (s.setStop n) (t.setStop n) := by
  unfold St.setStop
  split
  · exact ⟨rfl, h.keys, h.stored, h.chain, h.acts, h.pubd⟩
  · exact ⟨rfl, h.keys, h.stored, h.chain, h.acts, h.pubd⟩

/-- an action on one side only -/
theorem Sim.actL {p : Bool} {s t : St} (h : Sim false p s t) (x : Act) : Sim false p (s.act x) t :=
  ⟨h.stop, h.keys, h.stored, h.chain, fun ha => (by cases ha), h.pubd⟩

theorem Sim.kvOp {a p : Bool} {s t : St} (h : Sim a p s t) (e : Env) (r : Req) :
    Sim a p (kvOp e s r).1 (kvOp e t r).1 ∧ (kvOp e s r).2 = (kvOp e t r).2 := by
  unfold Auth.kvOp
  split <;> first
    | exact ⟨h.block _ _, rfl⟩
    | exact ⟨h.act _, rfl⟩
    | exact ⟨h, rfl⟩

theorem Sim.snap {a p : Bool} {s t : St} (h : Sim a p s t) (e : Env) (seq : Nat) (r : Req) :
    Sim a p (snap e s seq r).1 (snap e t seq r).1 ∧ (snap e s seq r).2 = (snap e t seq r).2 := by
  unfold Auth.snap
  split
  · split
    · exact ⟨h.act _, rfl⟩
    · exact ⟨h, rfl⟩
  · exact ⟨h, rfl⟩

theorem Sim.intKv {a p : Bool} {s t : St} (h : Sim a p s t) (e : Env) (seq : Nat) (r : Req) :
    Sim a p (intKv e s seq r).1 (intKv e t seq r).1 ∧ (intKv e s seq r).2 = (intKv e t seq r).2 := by
  unfold Auth.intKv
  rw [h.stop]
  split
  · split
    · split
      · exact ⟨h, rfl⟩
      · split
        · exact ⟨h, rfl⟩
        · exact ⟨h.block _ _, rfl⟩
    · exact ⟨h, rfl⟩
  · split
    · exact ⟨h.block _ _, rfl⟩
    · exact ⟨h, rfl⟩
  · exact ⟨h.block _ _, rfl⟩
  · exact ⟨h, rfl⟩

theorem Sim.kvCli {a p : Bool} {s t : St} (h : Sim a p s t) (e : Env) (r : Req) :
    Sim a p (kvCli e s r).1 (kvCli e t r).1 ∧ (kvCli e s r).2 = (kvCli e t r).2 := by
  unfold Auth.kvCli
  split <;> first
    | exact ⟨h.block _ _, rfl⟩
    | exact ⟨h, rfl⟩

theorem Sim.bftOp {a p : Bool} {s t : St} (h : Sim a p s t) (e : Env) (i : Nat) (hi : a = true → i = e.self) (seq : Nat) (r : Req) :
    Sim a p (bftOp e s seq r).1 (bftOp { e with self := i } t seq r).1 ∧ (bftOp e s seq r).2 = (bftOp { e with self := i } t seq r).2 := by
  unfold Auth.bftOp
  split
  · split
    · exact ⟨h.setStop _, rfl⟩
    · exact ⟨(h.setStop _).act _, rfl⟩
  · rename_i tg tls hc
    cases a with
    | true => cases hi rfl; simp only; split
              · exact ⟨h.act _, rfl⟩
              · exact ⟨h, rfl⟩
    | false =>
      simp only
      by_cases h1 : tg.contains e.self = true <;> by_cases h2 : tg.contains i = true
      · rw [if_pos h1, if_pos h2]; exact ⟨h.act _, rfl⟩
      · rw [if_pos h1, if_neg h2]; exact ⟨h.actL _, rfl⟩
      · rw [if_neg h1, if_pos h2]; exact ⟨(h.symm.actL _).symm, rfl⟩
      · rw [if_neg h1, if_neg h2]; exact ⟨h, rfl⟩
  · exact ⟨(((h.setStop _).act _).act _).act _, rfl⟩
  · exact ⟨(h.setStop _).act _, rfl⟩
  · split
    · exact ⟨h, rfl⟩
    · exact ⟨(h.setStop _).act _, rfl⟩
  · split
    · exact ⟨h.act _, rfl⟩
    · exact ⟨h, rfl⟩
  · exact ⟨h, rfl⟩

theorem Sim.pruneOp {a p : Bool} {s t : St} (h : Sim a p s t) (e : Env) (r : Req) :
    Sim a p (pruneOp e s r).1 (pruneOp e t r).1 ∧ (pruneOp e s r).2 = (pruneOp e t r).2 := by
  unfold Auth.pruneOp
  split <;> first
    | exact ⟨h.act _, rfl⟩
    | exact ⟨h, rfl⟩

theorem Sim.post {a p : Bool} {s t : St} (h : Sim a p s t) (e : Env) (r : Req) :
    Sim a p (post e s r).1 (post e t r).1 ∧ (post e s r).2 = (post e t r).2 := by
  unfold Auth.post
  split
  · rename_i key aff hc
    have hb := h.block [.clientsKeys] r.text
    simp only
    split
    · refine ⟨⟨hb.stop, hb.keys, hb.stored, hb.chain, hb.acts, ?_⟩, rfl⟩
      intro hp
      refine ⟨(hb.pubd hp).1, ?_, congrArg some h.keys⟩
      show (fun g => if g = e.gid r.id then some key else s.files g) = (fun g => if g = e.gid r.id then some key else t.files g)
      rw [(h.pubd hp).2.1]
    · exact ⟨⟨hb.stop, hb.keys, hb.stored, hb.chain, hb.acts, fun hp => ⟨(hb.pubd hp).1, (hb.pubd hp).2.1, congrArg some h.keys⟩⟩, rfl⟩
  · exact ⟨h, rfl⟩

theorem Sim.setKey {a p : Bool} {s t : St} (h : Sim a p s t) (e : Env) (key c : Nat) :
    Sim a p (setKey e s key c).1 (setKey e t key c).1 ∧ (setKey e s key c).2 = (setKey e t key c).2 := by
  unfold Auth.setKey
  simp only
  have hst : (fun x => if x = c then some key else s.stored x) = (fun x => if x = c then some key else t.stored x) := by rw [h.stored]
  have hkk : (fun x => if x = c then some key else s.keys x) = (fun x => if x = c then some key else t.keys x) := by rw [h.keys]
  split
  · split
    · exact ⟨⟨h.stop, hkk, hst, h.chain, h.acts, h.pubd⟩, rfl⟩
    · exact ⟨⟨h.stop, h.keys, hst, h.chain, h.acts, h.pubd⟩, rfl⟩
  · exact ⟨⟨h.stop, h.keys, hst, h.chain, h.acts, h.pubd⟩, rfl⟩

theorem Sim.setKeys {a p : Bool} (e : Env) (key : Nat) (cs : List Nat) : ∀ {s t : St}, Sim a p s t →
    Sim a p (setKeys e key s cs).1 (setKeys e key t cs).1 ∧ (setKeys e key s cs).2 = (setKeys e key t cs).2 := by
  induction cs with
  | nil => intro s t h; exact ⟨h, rfl⟩
  | cons c cs ih =>
    intro s t h
    obtain ⟨h1, h2⟩ := h.setKey e key (pid c)
    unfold Auth.setKeys
    generalize Auth.setKey e s key (pid c) = x at h1 h2
    generalize Auth.setKey e t key (pid c) = y at h1 h2
    obtain ⟨s1, b1⟩ := x
    obtain ⟨t1, b2⟩ := y
    simp only at h1 h2
    subst h2
    cases b1 with
    | true => exact ih h1
    | false => exact ⟨h1, rfl⟩

/-- results that agree as far as the two states do -/
inductive SimRes (a p : Bool) : Res → Res → Prop
  | done {s t : St} (b : Bool) : Sim a p s t → SimRes a p (.done s b) (.done t b)
  | thrown {s t : St} : Sim a p s t → SimRes a p (.thrown s) (.thrown t)
  | abort : SimRes a p .abort .abort

theorem Sim.bftCli {a p : Bool} {s t : St} (h : Sim a p s t) (e : Env) (r : Req) : SimRes a p (bftCli e s r) (bftCli e t r) := by
  unfold Auth.bftCli
  split
  · rename_i key aff hc
    obtain ⟨h1, h2⟩ := Sim.setKeys e key (if aff.isEmpty then e.group r.id else aff) h
    generalize Auth.setKeys e key s (if aff.isEmpty then e.group r.id else aff) = x at h1 h2
    generalize Auth.setKeys e key t (if aff.isEmpty then e.group r.id else aff) = y at h1 h2
    obtain ⟨s1, b1⟩ := x
    obtain ⟨t1, b2⟩ := y
    simp only at h1 h2
    subst h2
    cases b1 with
    | true => exact .done true h1
    | false => exact .thrown h1
  · exact .done true h

theorem SimRes.of {a p : Bool} {x y : St × Bool} (h : Sim a p x.1 y.1 ∧ x.2 = y.2) : SimRes a p (.done x.1 x.2) (.done y.1 y.2) := by
  rw [h.2]; exact .done _ h.1

theorem Sim.handle {a p : Bool} {s t : St} (h : Sim a p s t) (e : Env) (i : Nat) (hi : a = true → i = e.self) (seq : Nat) (r : Req) (x : H) :
    SimRes a p (handle e s seq r x) (handle { e with self := i } t seq r x) := by
  cases x with
  | kvOp => exact SimRes.of (h.kvOp e r)
  | snap => exact SimRes.of (h.snap e seq r)
  | intKv => exact SimRes.of (h.intKv e seq r)
  | kvCli => exact SimRes.of (h.kvCli e r)
  | bftOp => exact SimRes.of (h.bftOp e i hi seq r)
  | bftCli =>
    have hk : ∀ cs key (t : St), Auth.setKeys { e with self := i } key t cs = Auth.setKeys e key t cs := by
      intro cs key
      induction cs with
      | nil => intro t; rfl
      | cons c cs ih =>
        intro t
        show (match Auth.setKey e t key (pid c) with
          | (s1, true) => Auth.setKeys { e with self := i } key s1 cs
          | (s1, false) => (s1, false)) = (match Auth.setKey e t key (pid c) with
          | (s1, true) => Auth.setKeys e key s1 cs
          | (s1, false) => (s1, false))
        simp only [ih]
    have : Auth.bftCli { e with self := i } t r = Auth.bftCli e t r := by unfold Auth.bftCli; simp only [hk]
    show SimRes a p (Auth.bftCli e s r) (Auth.bftCli { e with self := i } t r)
    rw [this]
    exact h.bftCli e r
  | pruneOp => exact SimRes.of (h.pruneOp e r)
  | post => exact SimRes.of (h.post e r)

theorem check_congr {e : Env} {s t : St} (h : s.keys = t.keys) (i : Nat) (r : Req) (x : H) : check e s r x = check { e with self := i } t r x := by
  cases x <;> simp only [check, cliCheck, verifySig, h]

theorem Sim.loop {a p : Bool} (e : Env) (i : Nat) (hi : a = true → i = e.self) (seq : Nat) (r : Req) (hs : List H) : ∀ {s t : St} (v ok : Bool),
    Sim a p s t → SimRes a p (loop e seq r hs s v ok) (loop { e with self := i } seq r hs t v ok) := by
  induction hs with
  | nil => intro s t v ok h; exact .done _ h
  | cons x hs ih =>
    intro s t v ok h
    unfold Auth.loop
    rw [← check_congr h.keys i r x]
    have hh := h.handle e i hi seq r x
    cases check e s r x with
    | none => exact .abort
    | some b =>
      cases b with
      | false => exact ih v ok h
      | true =>
        simp only
        generalize Auth.handle e s seq r x = y at hh
        generalize Auth.handle { e with self := i } t seq r x = z at hh
        cases hh with
        | done b h1 => exact ih _ _ h1
        | thrown h1 => exact .done _ h1
        | abort => exact .abort

theorem Sim.dispatch {a p : Bool} {s t : St} (h : Sim a p s t) (e : Env) (i : Nat) (hi : a = true → i = e.self) (seq : Nat) (r : Req) :
    SimRes a p (dispatch e s seq r) (dispatch { e with self := i } t seq r) := Sim.loop e i hi seq r order _ _ h

/-! ### requests without a valid signature do not interfere -/

/-- someone entitled to has signed the request -/
def Authorised (e : Env) (s : St) (r : Req) : Prop := Op e r ∨ BySender e s r

/-- the history in which requests that nobody entitled to has signed (in the state in which they are
processed) are left out -/
noncomputable def runAuthorised (e : Env) : St → List (Nat × Req) → Option St
  | s, [] => some s
  | s, (seq, r) :: h =>
    open Classical in
    if Authorised e s r then
      (match Auth.dispatch e s seq r with
       | .done s' _ => runAuthorised e s' h
       | .thrown s' => runAuthorised e s' h
       | .abort => none)
    else runAuthorised e s h

/-- **Requests without a valid signature do not interfere**: leaving them out of a history changes neither
the stop point, nor a record (other than the published client keys), nor a key, nor a started action. -/
theorem unsigned_requests_do_not_interfere {e : Env} (hs : e.signing = true) (h : List (Nat × Req)) : ∀ {s t s' : St},
    Sim true false s t → run e s h = some s' → ∃ t', runAuthorised e t h = some t' ∧ Sim true false s' t' := by
  classical
  induction h with
  | nil => intro s t s' hst hr; cases hr; exact ⟨t, rfl, hst⟩
  | cons q h ih =>
    intro s t s' hst hr
    obtain ⟨s1, b, hd, hr1⟩ := run_cons hr
    obtain ⟨seq, r⟩ := q
    simp only at hd
    unfold runAuthorised
    have ha : Authorised e t r ↔ Authorised e s r := by
      unfold Authorised BySender SignedBy; rw [hst.keys]
    by_cases hau : Authorised e s r
    · rw [if_pos (ha.2 hau)]
      have h1 := hst.dispatch e e.self (fun _ => rfl) seq r
      have he : { e with self := e.self } = e := rfl
      rw [he, hd] at h1
      generalize Auth.dispatch e t seq r = y at h1
      cases h1 with
      | done _ h1 => exact ih h1 hr1
    · rw [if_neg (fun h => hau (ha.1 h))]
      obtain ⟨h1, h2, h3, h4, h5, _⟩ := unsigned hd hs (fun h => hau (.inl h)) (fun h => hau (.inr h))
      refine ih (Sim.trans ?_ hst) hr1
      exact ⟨h1, h2, h3, fun k hk => h5 k (hk.resolve_left (by decide)), fun _ => h4, fun h => (by cases h)⟩

/-! ### replicas agree -/

/-- what a replica executes: an ordered request, or a read-only request that some client sent to it -/
inductive Ev where
  | ord (q : CReq)
  | ro (q : CReq)

/-- a replica executes a sequence of requests -/
def runRep (e : Env) : Rep → List Ev → Rep
  | a, [] => a
  | a, .ord q :: l => runRep e (if a.dead then a else ordered e a q) l
  | a, .ro q :: l => runRep e (if a.dead then a else readOnly e a q) l

/-- the ordered requests of a sequence -/
def ordOf : List Ev → List CReq
  | [] => []
  | .ord q :: l => q :: ordOf l
  | .ro _ :: l => ordOf l

/-- all replicas that agree in everything but their own actions -/
structure Agree (a b : Rep) : Prop where
  st : Sim false true a.st b.st
  app : a.app = b.app
  kx : a.kx = b.kx
  ticks : a.ticks = b.ticks
  pubs : a.pubs = b.pubs
  last : a.last = b.last
  dead : a.dead = b.dead

/-- a read-only request that only asks the application -/
def Harmless (q : CReq) : Prop := q.flags.readOnly = true ∧ q.flags.reconfig = false ∧ q.flags.keyExchange = false

theorem harmless_nothing {e : Env} {a : Rep} {q : CReq} (h : Harmless q) : readOnly e a q = a := by
  obtain ⟨h1, h2, h3⟩ := h
  unfold readOnly execute
  have hk : kind q.flags = .ignoredTick ∨ kind q.flags = .noop ∨ kind q.flags = .user true := by
    unfold kind
    rw [h1, h2, h3]
    cases q.flags.tick <;> cases q.flags.noop <;> simp
  rcases hk with hk | hk | hk <;> rw [hk]

theorem execute_agree {e : Env} {i : Nat} {a b : Rep} (h : Agree a b) (seq : Nat) (q : CReq) : Agree (execute e a seq q) (execute { e with self := i } b seq q) := by
  unfold execute
  cases kind q.flags with
  | keyExchange => exact ⟨h.st, h.app, by simp only [h.kx], h.ticks, h.pubs, h.last, h.dead⟩
  | reconfig =>
    simp only
    have h1 := h.st.dispatch e i (fun h => (by cases h)) seq q.req
    generalize Auth.dispatch e a.st seq q.req = y at h1
    generalize Auth.dispatch { e with self := i } b.st seq q.req = z at h1
    cases h1 with
    | done _ h1 => exact ⟨h1, h.app, h.kx, h.ticks, h.pubs, h.last, h.dead⟩
    | thrown h1 => exact ⟨h1, h.app, h.kx, h.ticks, h.pubs, h.last, h.dead⟩
    | abort => exact ⟨h.st, h.app, h.kx, h.ticks, h.pubs, h.last, rfl⟩
  | tick => exact ⟨h.st, h.app, h.kx, by simp only [h.ticks], h.pubs, h.last, h.dead⟩
  | ignoredTick => exact h
  | noop => exact h
  | clientsKeys => exact ⟨h.st, h.app, h.kx, h.ticks, by simp only [h.pubs], h.last, h.dead⟩
  | user ro =>
    cases ro with
    | true => exact h
    | false => exact ⟨h.st, by simp only [h.app], h.kx, h.ticks, h.pubs, h.last, h.dead⟩

theorem ordered_agree {e : Env} {i : Nat} {a b : Rep} (h : Agree a b) (q : CReq) : Agree (ordered e a q) (ordered { e with self := i } b q) := by
  unfold ordered
  have h1 := execute_agree (e := e) (i := i) h (a.last + 1) q
  rw [← h.last]
  exact ⟨h1.st, h1.app, h1.kx, h1.ticks, h1.pubs, rfl, h1.dead⟩

/-- **Every request goes to exactly one place**: a plain request to the application, a tick (not
read-only) to the ticks, client keys to the publications, a key exchange to the key exchange; flags decide in
this order: key exchange, reconfiguration, tick, no-op, read-only, client keys. -/
theorem one_place (e : Env) (a : Rep) (seq : Nat) (q : CReq) :
    (execute e a seq q).app = (if q.flags = {} then a.app ++ [q.body] else a.app) ∧
    (execute e a seq q).ticks = (if q.flags.tick = true ∧ q.flags.readOnly = false ∧ q.flags.keyExchange = false ∧ q.flags.reconfig = false
      then a.ticks ++ [(seq, q.body)] else a.ticks) ∧
    (execute e a seq q).kx = (if q.flags.keyExchange = true then a.kx ++ [(seq, q.body)] else a.kx) ∧
    (execute e a seq q).pubs = (if q.flags.clientsKeys = true ∧ q.flags.tick = false ∧ q.flags.noop = false ∧ q.flags.readOnly = false ∧
      q.flags.keyExchange = false ∧ q.flags.reconfig = false then a.pubs ++ [q.body] else a.pubs) := by
  obtain ⟨⟨f1, f2, f3, f4, f5, f6⟩, r, body⟩ := q
  cases f3 with
  | true => cases f1 <;> cases f2 <;> cases f4 <;> cases f5 <;> cases f6 <;> exact ⟨rfl, rfl, rfl, rfl⟩
  | false =>
    cases f2 with
    | true =>
      have h : execute e a seq ⟨⟨f1, true, false, f4, f5, f6⟩, r, body⟩ = (match Auth.dispatch e a.st seq r with
        | .done s _ => { a with st := s }
        | .thrown s => { a with st := s }
        | .abort => { a with dead := true }) := rfl
      rw [h]
      cases Auth.dispatch e a.st seq r <;> (cases f1 <;> cases f4 <;> cases f5 <;> cases f6 <;> exact ⟨rfl, rfl, rfl, rfl⟩)
    | false => cases f1 <;> cases f4 <;> cases f5 <;> cases f6 <;> exact ⟨rfl, rfl, rfl, rfl⟩

/-- the ordered requests alone -/
def runOrd (e : Env) (a : Rep) (l : List CReq) : Rep := runRep e a (l.map .ord)

theorem runRep_ordOf {e : Env} (l : List Ev) (hl : ∀ q, Ev.ro q ∈ l → Harmless q) : ∀ a, runRep e a l = runOrd e a (ordOf l) := by
  induction l with
  | nil => intro a; rfl
  | cons x l ih =>
    intro a
    have ih := ih (fun q hq => hl q (List.mem_cons_of_mem _ hq))
    cases x with
    | ord q => exact ih _
    | ro q =>
      unfold runRep
      rw [harmless_nothing (hl q List.mem_cons_self), ite_self]
      exact ih a

theorem runOrd_agree {e : Env} {i : Nat} (l : List CReq) : ∀ {a b : Rep}, Agree a b → Agree (runOrd e a l) (runOrd { e with self := i } b l) := by
  induction l with
  | nil => intro a b h; exact h
  | cons q l ih =>
    intro a b h
    show Agree (runRep e (if a.dead then a else ordered e a q) _) (runRep _ (if b.dead then b else ordered { e with self := i } b q) _)
    refine ih ?_
    rw [← h.dead]
    split
    · exact h
    · exact ordered_agree h q

/-- **Replicas that execute the same ordered requests agree** in everything that reconfiguration changes
(except the actions they start themselves), whatever read-only requests clients send to them in between,
provided those carry neither the reconfiguration flag nor the key-exchange flag.  (AuthExamples: with the
reconfiguration flag they need not agree.)

Partial: the property without the proviso is false of the code. -/
theorem replicas_agree_partial (e : Env) (i j : Nat) (l m : List Ev) (a b : Rep) (hab : Agree a b)
    (hl : ∀ q, Ev.ro q ∈ l → Harmless q) (hm : ∀ q, Ev.ro q ∈ m → Harmless q) (ho : ordOf l = ordOf m) :
    Agree (runRep { e with self := i } a l) (runRep { e with self := j } b m) := by
  rw [runRep_ordOf l hl, runRep_ordOf m hm, ho]
  exact runOrd_agree (e := { e with self := i }) (i := j) (ordOf m) hab

end Verif.Auth
