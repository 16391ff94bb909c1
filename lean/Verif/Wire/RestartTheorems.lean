import Verif.Wire.Restarting
import Verif.Util.ListLemmas
/-!
# Restart after a stop: theorems
-/
set_option linter.unusedVariables false
set_option linter.unusedSimpArgs false
set_option maxRecDepth 4000
namespace Verif.Wire.Restarting
open Verif.Bytes Verif.Wire

/-! ## The table -/

def Sorted (l : List Entry) : Prop := l.Pairwise (fun a b => a.gen < b.gen)

theorem mem_put {x y : Entry} : ∀ {l : List Entry}, y ∈ put x l → y = x ∨ y ∈ l := by
  intro l
  induction l with
  | nil => intro h; simp only [put, List.mem_singleton] at h; exact Or.inl h
  | cons z l ih =>
    intro h
    simp only [put] at h
    split at h
    · rcases List.mem_cons.mp h with h | h
      · exact Or.inl h
      · exact Or.inr h
    · split at h
      · rcases List.mem_cons.mp h with h | h
        · exact Or.inl h
        · exact Or.inr (List.mem_cons_of_mem _ h)
      · rcases List.mem_cons.mp h with h | h
        · exact Or.inr (by rw [h]; simp)
        · rcases ih h with h | h
          · exact Or.inl h
          · exact Or.inr (List.mem_cons_of_mem _ h)

theorem Sorted.put {x : Entry} : ∀ {l : List Entry}, Sorted l → Sorted (put x l) := by
  intro l
  induction l with
  | nil => intro _; exact List.pairwise_singleton _ _
  | cons z l ih =>
    intro h
    obtain ⟨h1, h2⟩ := List.pairwise_cons.mp h
    simp only [Restarting.put]
    split
    · rename_i hlt
      refine List.pairwise_cons.mpr ⟨?_, h⟩
      intro y hy
      rcases List.mem_cons.mp hy with rfl | hy
      · exact hlt
      · exact Nat.lt_trans hlt (h1 y hy)
    · split
      · rename_i heq
        exact List.pairwise_cons.mpr ⟨fun y hy => by rw [heq]; exact h1 y hy, h2⟩
      · rename_i hn hne
        refine List.pairwise_cons.mpr ⟨?_, ih h2⟩
        intro y hy
        rcases mem_put hy with rfl | hy
        · omega
        · exact h1 y hy

theorem Sorted.nodup {l : List Entry} (h : Sorted l) : (l.map Entry.gen).Nodup := by
  unfold List.Nodup
  rw [List.pairwise_map]
  exact List.Pairwise.imp (fun hab => Nat.ne_of_lt hab) h

theorem length_put_new {x : Entry} : ∀ {l : List Entry}, has x.gen l = false → (put x l).length = l.length + 1 := by
  intro l
  induction l with
  | nil => intro _; rfl
  | cons z l ih =>
    intro h
    simp only [has, List.any_cons, Bool.or_eq_false_iff, beq_eq_false_iff_ne, ne_eq] at h
    simp only [put]
    split
    · rfl
    · rw [if_neg (fun hh => h.1 hh.symm)]
      simp only [List.length_cons]
      rw [ih h.2]

theorem mem_put_old {x y : Entry} : ∀ {l : List Entry}, has x.gen l = false → y ∈ l → y ∈ put x l := by
  intro l
  induction l with
  | nil => intro _ h; cases h
  | cons z l ih =>
    intro h hy
    simp only [has, List.any_cons, Bool.or_eq_false_iff, beq_eq_false_iff_ne, ne_eq] at h
    simp only [put]
    split
    · exact List.mem_cons_of_mem _ hy
    · rw [if_neg (fun hh => h.1 hh.symm)]
      rcases List.mem_cons.mp hy with rfl | hy
      · simp
      · exact List.mem_cons_of_mem _ (ih h.2 hy)

theorem has_iff {g : Nat} {l : List Entry} : has g l = true ↔ ∃ x ∈ l, x.gen = g := by
  simp [has, List.any_eq_true]

theorem mem_put_self {x : Entry} : ∀ {l : List Entry}, x ∈ put x l := by
  intro l
  induction l with
  | nil => simp [put]
  | cons z l ih =>
    simp only [put]
    split
    · simp
    · split
      · simp
      · exact List.mem_cons_of_mem _ ih

theorem has_put {x : Entry} {l : List Entry} : has x.gen (put x l) = true := has_iff.mpr ⟨x, mem_put_self, rfl⟩

theorem length_put_le {x : Entry} : ∀ {l : List Entry}, l.length ≤ (put x l).length ∧ (put x l).length ≤ l.length + 1 := by
  intro l
  induction l with
  | nil => exact ⟨Nat.zero_le _, Nat.le_refl _⟩
  | cons z l ih =>
    simp only [put]
    split
    · simp
    · split
      · simp
      · simp only [List.length_cons]; omega

theorem upd_same {α : Type} (t : Nat → α) (r : Nat) (v : α) : upd t r v r = v := by simp [upd]
theorem upd_other {α : Type} (t : Nat → α) (r k : Nat) (v : α) (h : k ≠ r) : upd t r v k = t k := by simp [upd, h]

/-! ## Restarts are due to a quorum -/

theorem HeardAs.mono {e : Env} {h h' : List Ev} {r g : Nat} {b : Bytes} (hs : ∀ v ∈ h, v ∈ h') (hh : HeardAs e h r g b) : HeardAs e h' r g b := by
  rcases hh with ⟨m, a, h1, h2, h3, h4⟩ | ⟨h1, v, hv, ho⟩
  · exact Or.inl ⟨m, a, hs _ h1, h2, h3, h4⟩
  · exact Or.inr ⟨h1, v, hs _ hv, ho⟩

theorem HeardQuorum.mono {e : Env} {h h' : List Ev} {r : Nat} (hs : ∀ v ∈ h, v ∈ h') (hh : HeardQuorum e h r) : HeardQuorum e h' r := by
  obtain ⟨G, h1, h2, h3⟩ := hh
  exact ⟨G, h1, h2, fun g hg => (h3 g hg).elim fun b hb => ⟨b, hb.mono hs⟩⟩

/-- what the table is, after a history -/
structure Good (e : Env) (h : List Ev) (s : St) : Prop where
  sorted : ∀ r, Sorted (s.table r)
  heard : ∀ r, ∀ x ∈ s.table r, HeardAs e h r x.gen x.raw
  proofs : NoProofs h → ∀ r, s.proofAt r ≠ 0 → HeardQuorum e h r

/-- what an output means, after a history -/
def OutOk (e : Env) (h : List Ev) : Out → Prop
  | .restart r => NoProofs h → HeardQuorum e h r
  | .proof b => ∃ (q r : Nat) (l : List (Nat × Bytes)), b = Proof.encode ⟨e.me, q, e.epoch, r, [], l.map Prod.snd⟩ ∧ e.n - e.f ≤ l.length ∧
      (l.map Prod.fst).Nodup ∧ ∀ p ∈ l, HeardAs e h r p.1 p.2
  | _ => True

theorem Good.quorum {e : Env} {h : List Ev} {s : St} (hg : Good e h s) {r : Nat} (hl : e.n - e.f ≤ (s.table r).length) : HeardQuorum e h r :=
  ⟨(s.table r).map Entry.gen, (hg.sorted r).nodup, by rw [List.length_map]; exact hl, by
    intro g hgm
    obtain ⟨x, hx, rfl⟩ := List.mem_map.mp hgm
    exact ⟨_, hg.heard r x hx⟩⟩

theorem Good.mono {e : Env} {h h' : List Ev} {s : St} (hg : Good e h s) (hs : ∀ v ∈ h, v ∈ h') : Good e h' s :=
  ⟨hg.sorted, fun r x hx => (hg.heard r x hx).mono hs, fun hn r hr => (hg.proofs (fun m hm => hn m (hs _ hm)) r hr).mono hs⟩

theorem onRestartProof_good {e : Env} {h : List Ev} {s : St} (hg : Good e h s) (seq r : Nat) (hq : NoProofs h → HeardQuorum e h r) :
    Good e h (onRestartProof s seq r).1 ∧ ∀ o ∈ (onRestartProof s seq r).2, OutOk e h o := by
  unfold onRestartProof
  split
  · split
    · refine ⟨⟨hg.sorted, hg.heard, ?_⟩, ?_⟩
      · intro hn k hk
        by_cases hkr : k = r
        · rw [hkr]; exact hq hn
        · exact hg.proofs hn k (by simpa [upd, hkr] using hk)
      · intro o ho
        rw [List.mem_singleton] at ho
        subst ho
        exact hq
    · exact ⟨hg, (by intro o ho; cases ho)⟩
  · exact ⟨hg, (by intro o ho; cases ho)⟩

theorem sendProof_good {e : Env} {h : List Ev} {s : St} (hg : Good e h s) (r : Nat) :
    Good e h (sendProof e s r).1 ∧ ∀ o ∈ (sendProof e s r).2, OutOk e h o := by
  unfold sendProof
  split
  · split
    · rename_i hs hl
      have hq := hg.quorum hl.1
      obtain ⟨h1, h2⟩ := onRestartProof_good hg s.stop r (fun _ => hq)
      refine ⟨h1, ?_⟩
      intro o ho
      rcases List.mem_cons.mp ho with rfl | ho
      · refine ⟨s.stop, r, (s.table r).map (fun x => (x.gen, x.raw)), ?_, by rw [List.length_map]; exact hl.1, ?_, ?_⟩
        · rw [List.map_map]; rfl
        · rw [List.map_map]; exact (hg.sorted r).nodup
        · intro p hp
          obtain ⟨x, hx, rfl⟩ := List.mem_map.mp hp
          exact hg.heard r x hx
      · exact h2 o ho
    · refine ⟨⟨hg.sorted, hg.heard, hg.proofs⟩, ?_⟩
      intro o ho
      rw [List.mem_singleton] at ho
      subst ho
      trivial
  · exact ⟨hg, (by intro o ho; cases ho)⟩

theorem whenComplete_good {e : Env} {h : List Ev} {s : St} (hg : Good e h s) (r : Nat) :
    Good e h (whenComplete e s r).1 ∧ ∀ o ∈ (whenComplete e s r).2, OutOk e h o := by
  unfold whenComplete
  split
  · exact sendProof_good hg r
  · exact ⟨hg, (by intro o ho; cases ho)⟩

theorem Good.insert {e : Env} {h : List Ev} {s : St} (hg : Good e h s) (r : Nat) (x : Entry) (hx : HeardAs e h r x.gen x.raw) : Good e h { s with
    table := upd s.table r (put x (s.table r)) } := by
  refine ⟨?_, ?_, hg.proofs⟩
  · intro k
    show Sorted (upd s.table r (put x (s.table r)) k)
    by_cases hk : k = r
    · rw [hk, upd_same]; exact (hg.sorted r).put
    · rw [upd_other _ _ _ _ hk]; exact hg.sorted k
  · intro k y hy
    have hy : y ∈ upd s.table r (put x (s.table r)) k := hy
    by_cases hk : k = r
    · rw [hk, upd_same] at hy
      rcases mem_put hy with rfl | hy
      · rw [hk]; exact hx
      · rw [hk]; exact hg.heard r y hy
    · rw [upd_other _ _ _ _ hk] at hy; exact hg.heard k y hy

theorem onReady_good {e : Env} {h : List Ev} {s : St} (hg : Good e h s) (m : Msg) (hm : Ev.ready m ∈ h) :
    Good e h (onReady e s m).1 ∧ ∀ o ∈ (onReady e s m).2, OutOk e h o := by
  unfold onReady
  split
  · exact ⟨hg, (by intro o ho; cases ho)⟩
  · rename_i a ha
    split
    · exact ⟨hg, (by intro o ho; cases ho)⟩
    · exact whenComplete_good (hg.insert a.reason ⟨a.gen, m.body⟩ (Or.inl ⟨m, a, hm, ha, rfl, rfl, rfl⟩)) _

theorem onProof_good {e : Env} {h : List Ev} {s : St} (hg : Good e h s) (m : Msg) (hm : Ev.proof m ∈ h) :
    Good e h (onProof e s m).1 ∧ ∀ o ∈ (onProof e s m).2, OutOk e h o := by
  unfold onProof
  split
  · exact onRestartProof_good hg _ _ (fun hn => absurd hm (hn m))
  · exact ⟨hg, (by intro o ho; cases ho)⟩

theorem sendReady_good {e : Env} {h : List Ev} {s : St} (hg : Good e h s) (o : Own) (ho : ∃ v ∈ h, o ∈ v.calls) :
    Good e h (sendReady e s o).1 ∧ ∀ x ∈ (sendReady e s o).2, OutOk e h x := by
  unfold sendReady
  split
  · obtain ⟨v, hv, hoc⟩ := ho
    obtain ⟨h1, h2⟩ := whenComplete_good (hg.insert o.reason ⟨e.me, (o.msg e s).encode⟩ (Or.inr ⟨rfl, v, hv, o, hoc, rfl, s, rfl⟩)) o.reason
    refine ⟨h1, ?_⟩
    intro x hx
    rcases List.mem_cons.mp hx with rfl | hx
    · trivial
    · exact h2 x hx
  · exact ⟨hg, (by intro o ho; cases ho)⟩

theorem sendAll_good {e : Env} {h : List Ev} : ∀ (l : List Own) {s : St}, Good e h s → (∀ o ∈ l, ∃ v ∈ h, o ∈ v.calls) →
    Good e h (sendAll e s l).1 ∧ ∀ x ∈ (sendAll e s l).2, OutOk e h x := by
  intro l
  induction l with
  | nil => intro s hg _; exact ⟨hg, (by intro o ho; cases ho)⟩
  | cons o l ih =>
    intro s hg hl
    unfold sendAll
    split
    · exact ⟨hg, (by intro o ho; cases ho)⟩
    · obtain ⟨h1, h2⟩ := sendReady_good hg o (hl o (by simp))
      obtain ⟨h3, h4⟩ := ih h1 (fun o' ho' => hl o' (List.mem_cons_of_mem _ ho'))
      refine ⟨h3, ?_⟩
      intro x hx
      rcases List.mem_append.mp hx with hx | hx
      · exact h2 x hx
      · exact h4 x hx

theorem checkRestart_good {e : Env} {h : List Ev} {s : St} (hg : Good e h s) : ∀ x ∈ checkRestart s, OutOk e h x := by
  intro x hx
  unfold checkRestart at hx
  split at hx
  · rename_i hs
    rcases List.mem_append.mp hx with hx | hx
    · split at hx
      · rename_i hp
        rw [List.mem_singleton] at hx
        subst hx
        exact fun hn => hg.proofs hn 0 (by rw [hp]; exact hs)
      · cases hx
    · split at hx
      · rename_i hp
        rw [List.mem_singleton] at hx
        subst hx
        exact fun hn => hg.proofs hn 1 (by rw [hp]; exact hs)
      · cases hx
  · cases hx

theorem step_good {e : Env} {h : List Ev} {s : St} (hg : Good e h s) (v : Ev) (hv : v ∈ h) :
    Good e h (step e s v).1 ∧ ∀ x ∈ (step e s v).2, OutOk e h x := by
  have none : Good e h s ∧ ∀ x ∈ ([] : List Out), OutOk e h x := ⟨hg, (by intro o ho; cases ho)⟩
  cases v with
  | ready m => simp only [step]; split; exact none; exact onReady_good hg m hv
  | proof m => simp only [step]; split; exact none; exact onProof_good hg m hv
  | stable q cbs =>
    simp only [step]
    split
    · exact none
    · split
      · unfold onStable
        obtain ⟨h1, h2⟩ := sendAll_good (e := e) (h := h) cbs (s := { s with
          stable := true }) ⟨hg.sorted, hg.heard, hg.proofs⟩ (fun o ho => ⟨_, hv, ho⟩)
        simp only
        split
        · exact ⟨h1, h2⟩
        · refine ⟨h1, ?_⟩
          intro x hx
          rcases List.mem_append.mp hx with hx | hx
          · exact h2 x hx
          · exact checkRestart_good h1 x hx
      · exact none
  | superStable q cbs =>
    simp only [step]
    split
    · exact none
    · split
      · exact sendAll_good (e := e) (h := h) cbs (s := { s with
          superStable := true }) ⟨hg.sorted, hg.heard, hg.proofs⟩ (fun o ho => ⟨_, hv, ho⟩)
      · exact none
  | own o => simp only [step]; split; exact none; exact sendReady_good hg o ⟨_, hv, by simp [Ev.calls]⟩
  | stop q b => simp only [step]; split; exact none; exact ⟨⟨hg.sorted, hg.heard, hg.proofs⟩, (by intro o ho; cases ho)⟩
  | unwedge => simp only [step]; split; exact none; exact ⟨⟨hg.sorted, hg.heard, hg.proofs⟩, (by intro o ho; cases ho)⟩

theorem run_good {e : Env} {h : List Ev} : ∀ (evs : List Ev) {s : St}, Good e h s → (∀ v ∈ evs, v ∈ h) →
    Good e h (run e s evs).1 ∧ ∀ x ∈ (run e s evs).2, OutOk e h x := by
  intro evs
  induction evs with
  | nil => intro s hg _; exact ⟨hg, (by intro o ho; cases ho)⟩
  | cons v l ih =>
    intro s hg hl
    obtain ⟨h1, h2⟩ := step_good hg v (hl v (by simp))
    obtain ⟨h3, h4⟩ := ih h1 (fun w hw => hl w (List.mem_cons_of_mem _ hw))
    refine ⟨h3, ?_⟩
    intro x hx
    rcases List.mem_append.mp hx with hx | hx
    · exact h2 x hx
    · exact h4 x hx

theorem good_init (e : Env) (h : List Ev) : Good e h init :=
  ⟨fun r => List.Pairwise.nil, (by intro r x hx; cases hx), (by intro _ r hr; exact absurd rfl hr)⟩

/-- a replica that has received no proof restarts only if `n - f` different replicas have told it that they are ready, for the same reason.
Missing: ready *for this stop*: the sequence numbers are not compared (`bug114_stale`); and with proofs received it is false (`bug112_restart`) -/
theorem restart_has_quorum_partial (e : Env) (evs : List Ev) (r : Nat) (hn : NoProofs evs) (h : Out.restart r ∈ (run e init evs).2) :
    HeardQuorum e evs r :=
  ((run_good evs (good_init e evs) (fun v hv => hv)).2 _ h) hn

/-- every proof that a replica sends lists `n - f` messages at least, of as many replicas, whatever it has received.
Missing: that others accept it (`bug114_stale`, `Proof.honest_accepted`) -/
theorem proof_has_quorum_partial (e : Env) (evs : List Ev) (b : Bytes) (h : Out.proof b ∈ (run e init evs).2) :
    ∃ (q r : Nat) (l : List (Nat × Bytes)), b = Proof.encode ⟨e.me, q, e.epoch, r, [], l.map Prod.snd⟩ ∧ e.n - e.f ≤ l.length ∧
      (l.map Prod.fst).Nodup ∧ ∀ p ∈ l, HeardAs e evs r p.1 p.2 :=
  (run_good evs (good_init e evs) (fun v hv => hv)).2 _ h

/-- what a validly received message says, was signed -/
theorem heard_signed (e : Env) (m : Msg) (a : Ready) (ht : IsA m codeRestartReady) (h : Ready.receive e m = .ok a) :
    a.gen < e.n ∧ a.epoch = e.epoch ∧ e.verify a.gen a.signed a.sig = true :=
  ⟨((Ready.receive_iff e m a ht).mp h).1.gen, ((Ready.receive_iff e m a ht).mp h).1.epoch, ((Ready.receive_iff e m a ht).mp h).1.signed⟩

/-! ## No restart without a stop -/

theorem mem_onRestartProof {s : St} {seq r k : Nat} (h : Out.restart k ∈ (onRestartProof s seq r).2) :
    k = r ∧ s.stop ≠ 0 ∧ ((s.bft = true ∧ s.stable = true) ∨ s.superStable = true) := by
  unfold onRestartProof at h
  split at h
  · rename_i hf
    split at h
    · rename_i hs
      rw [List.mem_singleton] at h
      cases h
      exact ⟨rfl, hs.1, hf⟩
    · cases h
  · cases h

/-- whatever is received: a proof restarts a replica only when it has stopped, itself, at the agreed point: with a quorum
(if the operator allows that), or with all replicas -/
theorem restart_by_message (e : Env) (s : St) (v : Ev) (r : Nat) (hv : (∃ m, v = .proof m) ∨ (∃ m, v = .ready m))
    (h : Out.restart r ∈ (step e s v).2) :
    s.dead = false ∧ s.stop ≠ 0 ∧ ((s.bft = true ∧ s.stable = true) ∨ s.superStable = true) := by
  rcases hv with ⟨m, rfl⟩ | ⟨m, rfl⟩
  · simp only [step] at h
    split at h
    · cases h
    · rename_i hd
      refine ⟨by simpa using hd, ?_⟩
      unfold onProof at h
      split at h
      · exact (mem_onRestartProof h).2
      · cases h
  · simp only [step] at h
    split at h
    · cases h
    · rename_i hd
      refine ⟨by simpa using hd, ?_⟩
      unfold onReady at h
      split at h
      · cases h
      · split at h
        · cases h
        · unfold whenComplete at h
          split at h
          · unfold sendProof at h
            split at h
            · split at h
              · rcases List.mem_cons.mp h with h | h
                · cases h
                · exact (mem_onRestartProof h).2
              · rw [List.mem_singleton] at h; cases h
            · cases h
          · cases h

/-! ## All ready: restart -/

theorem step_ready {e : Env} {s : St} {m : Msg} {a : Ready} (hr : Ready.receive e m = .ok a) (hd : s.dead = false) (hnew : has a.gen (s.table a.reason) = false) :
    step e s (.ready m) = whenComplete e { s with
      table := upd s.table a.reason (put ⟨a.gen, m.body⟩ (s.table a.reason)) } a.reason := by
  have h1 : step e s (.ready m) = onReady e s m := by
    show (if s.dead then (s, []) else onReady e s m) = _
    rw [if_neg (by rw [hd]; simp)]
  rw [h1]
  unfold onReady
  rw [hr]
  simp only
  rw [if_neg (by rw [hnew]; simp)]

/-- the message of one more replica completes the count: the proof is sent and the replica restarts -/
theorem restart_when_complete (e : Env) (s : St) (m : Msg) (a : Ready) (hr : Ready.receive e m = .ok a) (hd : s.dead = false) (hs : s.stop ≠ 0)
    (hflag : (s.bft = true ∧ s.stable = true) ∨ s.superStable = true) (hnew : has a.gen (s.table a.reason) = false)
    (hcount : (s.table a.reason).length + 1 = target e s) (hroom : roomy e (put ⟨a.gen, m.body⟩ (s.table a.reason)) = true) :
    Out.restart a.reason ∈ (step e s (.ready m)).2 ∧ ∃ b, Out.proof b ∈ (step e s (.ready m)).2 := by
  have hn : e.n - e.f ≤ target e s := by unfold target; split <;> omega
  have hlen : (put (⟨a.gen, m.body⟩ : Entry) (s.table a.reason)).length = target e s := by
    rw [length_put_new hnew, hcount]
  obtain ⟨s', hs'⟩ : ∃ s' : St, s' = { s with
    table := upd s.table a.reason (put ⟨a.gen, m.body⟩ (s.table a.reason)) } := ⟨_, rfl⟩
  have ht : s'.table a.reason = put ⟨a.gen, m.body⟩ (s.table a.reason) := by rw [hs']; exact upd_same _ _ _
  have hstop : s'.stop = s.stop := by rw [hs']
  have htar : target e s' = target e s := by rw [hs']; rfl
  have e1 : step e s (.ready m) = whenComplete e s' a.reason := by rw [hs']; exact step_ready hr hd hnew
  have e2 : whenComplete e s' a.reason = ((onRestartProof s' s'.stop a.reason).1, .proof (proofBytes e s' a.reason) :: (onRestartProof s' s'.stop a.reason).2) := by
    unfold whenComplete
    rw [if_pos (by rw [ht, hlen, htar])]
    unfold sendProof
    rw [if_pos (by rw [hstop]; exact hs), if_pos ⟨by rw [ht, hlen]; exact hn, by rw [ht]; exact hroom⟩]
  have e3 : (onRestartProof s' s'.stop a.reason).2 = [.restart a.reason] := by
    unfold onRestartProof
    rw [if_pos (by rw [hs']; exact hflag), if_pos (by rw [hstop]; exact ⟨hs, hs⟩)]
  rw [e1, e2, e3]
  exact ⟨by simp, proofBytes e s' a.reason, by simp⟩

/-- no message is so long that the proof could not hold it -/
def Short (e : Env) (L : Nat) : Prop := 31 + e.n * L + e.sigLen e.me ≤ e.maxSize

theorem flat_le {L : Nat} : ∀ {l : List Entry}, (∀ x ∈ l, x.raw.length ≤ L) → (l.map Entry.raw).flatten.length ≤ l.length * L := by
  intro l
  induction l with
  | nil => intro _; simp
  | cons x l ih =>
    intro h
    have h1 := h x (by simp)
    have h2 := ih (fun y hy => h y (List.mem_cons_of_mem _ hy))
    simp only [List.map_cons, List.flatten_cons, List.length_append, List.length_cons, Nat.succ_mul]
    omega

theorem flat_mem {x : Entry} : ∀ {l : List Entry}, x ∈ l → x.raw.length ≤ (l.map Entry.raw).flatten.length := by
  intro l
  induction l with
  | nil => intro h; cases h
  | cons y l ih =>
    intro h
    simp only [List.map_cons, List.flatten_cons, List.length_append]
    rcases List.mem_cons.mp h with rfl | h
    · omega
    · have := ih h; omega

/-- waiting for the others: stopped, and fewer messages than needed -/
structure Waiting (e : Env) (L r : Nat) (s : St) : Prop where
  live : s.dead = false
  stop : s.stop ≠ 0
  flag : (s.bft = true ∧ s.stable = true) ∨ s.superStable = true
  few : (s.table r).length < target e s
  short : ∀ x ∈ s.table r, x.raw.length ≤ L

/-- one step: either the replica restarts, or it has the message and goes on waiting -/
theorem waiting_step {e : Env} {L r : Nat} {s : St} (hS : Short e L) (hw : Waiting e L r s) (m : Msg) (a : Ready)
    (hr : Ready.receive e m = .ok a) (ha : a.reason = r) (hL : m.body.length ≤ L) :
    Out.restart r ∈ (step e s (.ready m)).2 ∨
      (Waiting e L r (step e s (.ready m)).1 ∧ (∀ x ∈ s.table r, x ∈ (step e s (.ready m)).1.table r) ∧
        has a.gen ((step e s (.ready m)).1.table r) = true ∧ target e (step e s (.ready m)).1 = target e s) := by
  subst ha
  by_cases hnew : has a.gen (s.table a.reason) = true
  · right
    have : step e s (.ready m) = (s, []) := by
      simp only [step, hw.live, Bool.false_eq_true, if_false, onReady, hr, hnew, if_true]
    rw [this]
    exact ⟨hw, fun x hx => hx, hnew, rfl⟩
  · have hnew : has a.gen (s.table a.reason) = false := by simpa using hnew
    have hsh : ∀ x ∈ put (⟨a.gen, m.body⟩ : Entry) (s.table a.reason), x.raw.length ≤ L := by
      intro x hx
      rcases mem_put hx with rfl | hx
      · exact hL
      · exact hw.short x hx
    by_cases hc : (s.table a.reason).length + 1 = target e s
    · left
      refine (restart_when_complete e s m a hr hw.live hw.stop hw.flag hnew hc ?_).1
      unfold roomy
      rw [decide_eq_true_iff]
      have h1 := flat_le hsh
      have h2 : (put (⟨a.gen, m.body⟩ : Entry) (s.table a.reason)).length * L ≤ e.n * L := by
        apply Nat.mul_le_mul_right
        rw [length_put_new hnew, hc]
        unfold target; split <;> omega
      have := hS
      unfold Short at this
      omega
    · right
      obtain ⟨s', hs'⟩ : ∃ s' : St, s' = { s with
        table := upd s.table a.reason (put ⟨a.gen, m.body⟩ (s.table a.reason)) } := ⟨_, rfl⟩
      have ht : s'.table a.reason = put ⟨a.gen, m.body⟩ (s.table a.reason) := by rw [hs']; exact upd_same _ _ _
      have htar : target e s' = target e s := by rw [hs']; rfl
      have e1 : step e s (.ready m) = (s', []) := by
        rw [step_ready hr hw.live hnew, ← hs']
        unfold whenComplete
        rw [if_neg (by rw [ht, length_put_new hnew, htar]; exact hc)]
      rw [e1]
      refine ⟨⟨by rw [hs']; exact hw.live, by rw [hs']; exact hw.stop, by rw [hs']; exact hw.flag, ?_, ?_⟩, ?_, ?_, htar⟩
      · rw [ht, length_put_new hnew, htar]; have := hw.few; omega
      · rw [ht]; exact hsh
      · rw [ht]; intro x hx; exact mem_put_old hnew hx
      · rw [ht]; exact has_put

/-- once it has stopped, a replica restarts as soon as the messages of enough replicas have come, in whatever order and however often -/
theorem restart_when_all_ready (e : Env) (L r : Nat) (hS : Short e L) : ∀ (ms : List Msg) (s : St), Waiting e L r s →
    (∀ m ∈ ms, m.body.length ≤ L ∧ ∃ a, Ready.receive e m = .ok a ∧ a.reason = r) →
    (∃ G : List Nat, G.Nodup ∧ target e s ≤ G.length ∧ ∀ g ∈ G, has g (s.table r) = true ∨ ∃ m ∈ ms, ∃ a, Ready.receive e m = .ok a ∧ a.gen = g) →
    Out.restart r ∈ (run e s (ms.map Ev.ready)).2 := by
  intro ms
  induction ms with
  | nil =>
    intro s hw _ hG
    obtain ⟨G, h1, h2, h3⟩ := hG
    exfalso
    have hsub : ∀ g ∈ G, g ∈ (s.table r).map Entry.gen := by
      intro g hg
      rcases h3 g hg with h | ⟨m, hm, _⟩
      · obtain ⟨x, hx, rfl⟩ := has_iff.mp h
        exact List.mem_map_of_mem hx
      · cases hm
    have := Verif.ListU.nodup_subset_length h1 hsub
    rw [List.length_map] at this
    have := hw.few
    omega
  | cons m ms ih =>
    intro s hw hms hG
    obtain ⟨hL, a, hr, ha⟩ := hms m (by simp)
    simp only [List.map_cons, run]
    rcases waiting_step hS hw m a hr ha hL with h | ⟨h1, h2, h3, h4⟩
    · exact List.mem_append_left _ h
    · apply List.mem_append_right
      apply ih _ h1 (fun m' hm' => hms m' (List.mem_cons_of_mem _ hm'))
      obtain ⟨G, g1, g2, g3⟩ := hG
      refine ⟨G, g1, by rw [h4]; exact g2, ?_⟩
      intro g hg
      rcases g3 g hg with hh | ⟨m', hm', a', ha', hg'⟩
      · obtain ⟨x, hx, hxg⟩ := has_iff.mp hh
        exact Or.inl (has_iff.mpr ⟨x, h2 x hx, hxg⟩)
      · rcases List.mem_cons.mp hm' with rfl | hm'
        · rw [hr] at ha'
          cases ha'
          exact Or.inl (by rw [← hg']; exact h3)
        · exact Or.inr ⟨m', hm', a', ha', hg'⟩

/-! ## BUG112: one faulty replica restarts every stopped one -/

/-- **BUG112** no replica has said that it is ready; a message that nobody has signed restarts the replica -/
theorem bug112_restart (e : Env) (s : St) (g r : Nat) (hd : s.dead = false) (hs : s.stop ≠ 0)
    (hflag : (s.bft = true ∧ s.stable = true) ∨ s.superStable = true) (hempty : s.table r = [])
    (hg : g < e.n) (hr : r = 0 ∨ r = 1) (hme : e.me < 65536) (hn : 0 < e.n - e.f) (hn2 : e.n < 65536) (hep : e.epoch < 2 ^ 64) (hsl : e.sigLen g < 65000) :
    ∃ body, Out.restart r ∈ (step e s (.proof ⟨g, body⟩)).2 := by
  obtain ⟨body, l, _, ⟨h1, h2, h3⟩, _⟩ := bug112_unsigned_proof e g g 1 r hg hr hme hn hn2 (by decide) hep hsl
  refine ⟨body, ?_⟩
  simp only [step, hd, Bool.false_eq_true, if_false, onProof, h1, h2, h3]
  unfold onRestartProof
  rw [if_pos hflag, if_pos ⟨hs, by decide⟩]
  simp

/-! ## BUG113: a late replica does not restart -/

/-- more messages than needed, and no restart yet -/
structure Over (e : Env) (r : Nat) (s : St) : Prop where
  more : target e s < (s.table r).length
  proof : s.proofAt r = 0

theorem onRestartProof_other {s : St} {seq r k : Nat} (hk : r ≠ k) :
    (onRestartProof s seq k).1.table = s.table ∧ (onRestartProof s seq k).1.bft = s.bft ∧ (onRestartProof s seq k).1.stop = s.stop ∧
      (onRestartProof s seq k).1.proofAt r = s.proofAt r ∧ Out.restart r ∉ (onRestartProof s seq k).2 := by
  unfold onRestartProof
  split
  · split
    · exact ⟨rfl, rfl, rfl, upd_other _ _ _ _ hk, by intro h; rw [List.mem_singleton] at h; cases h; exact hk rfl⟩
    · exact ⟨rfl, rfl, rfl, rfl, (by intro h; cases h)⟩
  · exact ⟨rfl, rfl, rfl, rfl, (by intro h; cases h)⟩

theorem whenComplete_over {e : Env} {s : St} {r k : Nat} (ho : Over e r s) :
    Over e r (whenComplete e s k).1 ∧ Out.restart r ∉ (whenComplete e s k).2 := by
  unfold whenComplete
  split
  · rename_i hc
    have hk : r ≠ k := by
      intro h
      subst h
      have := ho.more
      omega
    unfold sendProof
    split
    · split
      · obtain ⟨h1, h2, h3, h4, h5⟩ := onRestartProof_other (s := s) (seq := s.stop) hk
        refine ⟨⟨?_, by rw [h4]; exact ho.proof⟩, ?_⟩
        · unfold target
          rw [h1, h2]
          exact ho.more
        · intro h
          rcases List.mem_cons.mp h with h | h
          · cases h
          · exact h5 h
      · exact ⟨⟨ho.more, ho.proof⟩, (by intro h; rw [List.mem_singleton] at h; cases h)⟩
    · exact ⟨ho, (by intro h; cases h)⟩
  · exact ⟨ho, (by intro h; cases h)⟩

theorem Over.insert {e : Env} {s : St} {r k : Nat} (ho : Over e r s) (x : Entry) : Over e r { s with
    table := upd s.table k (put x (s.table k)) } := by
  refine ⟨?_, ho.proof⟩
  show target e s < (upd s.table k (put x (s.table k)) r).length
  by_cases hk : r = k
  · subst hk
    rw [upd_same]
    have := (@length_put_le x (s.table r)).1
    have := ho.more
    omega
  · rw [upd_other _ _ _ _ hk]
    exact ho.more

theorem sendReady_over {e : Env} {s : St} {r : Nat} (ho : Over e r s) (o : Own) :
    Over e r (sendReady e s o).1 ∧ Out.restart r ∉ (sendReady e s o).2 := by
  unfold sendReady
  split
  · obtain ⟨h1, h2⟩ := whenComplete_over (k := o.reason) (ho.insert (k := o.reason) ⟨e.me, (o.msg e s).encode⟩)
    refine ⟨h1, ?_⟩
    intro h
    rcases List.mem_cons.mp h with h | h
    · cases h
    · exact h2 h
  · exact ⟨ho, (by intro h; cases h)⟩

theorem sendAll_over {e : Env} {r : Nat} : ∀ (l : List Own) {s : St}, Over e r s →
    Over e r (sendAll e s l).1 ∧ Out.restart r ∉ (sendAll e s l).2 := by
  intro l
  induction l with
  | nil => intro s ho; exact ⟨ho, (by intro h; cases h)⟩
  | cons o l ih =>
    intro s ho
    unfold sendAll
    split
    · exact ⟨ho, (by intro h; cases h)⟩
    · obtain ⟨h1, h2⟩ := sendReady_over ho o
      obtain ⟨h3, h4⟩ := ih h1
      refine ⟨h3, ?_⟩
      intro h
      rcases List.mem_append.mp h with h | h
      · exact h2 h
      · exact h4 h

theorem checkRestart_over {e : Env} {s : St} {r : Nat} (ho : Over e r s) : Out.restart r ∉ checkRestart s := by
  intro h
  unfold checkRestart at h
  have hp := ho.proof
  split at h
  · rename_i hs
    rcases List.mem_append.mp h with h | h
    · split at h
      · rename_i hh
        rw [List.mem_singleton] at h
        cases h
        omega
      · cases h
    · split at h
      · rename_i hh
        rw [List.mem_singleton] at h
        cases h
        omega
      · cases h
  · cases h

/-- neither a proof of another replica, nor a new command -/
def Ev.plain : Ev → Prop
  | .proof _ => False
  | .stop _ _ => False
  | .unwedge => False
  | _ => True

theorem onReady_over {e : Env} {s : St} {r : Nat} (ho : Over e r s) (m : Msg) :
    Over e r (onReady e s m).1 ∧ Out.restart r ∉ (onReady e s m).2 := by
  unfold onReady
  split
  · exact ⟨ho, (by intro h; cases h)⟩
  · split
    · exact ⟨ho, (by intro h; cases h)⟩
    · exact whenComplete_over (ho.insert _)

theorem step_over {e : Env} {s : St} {r : Nat} (ho : Over e r s) (v : Ev) (hv : v.plain) :
    Over e r (step e s v).1 ∧ Out.restart r ∉ (step e s v).2 := by
  have none : Over e r s ∧ Out.restart r ∉ ([] : List Out) := ⟨ho, (by intro h; cases h)⟩
  cases v with
  | ready m => simp only [step]; split; exact none; exact onReady_over ho m
  | proof m => exact absurd hv (by simp [Ev.plain])
  | stable q cbs =>
    simp only [step]
    split
    · exact none
    · split
      · unfold onStable
        obtain ⟨h1, h2⟩ := sendAll_over (e := e) (r := r) cbs (s := { s with
          stable := true }) ⟨ho.more, ho.proof⟩
        simp only
        split
        · exact ⟨h1, h2⟩
        · refine ⟨h1, ?_⟩
          intro h
          rcases List.mem_append.mp h with h | h
          · exact h2 h
          · exact checkRestart_over h1 h
      · exact none
  | superStable q cbs =>
    simp only [step]
    split
    · exact none
    · split
      · exact sendAll_over (e := e) (r := r) cbs (s := { s with
          superStable := true }) ⟨ho.more, ho.proof⟩
      · exact none
  | own o => simp only [step]; split; exact none; exact sendReady_over ho o
  | stop q b => exact absurd hv (by simp [Ev.plain])
  | unwedge => exact absurd hv (by simp [Ev.plain])

theorem run_over {e : Env} {r : Nat} : ∀ (evs : List Ev) {s : St}, Over e r s → (∀ v ∈ evs, v.plain) → Out.restart r ∉ (run e s evs).2 := by
  intro evs
  induction evs with
  | nil => intro s _ _ h; cases h
  | cons v l ih =>
    intro s ho hl h
    obtain ⟨h1, h2⟩ := step_over ho v (hl v (by simp))
    rcases List.mem_append.mp h with h | h
    · exact h2 h
    · exact ih h1 (fun w hw => hl w (List.mem_cons_of_mem _ hw)) h

/-- **BUG113** the messages of enough other replicas have come before the replica reaches the stop point itself: when it does, and says that it is
ready, the count has been passed.  Whatever messages of readiness and whatever checkpoints follow, it does not restart any more -/
theorem bug113_late_replica (e : Env) (s : St) (o : Own) (hs : s.stop ≠ 0)
    (hcount : (s.table o.reason).length = target e s) (hown : has e.me (s.table o.reason) = false) (hp : s.proofAt o.reason = 0)
    (evs : List Ev) (hv : ∀ v ∈ evs, v.plain) :
    Out.restart o.reason ∉ (run e s (.stable s.stop [o] :: evs)).2 := by
  by_cases hd : s.dead = true
  · have hst : ∀ v, step e s v = (s, []) := by intro v; cases v <;> simp [step, hd]
    have : ∀ l, (run e s l).2 = [] := by
      intro l
      induction l with
      | nil => rfl
      | cons v l ih => simp only [run, hst, ih]; rfl
    rw [this]
    exact fun h => by cases h
  · obtain ⟨s1, hs1⟩ : ∃ s1 : St, s1 = { s with
      stable := true } := ⟨_, rfl⟩
    have e1 : step e s (.stable s.stop [o]) = onStable e s [o] := by
      simp only [step]
      rw [if_neg hd, if_pos ⟨hs, by simp⟩]
    have hover : Over e o.reason (sendReady e s1 o).1 ∧ Out.restart o.reason ∉ (sendReady e s1 o).2 := by
      unfold sendReady
      rw [if_pos (by rw [hs1]; exact hs)]
      have ho : Over e o.reason { s1 with
          table := upd s1.table o.reason (put ⟨e.me, (o.msg e s1).encode⟩ (s1.table o.reason)) } := by
        refine ⟨?_, by rw [hs1]; exact hp⟩
        show target e s1 < (upd s1.table o.reason (put ⟨e.me, (o.msg e s1).encode⟩ (s1.table o.reason)) o.reason).length
        have ht : s1.table = s.table := by rw [hs1]
        have htt : target e s1 = target e s := by rw [hs1]; rfl
        rw [upd_same, ht, length_put_new hown, htt, hcount]
        omega
      obtain ⟨h1, h2⟩ := whenComplete_over (k := o.reason) ho
      refine ⟨h1, ?_⟩
      intro h
      rcases List.mem_cons.mp h with h | h
      · cases h
      · exact h2 h
    have hall : Over e o.reason (sendAll e s1 [o]).1 ∧ Out.restart o.reason ∉ (sendAll e s1 [o]).2 := by
      simp only [sendAll, List.append_nil]
      rw [if_neg (by rw [hs1]; exact hd)]
      exact hover
    have hst : Over e o.reason (onStable e s [o]).1 ∧ Out.restart o.reason ∉ (onStable e s [o]).2 := by
      unfold onStable
      rw [← hs1]
      simp only
      split
      · exact hall
      · refine ⟨hall.1, ?_⟩
        intro h
        rcases List.mem_append.mp h with h | h
        · exact hall.2 h
        · exact checkRestart_over hall.1 h
    intro h
    simp only [run, e1] at h
    rcases List.mem_append.mp h with h | h
    · exact hst.2 h
    · exact run_over evs hst.1 hv h

/-! ## BUG115: a long message -/

/-- **BUG115** the last message that is needed does not fit into the proof: the replica aborts -/
theorem bug115_long_message (e : Env) (s : St) (m : Msg) (a : Ready) (hr : Ready.receive e m = .ok a) (hd : s.dead = false) (hs : s.stop ≠ 0)
    (hnew : has a.gen (s.table a.reason) = false) (hcount : (s.table a.reason).length + 1 = target e s) (hbig : e.maxSize < 31 + m.body.length) :
    (step e s (.ready m)).2 = [.abort] ∧ (step e s (.ready m)).1.dead = true := by
  obtain ⟨s', hs'⟩ : ∃ s' : St, s' = { s with
    table := upd s.table a.reason (put ⟨a.gen, m.body⟩ (s.table a.reason)) } := ⟨_, rfl⟩
  have ht : s'.table a.reason = put ⟨a.gen, m.body⟩ (s.table a.reason) := by rw [hs']; exact upd_same _ _ _
  have htar : target e s' = target e s := by rw [hs']; rfl
  rw [step_ready hr hd hnew, ← hs']
  unfold whenComplete
  rw [if_pos (by rw [ht, length_put_new hnew, htar]; exact hcount)]
  unfold sendProof
  have hflat : m.body.length ≤ ((s'.table a.reason).map Entry.raw).flatten.length := by
    rw [ht]
    exact flat_mem (x := ⟨a.gen, m.body⟩) mem_put_self
  rw [if_pos (by rw [hs']; exact hs), if_neg]
  · exact ⟨rfl, rfl⟩
  · rintro ⟨_, h⟩
    unfold roomy at h
    rw [decide_eq_true_iff] at h
    omega

end Verif.Wire.Restarting
