import Verif.Consensus.Protocol
/-!
Every step has one of a few effects (`Eff`) on the part of the state that matters for safety (`Core`).
-/
set_option linter.unusedSimpArgs false
namespace Concord.Protocol
open Concord.VC

/-- the part of a replica that matters for safety -/
structure CR where
  view : Nat
  active : Bool
  lastStable : Nat
  lbPending : Nat
  slot : Nat → Option Slot
  myVC : Option VCMsg
  pending : Option (List (Option VCMsg))

def Replica.core (r : Replica) : CR := ⟨r.view, r.active, r.lastStable, r.lbPending, r.slot, r.myVC, r.pending⟩

/-- the part of the state that matters for safety -/
structure Core where
  rep : Nat → CR
  shares : List Share
  vcs : List VCMsg
  assigned : List Ev
  installs : List Install
  commits : List Ev

def State.core (σ : State) : Core :=
  ⟨fun i => (σ.rep i).core, σ.shares, σ.vcs, σ.assigned, σ.installs, σ.commits⟩

def upd {α : Type} (f : Nat → α) (i : Nat) (x : α) : Nat → α := fun j => if j = i then x else f j

@[simp] theorem upd_same {α : Type} (f : Nat → α) (i : Nat) (x : α) : upd f i x i = x := by simp [upd]
theorem upd_ne {α : Type} (f : Nat → α) {i j : Nat} (x : α) (h : j ≠ i) : upd f i x j = f j := by simp [upd, h]

def numShares (P : Params) (sh : List Share) (k : Kind) (v s d : Nat) : Nat :=
  ((List.range P.cfg.N).filter (fun i => sh.contains ⟨k, v, s, d, i⟩)).length

def backed (P : Params) (sh : List Share) (v s d : Nat) : Prop := P.slowQ ≤ numShares P sh .prepare v s d

/-- commit evidence -/
def CommitEv (P : Params) (sh : List Share) (v s d : Nat) : Prop :=
  P.slowQ ≤ numShares P sh .commit v s d ∨ (0 < P.cfg.C ∧ P.fastQ ≤ numShares P sh .fastThr v s d) ∨
  P.cfg.N ≤ numShares P sh .fastOpt v s d

/-- A slot read back from the persistent storage: everything is kept (`SeqNumData`: PrePrepare, PrepareFull,
`slowStarted`, the commit proofs), except the verdict on the time of the batch, which is not stored: the slot is
filled by `addMsg(pp, true)` / `addSelfMsg(pp, true)`, for which the time is correct (ReplicaImp.cpp:4082-4096,
SeqNumInfo.hpp:43, 268). -/
def Slot.reload (sl : Slot) : Slot := { sl with timeOk := true }

/-- effects of a step on the core -/
inductive Eff (P : Params) (c : Core) : Core → Prop
  | idle : Eff P c c
  | assign (i s d : Nat) (sl : Slot) (ok : P.ok i = true) (act : (c.rep i).active = true)
      (lo : (c.rep i).lastStable < s) (hi : s ≤ (c.rep i).lastStable + 300) (emp : (c.rep i).slot s = none)
      (nn : d ≠ P.cfg.nullDigest) (dig : sl.digest = d) (cert : sl.cert = none)
      (time : P.timeService = false → sl.timeOk = true) :
      Eff P c { c with rep := upd c.rep i { c.rep i with slot := upd (c.rep i).slot s (some sl) },
                       assigned := ⟨i, (c.rep i).view, s, d⟩ :: c.assigned }
  | slot (i s : Nat) (sl sl' : Slot) (com : List Ev) (ok : P.ok i = true) (act : (c.rep i).active = true)
      (old : (c.rep i).slot s = some sl) (dig : sl'.digest = sl.digest) (time : sl'.timeOk = sl.timeOk)
      (slow : sl'.slow = false → sl.slow = false)
      (cert : sl'.cert = sl.cert ∨ ∃ sig, sl'.cert = some sig ∧
        P.cfg.valid (c.rep i).view s sl.digest sig = true ∧ backed P c.shares (c.rep i).view s sl.digest)
      (hcom : com = c.commits ∨ (com = ⟨i, (c.rep i).view, s, sl.digest⟩ :: c.commits ∧
        CommitEv P c.shares (c.rep i).view s sl.digest)) :
      Eff P c { c with rep := upd c.rep i { c.rep i with slot := upd (c.rep i).slot s (some sl') }, commits := com }
  | share (i s : Nat) (sl : Slot) (k : Kind) (ok : P.ok i = true) (act : (c.rep i).active = true)
      (old : (c.rep i).slot s = some sl) (hc : k = .commit → sl.cert.isSome = true)
      (hf : k = .fastThr ∨ k = .fastOpt → sl.slow = false ∨ sl.digest ≠ P.cfg.nullDigest) :
      Eff P c { c with shares := ⟨k, (c.rep i).view, s, sl.digest, i⟩ :: c.shares }
  | stable (i s : Nat) (ok : P.ok i = true) (ge : (c.rep i).lastStable ≤ s) :
      Eff P c { c with rep := upd c.rep i
                         { c.rep i with lastStable := s, slot := fun t => if s < t then (c.rep i).slot t else none } }
  | leaveActive (i next : Nat) (m : VCMsg) (ok : P.ok i = true) (act : (c.rep i).active = true)
      (lt : (c.rep i).view < next)
      (hm : m = { sender := i, newView := next, lastStable := (c.rep i).lastStable,
                  elems := exitElems P.cfg.nullDigest (c.rep i).view (c.rep i).slot 300 ((c.rep i).lastStable + 1)
                    (prevElems (c.rep i).myVC) }) :
      Eff P c { c with rep := upd c.rep i
                         { c.rep i with view := next, active := false, slot := fun _ => none, myVC := some m, pending := none },
                       vcs := m :: c.vcs }
  | leaveInactive (i next : Nat) (m0 : VCMsg) (ok : P.ok i = true) (act : (c.rep i).active = false)
      (lt : (c.rep i).view < next) (my : (c.rep i).myVC = some m0) :
      Eff P c { c with rep := upd c.rep i
                         { c.rep i with view := next, active := false, slot := fun _ => none,
                                        myVC := some { m0 with newView := next }, pending := none },
                       vcs := { m0 with newView := next } :: c.vcs }
  | pend (i : Nat) (arr : List (Option VCMsg)) (lb : Nat) (ok : P.ok i = true) (act : (c.rep i).active = false)
      (q : VCQuorum P.cfg (Spec.msgs arr)) (nv : ∀ m ∈ Spec.msgs arr, m.newView = (c.rep i).view ∧ m ∈ c.vcs) :
      Eff P c { c with rep := upd c.rep i { c.rep i with pending := some arr, lbPending := lb } }
  | enter (i : Nat) (arr : List (Option VCMsg)) (rs : Restrictions) (filled : List Ev)
      (ok : P.ok i = true) (act : (c.rep i).active = false)
      (pen : (c.rep i).pending = some arr) (lb : (c.rep i).lbPending ≤ (c.rep i).lastStable)
      (hr : computeRestrictions P.cfg arr (c.rep i).lbPending = some rs)
      (hfill : ∀ e, e ∈ filled ↔ ∃ s sl, (c.rep i).lastStable < s ∧ s ≤ (c.rep i).lastStable + 300 ∧
        initialSlot P.cfg.nullDigest rs (c.rep i).lastStable s = some sl ∧ e = ⟨i, (c.rep i).view, s, sl.digest⟩) :
      Eff P c { c with rep := upd c.rep i
                         { c.rep i with active := true, pending := none,
                                        slot := initialSlot P.cfg.nullDigest rs (c.rep i).lastStable },
                       assigned := filled ++ c.assigned,
                       installs := ⟨i, (c.rep i).view, arr, (c.rep i).lbPending, (c.rep i).lastStable⟩ :: c.installs }
  | byzShare (sh : Share) (bad : P.ok sh.signer = false) : Eff P c { c with shares := sh :: c.shares }
  | byzVC (m : VCMsg) (bad : P.ok m.sender = false)
      (hb : ∀ e ∈ m.elems, ∀ ct, e.cert = some ct → P.cfg.valid ct.view e.seq e.digest ct.sig = true →
        backed P c.shares ct.view e.seq e.digest) :
      Eff P c { c with vcs := m :: c.vcs }
  | restart (i lb : Nat) (ok : P.ok i = true) :
      Eff P c { c with rep := upd c.rep i { c.rep i with lbPending := lb, pending := none,
                                                         slot := fun t => ((c.rep i).slot t).map Slot.reload } }

theorem checkVC_valid {m : VCMsg} : checkVC m = true ↔ Spec.ValidVC m := by
  unfold checkVC
  simp only [Bool.and_eq_true, decide_eq_true_eq, List.all_eq_true]
  constructor
  · rintro ⟨h1, h2⟩
    refine ⟨h1, fun e he => ⟨(h2 e he).1.1.1, (h2 e he).1.1.2⟩, fun e he => (h2 e he).1.2, ?_⟩
    intro e he c hc
    have := (h2 e he).2
    rw [hc] at this
    simpa using this
  · intro h
    refine ⟨h.sorted, fun e he => ⟨⟨h.range e he, h.origin e he⟩, ?_⟩⟩
    cases hc : e.cert with
    | none => rfl
    | some c => simpa using h.cert e he c hc

theorem core_setRep (σ : State) (i : Nat) (r : Replica) :
    (σ.setRep i r).core = { σ.core with rep := upd σ.core.rep i r.core } := by
  simp only [State.core, State.setRep, Core.mk.injEq, and_true]
  funext j
  simp only [upd]
  split <;> rfl

theorem upd_self {α : Type} (f : Nat → α) (i : Nat) : upd f i (f i) = f := by
  funext j; simp only [upd]; split
  · next h => rw [h]
  · rfl

theorem Eff.cast {P : Params} {c c1 c2 : Core} (h : Eff P c c1) (e : c1 = c2) : Eff P c c2 := e ▸ h

theorem prepareBacked_iff {P : Params} {σ : State} {v s d : Nat} :
    σ.prepareBacked P v s d = true ↔ backed P σ.shares v s d := by
  simp [State.prepareBacked, backed, State.numShares, numShares]

theorem commitBacked_iff {P : Params} {σ : State} {v s d : Nat} :
    σ.commitBacked P v s d = true ↔ CommitEv P σ.shares v s d := by
  simp [State.commitBacked, State.fastBacked, CommitEv, State.numShares, numShares]

theorem setSlot_core (r : Replica) (s : Nat) (sl : Slot) :
    (r.setSlot s sl).core = { r.core with slot := upd r.core.slot s (some sl) } := rfl

theorem advanceStable_core (r : Replica) (s : Nat) :
    (r.advanceStable s).core = { r.core with lastStable := s, slot := fun t => if s < t then r.core.slot t else none } := rfl

theorem ok_false_of {P : Params} {i : Nat} (h : P.honest i = false) : P.ok i = false := by simp [Params.ok, h]

theorem step_eff {P : Params} {σ σ' : State} {a : Action} (h : step? P σ a = some σ') : Eff P σ.core σ'.core := by
  cases a with
  | propose i s d slow timeOk =>
    simp only [step?] at h
    split at h
    · next hg =>
      simp only [Replica.relevant, Replica.inWindow, Bool.and_eq_true, decide_eq_true_eq, Option.isNone_iff_eq_none, Bool.or_eq_true] at hg
      cases h
      refine (Eff.assign (c := σ.core) i s d ⟨d, none, slow, timeOk, false⟩ hg.1.1.1.1.1.1 hg.1.1.1.1.2.1.1
        hg.1.1.1.1.2.2.1 hg.1.1.1.1.2.2.2 hg.1.1.1.2 (by simpa using hg.1.2) rfl rfl (by
          intro ht; have := hg.2; rw [ht] at this; simpa using this)).cast ?_
      simp only [State.core, State.setRep, Core.mk.injEq, and_true]
      refine ⟨?_, ?_⟩ <;> try (simp only [true_and]; rfl)
      funext j; simp only [upd]; split <;> rfl
    · cases h
  | accept i s d slow timeOk =>
    simp only [step?] at h
    split at h
    · next hg =>
      simp only [Replica.relevant, Replica.inWindow, Bool.and_eq_true, decide_eq_true_eq, Option.isNone_iff_eq_none, Bool.or_eq_true] at hg
      cases h
      refine (Eff.assign (c := σ.core) i s d ⟨d, none, slow, timeOk, false⟩ hg.1.1.1.1.1 hg.1.1.1.1.2.1.1
        hg.1.1.1.1.2.2.1 hg.1.1.1.1.2.2.2 hg.1.1.1.2 (by simpa using hg.1.1.2) rfl rfl (by
          intro ht; have := hg.1.2; rw [ht] at this; simpa using this)).cast ?_
      simp only [State.core, State.setRep, Core.mk.injEq, and_true]
      refine ⟨?_, ?_⟩ <;> try (simp only [true_and]; rfl)
      funext j; simp only [upd]; split <;> rfl
    · cases h
  | startSlow i s =>
    simp only [step?] at h
    split at h
    · next sl hs =>
      split at h
      · next hg =>
        simp only [Replica.relevant, Replica.inWindow, Bool.and_eq_true, decide_eq_true_eq] at hg
        cases h
        refine (Eff.slot (c := σ.core) i s sl { sl with slow := true } σ.commits hg.1 hg.2.1.1 hs rfl rfl
          (by simp) (Or.inl rfl) (Or.inl rfl)).cast ?_
        rw [core_setRep, setSlot_core]; rfl
      · cases h
    · cases h
  | sendPrepare i s =>
    simp only [step?] at h
    split at h
    · next sl hs =>
      split at h
      · next hg =>
        simp only [Replica.relevant, Replica.inWindow, Bool.and_eq_true, decide_eq_true_eq] at hg
        cases h
        exact Eff.share (c := σ.core) i s sl .prepare hg.1.1.1.1 hg.1.1.1.2 hs (by simp) (by simp)
      · cases h
    · cases h
  | sendFast i s opt =>
    simp only [step?] at h
    split at h
    · next sl hs =>
      split at h
      · next hg =>
        simp only [Replica.relevant, Replica.inWindow, Bool.and_eq_true, decide_eq_true_eq, Bool.not_eq_true'] at hg
        cases h
        exact Eff.share (c := σ.core) i s sl (if opt then .fastOpt else .fastThr) hg.1.1.1.1.1 hg.1.1.1.1.2 hs
          (by cases opt <;> simp) (fun _ => Or.inl hg.1.1.2)
      · cases h
    · cases h
  | prepareFull i s sig =>
    simp only [step?] at h
    split at h
    · next sl hs =>
      split at h
      · next hg =>
        simp only [Replica.relevant, Replica.inWindow, Bool.and_eq_true, decide_eq_true_eq, prepareBacked_iff] at hg
        cases h
        refine (Eff.slot (c := σ.core) i s sl { sl with cert := some sig } σ.commits hg.1.1.1.1.1 hg.1.1.1.1.2 hs rfl rfl
          (fun h => h) (Or.inr ⟨sig, rfl, hg.1.2, hg.2⟩) (Or.inl rfl)).cast ?_
        rw [core_setRep, setSlot_core]; rfl
      · cases h
    · cases h
  | sendCommit i s =>
    simp only [step?] at h
    split at h
    · next sl hs =>
      split at h
      · next hg =>
        simp only [Replica.relevant, Replica.inWindow, Bool.and_eq_true, decide_eq_true_eq] at hg
        cases h
        exact Eff.share (c := σ.core) i s sl .commit hg.1.1.1 hg.1.1.2 hs (fun _ => hg.2) (by simp)
      · cases h
    · cases h
  | commit i s =>
    simp only [step?] at h
    split at h
    · next sl hs =>
      split at h
      · next hg =>
        simp only [Replica.relevant, Replica.inWindow, Bool.and_eq_true, decide_eq_true_eq, commitBacked_iff] at hg
        cases h
        refine (Eff.slot (c := σ.core) i s sl { sl with committed := true } _ hg.1.1.1 hg.1.1.2 hs rfl rfl
          (fun h => h) (Or.inl rfl) (Or.inr ⟨rfl, hg.2⟩)).cast ?_
        simp only [State.core, State.setRep, Core.mk.injEq, and_true]
        refine ⟨?_, ?_⟩ <;> try (simp only [true_and]; rfl)
        funext j; simp only [upd]; split <;> rfl
      · cases h
    · cases h
  | execute i =>
    simp only [step?] at h
    split at h
    · split at h
      · cases h
        refine Eff.idle.cast ?_
        simp only [State.core, State.setRep, Core.mk.injEq, and_true]
        funext j; split
        · next hj => subst hj; rfl
        · rfl
      · cases h
    · cases h
  | checkpoint i =>
    simp only [step?] at h
    split at h
    · cases h; exact Eff.idle
    · cases h
  | stable i s =>
    simp only [step?] at h
    split at h
    · next hg =>
      simp only [Replica.relevant, Replica.inWindow, Bool.and_eq_true, decide_eq_true_eq] at hg
      cases h
      rw [core_setRep, advanceStable_core]
      exact Eff.stable (c := σ.core) i s hg.1.1.1 (Nat.le_of_lt hg.1.1.2.1)
    · cases h
  | stableFast i =>
    simp only [step?] at h
    split at h
    · split at h
      · next hg =>
        simp only [Replica.relevant, Replica.inWindow, Bool.and_eq_true, decide_eq_true_eq] at hg
        cases h
        rw [core_setRep, advanceStable_core]
        exact Eff.stable (c := σ.core) i _ hg.1.1.1.1.1 (Nat.le_of_lt hg.1.1.1.2)
      · cases h
    · cases h
  | stateTransfer i s =>
    simp only [step?] at h
    split at h
    · next hg =>
      simp only [Replica.relevant, Replica.inWindow, Bool.and_eq_true, decide_eq_true_eq] at hg
      cases h
      rw [core_setRep]
      split
      · next hlt =>
        rw [advanceStable_core]
        exact Eff.stable (c := σ.core) i _ hg.1.1 (show (σ.rep i).lastStable ≤ s - kWorkWindowSize by omega)
      · refine Eff.idle.cast ?_
        have : ({ σ.rep i with lastExec := s, lastUsed := max (σ.rep i).lastUsed s } : Replica).core = σ.core.rep i := rfl
        rw [this, upd_self]
    · cases h
  | leaveView i next =>
    simp only [step?] at h
    split at h
    · next m hm =>
      split at h
      · next hg =>
        simp only [Replica.relevant, Replica.inWindow, Bool.and_eq_true, decide_eq_true_eq] at hg
        cases h
        unfold mkVC at hm
        split at hm
        · next ha =>
          simp only [Option.some.injEq] at hm
          refine (Eff.leaveActive (c := σ.core) i next m hg.1 ha hg.2 hm.symm).cast ?_
          simp only [State.core, State.setRep, Core.mk.injEq, and_true]
          funext j; simp only [upd]; split <;> rfl
        · next ha =>
          cases hmy : (σ.rep i).myVC with
          | none => rw [hmy] at hm; cases hm
          | some m0 =>
            rw [hmy] at hm
            simp only [Option.map_some, Option.some.injEq] at hm
            subst hm
            refine (Eff.leaveInactive (c := σ.core) i next m0 hg.1 (show (σ.rep i).active = false by simpa using ha) hg.2 hmy).cast ?_
            simp only [State.core, State.setRep, Core.mk.injEq, and_true]
            funext j; simp only [upd]; split <;> rfl
      · cases h
    · cases h
  | pend i arr =>
    simp only [step?] at h
    split at h
    · next t1 ht =>
      split at h
      · next hg =>
        simp only [Replica.relevant, Replica.inWindow, Bool.and_eq_true, decide_eq_true_eq, List.all_eq_true, Bool.not_eq_true',
          List.contains_iff_mem, checkVC_valid] at hg
        obtain ⟨⟨⟨⟨⟨⟨⟨h1, h2⟩, h3⟩, h4⟩, h5⟩, h6⟩, h7⟩, h8⟩ := hg
        cases h
        rw [core_setRep]
        exact Eff.pend (c := σ.core) i arr _ h1 h2
          ⟨fun m hm => (h6 m hm).1.1.1, h7, fun m hm => (h6 m hm).1.1.2, h8⟩
          (fun m hm => ⟨(h6 m hm).1.2, (h6 m hm).2⟩)
      · cases h
    · cases h
  | enter i =>
    simp only [step?] at h
    split at h
    · next arr hp =>
      split at h
      · next rs hr =>
        split at h
        · next hg =>
          simp only [Replica.relevant, Replica.inWindow, Bool.and_eq_true, decide_eq_true_eq, Bool.not_eq_true'] at hg
          cases h
          refine (Eff.enter (c := σ.core) i arr rs
            (initialEvs P.cfg.nullDigest rs i (σ.rep i).view (σ.rep i).lastStable) hg.1.1.1 hg.1.1.2 hp hg.2 hr ?_).cast ?_
          rotate_left
          · simp only [State.core, State.setRep, Core.mk.injEq, and_true, true_and]
            refine ⟨?_, rfl⟩
            funext j; simp only [upd]; split <;> rfl
          · intro e
            simp only [initialEvs, List.mem_filterMap, List.mem_range, Option.map_eq_some_iff, kWorkWindowSize]
            constructor
            · rintro ⟨k, hk, sl, hsl, rfl⟩
              exact ⟨(σ.rep i).lastStable + 1 + k, sl, by simp only [State.core, Replica.core]; omega,
                by simp only [State.core, Replica.core]; omega, hsl, rfl⟩
            · rintro ⟨s, sl, h1, h2, h3, rfl⟩
              simp only [State.core, Replica.core] at h1 h2 h3
              refine ⟨s - ((σ.rep i).lastStable + 1), by omega, sl, ?_, ?_⟩
              · rw [show (σ.rep i).lastStable + 1 + (s - ((σ.rep i).lastStable + 1)) = s by omega]; exact h3
              · rw [show (σ.rep i).lastStable + 1 + (s - ((σ.rep i).lastStable + 1)) = s by omega]; rfl
        · cases h
      · cases h
    · cases h
  | byzShare sh =>
    simp only [step?] at h
    split at h
    · next hg =>
      simp only [Replica.relevant, Replica.inWindow, Bool.and_eq_true, decide_eq_true_eq, Bool.not_eq_true'] at hg
      cases h
      exact Eff.byzShare (c := σ.core) sh (ok_false_of hg.1)
    · cases h
  | byzPP e =>
    simp only [step?] at h
    split at h
    · cases h; exact Eff.idle
    · cases h
  | byzVC m =>
    simp only [step?] at h
    split at h
    · next hg =>
      simp only [Bool.and_eq_true, Bool.not_eq_true', List.all_eq_true] at hg
      cases h
      refine Eff.byzVC (c := σ.core) m (ok_false_of hg.1) ?_
      intro e he ct hct hv
      have := hg.2 e he
      rw [hct] at this
      simp only [hv, Bool.not_true, Bool.false_or] at this
      exact prepareBacked_iff.1 this
    · cases h
  | byzCkpt i s =>
    simp only [step?] at h
    split at h
    · cases h; exact Eff.idle
    · cases h

end Concord.Protocol
