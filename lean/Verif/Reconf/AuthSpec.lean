import Verif.Reconf.Auth
set_option linter.unusedVariables false
set_option linter.unusedSimpArgs false
/-!
# Reconfiguration commands: specification and the effects of one request
-/
namespace Verif.Auth

/-- the operator has signed the request -/
def Op (e : Env) (r : Req) : Prop := e.opValid r.text r.sig = true

/-- principal `x` has signed the request: the signature verifies under the key that the replica holds for
`x` in state `s` -/
def SignedBy (e : Env) (s : St) (r : Req) (x : Nat) : Prop := ∃ k, s.keys x = some k ∧ e.valid k r.text r.sig = true

/-- the sender named in the request has signed it -/
def BySender (e : Env) (s : St) (r : Req) : Prop := SignedBy e s r (pid r.id)

/-- Whose signature a record of the chain needs. -/
def Allowed (e : Env) (s : St) (r : Req) : Key → Prop
  | .cliKey c | .cliScaled c | .cliRestarted c => c = r.id ∧ BySender e s r
  | .repMain i | .repTls i => i = r.id ∧ i < e.n ∧ BySender e s r
  | .wedgeNoop => r.id < e.n ∧ BySender e s r
  | .clientsKeys => ∃ key aff, r.cmd = .clientKey key aff
  | _ => Op e r

/-- the clients a `ClientExchangePublicKey` names (all of the sender's group if it names none) -/
def targets (e : Env) (r : Req) (aff : List Nat) : List Nat := (if aff.isEmpty then e.group r.id else aff).map pid

/-- **What a request may change**, from state `s0` to state `s`. -/
structure Frame (e : Env) (s0 : St) (r : Req) (s : St) : Prop where
  stop : s.stop = s0.stop ∨ Op e r
  chain : ∀ k, s.chain k = s0.chain k ∨ (s.chain k = some r.text ∧ Allowed e s0 r k)
  keys : s.keys = s0.keys ∨ (BySender e s0 r ∧ ∃ key aff, r.cmd = .clientKey key aff ∧
    ∀ c, s.keys c ≠ s0.keys c → c ∈ targets e r aff ∧ s.keys c = some key ∧ (e.ext c = true ∨ e.svc c = true))
  stored : s.stored = s0.stored ∨ (BySender e s0 r ∧ ∃ key aff, r.cmd = .clientKey key aff ∧
    ∀ c, s.stored c ≠ s0.stored c → c ∈ targets e r aff ∧ s.stored c = some key)
  files : ∀ g, s.files g = s0.files g ∨ ∃ key aff, r.cmd = .clientKey key aff ∧ g = e.gid r.id ∧ s.files g = some key ∧ e.saveFile = true
  acts : ∃ l, s.acts = s0.acts ++ l ∧ ∀ a ∈ l, Op e r ∨ ((∃ q, a = .snapshot q) ∧ (e.signing = false ∨ BySender e s0 r))

theorem Frame.refl (e : Env) (s : St) (r : Req) : Frame e s r s :=
  ⟨.inl rfl, fun k => .inl rfl, .inl rfl, .inl rfl, fun g => .inl rfl, [], by simp, by simp⟩

theorem Frame.block {e : Env} {s0 s : St} {r : Req} (f : Frame e s0 r s) (ks : List Key) (h : ∀ k ∈ ks, Allowed e s0 r k) :
    Frame e s0 r (s.block ks r.text) := by
  refine ⟨f.stop, ?_, f.keys, f.stored, f.files, f.acts⟩
  intro k
  show (if ks.contains k then some r.text else s.chain k) = _ ∨ (if ks.contains k then some r.text else s.chain k) = _ ∧ _
  by_cases hk : ks.contains k = true
  · rw [if_pos hk]; exact .inr ⟨rfl, h k (List.contains_iff_mem.1 hk)⟩
  · rw [if_neg hk]; exact f.chain k

theorem Frame.act {e : Env} {s0 s : St} {r : Req} (f : Frame e s0 r s) (a : Act)
    (h : Op e r ∨ ((∃ q, a = .snapshot q) ∧ (e.signing = false ∨ BySender e s0 r))) : Frame e s0 r (s.act a) := by
  refine ⟨f.stop, f.chain, f.keys, f.stored, f.files, ?_⟩
  obtain ⟨l, h1, h2⟩ := f.acts
  refine ⟨l ++ [a], ?_, ?_⟩
  · show s.acts ++ [a] = _; rw [h1]; simp
  · intro b hb
    rcases List.mem_append.1 hb with hb | hb
    · exact h2 b hb
    · rw [List.mem_singleton.1 hb]; exact h

theorem Frame.setStop {e : Env} {s0 s : St} {r : Req} (f : Frame e s0 r s) (n : Nat) (h : Op e r) : Frame e s0 r (s.setStop n) := by
  unfold St.setStop
  split <;> exact ⟨.inr h, f.chain, f.keys, f.stored, f.files, f.acts⟩

/-- the client check, in a state reached within the same request -/
theorem cli_of {e : Env} {s0 s : St} {r : Req} (f : Frame e s0 r s) (h : cliCheck e s r = some true) : BySender e s0 r := by
  rcases f.keys with hk | ⟨h, _⟩
  · unfold cliCheck verifySig at h
    rw [hk] at h
    unfold BySender SignedBy
    cases hs : s0.keys (pid r.id) with
    | none => rw [hs] at h; cases h
    | some k =>
      rw [hs] at h
      simp only [Option.isSome_some, if_true] at h
      split at h
      · exact ⟨k, rfl, Option.some.inj h⟩
      · cases h
  · exact h

theorem sig_of {e : Env} {s0 s : St} {r : Req} (f : Frame e s0 r s) (h : verifySig e s r.id r = some true) : BySender e s0 r := by
  apply cli_of f
  unfold cliCheck
  cases hs : s.keys (pid r.id) with
  | none => unfold verifySig at h; rw [hs] at h; cases h
  | some k => rw [if_pos (by rfl)]; exact h

theorem kvOp_frame {e : Env} {s0 s : St} {r : Req} (f : Frame e s0 r s) (h : Op e r) : Frame e s0 r (kvOp e s r).1 := by
  unfold kvOp
  split <;> first
    | exact f.act _ (.inl h)
    | exact f
    | (refine f.block _ ?_
       intro k hk
       simp only [List.mem_cons, List.mem_append, List.mem_map, List.not_mem_nil, or_false] at hk
       first
         | (subst hk; exact h)
         | (rcases hk with (rfl | rfl) | ⟨_, _, rfl⟩ <;> exact h)
         | (rcases hk with rfl | rfl <;> exact h)
         | (obtain ⟨_, _, rfl⟩ := hk; exact h))

theorem snap_frame {e : Env} {s0 s : St} {r : Req} (f : Frame e s0 r s) (seq : Nat) (h : Op e r ∨ e.signing = false ∨ BySender e s0 r) :
    Frame e s0 r (snap e s seq r).1 := by
  unfold snap
  split
  · split
    · exact f.act _ (h.imp id (fun h => ⟨⟨seq, rfl⟩, h⟩))
    · exact f
  · exact f

theorem intKv_frame {e : Env} {s0 s : St} {r : Req} (f : Frame e s0 r s) (seq : Nat) (hn : r.id < e.n) (h : BySender e s0 r) :
    Frame e s0 r (intKv e s seq r).1 := by
  unfold intKv
  split
  · split
    · split
      · exact f
      · split
        · exact f
        · refine f.block _ ?_
          intro k hk; rw [List.mem_singleton.1 hk]; exact ⟨hn, h⟩
    · exact f
  · split
    · refine f.block _ ?_
      intro k hk; rw [List.mem_singleton.1 hk]; exact ⟨rfl, hn, h⟩
    · exact f
  · refine f.block _ ?_
    intro k hk; rw [List.mem_singleton.1 hk]; exact ⟨rfl, hn, h⟩
  · exact f

theorem kvCli_frame {e : Env} {s0 s : St} {r : Req} (f : Frame e s0 r s) (h : BySender e s0 r) : Frame e s0 r (kvCli e s r).1 := by
  unfold kvCli
  split
  · refine f.block _ ?_
    intro k hk; rw [List.mem_singleton.1 hk]; exact ⟨rfl, h⟩
  · refine f.block _ ?_
    intro k hk; rw [List.mem_singleton.1 hk]; exact ⟨rfl, h⟩
  · refine f.block _ ?_
    intro k hk; rw [List.mem_singleton.1 hk]; exact ⟨rfl, h⟩
  · exact f

theorem bftOp_frame {e : Env} {s0 s : St} {r : Req} (f : Frame e s0 r s) (seq : Nat) (h : Op e r) : Frame e s0 r (bftOp e s seq r).1 := by
  unfold bftOp
  split
  · split
    · exact f.setStop _ h
    · exact (f.setStop _ h).act _ (.inl h)
  · split
    · exact f.act _ (.inl h)
    · exact f
  · exact (((f.setStop _ h).act _ (.inl h)).act _ (.inl h)).act _ (.inl h)
  · exact (f.setStop _ h).act _ (.inl h)
  · split
    · exact f
    · exact (f.setStop _ h).act _ (.inl h)
  · split
    · exact f.act _ (.inl h)
    · exact f
  · exact f

theorem setKey_frame {e : Env} {s0 s : St} {r : Req} (f : Frame e s0 r s) (h : BySender e s0 r) {key : Nat} {aff : List Nat}
    (hc : r.cmd = .clientKey key aff) (c : Nat) (hm : c ∈ targets e r aff) : Frame e s0 r (setKey e s key c).1 := by
  have hst : ∀ x, (fun x => if x = c then some key else s.stored x) x ≠ s0.stored x →
      x ∈ targets e r aff ∧ (fun x => if x = c then some key else s.stored x) x = some key := by
    intro x hx
    simp only at hx ⊢
    by_cases e1 : x = c
    · rw [if_pos e1]; rw [e1]; exact ⟨hm, rfl⟩
    · rw [if_neg e1] at hx ⊢
      rcases f.stored with h1 | ⟨_, k', a', h2, h3⟩
      · exact absurd (congrFun h1 x) hx
      · rw [hc] at h2; cases h2; exact h3 x hx
  unfold setKey
  simp only
  split
  · rename_i hcl
    split
    · refine ⟨f.stop, f.chain, .inr ⟨h, key, aff, hc, ?_⟩, .inr ⟨h, key, aff, hc, hst⟩, f.files, f.acts⟩
      intro x hx
      show x ∈ _ ∧ (if x = c then some key else s.keys x) = some key ∧ _
      by_cases e1 : x = c
      · rw [if_pos e1]; rw [e1]; exact ⟨hm, rfl, hcl⟩
      · have hx : (if x = c then some key else s.keys x) ≠ s0.keys x := hx
        rw [if_neg e1] at hx ⊢
        rcases f.keys with h1 | ⟨_, k', a', h2, h3⟩
        · exact absurd (congrFun h1 x) hx
        · rw [hc] at h2; cases h2; exact h3 x hx
    · exact ⟨f.stop, f.chain, f.keys, .inr ⟨h, key, aff, hc, hst⟩, f.files, f.acts⟩
  · exact ⟨f.stop, f.chain, f.keys, .inr ⟨h, key, aff, hc, hst⟩, f.files, f.acts⟩

theorem setKeys_frame {e : Env} {s0 : St} {r : Req} (h : BySender e s0 r) {key : Nat} {aff : List Nat} (hc : r.cmd = .clientKey key aff)
    (cs : List Nat) (hm : ∀ c ∈ cs, pid c ∈ targets e r aff) : ∀ s, Frame e s0 r s → Frame e s0 r (setKeys e key s cs).1 := by
  induction cs with
  | nil => intro s f; exact f
  | cons c cs ih =>
    intro s f
    unfold setKeys
    have f1 := setKey_frame f h hc (pid c) (hm c List.mem_cons_self)
    split
    · rename_i s1 hs1
      rw [hs1] at f1
      exact ih (fun c hc => hm c (List.mem_cons_of_mem _ hc)) s1 f1
    · rename_i s1 hs1
      rw [hs1] at f1
      exact f1

theorem bftCli_frame {e : Env} {s0 s : St} {r : Req} (f : Frame e s0 r s) (h : BySender e s0 r) :
    ∀ s1, (∃ b, bftCli e s r = .done s1 b) ∨ bftCli e s r = .thrown s1 → Frame e s0 r s1 := by
  intro s1 hs1
  cases hc : r.cmd with
  | clientKey key aff =>
    have f1 := setKeys_frame h hc (if aff.isEmpty then e.group r.id else aff) (fun c hc => List.mem_map.2 ⟨c, hc, rfl⟩) s f
    unfold bftCli at hs1
    rw [hc] at hs1
    simp only at hs1
    generalize hsk : setKeys e key s (if aff.isEmpty then e.group r.id else aff) = res at hs1 f1
    obtain ⟨s2, b⟩ := res
    cases b with
    | true =>
      rcases hs1 with ⟨b, hs1⟩ | hs1
      · cases hs1; exact f1
      · cases hs1
    | false =>
      rcases hs1 with ⟨b, hs1⟩ | hs1
      · cases hs1
      · cases hs1; exact f1
  | _ =>
    unfold bftCli at hs1
    rw [hc] at hs1
    simp only at hs1
    rcases hs1 with ⟨b, hs1⟩ | hs1
    · cases hs1; exact f
    · cases hs1

theorem pruneOp_frame {e : Env} {s0 s : St} {r : Req} (f : Frame e s0 r s) (h : Op e r) : Frame e s0 r (pruneOp e s r).1 := by
  unfold pruneOp
  split
  · exact f.act _ (.inl h)
  · exact f

theorem post_frame {e : Env} {s0 s : St} {r : Req} (f : Frame e s0 r s) : Frame e s0 r (post e s r).1 := by
  unfold post
  split
  · rename_i key aff hc
    have fb := f.block [.clientsKeys] (fun k hk => by rw [List.mem_singleton.1 hk]; exact ⟨key, aff, hc⟩)
    simp only
    split
    · rename_i hsv
      refine ⟨fb.stop, fb.chain, fb.keys, fb.stored, ?_, fb.acts⟩
      intro g
      show (if g = e.gid r.id then some key else s.files g) = _ ∨ ∃ _ _, _ ∧ _ ∧ (if g = e.gid r.id then some key else s.files g) = _ ∧ _
      by_cases hg : g = e.gid r.id
      · rw [if_pos hg]; exact .inr ⟨key, aff, hc, hg, rfl, hsv⟩
      · rw [if_neg hg]; exact f.files g
    · exact ⟨fb.stop, fb.chain, fb.keys, fb.stored, fb.files, fb.acts⟩
  · exact f

theorem handle_frame {e : Env} {s0 s : St} {r : Req} (f : Frame e s0 r s) (seq : Nat) (h : H) (hc : check e s r h = some true) :
    ∀ s1, (∃ b, handle e s seq r h = .done s1 b) ∨ handle e s seq r h = .thrown s1 → Frame e s0 r s1 := by
  intro s1 hs1
  cases h with
  | kvOp =>
    rcases hs1 with ⟨b, hs1⟩ | hs1 <;> cases hs1
    exact kvOp_frame f (Option.some.inj hc)
  | bftOp =>
    rcases hs1 with ⟨b, hs1⟩ | hs1 <;> cases hs1
    exact bftOp_frame f seq (Option.some.inj hc)
  | pruneOp =>
    rcases hs1 with ⟨b, hs1⟩ | hs1 <;> cases hs1
    exact pruneOp_frame f (Option.some.inj hc)
  | snap =>
    rcases hs1 with ⟨b, hs1⟩ | hs1 <;> cases hs1
    apply snap_frame f
    simp only [check] at hc
    split at hc
    · split at hc
      · rename_i ho; exact .inl ho
      · exact .inr (.inr (cli_of f hc))
    · rename_i hs; exact .inr (.inl (by simpa using hs))
  | intKv =>
    rcases hs1 with ⟨b, hs1⟩ | hs1 <;> cases hs1
    simp only [check] at hc
    split at hc
    · cases hc
    · rename_i hn
      exact intKv_frame f seq (by omega) (sig_of f hc)
  | kvCli =>
    rcases hs1 with ⟨b, hs1⟩ | hs1 <;> cases hs1
    exact kvCli_frame f (cli_of f hc)
  | bftCli => exact bftCli_frame f (cli_of f hc) s1 hs1
  | post =>
    rcases hs1 with ⟨b, hs1⟩ | hs1 <;> cases hs1
    exact post_frame f

theorem loop_frame {e : Env} {s0 : St} {r : Req} (seq : Nat) (hs : List H) :
    ∀ s v ok, Frame e s0 r s → ∀ s', (∃ b, loop e seq r hs s v ok = .done s' b) ∨ loop e seq r hs s v ok = .thrown s' → Frame e s0 r s' := by
  induction hs with
  | nil =>
    intro s v ok f s' h
    rcases h with ⟨b, h⟩ | h <;> cases h
    exact f
  | cons h hs ih =>
    intro s v ok f s' hl
    unfold loop at hl
    cases hc : check e s r h with
    | none => rw [hc] at hl; simp only at hl; rcases hl with ⟨b, hl⟩ | hl <;> cases hl
    | some b =>
      rw [hc] at hl
      cases b with
      | false => exact ih s v ok f s' hl
      | true =>
        simp only at hl
        cases hh : handle e s seq r h with
        | done s1 b =>
          rw [hh] at hl
          exact ih s1 true (ok && b) (handle_frame f seq h hc s1 (.inl ⟨b, hh⟩)) s' hl
        | thrown s1 =>
          rw [hh] at hl
          simp only at hl
          rcases hl with ⟨b, hl⟩ | hl <;> cases hl
          exact handle_frame f seq h hc s' (.inr hh)
        | abort =>
          rw [hh] at hl; simp only at hl; rcases hl with ⟨b, hl⟩ | hl <;> cases hl

/-- `dispatch` never lets an exception out -/
theorem dispatch_cases (e : Env) (s : St) (seq : Nat) (r : Req) : (∃ s' b, dispatch e s seq r = .done s' b) ∨ dispatch e s seq r = .abort := by
  have : ∀ hs s v ok, (∃ s' b, loop e seq r hs s v ok = .done s' b) ∨ loop e seq r hs s v ok = .abort := by
    intro hs
    induction hs with
    | nil => intro s v ok; exact .inl ⟨_, _, rfl⟩
    | cons h hs ih =>
      intro s v ok
      unfold loop
      split
      · exact .inr rfl
      · exact ih _ _ _
      · split
        · exact ih _ _ _
        · exact .inl ⟨_, _, rfl⟩
        · exact .inr rfl
  exact this order s false true

end Verif.Auth
