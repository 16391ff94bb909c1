import Verif.PreExec.Lemmas
import Verif.Util.ListLemmas
set_option linter.unusedVariables false
set_option linter.unusedSimpArgs false
/-!
# C19: completion, cancellation, agreement
-/
namespace Verif.PreExec
open Verif.Bytes Verif.Kvbc

theorem Said.mono {E : Env} {me client seq : Nat} {evs evs' : List Ev} {r : Nat} {h : Bytes} (hs : ∀ e ∈ evs, e ∈ evs')
    (h1 : Said E me client seq evs r h) : Said E me client seq evs' r h := by
  rcases h1 with ⟨m, a, b⟩ | ⟨a, buf, len, res, b, c⟩
  · exact Or.inl ⟨m, hs _ a, b⟩
  · exact Or.inr ⟨a, buf, len, res, hs _ b, c⟩

/-- where a collected signature comes from -/
def Rec (E : Env) (me client seq : Nat) (evs : List Ev) (x : Sig) (h : Bytes) : Prop :=
  (∃ m, Ev.reply m ∈ evs ∧ m.status ≠ .reject ∧ m.sender = x.sender ∧ m.hash = h ∧ m.sig = x.sig ∧ m.res = x.res) ∨
  (x.sender = me ∧ x.sig = E.sign h ∧ ∃ buf len, Ev.primary buf len x.res ∈ evs ∧
    h = resultHash E (buf.take len) x.res client seq)

theorem Rec.said {E : Env} {me client seq : Nat} {evs : List Ev} {x : Sig} {h : Bytes} (hr : Rec E me client seq evs x h) :
    Said E me client seq evs x.sender h := by
  rcases hr with ⟨m, a, b, c, d, _⟩ | ⟨a, b, buf, len, c, d⟩
  · exact Or.inl ⟨m, a, b, c, d⟩
  · exact Or.inr ⟨a, buf, len, _, c, d⟩

theorem Rec.mono {E : Env} {me client seq : Nat} {evs evs' : List Ev} {x : Sig} {h : Bytes} (hs : ∀ e ∈ evs, e ∈ evs')
    (h1 : Rec E me client seq evs x h) : Rec E me client seq evs' x h := by
  rcases h1 with ⟨m, a, b⟩ | ⟨a, b, buf, len, c, d⟩
  · exact Or.inl ⟨m, hs _ a, b⟩
  · exact Or.inr ⟨a, b, buf, len, hs _ c, d⟩

def zeros : Bytes := List.replicate 32 0

/-- the primary's own result -/
def OwnData (E : Env) (s : St) (evs : List Ev) : Prop :=
  ((∀ buf len res, Ev.primary buf len res ∉ evs) ∧ s.pres = UNKNOWN ∧ s.phash = zeros ∧ s.ptr = .null) ∨
  (s.pres ≠ UNKNOWN ∧ Said E s.me s.client s.seq evs s.me s.phash ∧ ∃ off d, s.ptr = .at off ∧ slice s.buf off s.len = some d ∧
    s.phash = resultHash E d s.pres s.client s.seq ∧ (s.pres = SUCCESS → 8 < d.length))

structure Inv (E : Env) (s0 : St) (evs : List Ev) (s : St) : Prop where
  consts : s.n = s0.n ∧ s.req = s0.req ∧ s.me = s0.me ∧ s.client = s0.client ∧ s.seq = s0.seq
  wf : VWf s.votes
  origin : ∀ h x, x ∈ votesFor s.votes h → Rec E s.me s.client s.seq evs x h
  all : ∀ r h, Said E s.me s.client s.seq evs r h → ∃ x ∈ votesFor s.votes h, x.sender = r
  cnt : s.received = total s.votes
  data : OwnData E s evs

theorem poke_length {buf : Bytes} {off : Nat} {b buf' : Bytes} (h : poke buf off b = some buf') : buf'.length = buf.length := by
  rw [poke] at h
  split at h
  · cases h
    simp only [List.length_append, List.length_take, List.length_drop]
    omega
  · cases h

theorem poke_isSome {buf : Bytes} {off : Nat} {b : Bytes} (h : off + b.length ≤ buf.length) : ∃ buf', poke buf off b = some buf' := by
  rw [poke, if_pos h]; exact ⟨_, rfl⟩

theorem slice_isSome {buf : Bytes} {off len : Nat} (h : off + len ≤ buf.length) : ∃ d, slice buf off len = some d := by
  rw [slice, if_pos h]; exact ⟨_, rfl⟩

/-- the signatures after one more -/
theorem vote_from {E : Env} {me client seq : Nat} {evs evs' : List Ev} {v : Votes} (hv : VWf v) (hs : ∀ e ∈ evs, e ∈ evs')
    (h1 : ∀ h x, x ∈ votesFor v h → Rec E me client seq evs x h) {h : Bytes} {x : Sig} (hx : Rec E me client seq evs' x h) :
    ∀ h' y, y ∈ votesFor (addVote h x v).1 h' → Rec E me client seq evs' y h' := by
  intro h' y hy
  rw [addVote_votesFor hv] at hy
  split at hy
  · rename_i e
    subst e
    cases hi : insertSig x (votesFor v h') with
    | none => rw [hi] at hy; exact (h1 _ _ hy).mono hs
    | some l =>
      rw [hi] at hy
      rcases (insertSig_mem hi y).1 hy with rfl | hy
      · exact hx
      · exact (h1 _ _ hy).mono hs
  · exact (h1 _ _ hy).mono hs

theorem vote_keeps {v : Votes} (hv : VWf v) {h h' : Bytes} {x : Sig} {r : Nat} (h1 : ∃ y ∈ votesFor v h', y.sender = r) :
    ∃ y ∈ votesFor (addVote h x v).1 h', y.sender = r := by
  obtain ⟨y, h2, h3⟩ := h1
  rw [addVote_votesFor hv]
  split
  · rename_i e
    subst e
    cases hi : insertSig x (votesFor v h') with
    | none => exact ⟨y, h2, h3⟩
    | some l => exact ⟨y, (insertSig_mem hi y).2 (Or.inr h2), h3⟩
  · exact ⟨y, h2, h3⟩

theorem vote_adds {v : Votes} (hv : VWf v) {h : Bytes} {x : Sig} : ∃ y ∈ votesFor (addVote h x v).1 h, y.sender = x.sender := by
  rw [addVote_votesFor hv, if_pos rfl]
  cases hi : insertSig x (votesFor v h) with
  | none =>
    obtain ⟨y, h1, h2⟩ := insertSig_none hi
    exact ⟨y, h1, h2⟩
  | some l => exact ⟨x, (insertSig_mem hi x).2 (Or.inl rfl), rfl⟩

theorem said_append_reply {E : Env} {me client seq : Nat} {evs : List Ev} {m : Reply} {r : Nat} {h : Bytes}
    (h1 : Said E me client seq (evs ++ [.reply m]) r h) :
    Said E me client seq evs r h ∨ (m.status ≠ .reject ∧ m.sender = r ∧ m.hash = h) := by
  rcases h1 with ⟨m', a, b⟩ | ⟨a, buf, len, res, b, c⟩
  · rcases List.mem_append.1 a with a | a
    · exact Or.inl (Or.inl ⟨m', a, b⟩)
    · rw [List.mem_singleton] at a
      cases a
      exact Or.inr b
  · rcases List.mem_append.1 b with b | b
    · exact Or.inl (Or.inr ⟨a, buf, len, res, b, c⟩)
    · rw [List.mem_singleton] at b
      cases b

theorem said_append_primary {E : Env} {me client seq : Nat} {evs : List Ev} {buf : Bytes} {len res : Nat} {r : Nat} {h : Bytes}
    (h1 : Said E me client seq (evs ++ [.primary buf len res]) r h) :
    Said E me client seq evs r h ∨ (r = me ∧ h = resultHash E (buf.take len) res client seq) := by
  rcases h1 with ⟨m', a, b⟩ | ⟨a, buf', len', res', b, c⟩
  · rcases List.mem_append.1 a with a | a
    · exact Or.inl (Or.inl ⟨m', a, b⟩)
    · rw [List.mem_singleton] at a
      cases a
  · rcases List.mem_append.1 b with b | b
    · exact Or.inl (Or.inr ⟨a, buf', len', res', b, c⟩)
    · rw [List.mem_singleton] at b
      cases b
      exact Or.inr ⟨a, c⟩

theorem said_append_other {E : Env} {me client seq : Nat} {evs : List Ev} {e : Ev} (he : e = .launch ∨ e = .timer) {r : Nat}
    {h : Bytes} (h1 : Said E me client seq (evs ++ [e]) r h) : Said E me client seq evs r h := by
  rcases h1 with ⟨m', a, b⟩ | ⟨a, buf', len', res', b, c⟩
  · rcases List.mem_append.1 a with a | a
    · exact Or.inl ⟨m', a, b⟩
    · rw [List.mem_singleton] at a
      subst a
      rcases he with he | he <;> cases he
  · rcases List.mem_append.1 b with b | b
    · exact Or.inr ⟨a, buf', len', res', b, c⟩
    · rw [List.mem_singleton] at b
      subst b
      rcases he with he | he <;> cases he

theorem sub_append {evs : List Ev} {e : Ev} : ∀ x ∈ evs, x ∈ evs ++ [e] := fun x hx => List.mem_append.2 (Or.inl hx)

theorem OwnData.mono {E : Env} {s : St} {evs : List Ev} {e : Ev} (h : OwnData E s evs)
    (he : ∀ buf len res, e ≠ .primary buf len res) : OwnData E s (evs ++ [e]) := by
  rcases h with ⟨a, b⟩ | ⟨a, b, c⟩
  · refine Or.inl ⟨fun buf len res hm => ?_, b⟩
    rcases List.mem_append.1 hm with hm | hm
    · exact a _ _ _ hm
    · rw [List.mem_singleton] at hm
      exact he _ _ _ hm.symm
  · exact Or.inr ⟨a, b.mono sub_append, c⟩

theorem inv_reply {E : Env} {s0 s : St} {evs : List Ev} (hi : Inv E s0 evs s) (m : Reply) :
    Inv E s0 (evs ++ [.reply m]) (s.onReply m) := by
  have hd := hi.data.mono (e := .reply m) (fun _ _ _ h => (by cases h))
  by_cases hr : m.status = .reject
  · have e : s.onReply m = { s with rejected := s.rejected ++ [m.sender] } := by
      rw [St.onReply, hr]
    rw [e]
    refine ⟨hi.consts, hi.wf, fun h x hx => (hi.origin h x hx).mono sub_append, ?_, hi.cnt, hd⟩
    intro r h hs
    rcases said_append_reply hs with hs | ⟨h1, _⟩
    · exact hi.all r h hs
    · exact absurd hr h1
  · have e : s.onReply m = { s with
        votes := (addVote m.hash ⟨m.sig, m.sender, m.res⟩ s.votes).1
        received := if (addVote m.hash ⟨m.sig, m.sender, m.res⟩ s.votes).2 then s.received + 1 else s.received } := by
      rw [St.onReply]
      cases h : m.status with
      | reject => exact absurd h hr
      | good => rfl
      | failed => rfl
    rw [e]
    refine ⟨hi.consts, addVote_wf hi.wf, ?_, ?_, ?_, hd⟩
    · exact vote_from hi.wf sub_append hi.origin (Or.inl ⟨m, List.mem_append.2 (Or.inr List.mem_cons_self), hr, rfl, rfl, rfl, rfl⟩)
    · intro r h hs
      rcases said_append_reply hs with hs | ⟨_, h2, h3⟩
      · exact vote_keeps hi.wf (hi.all r h hs)
      · have := vote_adds (h := m.hash) (x := ⟨m.sig, m.sender, m.res⟩) hi.wf
        rw [← h3, ← h2]
        exact this
    · show (if _ then s.received + 1 else s.received) = total _
      rw [addVote_total, hi.cnt]

theorem setupData_some {s : St} (hp : s.ptr = .at 0) (hl : 20 ≤ s.buf.length) :
    ∃ b d, s.setupData = some { s with
      buf := b
      ptr := .at 6
      len := 14 } ∧ slice b 6 14 = some d := by
  obtain ⟨b1, h1⟩ := poke_isSome (buf := s.buf) (off := 0) (b := leEncode 4 s.pres) (by rw [leEncode_length]; omega)
  have l1 := poke_length h1
  obtain ⟨b2, h2⟩ := poke_isSome (buf := b1) (off := 4) (b := leEncode 2 s.client) (by rw [leEncode_length]; omega)
  have l2 := poke_length h2
  obtain ⟨b3, h3⟩ := poke_isSome (buf := b2) (off := 6) (b := leEncode 8 s.seq) (by rw [leEncode_length]; omega)
  have l3 := poke_length h3
  obtain ⟨d, h4⟩ := slice_isSome (buf := b3) (off := 6) (len := 14) (by omega)
  refine ⟨b3, d, ?_, h4⟩
  rw [St.setupData, hp]
  simp only [Nat.zero_add, h1, h2, h3, Option.bind_some, Option.map_some]
  rfl

theorem inv_primary {E : Env} {s0 s s' : St} {evs : List Ev} (hi : Inv E s0 evs s) {buf : Bytes} {len res : Nat}
    (hg : len ≤ buf.length ∧ 20 ≤ buf.length ∧ res ≠ UNKNOWN ∧ 8 < len) (h : s.primaryDone E buf len res = some s') :
    Inv E s0 (evs ++ [.primary buf len res]) s' := by
  obtain ⟨g1, g2, g3, g4⟩ := hg
  have hd : slice buf 0 len = some (buf.take len) := by
    rw [slice, if_pos (by omega)]; rfl
  have hself : Said E s.me s.client s.seq (evs ++ [.primary buf len res]) s.me (resultHash E (buf.take len) res s.client s.seq) :=
    Or.inr ⟨rfl, buf, len, res, List.mem_append.2 (Or.inr List.mem_cons_self), rfl⟩
  have key : ∃ b p l d, s' = { s with
        busy := false
        pres := res
        buf := b
        ptr := .at p
        len := l
        phash := resultHash E (buf.take len) res s.client s.seq
        votes := (addVote (resultHash E (buf.take len) res s.client s.seq)
          ⟨E.sign (resultHash E (buf.take len) res s.client s.seq), s.me, res⟩ s.votes).1
        received := if (addVote (resultHash E (buf.take len) res s.client s.seq)
          ⟨E.sign (resultHash E (buf.take len) res s.client s.seq), s.me, res⟩ s.votes).2 then s.received + 1 else s.received } ∧
      slice b p l = some d ∧ resultHash E (buf.take len) res s.client s.seq = resultHash E d res s.client s.seq ∧
      (res = SUCCESS → 8 < d.length) := by
    rw [St.primaryDone] at h
    simp only [if_pos g3, hd] at h
    by_cases hs : res = SUCCESS
    · rw [if_neg (by simpa using hs)] at h
      simp only [Option.map_some, Option.some.injEq] at h
      refine ⟨buf, 0, len, buf.take len, h.symm, hd, rfl, fun _ => ?_⟩
      rw [List.length_take]; omega
    · rw [if_pos hs] at h
      obtain ⟨b, d, k1, k2⟩ := setupData_some (s := { s with
        busy := false
        pres := res
        buf := buf
        ptr := .at 0
        len := len
        phash := resultHash E (buf.take len) res s.client s.seq }) rfl g2
      rw [k1] at h
      simp only [Option.map_some, Option.some.injEq] at h
      refine ⟨b, 6, 14, d, h.symm, k2, ?_, fun e => absurd e hs⟩
      rw [resultHash, resultHash, if_neg hs, if_neg hs]
  obtain ⟨b, p, l, d, rfl, k1, k2, k3⟩ := key
  refine ⟨hi.consts, addVote_wf hi.wf, ?_, ?_, ?_, ?_⟩
  · exact vote_from hi.wf sub_append hi.origin (Or.inr ⟨rfl, rfl, buf, len, List.mem_append.2 (Or.inr List.mem_cons_self), rfl⟩)
  · intro r h hs
    rcases said_append_primary hs with hs | ⟨h2, h3⟩
    · exact vote_keeps hi.wf (hi.all r h hs)
    · have := vote_adds (h := resultHash E (buf.take len) res s.client s.seq)
        (x := ⟨E.sign (resultHash E (buf.take len) res s.client s.seq), s.me, res⟩) hi.wf
      rw [h3, h2]
      exact this
  · show (if _ then s.received + 1 else s.received) = total _
    rw [addVote_total, hi.cnt]
  · exact Or.inr ⟨g3, hself, p, d, rfl, k1, k2, k3⟩

theorem inv_other {E : Env} {s0 s s' : St} {evs : List Ev} (hi : Inv E s0 evs s) {e : Ev} (he : e = .launch ∨ e = .timer)
    (h : ∃ b, s' = { s with busy := b }) : Inv E s0 (evs ++ [e]) s' := by
  obtain ⟨b, rfl⟩ := h
  refine ⟨hi.consts, hi.wf, fun h x hx => (hi.origin h x hx).mono sub_append, ?_, hi.cnt, ?_⟩
  · intro r h hs
    exact hi.all r h (said_append_other he hs)
  · have := hi.data.mono (e := e) (by rintro _ _ _ rfl; rcases he with he | he <;> cases he)
    exact this

theorem inv_agreed {E : Env} {s0 s : St} {evs : List Ev} (hi : Inv E s0 evs s) (a : Nat) : Inv E s0 evs { s with agreed := a } :=
  ⟨hi.consts, hi.wf, hi.origin, hi.all, hi.cnt, hi.data⟩

/-- all that `definePreProcessingConsensusResult` can do -/
theorem define_cases {E : Env} {s s' : St} {o : Outcome} (h : s.define E = (s', o)) :
    (o = .cont ∧ (s.received < s.req ∨ s.busy = true) ∧ s' = s) ∨
    (s.req ≤ s.received ∧ s.busy = false ∧
      ((∃ hh x xs, best s.votes none = some (hh, x :: xs) ∧ s.req ≤ (x :: xs).length ∧
          ((hh = s.phash ∧ o = .complete ∧ s' = { s with agreed := x.res }) ∨
           (hh ≠ s.phash ∧ s.pres = SUCCESS ∧ x.res ≠ SUCCESS ∧ o = .complete ∧ s' = { s with
              agreed := x.res
              ptr := .wild
              len := sizeOfResultData }) ∨
           (hh ≠ s.phash ∧ s.pres = SUCCESS ∧ x.res = SUCCESS ∧ ∃ off d, s.ptr = .at off ∧ slice s.buf off s.len = some d ∧ 8 < d.length ∧
              ((hh = resultHash E (zeroTail d) SUCCESS s.client s.seq ∧ ∃ b, poke s.buf off (zeroTail d) = some b ∧ o = .complete ∧
                  s' = { s with
                    agreed := x.res
                    buf := b
                    phash := hh
                    votes := (addVote hh ⟨E.sign hh, s.me, s.pres⟩ s.votes).1 }) ∨
               (hh ≠ resultHash E (zeroTail d) SUCCESS s.client s.seq ∧ o = .cancel ∧ s' = { s with agreed := x.res }))) ∨
           (hh ≠ s.phash ∧ s.pres = SUCCESS ∧ o = .abort ∧ ∀ off d, s.ptr = .at off → slice s.buf off s.len = some d → 8 < d.length → False) ∨
           (hh ≠ s.phash ∧ s.pres ≠ SUCCESS ∧ s' = { s with agreed := x.res } ∧ (if s.received = s.n then o = .cancel else o = .cont)))) ∨
       ((∀ hh x xs, best s.votes none = some (hh, x :: xs) → (x :: xs).length < s.req) ∧ s' = s ∧
          (if s.received = s.n then o = .cancel else o = .cont)))) := by
  rw [St.define] at h
  by_cases c1 : s.received < s.req
  · rw [if_pos c1] at h; cases h; exact Or.inl ⟨rfl, Or.inl c1, rfl⟩
  rw [if_neg c1] at h
  by_cases c2 : s.busy = true
  · rw [if_pos c2] at h; cases h; exact Or.inl ⟨rfl, Or.inr c2, rfl⟩
  rw [if_neg c2] at h
  right
  refine ⟨by omega, by simpa using c2, ?_⟩
  have stop : ∀ t : St, (if t.received = t.n then (t, Outcome.cancel) else (t, .cont)) = (s', o) →
      s' = t ∧ (if t.received = t.n then o = .cancel else o = .cont) := by
    intro t ht
    split at ht <;> cases ht
    · rename_i e; exact ⟨rfl, by rw [if_pos e]⟩
    · rename_i e; exact ⟨rfl, by rw [if_neg e]⟩
  simp only at h
  split at h
  · rename_i hh x xs hb
    split at h
    · rename_i c3
      left
      refine ⟨hh, x, xs, hb, c3, ?_⟩
      split at h
      · rename_i c4
        cases h
        exact Or.inl ⟨c4, rfl, rfl⟩
      · rename_i c4
        split at h
        · rename_i c5
          cases h
          exact Or.inr (Or.inl ⟨c4, c5.1, c5.2, rfl, rfl⟩)
        · rename_i c5
          split at h
          · rename_i c6
            have hx : x.res = SUCCESS := Decidable.byContradiction (fun k => c5 ⟨c6, k⟩)
            right; right
            split at h
            · rename_i off hp
              split at h
              · rename_i hsl
                cases h
                right; left
                refine ⟨c4, c6, rfl, fun off' d h1 h2 _ => ?_⟩
                rw [hp] at h1; cases h1
                rw [hsl] at h2; cases h2
              · rename_i d hsl
                split at h
                · rename_i c7
                  cases h
                  right; left
                  refine ⟨c4, c6, rfl, fun off' d' h1 h2 h3 => ?_⟩
                  rw [hp] at h1; cases h1
                  rw [hsl] at h2; cases h2
                  omega
                · rename_i c7
                  split at h
                  · rename_i c8
                    split at h
                    · rename_i hpk
                      exfalso
                      have hb := slice_eq_some.1 hsl
                      have hlen := slice_length hsl
                      have : off + (zeroTail d).length ≤ s.buf.length := by
                        rw [zeroTail, List.length_append, List.length_take, List.length_replicate]
                        have := hb.1
                        omega
                      rw [poke, if_pos this] at hpk
                      cases hpk
                    · rename_i b hpk
                      cases h
                      left
                      exact ⟨c4, c6, hx, off, d, hp, hsl, by omega, Or.inl ⟨c8, b, hpk, rfl, rfl⟩⟩
                  · rename_i c8
                    cases h
                    left
                    exact ⟨c4, c6, hx, off, d, hp, hsl, by omega, Or.inr ⟨c8, rfl, rfl⟩⟩
            · rename_i hp
              cases h
              right; left
              exact ⟨c4, c6, rfl, fun off' d h1 _ _ => hp off' h1⟩
          · rename_i c6
            obtain ⟨k1, k2⟩ := stop { s with agreed := x.res } h
            right; right; right; right
            exact ⟨c4, c6, k1, k2⟩
    · rename_i c3
      obtain ⟨k1, k2⟩ := stop _ h
      right
      refine ⟨fun hh' x' xs' hb' => ?_, k1, k2⟩
      rw [hb] at hb'; cases hb'
      omega
  · rename_i hb
    obtain ⟨k1, k2⟩ := stop _ h
    right
    exact ⟨fun hh x xs hb' => absurd hb' (hb hh x xs), k1, k2⟩

theorem define_cont {E : Env} {s s' : St} (h : s.define E = (s', .cont)) : ∃ a, s' = { s with agreed := a } := by
  rcases define_cases h with ⟨_, _, e⟩ | ⟨_, _, ⟨hh, x, xs, _, _, k⟩ | ⟨_, e, _⟩⟩
  · exact ⟨s.agreed, e⟩
  · rcases k with ⟨_, k, _⟩ | ⟨_, _, _, k, _⟩ | ⟨_, _, _, off, d, _, _, _, k⟩ | ⟨_, _, k, _⟩ | ⟨_, _, k, _⟩
    · cases k
    · cases k
    · rcases k with ⟨_, b, _, k, _⟩ | ⟨_, k, _⟩ <;> cases k
    · cases k
    · exact ⟨_, k⟩
  · exact ⟨s.agreed, e⟩

/-- the state in which an event calls `definePreProcessingConsensusResult` -/
theorem step_pre {E : Env} {s0 s s' : St} {evs : List Ev} (hi : Inv E s0 evs s) {e : Ev} {o : Outcome}
    (hg : GoodPrimary (evs ++ [e])) (h : s.step E e = (s', o)) :
    ∃ t, Inv E s0 (evs ++ [e]) t ∧ ((o = .cont ∧ s' = t ∧ (e = .launch ∨ ∃ m, e = .reply m ∧ m.status = .reject)) ∨ t.define E = (s', o)) := by
  cases e with
  | reply m =>
    refine ⟨_, inv_reply hi m, ?_⟩
    rw [St.step] at h
    split at h
    · rename_i hr
      cases h; exact Or.inl ⟨rfl, rfl, Or.inr ⟨m, rfl, hr⟩⟩
    · exact Or.inr h
  | launch =>
    cases h
    exact ⟨_, inv_other hi (Or.inl rfl) ⟨true, rfl⟩, Or.inl ⟨rfl, rfl, Or.inl rfl⟩⟩
  | timer =>
    exact ⟨s, inv_other hi (Or.inr rfl) ⟨s.busy, rfl⟩, Or.inr h⟩
  | primary buf len res =>
    rw [St.step] at h
    cases hp : s.primaryDone E buf len res with
    | none =>
      rw [hp] at h
      cases h
      -- the buffer is large enough, so this does not happen
      exfalso
      obtain ⟨g1, g2, g3, g4⟩ := hg buf len res (List.mem_append.2 (Or.inr List.mem_cons_self))
      rw [St.primaryDone] at hp
      have hd : slice buf 0 len = some (buf.take len) := by
        rw [slice, if_pos (by omega)]; rfl
      simp only [if_pos g3, hd] at hp
      by_cases hs : res = SUCCESS
      · rw [if_neg (by simpa using hs)] at hp
        cases hp
      · rw [if_pos hs] at hp
        obtain ⟨b, d, k1, k2⟩ := setupData_some (s := { s with
          busy := false
          pres := res
          buf := buf
          ptr := .at 0
          len := len
          phash := resultHash E (buf.take len) res s.client s.seq }) rfl g2
        rw [k1] at hp
        cases hp
    | some t =>
      rw [hp] at h
      exact ⟨t, inv_primary hi (hg buf len res (List.mem_append.2 (Or.inr List.mem_cons_self))) hp, Or.inr h⟩

theorem goodPrimary_sub {evs evs' : List Ev} (h : ∀ e ∈ evs, e ∈ evs') (hg : GoodPrimary evs') : GoodPrimary evs :=
  fun buf len res hm => hg buf len res (h _ hm)

theorem inv_step {E : Env} {s0 s s' : St} {evs : List Ev} (hi : Inv E s0 evs s) {e : Ev} (hg : GoodPrimary (evs ++ [e]))
    (h : s.step E e = (s', .cont)) : Inv E s0 (evs ++ [e]) s' := by
  obtain ⟨t, h1, h2⟩ := step_pre hi hg h
  rcases h2 with ⟨_, rfl, _⟩ | h2
  · exact h1
  · obtain ⟨a, rfl⟩ := define_cont h2
    exact inv_agreed h1 a

theorem inv_run {E : Env} {s0 : St} : ∀ {evs pre : List Ev} {s s' : St}, Inv E s0 pre s → GoodPrimary (pre ++ evs) →
    s.run E evs = some s' → Inv E s0 (pre ++ evs) s'
  | [], pre, s, s', hi, _, h => by
    cases h
    rw [List.append_nil]; exact hi
  | e :: es, pre, s, s', hi, hg, h => by
    rw [St.run] at h
    split at h
    · rename_i t ht
      have e1 : pre ++ e :: es = (pre ++ [e]) ++ es := by simp
      rw [e1] at hg ⊢
      refine inv_run (inv_step hi (goodPrimary_sub (fun x hx => List.mem_append.2 (Or.inl hx)) hg) ht) hg h
    · cases h

theorem inv_new (E : Env) (n req me client seq : Nat) :
    Inv E (St.new n req me client seq) [] (St.new n req me client seq) := by
  refine ⟨⟨rfl, rfl, rfl, rfl, rfl⟩, ⟨List.Pairwise.nil, (by intro y h; cases h), (by intro y h; cases h)⟩, ?_, ?_, rfl, ?_⟩
  · intro h x hx; cases hx
  · rintro r h (⟨m, a, _⟩ | ⟨_, _, _, _, a, _⟩) <;> cases a
  · exact Or.inl ⟨(by intro _ _ _ h; cases h), rfl, rfl, rfl⟩

theorem reach_inv {E : Env} {n req me client seq : Nat} {evs : List Ev} {s : St} (hg : GoodPrimary evs)
    (h : (St.new n req me client seq).run E evs = some s) : Inv E (St.new n req me client seq) evs s :=
  inv_run (pre := []) (inv_new E n req me client seq) hg h

theorem saidBy_votes {E : Env} {s0 s : St} {evs : List Ev} (hi : Inv E s0 evs s) (h : Bytes) :
    SaidBy E s.me s.client s.seq evs (votesFor s.votes h).length h := by
  refine ⟨(votesFor s.votes h).map (·.sender), (votesFor_asc hi.wf h).nodup, by rw [List.length_map]; exact Nat.le_refl _, ?_⟩
  intro r hr
  rw [List.mem_map] at hr
  obtain ⟨x, h1, rfl⟩ := hr
  exact (hi.origin h x h1).said

theorem votes_saidBy {E : Env} {s0 s : St} {evs : List Ev} (hi : Inv E s0 evs s) {h : Bytes} {k : Nat}
    (hs : SaidBy E s.me s.client s.seq evs k h) : k ≤ (votesFor s.votes h).length := by
  obtain ⟨l, h1, h2, h3⟩ := hs
  have : l.length ≤ ((votesFor s.votes h).map (·.sender)).length := by
    apply ListU.nodup_subset_length h1
    intro r hr
    obtain ⟨x, k1, k2⟩ := hi.all r h (h3 r hr)
    rw [List.mem_map]; exact ⟨x, k1, k2⟩
  rw [List.length_map] at this
  omega

theorem SaidBy.le {E : Env} {me client seq : Nat} {evs : List Ev} {k k' : Nat} {h : Bytes} (hs : SaidBy E me client seq evs k h)
    (hk : k' ≤ k) : SaidBy E me client seq evs k' h := by
  obtain ⟨l, h1, h2, h3⟩ := hs
  exact ⟨l, h1, by omega, h3⟩

theorem best_mem {s : St} {hh : Bytes} {l : List Sig} (hv : VWf s.votes) (hb : best s.votes none = some (hh, l)) :
    votesFor s.votes hh = l := by
  rcases (best_spec s.votes none).1 _ hb with h | h
  · exact votesFor_mem hv h
  · cases h

/-- **C19.** The primary completes pre-execution only if at least f+1 distinct replicas reported one hash; what it passes on is
then the result with that hash, and at least f+1 collected signatures go with it.  (The second case, in which f+1 replicas
report an error and the primary a success, is a memory error: see `error_consensus_wild_pointer`.) -/
theorem complete_sound_partial {E : Env} {n req me client seq : Nat} {evs : List Ev} {s s' : St} {e : Ev}
    (hg : GoodPrimary (evs ++ [e])) (h : (St.new n req me client seq).run E evs = some s) (hs : s.step E e = (s', .complete))
    (hz : ¬ SaidBy E me client seq (evs ++ [e]) req zeros) :
    ∃ hh, SaidBy E me client seq (evs ++ [e]) req hh ∧
      ((∃ d l, s'.phash = hh ∧ s'.delivered = some d ∧ resultHash E d s'.pres client seq = hh ∧ s'.sigs = some l ∧ req ≤ l.length ∧
          (l.map (·.sender)).Nodup) ∨
       (s'.pres = SUCCESS ∧ s'.agreed ≠ SUCCESS ∧ s'.delivered = none)) := by
  have hi := reach_inv (goodPrimary_sub sub_append hg) h
  obtain ⟨t, h1, h2⟩ := step_pre hi hg hs
  rcases h2 with ⟨h2, _⟩ | h2
  · cases h2
  · obtain ⟨c1, c2, c3, c4, c5⟩ := h1.consts
    have c2 : t.req = req := c2
    have c3 : t.me = me := c3
    have c4 : t.client = client := c4
    have c5 : t.seq = seq := c5
    rcases define_cases h2 with ⟨k, _⟩ | ⟨_, _, ⟨hh, x, xs, hb, hr, k⟩ | ⟨_, _, k⟩⟩
    · cases k
    · have hv := best_mem h1.wf hb
      have hsb := saidBy_votes h1 hh
      rw [hv, c3, c4, c5] at hsb
      rw [c2] at hr
      have hsb := hsb.le hr
      refine ⟨hh, hsb, ?_⟩
      have hsig : ∀ l, votesFor t.votes hh = l → l ≠ [] → t.votes.lookup hh = some l := by
        intro l hl hn
        rw [votesFor] at hl
        cases hk : t.votes.lookup hh with
        | none => rw [hk] at hl; exact absurd hl.symm hn
        | some l' => rw [hk] at hl; rw [← hl]; rfl
      rcases k with ⟨k1, _, rfl⟩ | ⟨_, k1, k2, _, rfl⟩ | ⟨_, k0, k0', off, d, k1, k2, k3, k⟩ | ⟨_, _, k, _⟩ | ⟨_, _, _, k⟩
      · left
        rcases h1.data with ⟨_, _, q, _⟩ | ⟨_, _, off, d, q1, q2, q3, q4⟩
        · rw [k1, q] at hsb; exact absurd hsb hz
        · refine ⟨d, x :: xs, k1.symm, ?_, ?_, ?_, hr, ?_⟩
          · rw [St.delivered, q1]; exact q2
          · rw [k1, q3, c4, c5]
          · rw [St.sigs]
            show t.votes.lookup t.phash = some (x :: xs)
            rw [← k1]; exact hsig _ hv (by simp)
          · have := (votesFor_asc h1.wf hh).nodup
            rw [hv] at this; exact this
      · right
        exact ⟨k1, k2, rfl⟩
      · rcases k with ⟨q1, b, q2, _, rfl⟩ | ⟨_, k, _⟩
        · left
          have hwf := addVote_wf (h := hh) (x := ⟨E.sign hh, t.me, t.pres⟩) h1.wf
          have hvf := addVote_votesFor (h := hh) (x := ⟨E.sign hh, t.me, t.pres⟩) h1.wf hh
          rw [if_pos rfl, hv] at hvf
          have hlen : req ≤ (votesFor (addVote hh ⟨E.sign hh, t.me, t.pres⟩ t.votes).1 hh).length := by
            rw [hvf]
            cases hi : insertSig ⟨E.sign hh, t.me, t.pres⟩ (x :: xs) with
            | none => exact hr
            | some l =>
              have := insertSig_length hi
              show req ≤ l.length
              omega
          have hlk := addVote_lookup hh ⟨E.sign hh, t.me, t.pres⟩ hh t.votes h1.wf.sorted
          rw [if_pos rfl] at hlk
          have hd : slice b off t.len = some (zeroTail d) := by
            have hb := slice_eq_some.1 k2
            have hl := slice_length k2
            have hzl : (zeroTail d).length = t.len := by
              rw [zeroTail, List.length_append, List.length_take, List.length_replicate]; omega
            rw [poke] at q2
            split at q2
            · cases q2
              exact slice_mid rfl (by rw [List.length_take]; omega) hzl.symm
            · cases q2
          refine ⟨zeroTail d, _, rfl, ?_, ?_, hlk, ?_, ?_⟩
          · rw [St.delivered]
            show (match t.ptr with | .at off => slice b off t.len | _ => none) = _
            rw [k1]; exact hd
          · show resultHash E (zeroTail d) t.pres client seq = hh
            rw [k0, q1, c4, c5]
          · have := hlen
            rw [votesFor, hlk] at this
            exact this
          · have := (votesFor_asc hwf hh).nodup
            rw [votesFor, hlk] at this
            exact this
        · cases k
      · cases k
      · split at k <;> cases k
    · split at k <;> cases k

/-- a replica reports at most one hash -/
def OneHash (E : Env) (me client seq : Nat) (evs : List Ev) : Prop :=
  ∀ r h h', Said E me client seq evs r h → Said E me client seq evs r h' → h = h'

/-- all senders with their hashes -/
theorem total_nodup {E : Env} {me client seq : Nat} {evs : List Ev} (ho : OneHash E me client seq evs) :
    ∀ {v : Votes}, VWf v → (∀ y ∈ v, ∀ x ∈ y.2, Said E me client seq evs x.sender y.1) →
    ∃ l : List Nat, l.Nodup ∧ l.length = total v ∧ ∀ r ∈ l, ∃ y ∈ v, ∃ x ∈ y.2, x.sender = r
  | [], _, _ => ⟨[], List.nodup_nil, rfl, fun r h => (by cases h)⟩
  | z :: zs, hv, hs => by
    have hv' : VWf zs := ⟨(List.pairwise_cons.1 hv.sorted).2, fun y hy => hv.ne y (List.mem_cons_of_mem _ hy),
      fun y hy => hv.asc y (List.mem_cons_of_mem _ hy)⟩
    obtain ⟨l, h1, h2, h3⟩ := total_nodup ho hv' (fun y hy => hs y (List.mem_cons_of_mem _ hy))
    refine ⟨z.2.map (·.sender) ++ l, ?_, ?_, ?_⟩
    · rw [List.nodup_append]
      refine ⟨(hv.asc z List.mem_cons_self).nodup, h1, ?_⟩
      intro a ha b hb e
      subst e
      rw [List.mem_map] at ha
      obtain ⟨x, x1, x2⟩ := ha
      obtain ⟨y, y1, x', y2, y3⟩ := h3 a hb
      have e1 := hs z List.mem_cons_self x x1
      have e2 := hs y (List.mem_cons_of_mem _ y1) x' y2
      rw [x2] at e1
      rw [y3] at e2
      have e3 := ho _ _ _ e1 e2
      have := (List.pairwise_cons.1 hv.sorted).1 y y1
      rw [e3, keyLt_irrefl] at this
      cases this
    · rw [List.length_append, List.length_map, h2]; rfl
    · intro r hr
      rcases List.mem_append.1 hr with hr | hr
      · rw [List.mem_map] at hr
        obtain ⟨x, x1, x2⟩ := hr
        exact ⟨z, List.mem_cons_self, x, x1, x2⟩
      · obtain ⟨y, y1, y2⟩ := h3 r hr
        exact ⟨y, List.mem_cons_of_mem _ y1, y2⟩

theorem few_of_best {s : St} (hw : VWf s.votes)
    (hb : ∀ hh x xs, best s.votes none = some (hh, x :: xs) → (x :: xs).length < s.req) (hr : 1 ≤ s.req) (h : Bytes) :
    (votesFor s.votes h).length < s.req := by
  cases hk : s.votes.lookup h with
  | none => rw [votesFor, hk]; exact hr
  | some l =>
    have hm := mem_of_lookup hk
    obtain ⟨z, z1, z2⟩ := (best_spec s.votes none).2.2 _ hm (hw.ne _ hm)
    obtain ⟨zh, zl⟩ := z
    have hzm : (zh, zl) ∈ s.votes := by
      rcases (best_spec s.votes none).1 _ z1 with h | h
      · exact h
      · cases h
    cases zl with
    | nil => exact absurd rfl (hw.ne _ hzm)
    | cons x xs =>
      have := hb zh x xs z1
      rw [votesFor, hk]
      exact Nat.lt_of_le_of_lt z2 this

/-- **C19.** When every replica reports at most one hash, the primary cancels only if all replicas have answered and no hash was
reported by f+1 of them, or if f+1 replicas agree on a hash that is not the hash of the primary's result.  (Without the
hypothesis this is false: `duplicate_hashes_cancel`.) -/
theorem cancel_sound_partial {E : Env} {n req me client seq : Nat} {evs : List Ev} {s s' : St} {e : Ev} (hreq : 1 ≤ req)
    (hg : GoodPrimary (evs ++ [e])) (h : (St.new n req me client seq).run E evs = some s) (hs : s.step E e = (s', .cancel))
    (ho : OneHash E me client seq (evs ++ [e])) :
    ((∃ l : List Nat, l.Nodup ∧ l.length = n ∧ ∀ r ∈ l, ∃ hh, Said E me client seq (evs ++ [e]) r hh) ∧
      ∀ hh, ¬ SaidBy E me client seq (evs ++ [e]) req hh) ∨
    (∃ hh, SaidBy E me client seq (evs ++ [e]) req hh ∧ hh ≠ s'.phash) := by
  have hi := reach_inv (goodPrimary_sub sub_append hg) h
  obtain ⟨t, h1, h2⟩ := step_pre hi hg hs
  rcases h2 with ⟨h2, _⟩ | h2
  · cases h2
  · obtain ⟨c1, c2, c3, c4, c5⟩ := h1.consts
    have c1 : t.n = n := c1
    have c2 : t.req = req := c2
    have c3 : t.me = me := c3
    have c4 : t.client = client := c4
    have c5 : t.seq = seq := c5
    rcases define_cases h2 with ⟨k, _⟩ | ⟨_, _, ⟨hh, x, xs, hb, hr, k⟩ | ⟨k0, _, k⟩⟩
    · cases k
    · right
      have hv := best_mem h1.wf hb
      have hsb := saidBy_votes h1 hh
      rw [hv, c3, c4, c5] at hsb
      rw [c2] at hr
      refine ⟨hh, hsb.le hr, ?_⟩
      rcases k with ⟨_, k, _⟩ | ⟨_, _, _, k, _⟩ | ⟨k0, _, _, off, d, _, _, _, k⟩ | ⟨_, _, k, _⟩ | ⟨k0, _, k, _⟩
      · cases k
      · cases k
      · rcases k with ⟨_, b, _, k, _⟩ | ⟨_, _, rfl⟩
        · cases k
        · exact k0
      · cases k
      · rw [k]; exact k0
    · left
      split at k
      · rename_i hn
        have hfew := few_of_best h1.wf k0 (by rw [c2]; exact hreq)
        refine ⟨?_, fun hh hsb => ?_⟩
        · have hsaid : ∀ y ∈ t.votes, ∀ x ∈ y.2, Said E me client seq (evs ++ [e]) x.sender y.1 := by
            intro y hy x hx
            have := (h1.origin y.1 x (by rw [votesFor_mem h1.wf hy]; exact hx)).said
            rw [c3, c4, c5] at this
            exact this
          obtain ⟨l, l1, l2, l3⟩ := total_nodup ho h1.wf hsaid
          refine ⟨l, l1, by rw [l2, ← h1.cnt, hn, c1], ?_⟩
          intro r hr
          obtain ⟨y, y1, x, y2, rfl⟩ := l3 r hr
          exact ⟨y.1, hsaid y y1 x y2⟩
        · rw [← c3, ← c4, ← c5] at hsb
          have h3 := votes_saidBy h1 hsb
          have h4 := hfew hh
          omega
      · cases k

/-- **C19.** When f+1 replicas, the primary's result among them or not, have reported the hash of the primary's result, and no
other hash has as many reports, the event that brings the primary's decision completes. -/
theorem agreement_completes {E : Env} {n req me client seq : Nat} {evs : List Ev} {s s' : St} {e : Ev} {o : Outcome}
    (hreq : 1 ≤ req) (hg : GoodPrimary (evs ++ [e])) (h : (St.new n req me client seq).run E evs = some s)
    (hs : s.step E e = (s', o)) {k : Nat} (hk : req ≤ k)
    (ha : SaidBy E me client seq (evs ++ [e]) k s'.phash)
    (hu : ∀ hh, SaidBy E me client seq (evs ++ [e]) k hh → hh = s'.phash)
    (hb : s'.busy = false) (he : e ≠ .launch ∧ ∀ m, e = .reply m → m.status ≠ .reject) : o = .complete := by
  have hi := reach_inv (goodPrimary_sub sub_append hg) h
  obtain ⟨t, h1, h2⟩ := step_pre hi hg hs
  rcases h2 with ⟨_, _, h2 | ⟨m, h2, h2'⟩⟩ | h2
  · exact absurd h2 he.1
  · exact absurd h2' (he.2 m h2)
  obtain ⟨c1, c2, c3, c4, c5⟩ := h1.consts
  have c2 : t.req = req := c2
  have c3 : t.me = me := c3
  have c4 : t.client = client := c4
  have c5 : t.seq = seq := c5
  rw [← c3, ← c4, ← c5] at ha hu
  have hv := votes_saidBy h1 ha
  have hlt : ∀ v : Votes, ∀ hh, (votesFor v hh).length ≤ total v := by
    intro v hh
    induction v with
    | nil => exact Nat.le_refl _
    | cons z zs ih =>
      rw [votesFor, lookup_cons_eq]
      split
      · show z.2.length ≤ z.2.length + total zs
        omega
      · rw [votesFor] at ih
        rw [total]; omega
  -- the chosen hash is the one reported by `k` replicas
  have hbest : ∀ hh x xs, best t.votes none = some (hh, x :: xs) → hh = s'.phash ∧ k ≤ (x :: xs).length := by
    intro hh x xs hb
    cases hk' : t.votes.lookup s'.phash with
    | none => rw [votesFor, hk'] at hv; simp at hv; omega
    | some l =>
      have hm := mem_of_lookup hk'
      obtain ⟨z, z1, z2⟩ := (best_spec t.votes none).2.2 _ hm (h1.wf.ne _ hm)
      rw [hb] at z1; cases z1
      have hl : k ≤ (x :: xs).length := by
        rw [votesFor, hk'] at hv
        exact Nat.le_trans hv z2
      refine ⟨?_, hl⟩
      have := saidBy_votes h1 hh
      rw [best_mem h1.wf hb] at this
      exact hu hh (this.le hl)
  have hsome : ∃ hh x xs, best t.votes none = some (hh, x :: xs) := by
    cases hk' : t.votes.lookup s'.phash with
    | none => rw [votesFor, hk'] at hv; simp at hv; omega
    | some l =>
      have hm := mem_of_lookup hk'
      obtain ⟨z, z1, z2⟩ := (best_spec t.votes none).2.2 _ hm (h1.wf.ne _ hm)
      obtain ⟨zh, zl⟩ := z
      cases zl with
      | nil =>
        rw [votesFor, hk'] at hv
        have : l.length ≤ 0 := z2
        have hv : k ≤ l.length := hv
        omega
      | cons x xs => exact ⟨zh, x, xs, z1⟩
  rcases define_cases h2 with ⟨_, q, rfl⟩ | ⟨_, _, ⟨hh, x, xs, hb', hr, q⟩ | ⟨q, _, _⟩⟩
  · rcases q with q | q
    · have := hlt s'.votes s'.phash
      rw [← h1.cnt] at this
      omega
    · rw [q] at hb; cases hb
  · obtain ⟨e1, _⟩ := hbest hh x xs hb'
    rcases q with ⟨_, q, _⟩ | ⟨_, _, _, q, _⟩ | ⟨q0, _, _, off, d, _, _, _, q⟩ | ⟨q0, q1, q, q3⟩ | ⟨q0, _, q, _⟩
    · exact q
    · exact q
    · rcases q with ⟨_, b, _, q, _⟩ | ⟨_, _, rfl⟩
      · exact q
      · exact absurd e1 q0
    · rcases h1.data with ⟨_, q4, _⟩ | ⟨_, _, off, d, q4, q5, _, q6⟩
      · rw [q1] at q4; cases q4
      · exact absurd (q3 off d q4 q5 (q6 q1)) id
    · rw [q] at e1; exact absurd e1 q0
  · obtain ⟨hh, x, xs, hb'⟩ := hsome
    have := q hh x xs hb'
    have := (hbest hh x xs hb').2
    omega

/-- **C19.** Pre-execution never fails an assertion or touches memory it does not own before a decision is made. -/
theorem no_abort {E : Env} {n req me client seq : Nat} {evs : List Ev} {s s' : St} {e : Ev} {o : Outcome}
    (hg : GoodPrimary (evs ++ [e])) (h : (St.new n req me client seq).run E evs = some s)
    (hs : s.step E e = (s', o)) : o ≠ .abort := by
  have hi := reach_inv (goodPrimary_sub sub_append hg) h
  obtain ⟨t, h1, h2⟩ := step_pre hi hg hs
  intro ho
  subst ho
  rcases h2 with ⟨h2, _⟩ | h2
  · cases h2
  rcases define_cases h2 with ⟨q, _, _⟩ | ⟨_, _, ⟨hh, x, xs, hb', hr, q⟩ | ⟨_, _, q⟩⟩
  · cases q
  · rcases q with ⟨_, q, _⟩ | ⟨_, _, _, q, _⟩ | ⟨q0, _, _, off, d, _, _, _, q⟩ | ⟨q0, q1, q, q3⟩ | ⟨q0, _, _, q⟩
    · cases q
    · cases q
    · rcases q with ⟨_, b, _, q, _⟩ | ⟨_, q, _⟩ <;> cases q
    · rcases h1.data with ⟨_, q4, _⟩ | ⟨_, _, off, d, q4, q5, _, q6⟩
      · rw [q1] at q4; cases q4
      · exact q3 off d q4 q5 (q6 q1)
    · split at q <;> cases q
  · split at q <;> cases q

theorem define_idem {E : Env} {s s' : St} (h : s.define E = (s', .cont)) : (s'.define E).2 = .cont := by
  have hc := define_cases h
  obtain ⟨a, rfl⟩ := define_cont h
  cases hd : ({ s with agreed := a } : St).define E with
  | mk s2 o2 =>
    show o2 = .cont
    have hs : (s.received < s.req ∨ s.busy = true) ∨ ((s.pres ≠ SUCCESS ∨ ∀ hh x xs, best s.votes none = some (hh, x :: xs) → (x :: xs).length < s.req) ∧
        s.received ≠ s.n ∧ ∀ hh x xs, best s.votes none = some (hh, x :: xs) → s.req ≤ (x :: xs).length → hh ≠ s.phash) := by
      rcases hc with ⟨_, q, _⟩ | ⟨_, _, ⟨hh, x, xs, hb', hr, q⟩ | ⟨q0, _, q⟩⟩
      · exact Or.inl q
      · rcases q with ⟨_, q, _⟩ | ⟨_, _, _, q, _⟩ | ⟨q0, _, _, off, d, _, _, _, q⟩ | ⟨q0, q1, q, q3⟩ | ⟨q0, q1, _, q⟩
        · cases q
        · cases q
        · rcases q with ⟨_, b, _, q, _⟩ | ⟨_, q, _⟩ <;> cases q
        · cases q
        · right
          split at q
          · cases q
          · rename_i hn
            refine ⟨Or.inl q1, hn, fun hh' x' xs' h1 _ => ?_⟩
            rw [hb'] at h1; cases h1
            exact q0
      · right
        split at q
        · cases q
        · rename_i hn
          refine ⟨Or.inr q0, hn, fun hh' x' xs' h1 h2 => ?_⟩
          have := q0 hh' x' xs' h1
          omega
    rcases define_cases hd with ⟨q, _, _⟩ | ⟨r1, r2, ⟨hh, x, xs, hb', hr, q⟩ | ⟨q0, _, q⟩⟩
    · exact q
    · have r1 : s.req ≤ s.received := r1
      have r2 : s.busy = false := r2
      have hb' : best s.votes none = some (hh, x :: xs) := hb'
      have hr : s.req ≤ (x :: xs).length := hr
      rcases hs with (hs | hs) | ⟨h1, h2, h3⟩
      · omega
      · rw [r2] at hs; cases hs
      · have h4 := h3 hh x xs hb' hr
        have h5 : s.pres ≠ SUCCESS := by
          rcases h1 with h1 | h1
          · exact h1
          · have := h1 hh x xs hb'; omega
        rcases q with ⟨q, _⟩ | ⟨_, q, _⟩ | ⟨_, q, _⟩ | ⟨_, q, _⟩ | ⟨_, _, _, q⟩
        · exact absurd q h4
        · exact absurd q h5
        · exact absurd q h5
        · exact absurd q h5
        · have q : (if s.received = s.n then o2 = .cancel else o2 = .cont) := q
          rw [if_neg h2] at q
          exact q
    · have r1 : s.req ≤ s.received := r1
      have r2 : s.busy = false := r2
      rcases hs with (hs | hs) | ⟨h1, h2, h3⟩
      · omega
      · rw [r2] at hs; cases hs
      · have q : (if s.received = s.n then o2 = .cancel else o2 = .cont) := q
        rw [if_neg h2] at q
        exact q

/-- what each event leaves: `definePreProcessingConsensusResult` would continue -/
theorem quiet_step {E : Env} {s s' : St} {e : Ev} (hq : (s.define E).2 = .cont) (h : s.step E e = (s', .cont)) :
    (s'.define E).2 = .cont := by
  cases e with
  | reply m =>
    rw [St.step] at h
    split at h
    · rename_i hr
      cases h
      have e1 : s.onReply m = { s with rejected := s.rejected ++ [m.sender] } := by rw [St.onReply, hr]
      rw [e1]
      cases hd : s.define E with
      | mk s2 o2 =>
        rw [hd] at hq
        have hq : o2 = .cont := hq
        subst hq
        -- the list of rejections does not matter
        have : ∀ l, (({ s with rejected := l } : St).define E).2 = .cont := by
          intro l
          cases hd' : ({ s with rejected := l } : St).define E with
          | mk s3 o3 =>
            have c1 := define_cases hd
            have c2 := define_cases hd'
            show o3 = .cont
            rcases c2 with ⟨q, _, _⟩ | ⟨r1, r2, ⟨hh, x, xs, hb', hr', q⟩ | ⟨q0, _, q⟩⟩
            · exact q
            · have r1 : s.req ≤ s.received := r1
              have r2 : s.busy = false := r2
              have hb' : best s.votes none = some (hh, x :: xs) := hb'
              have hr' : s.req ≤ (x :: xs).length := hr'
              rcases c1 with ⟨_, p, _⟩ | ⟨_, _, ⟨hh2, x2, xs2, hb2, hr2, p⟩ | ⟨p0, _, p⟩⟩
              · rcases p with p | p
                · omega
                · rw [r2] at p; cases p
              · rw [hb'] at hb2; cases hb2
                rcases p with ⟨_, p, _⟩ | ⟨_, _, _, p, _⟩ | ⟨_, _, _, off, d, _, _, _, p⟩ | ⟨_, _, p, _⟩ | ⟨p0, p1, _, p⟩
                · cases p
                · cases p
                · rcases p with ⟨_, b, _, p, _⟩ | ⟨_, p, _⟩ <;> cases p
                · cases p
                · rcases q with ⟨q, _⟩ | ⟨_, q, _⟩ | ⟨_, q, _⟩ | ⟨_, q, _⟩ | ⟨_, _, _, q⟩
                  · exact absurd q p0
                  · exact absurd q p1
                  · exact absurd q p1
                  · exact absurd q p1
                  · have q : (if s.received = s.n then o3 = .cancel else o3 = .cont) := q
                    split at p
                    · cases p
                    · rename_i hn
                      rw [if_neg hn] at q
                      exact q
              · have := p0 hh x xs hb'; omega
            · have r1 : s.req ≤ s.received := r1
              have r2 : s.busy = false := r2
              have q0 : ∀ hh x xs, best s.votes none = some (hh, x :: xs) → (x :: xs).length < s.req := q0
              have q : (if s.received = s.n then o3 = .cancel else o3 = .cont) := q
              rcases c1 with ⟨_, p, _⟩ | ⟨_, _, ⟨hh2, x2, xs2, hb2, hr2, p⟩ | ⟨p0, _, p⟩⟩
              · rcases p with p | p
                · omega
                · rw [r2] at p; cases p
              · have := q0 _ _ _ hb2; omega
              · split at p
                · cases p
                · rename_i hn
                  rw [if_neg hn] at q
                  exact q
        exact this _
    · exact define_idem h
  | launch =>
    cases h
    cases hd : ({ s with busy := true } : St).define E with
    | mk s2 o2 =>
      rcases define_cases hd with ⟨q, _⟩ | ⟨_, q, _⟩
      · exact q
      · cases q
  | timer => exact define_idem h
  | primary buf len res =>
    rw [St.step] at h
    split at h
    · cases h
    · exact define_idem h

/-- **C19.** The timer never makes the decision. -/
theorem timer_never_decides {E : Env} {n req me client seq : Nat} (hreq : 1 ≤ req) {evs : List Ev} {s : St}
    (h : (St.new n req me client seq).run E evs = some s) : (s.step E .timer).2 = .cont := by
  have key : ∀ (evs : List Ev) (s s' : St), (s.define E).2 = .cont → s.run E evs = some s' → (s'.define E).2 = .cont := by
    intro evs
    induction evs with
    | nil => intro s s' hq h; cases h; exact hq
    | cons e es ih =>
      intro s s' hq h
      rw [St.run] at h
      split at h
      · rename_i t ht
        exact ih t s' (quiet_step hq ht) h
      · cases h
  refine key evs _ s ?_ h
  rw [St.define, if_pos (by show 0 < req; omega)]

end Verif.PreExec
