import Verif.Wire.Status
/-!
# Proofs that replicas are ready to restart: what is accepted
-/
set_option linter.unusedVariables false
set_option linter.unusedSimpArgs false
set_option maxRecDepth 4000
namespace Verif.Wire
open Verif.Bytes

/-- an element of a proof as it lies in the message -/
structure El where
  code : Nat
  spanLen : Nat
  gen : Nat
  seq : Nat
  epoch : Nat
  reason : Nat
  extra : Bytes
  sig : Bytes
deriving DecidableEq, Repr

def El.header (x : El) : List (Nat × Nat) :=
  [(2, x.code), (4, x.spanLen), (2, x.gen), (8, x.seq), (8, x.epoch), (2, x.sig.length), (1, x.reason), (2, x.extra.length)]

/-- what its signer signed -/
def El.signed (x : El) : Bytes := encF x.header ++ x.extra

def El.bytes (x : El) : Bytes := x.signed ++ x.sig

/-- a `Ready` message without span context is such an element -/
def El.of (r : Ready) : El := ⟨codeRestartReady, 0, r.gen, r.seq, r.epoch, r.reason, r.extra, r.sig⟩

theorem El.of_bytes (r : Ready) (h : r.span = []) (hs : r.sigLen = r.sig.length) :
    (El.of r).bytes = r.encode ∧ (El.of r).signed = r.signed := by
  simp [El.of, El.bytes, El.signed, El.header, Ready.encode, Ready.signed, frame, Ready.fields, h, hs]

/-- what is checked of an element: number, reason, and the signature unless it carries the receiver's own name -/
def El.Checked (e : Env) (seq : Nat) (x : El) : Prop :=
  x.seq = seq ∧ (x.reason = 0 ∨ x.reason = 1) ∧ (x.gen ≠ e.me → e.known x.gen = true ∧ e.verify x.gen x.signed x.sig = true)

theorem El.bytes_length (x : El) : x.bytes.length = 29 + x.extra.length + x.sig.length := by
  simp [El.bytes, El.signed, encF_length, El.header, width]; omega

theorem mid_rd {s : Nat} {pre : Bytes} {l : List (Nat × Nat)} {rest : Bytes} {loc off k v : Nat} (hp : pre.length = loc) (hf : Fits l)
    (h : look l off k = some v) : rd ⟨s, pre ++ (encF l ++ rest)⟩ (loc + off) k = .ok v := by
  obtain ⟨a, b, e, w⟩ := look_spec _ _ _ _ h
  have hv : v < 256 ^ k := hf (k, v) (by rw [e]; simp)
  have : pre ++ (encF l ++ rest) = (pre ++ encF a) ++ (leEncode k v ++ (encF b ++ rest)) := by
    rw [e, encF_append]; simp [encF]
  rw [this]
  exact rd_mid (by simp [encF_length, w, hp]) hv

theorem mid_rdB {s : Nat} {a b c : Bytes} {off n : Nat} (ho : off = a.length) (hn : n = b.length) :
    rdB ⟨s, a ++ (b ++ c)⟩ off n = .ok b := by
  have : slice (a ++ (b ++ c)) off n = some b := slice_mid (a := a) (b := b) (c := c) (by simp) ho hn
  simp only [rdB, this]

theorem rdB_ok {m : Msg} {off n : Nat} {b : Bytes} (h : rdB m off n = .ok b) : off + n ≤ m.size := by
  unfold rdB at h
  split at h
  · rename_i x hx
    have hx2 := hx
    unfold slice at hx2
    split at hx2
    · assumption
    · cases hx2
  · cases h

/-- one step of the loop, on bytes that are an element -/
theorem loop_step (e : Env) (s seq sigSize k : Nat) (pre rest : Bytes) (x : El) (hf : Fits x.header) (loc rem : Nat) (hp : pre.length = loc)
    (hr : rem = x.bytes.length + rest.length) (hz : 29 + sigSize ≤ rem) (hc : El.Checked e seq x) :
    Proof.loop e ⟨s, pre ++ (x.bytes ++ rest)⟩ seq sigSize (k + 1) loc rem =
      (do
        let t ← Proof.loop e ⟨s, pre ++ (x.bytes ++ rest)⟩ seq sigSize k (loc + x.bytes.length) (rem - x.bytes.length)
        match t with
        | none => .ok none
        | some (l, rem') => .ok (some (⟨x.gen, seq, x.reason, x.bytes.length⟩ :: l, rem'))) := by
  have hb : pre ++ (x.bytes ++ rest) = pre ++ (encF x.header ++ (x.extra ++ x.sig ++ rest)) := by
    simp [El.bytes, El.signed]
  have hrd : ∀ {off k v}, look x.header off k = some v → rd ⟨s, pre ++ (x.bytes ++ rest)⟩ (loc + off) k = .ok v := by
    intro off k v h
    rw [hb]
    exact mid_rd hp hf h
  have r1 : rd ⟨s, pre ++ (x.bytes ++ rest)⟩ (loc + 8) 8 = .ok x.seq := hrd rfl
  have r2 : rd ⟨s, pre ++ (x.bytes ++ rest)⟩ (loc + 26) 1 = .ok x.reason := hrd rfl
  have r3 : rd ⟨s, pre ++ (x.bytes ++ rest)⟩ (loc + 6) 2 = .ok x.gen := hrd rfl
  have r4 : rd ⟨s, pre ++ (x.bytes ++ rest)⟩ (loc + 27) 2 = .ok x.extra.length := hrd rfl
  have r5 : rd ⟨s, pre ++ (x.bytes ++ rest)⟩ (loc + 24) 2 = .ok x.sig.length := hrd rfl
  have hsl : x.signed.length = 29 + x.extra.length := by simp [El.signed, encF_length, El.header, width]
  have hv : (if e.me ≠ x.gen then verifyAt e ⟨s, pre ++ (x.bytes ++ rest)⟩ x.gen loc (29 + x.extra.length) (loc + (29 + x.extra.length)) x.sig.length
      else .ok true) = .ok true := by
    by_cases hg : e.me = x.gen
    · rw [if_neg (by simp [hg])]
    · rw [if_pos hg]
      obtain ⟨hk, hs⟩ := hc.2.2 (fun h => hg h.symm)
      unfold verifyAt
      rw [if_pos hk]
      have e1 : pre ++ (x.bytes ++ rest) = pre ++ (x.signed ++ (x.sig ++ rest)) := by simp [El.bytes]
      have e2 : pre ++ (x.bytes ++ rest) = (pre ++ x.signed) ++ (x.sig ++ rest) := by simp [El.bytes]
      have g1 : rdB ⟨s, pre ++ (x.bytes ++ rest)⟩ loc (29 + x.extra.length) = .ok x.signed := by
        rw [e1]; exact mid_rdB hp.symm hsl.symm
      have g2 : rdB ⟨s, pre ++ (x.bytes ++ rest)⟩ (loc + (29 + x.extra.length)) x.sig.length = .ok x.sig := by
        rw [e2]; exact mid_rdB (by rw [List.length_append, hp, hsl]) rfl
      rw [g1, bind_ok, g2, bind_ok, hs]
  have hlen := x.bytes_length
  conv => lhs; unfold Proof.loop
  rw [if_pos hz, r1, bind_ok, if_neg (by simp [hc.1]), r2, bind_ok, if_neg (by have := hc.2.1; omega), r3, bind_ok, r4, bind_ok, r5, bind_ok, hv, bind_ok]
  rw [if_neg (by simp), if_neg (by omega), ← hlen, hc.1]
  rfl

/-- the loop accepts well formed elements -/
theorem loop_accepts (e : Env) (s seq sigSize : Nat) (rest : Bytes) : ∀ (xs : List El) (pre : Bytes) (loc rem : Nat), pre.length = loc →
    rem = (xs.map El.bytes).flatten.length + rest.length → (∀ x ∈ xs, Fits x.header ∧ El.Checked e seq x ∧ 29 + sigSize ≤ x.bytes.length) →
    Proof.loop e ⟨s, pre ++ ((xs.map El.bytes).flatten ++ rest)⟩ seq sigSize xs.length loc rem =
      .ok (some (xs.map (fun x => ⟨x.gen, seq, x.reason, x.bytes.length⟩), rest.length)) := by
  intro xs
  induction xs with
  | nil =>
    intro pre loc rem hp hr hx
    simp only [List.length_nil, Proof.loop]
    simp only [List.map_nil, List.flatten_nil, List.length_nil, Nat.zero_add] at hr
    rw [hr]
    rfl
  | cons x xs ih =>
    intro pre loc rem hp hr hx
    obtain ⟨h1, h2, h3⟩ := hx x (by simp)
    have hb : pre ++ (((x :: xs).map El.bytes).flatten ++ rest) = pre ++ (x.bytes ++ ((xs.map El.bytes).flatten ++ rest)) := by simp
    have hr' : rem = x.bytes.length + ((xs.map El.bytes).flatten ++ rest).length := by
      rw [hr]; simp only [List.map_cons, List.flatten_cons, List.length_append]; omega
    rw [List.length_cons, hb, loop_step e s seq sigSize xs.length pre _ x h1 loc rem hp hr' (by omega) h2]
    have hb2 : pre ++ (x.bytes ++ ((xs.map El.bytes).flatten ++ rest)) = (pre ++ x.bytes) ++ ((xs.map El.bytes).flatten ++ rest) := by simp
    rw [hb2, ih (pre ++ x.bytes) (loc + x.bytes.length) (rem - x.bytes.length) (by simp [hp]) (by rw [hr', List.length_append]; omega)
      (fun y hy => hx y (List.mem_cons_of_mem _ hy)), bind_ok]
    simp

/-- what the loop accepts are elements, one after the other -/
theorem loop_sound (e : Env) (m : Msg) (seq sigSize : Nat) : ∀ (k loc rem : Nat) (l : List Elem) (rem' : Nat), loc + rem = m.size →
    Proof.loop e m seq sigSize k loc rem = .ok (some (l, rem')) →
    ∃ xs : List El, l = xs.map (fun x => ⟨x.gen, seq, x.reason, x.bytes.length⟩) ∧ xs.length ≤ k ∧
      m.body.drop loc = (xs.map El.bytes).flatten ++ m.body.drop (m.size - rem') ∧ rem' ≤ rem ∧
      ∀ x ∈ xs, Fits x.header ∧ El.Checked e seq x := by
  intro k
  induction k with
  | zero =>
    intro loc rem l rem' hlr h
    simp only [Proof.loop] at h
    cases h
    refine ⟨[], rfl, Nat.le_refl _, ?_, Nat.le_refl _, (by intro x hx; cases hx)⟩
    simp only [List.map_nil, List.flatten_nil, List.nil_append]
    congr 1
    omega
  | succ k ih =>
    intro loc rem l rem' hlr h
    unfold Proof.loop at h
    by_cases hz : 29 + sigSize ≤ rem
    · rw [if_pos hz] at h
      have hlen : (m.body.drop loc).length = rem := by
        rw [List.length_drop]
        show m.size - loc = rem
        omega
      obtain ⟨vs, rest, hvl, hf, hbody⟩ := peels [2, 4, 2, 8, 8, 2, 1, 2] (m.body.drop loc) (by rw [hlen]; simp; omega)
      match vs, hvl with
      | [c, sp, g, q, ep, sl, r, ex], _ =>
        simp only [zipF] at hf hbody
        have hpre : (m.body.take loc).length = loc := by
          rw [List.length_take]
          show min loc m.size = loc
          omega
        have hm : m = ⟨m.sender, m.body.take loc ++ (encF [(2, c), (4, sp), (2, g), (8, q), (8, ep), (2, sl), (1, r), (2, ex)] ++ rest)⟩ := by
          cases m
          simp only at hbody ⊢
          rw [← hbody, List.take_append_drop]
        have hrd : ∀ {off k v}, look [(2, c), (4, sp), (2, g), (8, q), (8, ep), (2, sl), (1, r), (2, ex)] off k = some v →
            rd m (loc + off) k = .ok v := by
          intro off k v h
          rw [hm]
          exact mid_rd hpre hf h
        have r1 : rd m (loc + 8) 8 = .ok q := hrd rfl
        have r2 : rd m (loc + 26) 1 = .ok r := hrd rfl
        have r3 : rd m (loc + 6) 2 = .ok g := hrd rfl
        have r4 : rd m (loc + 27) 2 = .ok ex := hrd rfl
        have r5 : rd m (loc + 24) 2 = .ok sl := hrd rfl
        rw [r1, bind_ok] at h
        by_cases hq : q ≠ seq
        · rw [if_pos hq] at h; cases h
        rw [if_neg hq, r2, bind_ok] at h
        by_cases hre : r ≠ 0 ∧ r ≠ 1
        · rw [if_pos hre] at h; cases h
        rw [if_neg hre, r3, bind_ok, r4, bind_ok, r5, bind_ok] at h
        generalize hvv : (if e.me ≠ g then verifyAt e m g loc (29 + ex) (loc + (29 + ex)) sl else .ok true) = vv at h
        cases vv with
        | error x => cases h
        | ok ok =>
          rw [bind_ok] at h
          by_cases hok : ok = false
          · rw [if_pos hok] at h; cases h
          have hok2 : ok = true := by cases ok; exact absurd rfl hok; rfl
          rw [if_neg hok] at h
          by_cases hsz : rem < 29 + ex + sl
          · rw [if_pos hsz] at h; cases h
          rw [if_neg hsz] at h
          have hrl : rest.length = rem - 29 := by
            have := congrArg List.length hbody
            rw [hlen] at this
            simp only [List.length_append, encF_length, width] at this
            omega
          generalize ht : Proof.loop e m seq sigSize k (loc + (29 + ex + sl)) (rem - (29 + ex + sl)) = tt at h
          cases tt with
          | error x => cases h
          | ok t =>
            cases t with
            | none => cases h
            | some p =>
              obtain ⟨l2, rem2⟩ := p
              rw [bind_ok] at h
              cases h
              obtain ⟨xs, hl, hk, hb, hr, hx⟩ := ih _ _ _ _ (by omega) ht
              have hex : (rest.take ex).length = ex := by rw [List.length_take]; omega
              have hsl : ((rest.drop ex).take sl).length = sl := by rw [List.length_take, List.length_drop]; omega
              let x : El := ⟨c, sp, g, q, ep, r, rest.take ex, (rest.drop ex).take sl⟩
              have hxh : x.header = [(2, c), (4, sp), (2, g), (8, q), (8, ep), (2, sl), (1, r), (2, ex)] := by
                show [_, _, _, _, _, (2, ((rest.drop ex).take sl).length), _, (2, (rest.take ex).length)] = _
                rw [hex, hsl]
              have hxb : x.bytes.length = 29 + ex + sl := by
                rw [x.bytes_length]
                show 29 + (rest.take ex).length + ((rest.drop ex).take sl).length = _
                rw [hex, hsl]
              have hxs : x.signed.length = 29 + ex := by
                unfold El.signed
                rw [List.length_append, hxh, encF_length]
                show _ + (rest.take ex).length = _
                rw [hex]
                rfl
              have hdrop : m.body.drop loc = x.bytes ++ m.body.drop (loc + (29 + ex + sl)) := by
                have h1 : m.body.drop (loc + (29 + ex + sl)) = rest.drop (ex + sl) := by
                  rw [← List.drop_drop, hbody, List.drop_append, encF_length]
                  simp only [width]
                  rw [List.drop_of_length_le (by rw [encF_length]; simp only [width]; omega), List.nil_append]
                  congr 1
                  omega
                rw [h1, hbody]
                unfold El.bytes El.signed
                rw [hxh]
                show _ = _ ++ rest.take ex ++ (rest.drop ex).take sl ++ _
                rw [List.append_assoc, List.append_assoc]
                congr 1
                rw [← List.drop_drop, List.take_append_drop, List.take_append_drop]
              refine ⟨x :: xs, ?_, by rw [List.length_cons]; omega, ?_, by omega, ?_⟩
              · rw [List.map_cons, ← hl, hxb]
                have : q = seq := by omega
                rw [this]
              · rw [hdrop, hb]
                simp
              · intro y hy
                rcases List.mem_cons.mp hy with rfl | hy
                · refine ⟨by rw [hxh]; exact hf, by show q = seq; omega, by show r = 0 ∨ r = 1; omega, ?_⟩
                  intro hg
                  rw [if_pos (fun h => hg h.symm)] at hvv
                  unfold verifyAt at hvv
                  by_cases hkn : e.known g = true
                  · rw [if_pos hkn] at hvv
                    have e0 : m.body = m.body.take loc ++ (x.bytes ++ m.body.drop (loc + (29 + ex + sl))) := by
                      rw [← hdrop, List.take_append_drop]
                    have g1 : rdB m loc (29 + ex) = .ok x.signed := by
                      have : m = ⟨m.sender, m.body.take loc ++ (x.signed ++ (x.sig ++ m.body.drop (loc + (29 + ex + sl))))⟩ := by
                        cases m
                        simp only at e0 ⊢
                        congr 1
                        rw [El.bytes, List.append_assoc] at e0
                        exact e0
                      rw [this]
                      exact mid_rdB hpre.symm hxs.symm
                    have g2 : rdB m (loc + (29 + ex)) sl = .ok x.sig := by
                      have : m = ⟨m.sender, (m.body.take loc ++ x.signed) ++ (x.sig ++ m.body.drop (loc + (29 + ex + sl)))⟩ := by
                        cases m
                        simp only at e0 ⊢
                        congr 1
                        rw [El.bytes] at e0
                        simp only [List.append_assoc] at e0 ⊢
                        exact e0
                      rw [this]
                      exact mid_rdB (by rw [List.length_append, hpre, hxs]) hsl.symm
                    rw [g1, bind_ok, g2, bind_ok] at hvv
                    cases hvv
                    exact ⟨hkn, hok2⟩
                  · rw [if_neg hkn] at hvv
                    cases hvv
                    exact absurd rfl hok
                · exact hx y hy
    · rw [if_neg hz] at h
      cases h
      refine ⟨[], rfl, by simp, ?_, Nat.le_refl _, (by intro x hx; cases hx)⟩
      simp only [List.map_nil, List.flatten_nil, List.nil_append]
      congr 1
      omega

end Verif.Wire
