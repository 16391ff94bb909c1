import Verif.Wire.ProofMsg
/-!
# Which proofs are accepted
-/
set_option linter.unusedVariables false
set_option linter.unusedSimpArgs false
set_option maxRecDepth 4000
namespace Verif.Wire
open Verif.Bytes

/-- a proof with elements of any kind -/
def proofBody (g q ep r : Nat) (span : Bytes) (xs : List El) : Bytes :=
  frame codeRestartProof [(2, g), (8, q), (8, ep), (1, r), (2, xs.length), (4, 31 + span.length + (xs.map El.bytes).flatten.length)] span
    (xs.map El.bytes).flatten

/-- what the header of a proof must say -/
structure HeaderOk (e : Env) (g q ep r : Nat) (span : Bytes) (xs : List El) : Prop where
  gen : g < e.n
  epoch : ep = e.epoch
  reason : r = 0 ∨ r = 1
  /-- the number of elements -/
  count : e.n - e.f ≤ xs.length
  some : xs ≠ []
  fits : Fits (hdr codeRestartProof span
    [(2, g), (8, q), (8, ep), (1, r), (2, xs.length), (4, 31 + span.length + (xs.map El.bytes).flatten.length)])

theorem Proof.accepts (e : Env) (s g q ep r : Nat) (span : Bytes) (xs : List El) (h : HeaderOk e g q ep r span xs)
    (hx : ∀ x ∈ xs, Fits x.header ∧ El.Checked e q x ∧ e.sigLen g ≤ x.extra.length + x.sig.length) :
    Proof.validate e ⟨s, proofBody g q ep r span xs⟩ = .ok (xs.map (fun x => ⟨x.gen, q, x.reason, x.bytes.length⟩)) := by
  have hf := h.fits
  obtain ⟨L, hL⟩ : ∃ L, L = hdr codeRestartProof span
    [(2, g), (8, q), (8, ep), (1, r), (2, xs.length), (4, 31 + span.length + (xs.map El.bytes).flatten.length)] := ⟨_, rfl⟩
  have hw : width L = 31 := by rw [hL]; rfl
  have em : (⟨s, proofBody g q ep r span xs⟩ : Msg) = opened s L (span ++ (xs.map El.bytes).flatten) := by
    rw [hL]; simp only [proofBody, frame, List.append_assoc, hdr]
  have hrd : ∀ {off k v}, look L off k = Option.some v → rd ⟨s, proofBody g q ep r span xs⟩ off k = .ok v := by
    intro off k v hh
    rw [em]; exact opened_rd (by rw [hL]; exact hf) hh
  have hsize : (⟨s, proofBody g q ep r span xs⟩ : Msg).size = 31 + span.length + (xs.map El.bytes).flatten.length := by
    rw [em, opened_size, hw, List.length_append]; omega
  have r1 : Msg.span ⟨s, proofBody g q ep r span xs⟩ = .ok span.length := hrd (by rw [hL]; rfl)
  have r2 : rd ⟨s, proofBody g q ep r span xs⟩ 6 2 = .ok g := hrd (by rw [hL]; rfl)
  have r3 : rd ⟨s, proofBody g q ep r span xs⟩ 16 8 = .ok ep := hrd (by rw [hL]; rfl)
  have r4 : rd ⟨s, proofBody g q ep r span xs⟩ 24 1 = .ok r := hrd (by rw [hL]; rfl)
  have r5 : rd ⟨s, proofBody g q ep r span xs⟩ 27 4 = .ok (31 + span.length + (xs.map El.bytes).flatten.length) := hrd (by rw [hL]; rfl)
  have r6 : rd ⟨s, proofBody g q ep r span xs⟩ 25 2 = .ok xs.length := hrd (by rw [hL]; rfl)
  have r7 : rd ⟨s, proofBody g q ep r span xs⟩ 8 8 = .ok q := hrd (by rw [hL]; rfl)
  have hbody : proofBody g q ep r span xs = (encF L ++ span) ++ ((xs.map El.bytes).flatten ++ []) := by
    have := congrArg Msg.body em
    simp only [opened] at this
    rw [this]; simp
  have hloop : Proof.loop e ⟨s, proofBody g q ep r span xs⟩ q (e.sigLen g) xs.length (31 + span.length) ((xs.map El.bytes).flatten.length) =
      .ok (Option.some (xs.map (fun x => ⟨x.gen, q, x.reason, x.bytes.length⟩), 0)) := by
    rw [hbody]
    exact loop_accepts e s q (e.sigLen g) [] xs _ _ _ (by rw [List.length_append, encF_length, hw]) (by simp)
      (fun x hxx => ⟨(hx x hxx).1, (hx x hxx).2.1, by rw [El.bytes_length]; have := (hx x hxx).2.2; omega⟩)
  unfold Proof.validate Proof.checkElements
  wire [r1, r2, r3, r4, r5, r6, r7, hsize]
  rw [if_pos]
  · have e1 : 31 + span.length + (xs.map El.bytes).flatten.length - 31 - span.length = (xs.map El.bytes).flatten.length := by omega
    rw [e1, hloop, bind_ok]
    have hpos : 0 < xs.length := List.length_pos_iff.mpr h.some
    simp only [List.length_map, ne_eq, not_true_eq_false, if_false, hpos, if_true, Nat.sub_zero]
    rfl
  · refine ⟨by omega, h.gen, h.epoch, h.reason, ?_, h.count⟩
    rw [if_neg (by omega)]
    omega

/-- what an accepted message consists of -/
theorem Proof.sound (e : Env) (m : Msg) (l : List Elem) (h : Proof.validate e m = .ok l) :
    ∃ (g q ep r after sp : Nat) (xs : List El),
      rd m 6 2 = .ok g ∧ rd m 8 8 = .ok q ∧ rd m 24 1 = .ok r ∧ m.span = .ok sp ∧
      g < e.n ∧ (r = 0 ∨ r = 1) ∧ e.n - e.f ≤ xs.length ∧
      l = xs.map (fun x => ⟨x.gen, q, x.reason, x.bytes.length⟩) ∧
      (∃ junk, m.body.drop (31 + sp) = (xs.map El.bytes).flatten ++ junk) ∧
      ∀ x ∈ xs, Fits x.header ∧ El.Checked e q x := by
  unfold Proof.validate at h
  generalize hsp : m.span = a at h
  cases a with
  | error x => cases h
  | ok sp =>
  rw [bind_ok, require_bind, ite_ok] at h
  obtain ⟨hs1, h⟩ := h
  generalize hg : rd m 6 2 = a at h
  cases a with
  | error x => cases h
  | ok g =>
  rw [bind_ok, require_bind, ite_ok] at h
  obtain ⟨hs2, h⟩ := h
  generalize hep : rd m 16 8 = a at h
  cases a with
  | error x => cases h
  | ok ep =>
  rw [bind_ok, require_bind, ite_ok] at h
  obtain ⟨hs3, h⟩ := h
  generalize hr : rd m 24 1 = a at h
  cases a with
  | error x => cases h
  | ok r =>
  rw [bind_ok, require_bind, ite_ok] at h
  obtain ⟨hs4, h⟩ := h
  generalize haf : rd m 27 4 = a at h
  cases a with
  | error x => cases h
  | ok after =>
  rw [bind_ok, require_bind, ite_ok] at h
  obtain ⟨hs5, h⟩ := h
  generalize hcnt : rd m 25 2 = a at h
  cases a with
  | error x => cases h
  | ok cnt =>
  rw [bind_ok, require_bind, ite_ok] at h
  obtain ⟨hs6, h⟩ := h
  unfold Proof.checkElements at h
  generalize hq : rd m 8 8 = a at h
  cases a with
  | error x => cases h
  | ok q =>
  rw [bind_ok, hcnt, bind_ok, haf, bind_ok] at h
  generalize hl : Proof.loop e m q (e.sigLen g) cnt (31 + sp) (m.size - 31 - sp) = a at h
  cases a with
  | error x => cases h
  | ok t =>
  cases t with
  | none => cases h
  | some p =>
  obtain ⟨l2, rem⟩ := p
  rw [bind_ok] at h
  by_cases hne : l2.length ≠ cnt
  · simp only [hne, if_true, ne_eq, not_false_eq_true] at h; cases h
  have hcc : l2.length = cnt := by omega
  obtain ⟨xs, e1, e2, e3, e4, e5⟩ := loop_sound e m q (e.sigLen g) cnt (31 + sp) (m.size - 31 - sp) l2 rem (by omega) hl
  have hxl : xs.length = cnt := by rw [← hcc, e1, List.length_map]
  have hl2 : l = l2 := by
    simp only [hne, if_false] at h
    split at h
    · split at h
      · cases h
      · cases h; rfl
    · split at h
      · cases h
      · cases h; rfl
  refine ⟨g, q, ep, r, after, sp, xs, by first | rfl | exact hg, by first | rfl | exact hq, by first | rfl | exact hr, by first | rfl | exact hsp, hs2, hs4, by omega, by rw [hl2, e1], ⟨_, e3⟩, e5⟩

/-- the proof that a replica builds from the messages of `n - f` or more replicas is accepted by every other one -/
theorem Proof.honest_accepted (e : Env) (s g q ep r : Nat) (rs : List Ready) (h : HeaderOk e g q ep r [] (rs.map El.of))
    (hr : ∀ x ∈ rs, Ready.Valid e x ∧ x.span = [] ∧ x.sigLen = x.sig.length ∧ x.seq = q ∧ e.sigLen g ≤ x.extra.length + x.sig.length) :
    ∃ l, Proof.validate e ⟨s, Proof.encode ⟨g, q, ep, r, [], rs.map Ready.encode⟩⟩ = .ok l ∧ l.length = rs.length := by
  have e1 : (rs.map El.of).map El.bytes = rs.map Ready.encode := by
    rw [List.map_map]
    apply List.map_congr_left
    intro x hx
    exact (El.of_bytes x (hr x hx).2.1 (hr x hx).2.2.1).1
  have hne : rs ≠ [] := fun hh => h.some (by rw [hh]; rfl)
  have e2 : Proof.encode ⟨g, q, ep, r, [], rs.map Ready.encode⟩ = proofBody g q ep r [] (rs.map El.of) := by
    unfold Proof.encode proofBody Proof.after
    simp only [e1, List.length_map, List.map_eq_nil_iff]
    rw [if_neg hne]
  have hx : ∀ x ∈ rs.map El.of, Fits x.header ∧ El.Checked e q x ∧ e.sigLen g ≤ x.extra.length + x.sig.length := by
    intro x hx
    obtain ⟨y, hy, rfl⟩ := List.mem_map.mp hx
    obtain ⟨hv, h1, h2, h3, h4⟩ := hr y hy
    refine ⟨?_, ⟨h3, hv.reason, fun _ => ⟨hv.key, ?_⟩⟩, h4⟩
    · have := hv.fits
      simp only [hdr, h1, Ready.fields, h2] at this
      exact this
    · rw [(El.of_bytes y h1 h2).2]
      exact hv.signed
  exact ⟨_, by rw [e2]; exact Proof.accepts e s g q ep r [] (rs.map El.of) h hx, by simp⟩

/-- **BUG112** an element in the receiver's own name, with no signature at all -/
def blank (e : Env) (q g : Nat) : El := ⟨0, 0, e.me, q, 0, 0, [], List.replicate (e.sigLen g) 0⟩

theorem flat_replicate (k : Nat) (b : Bytes) : (List.replicate k b).flatten.length = k * b.length := by
  induction k with
  | zero => simp
  | succ k ih => rw [List.replicate_succ, List.flatten_cons, List.length_append, ih, Nat.succ_mul, Nat.add_comm]

/-- **BUG112** such elements make a proof that the receiver accepts: nobody was ready, nothing was signed -/
theorem bug112_unsigned_proof (e : Env) (s g q r : Nat) (hg : g < e.n) (hr : r = 0 ∨ r = 1) (hme : e.me < 65536) (hn : 0 < e.n - e.f)
    (hn2 : e.n < 65536) (hq : q < 2 ^ 64) (hep : e.epoch < 2 ^ 64) (hsl : e.sigLen g < 65000) :
    ∃ body l, (body.length = 31 + (e.n - e.f) * (29 + e.sigLen g)) ∧
      (Proof.validate e ⟨s, body⟩ = .ok l ∧ rd ⟨s, body⟩ 8 8 = .ok q ∧ rd ⟨s, body⟩ 24 1 = .ok r) ∧ ∀ x ∈ l, x.gen = e.me := by
  obtain ⟨k, hk⟩ : ∃ k, k = e.n - e.f := ⟨_, rfl⟩
  have hbl : (blank e q g).bytes.length = 29 + e.sigLen g := by
    rw [El.bytes_length]; simp [blank]
  have hlen : ((List.replicate k (blank e q g)).map El.bytes).flatten.length = k * (29 + e.sigLen g) := by
    rw [List.map_replicate]
    exact (flat_replicate k _).trans (by rw [hbl])
  have hsz : k * (29 + e.sigLen g) < 65536 * 65536 - 31 := by
    have : k * (29 + e.sigLen g) ≤ 65535 * 65029 := Nat.mul_le_mul (by omega) (by omega)
    omega
  have hh : HeaderOk e g q e.epoch r [] (List.replicate k (blank e q g)) := by
    refine ⟨hg, rfl, hr, by rw [List.length_replicate]; omega, ?_, ?_⟩
    · intro h
      have := congrArg List.length h
      simp at this
      omega
    · rw [hlen, List.length_replicate]
      simp only [hdr, fits_cons, List.length_nil]
      refine ⟨by decide, by decide, by omega, by omega, by omega, by omega, by omega, by omega, fits_nil⟩
  have hx : ∀ x ∈ List.replicate k (blank e q g), Fits x.header ∧ El.Checked e q x ∧ e.sigLen g ≤ x.extra.length + x.sig.length := by
    intro x hx
    obtain rfl := (List.mem_replicate.mp hx).2
    refine ⟨?_, ⟨rfl, Or.inl rfl, fun h => absurd rfl h⟩, by simp [blank]⟩
    simp only [blank, El.header, fits_cons, List.length_nil, List.length_replicate]
    refine ⟨by decide, by decide, by omega, by omega, by decide, by omega, by decide, by decide, fits_nil⟩
  have hv := Proof.accepts e s g q e.epoch r [] _ hh hx
  have hL : ∀ {off k' v}, look (hdr codeRestartProof [] [(2, g), (8, q), (8, e.epoch), (1, r), (2, (List.replicate k (blank e q g)).length),
      (4, 31 + ([] : Bytes).length + ((List.replicate k (blank e q g)).map El.bytes).flatten.length)]) off k' = some v →
      rd ⟨s, proofBody g q e.epoch r [] (List.replicate k (blank e q g))⟩ off k' = .ok v := by
    intro off k' v h
    have : (⟨s, proofBody g q e.epoch r [] (List.replicate k (blank e q g))⟩ : Msg) = opened s (hdr codeRestartProof [] [(2, g), (8, q), (8, e.epoch), (1, r), (2, (List.replicate k (blank e q g)).length),
      (4, 31 + ([] : Bytes).length + ((List.replicate k (blank e q g)).map El.bytes).flatten.length)]) ([] ++ ((List.replicate k (blank e q g)).map El.bytes).flatten) := by
      unfold proofBody frame
      rw [List.append_assoc]
    rw [this]
    exact opened_rd hh.fits h
  refine ⟨_, _, ?_, ⟨hv, hL rfl, hL rfl⟩, ?_⟩
  · simp only [proofBody, frame, List.length_append, encF_length, width, hlen, List.length_nil, ← hk]
  · intro x hx
    obtain ⟨y, hy, rfl⟩ := List.mem_map.mp hx
    obtain rfl := (List.mem_replicate.mp hy).2
    rfl

/-- **BUG112** the same message of one faulty replica, repeated -/
theorem bug112_repeated (e : Env) (s g q ep r k : Nat) (x : Ready) (h : HeaderOk e g q ep r [] ((List.replicate k x).map El.of))
    (hv : Ready.Valid e x) (h1 : x.span = []) (h2 : x.sigLen = x.sig.length) (h3 : x.seq = q) (h4 : e.sigLen g ≤ x.extra.length + x.sig.length) :
    ∃ l, Proof.validate e ⟨s, Proof.encode ⟨g, q, ep, r, [], (List.replicate k x).map Ready.encode⟩⟩ = .ok l ∧ l.length = k := by
  obtain ⟨l, hl, hn⟩ := Proof.honest_accepted e s g q ep r (List.replicate k x) h (by
    intro y hy
    obtain rfl := (List.mem_replicate.mp hy).2
    exact ⟨hv, h1, h2, h3, h4⟩)
  exact ⟨l, hl, by rw [hn, List.length_replicate]⟩

/-- **BUG111** one element whose lengths lead outside of the message: the signature is looked for there before the lengths are compared -/
theorem bug111_oob (e : Env) (s seq sigSize k : Nat) (pre rest : Bytes) (c sp g ep sl r ex loc rem : Nat)
    (hf : Fits [(2, c), (4, sp), (2, g), (8, seq), (8, ep), (2, sl), (1, r), (2, ex)]) (hp : pre.length = loc) (hz : 29 + sigSize ≤ rem)
    (hr : r = 0 ∨ r = 1) (hg : e.me ≠ g) (hk : e.known g = true) (hbig : rest.length < ex) :
    Proof.loop e ⟨s, pre ++ (encF [(2, c), (4, sp), (2, g), (8, seq), (8, ep), (2, sl), (1, r), (2, ex)] ++ rest)⟩ seq sigSize (k + 1) loc rem =
      .error .oob := by
  have hrd : ∀ {off k v}, look [(2, c), (4, sp), (2, g), (8, seq), (8, ep), (2, sl), (1, r), (2, ex)] off k = some v →
      rd ⟨s, pre ++ (encF [(2, c), (4, sp), (2, g), (8, seq), (8, ep), (2, sl), (1, r), (2, ex)] ++ rest)⟩ (loc + off) k = .ok v := by
    intro off k v h
    exact mid_rd hp hf h
  unfold Proof.loop
  rw [if_pos hz, hrd (off := 8) (k := 8) (v := seq) rfl, bind_ok, if_neg (by simp), hrd (off := 26) (k := 1) (v := r) rfl, bind_ok,
    if_neg (by omega), hrd (off := 6) (k := 2) (v := g) rfl, bind_ok, hrd (off := 27) (k := 2) (v := ex) rfl, bind_ok,
    hrd (off := 24) (k := 2) (v := sl) rfl, bind_ok, if_pos hg]
  unfold verifyAt
  rw [if_pos hk]
  have : rdB ⟨s, pre ++ (encF [(2, c), (4, sp), (2, g), (8, seq), (8, ep), (2, sl), (1, r), (2, ex)] ++ rest)⟩ loc (29 + ex) = .error .oob := by
    have hn : slice (pre ++ (encF [(2, c), (4, sp), (2, g), (8, seq), (8, ep), (2, sl), (1, r), (2, ex)] ++ rest)) loc (29 + ex) = none := by
      unfold slice
      rw [if_neg]
      simp only [List.length_append, encF_length, width, hp]
      omega
    simp only [rdB, hn]
  rw [this]
  rfl

end Verif.Wire
