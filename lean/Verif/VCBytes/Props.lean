import Verif.VCBytes.Proofs2
set_option linter.unusedSimpArgs false
set_option linter.unusedVariables false
/-!
# C06: view-change message validation

* `validate_sound`: an accepted message is well formed (`WellFormed`, Spec.lean).
* `validate_complete`: every well-formed message is accepted.
* `validate_of_build`: every message an honest sender builds is accepted, and reads back as it was built.
* `iterate_accepted`: the elements iterator over an accepted message returns exactly the elements.
* `goToAtLeast_accepted`.
* counterexamples to memory safety of `validate` (`wrap_oob`, `underflow_oob`, `complaint_oob`, `digest_oob`).
-/
namespace Verif.VCBytes
open Verif.Bytes

theorem drop_len {buf : Bytes} {n : Nat} (a b : Bytes) (h : buf = a ++ b) (hn : n = a.length) : buf.drop n = b := by
  subst h hn; exact List.drop_left

/-- **C06, soundness.** A message of at most 2 GiB that `validate` accepts is well formed.  (The largest message the
communication layer delivers is `maxExternalMessageSize`, far below.) -/
theorem validate_sound (c : Cfg) (buf : Bytes) (hbuf : buf.length ≤ 2 ^ 31) (h : validate c buf = .accept) :
    ∃ hd span es sg cs, parseHdr buf = some hd ∧ WellFormed c buf hd span es sg cs := by
  unfold validate at h
  split at h
  · exact absurd h (by simp)
  rename_i hd hp
  split at h
  · exact absurd h (by simp)
  rename_i hbasic
  simp only [not_or, Decidable.not_not] at hbasic
  obtain ⟨b1, b2, b3, b4⟩ := hbasic
  simp only at h
  split at h
  · exact absurd h (by simp)
  split at h
  · rename_i data sg hdata hsg
    split at h
    · exact absurd h (by simp)
    rename_i hver
    split at h
    · exact absurd h (by simp)
    · exact absurd h (by simp)
    rename_i hce
    split at h
    · exact absurd h (by simp)
    · exact absurd h (by simp)
    rename_i hcc
    obtain ⟨p1, p2⟩ := encode_parseHdr hp
    have hfits := fits_of_parse hp
    have hsgl := slice_length hsg
    have hsgin := (slice_eq_some.1 hsg).1
    have hlen0 : hdrSize + hd.spanSize ≤ buf.length := by omega
    -- span
    obtain ⟨span, hspan, hspanl⟩ := slice_split (buf := buf) (off := 0) (n := hdrSize) (m := hd.spanSize) (by omega)
    rw [Nat.zero_add] at hspan
    -- elements
    unfold checkElements at hce
    simp only at hce
    split at hce
    · exact absurd hce (by simp)
    · exact absurd hce (by simp)
    · exact absurd hce (by simp)
    rename_i rem' cur' hloop
    have hbd := elemLoop_bound _ _ _ _ _ _ _ _ _ hloop
    have hb2 := hbd.2 (by omega)
    have key : cur' ≤ buf.length ∧ bodySize hd = cur' ∧ (hd.numElements > 0 → hd.locAfterLast = cur') ∧
        (hd.numElements = 0 → hd.locAfterLast = 0) := by
      split at hce
      · rename_i hn
        simp only [Chk.ret.injEq, decide_eq_true_eq] at hce
        have hl : hd.locAfterLast = cur' := by
          rw [hce]
          have h1 := hbd.1
          unfold sub32 at h1 ⊢
          omega
        have hpos : cur' ≠ 0 := by
          have : hdrSize + hd.spanSize ≤ cur' := by
            cases hk : hd.numElements with
            | zero => omega
            | succ k =>
              have h1 := hbd.1
              have h2 : cur' = hdrSize + hd.spanSize ∨ hdrSize + hd.spanSize < cur' ∨ cur' < hdrSize + hd.spanSize := by omega
              rcases h2 with h2 | h2 | h2
              · omega
              · omega
              · exfalso
                have : ∀ k last rem cur rem' cur', elemLoop buf hd.lastStable hd.newView k last rem cur = .done rem' cur' →
                    cur ≤ cur' := by
                  intro k
                  induction k with
                  | zero => intro l r cu r' cu' hx; simp only [elemLoop, Loop.done.injEq] at hx; omega
                  | succ k ih =>
                    intro l r cu r' cu' hx
                    unfold elemLoop at hx
                    split at hx
                    · exact absurd hx (by simp)
                    split at hx
                    · exact absurd hx (by simp)
                    rename_i eb _
                    rcases hrd : readHead eb with ⟨seq, dg, ov, flag⟩
                    simp only [hrd] at hx
                    split at hx
                    · exact absurd hx (by simp)
                    split at hx
                    · exact absurd hx (by simp)
                    split at hx
                    · exact absurd hx (by simp)
                    split at hx
                    · have := ih _ _ _ _ _ hx; omega
                    split at hx
                    · exact absurd hx (by simp)
                    split at hx
                    · exact absurd hx (by simp)
                    split at hx
                    · exact absurd hx (by simp)
                    split at hx
                    · exact absurd hx (by simp)
                    split at hx
                    · exact absurd hx (by simp)
                    have := ih _ _ _ _ _ hx; omega
                have := this _ _ _ _ _ _ hloop
                omega
          simp only [hdrSize] at this
          omega
        have hbs : bodySize hd = cur' := by unfold bodySize; rw [if_neg (by omega)]; exact hl
        refine ⟨by omega, hbs, fun _ => hl, fun hx => by omega⟩
      · rename_i hn
        simp only [Chk.ret.injEq, decide_eq_true_eq] at hce
        have hn0 : hd.numElements = 0 := by omega
        rw [hn0] at hloop
        simp only [elemLoop, Loop.done.injEq] at hloop
        refine ⟨by omega, ?_, fun hx => by omega, fun _ => hce⟩
        unfold bodySize
        rw [if_pos hce, Nat.mod_eq_of_lt (by omega)]
        omega
    obtain ⟨k1, k2, k3, k4⟩ := key
    obtain ⟨es, s⟩ := elemLoop_sound buf _ _ (by omega) _ _ _ _ _ _ hloop k1
    -- complaints
    unfold checkComplaints at hcc
    split at hcc
    · exact absurd hcc (by simp)
    · exact absurd hcc (by simp)
    · exact absurd hcc (by simp)
    rename_i rem2 cur2 hcl
    simp only [Chk.ret.injEq, decide_eq_true_eq] at hcc
    subst hcc
    obtain ⟨cs, c1, c2, c3⟩ := complLoop_sound buf (by omega) _ _ _ _ (by omega)
      (by unfold sub32; omega) hcl
    have hall : buf = encodeHdr hd ++ span ++ encodeAll es ++ sg ++ encodeComplaints cs := by
      conv => lhs; rw [p2]
      rw [drop_slice hspan, s.bytes, ← k2, drop_slice hsg, c2]
      simp
    have hadv := s.adv
    refine ⟨hd, span, es, sg, cs, hp, ⟨hall, hspanl, s.fits, ⟨?_, s.sorted⟩, s.count, ?_, ⟨by simpa using b2, b3⟩, b4, hsgl, ?_,
      c3, c1⟩⟩
    · intro e he
      obtain ⟨l1, l2, l3, l4⟩ := s.legal e he
      exact ⟨l1, l2, l3, l4⟩
    · by_cases he : es = []
      · rw [if_pos he]; apply k4; rw [← s.count, he]; rfl
      · rw [if_neg he, hspanl, ← hadv]
        apply k3
        rw [← s.count]
        exact List.length_pos_iff.2 he
    · have hdeq : data = encodeHdr hd ++ span ++ encodeAll es := by
        obtain ⟨_, hdt⟩ := slice_eq_some.1 hdata
        rw [hdt, List.drop_zero]
        conv => lhs; rw [hall]
        rw [List.append_assoc _ sg]
        apply List.take_left'
        simp [encodeHdr_length, hspanl]
        omega
      rw [← hdeq]; simpa using hver
  · exact absurd h (by simp)

theorem loc_zero_iff {c : Cfg} {buf : Bytes} {hd : Hdr} {span : Bytes} {es : List Elem} {sg : Bytes} {cs : List Bytes}
    (w : WellFormed c buf hd span es sg cs) :
    bodySize hd = (hdrSize + span.length + (encodeAll es).length) % 2 ^ 32 ∨ es ≠ [] ∧
      bodySize hd = hdrSize + span.length + (encodeAll es).length := by
  unfold bodySize
  rw [w.loc, ← w.spanLen]
  by_cases h : es = []
  · left; simp [h, encodeAll]
  · right; simp [h, hdrSize]

/-- **C06, completeness.** Every well-formed message whose header fields fit their C++ types and whose size is a
`uint32_t` is accepted. -/
theorem validate_complete (c : Cfg) (buf : Bytes) (hd : Hdr) (span : Bytes) (es : List Elem) (sg : Bytes)
    (cs : List Bytes) (hbuf : buf.length < 2 ^ 32) (hf : hd.Fits) (hls : hd.lastStable + 300 < 2 ^ 63)
    (w : WellFormed c buf hd span es sg cs) : validate c buf = .accept := by
  have hlen := congrArg List.length w.layout
  simp only [List.length_append, encodeHdr_length] at hlen
  have hbs : bodySize hd = hdrSize + span.length + (encodeAll es).length := by
    rcases loc_zero_iff w with h | h
    · rw [h, Nat.mod_eq_of_lt (by omega)]
    · exact h.2
  have hp : parseHdr buf = some hd := by
    rw [w.layout]
    simp only [List.append_assoc]
    exact parse_encodeHdr hf _
  have hsp := w.spanLen
  have hsl := w.sigLen
  unfold validate
  rw [hp]
  simp only
  rw [if_neg (by
    simp only [not_or, Decidable.not_not]
    refine ⟨by omega, by simp [w.replica.1], w.replica.2, w.epoch⟩)]
  rw [if_neg (by rw [hbs, ← hsl, Nat.mod_eq_of_lt (by omega)]; omega)]
  have d1 : slice buf 0 (bodySize hd) = some (encodeHdr hd ++ span ++ encodeAll es) := by
    refine slice_mid (a := []) (c := sg ++ encodeComplaints cs) ?_ rfl ?_
    · rw [w.layout]; simp
    · rw [hbs]; simp [encodeHdr_length]; omega
  have d2 : slice buf (bodySize hd) (c.sigLen hd.genId) = some sg := by
    refine slice_mid (a := encodeHdr hd ++ span ++ encodeAll es) (c := encodeComplaints cs) w.layout ?_ hsl.symm
    rw [hbs]; simp [encodeHdr_length]; omega
  rw [d1, d2]
  simp only
  rw [if_neg (by rw [w.sigOk]; simp)]
  have e1 : checkElements buf hd (c.sigLen hd.genId) = .ret true := by
    unfold checkElements
    have hdrop : buf.drop (hdrSize + hd.spanSize) = encodeAll es ++ (sg ++ encodeComplaints cs) := by
      refine drop_len (encodeHdr hd ++ span) _ ?_ ?_
      · rw [w.layout]; simp
      · simp [encodeHdr_length, hsp]
    have hloop := elemLoop_complete buf hd.lastStable hd.newView (by unfold upper window; rw [if_pos hls]) es
      hd.lastStable (sub32 buf.length (c.sigLen hd.genId + hdrSize + hd.spanSize)) (hdrSize + hd.spanSize) _ hdrop
      (by omega) (by unfold sub32; omega) w.fits (fun e he => (w.legal.legal e he).above) w.legal.legal w.legal.sorted
    rw [w.count] at hloop
    simp only [hloop]
    by_cases he : es = []
    · have hn : hd.numElements = 0 := by rw [← w.count, he]; rfl
      rw [if_neg (by omega)]
      have := w.loc
      rw [if_pos he] at this
      simp [this]
    · have hn : hd.numElements > 0 := by rw [← w.count]; exact List.length_pos_iff.2 he
      rw [if_pos hn]
      have := w.loc
      rw [if_neg he] at this
      have : hd.locAfterLast = sub32 buf.length (c.sigLen hd.genId +
          (sub32 buf.length (c.sigLen hd.genId + hdrSize + hd.spanSize) - (encodeAll es).length)) := by
        rw [this]; unfold sub32; omega
      rw [← this]; simp
  have e2 : checkComplaints buf hd (c.sigLen hd.genId) = .ret true := by
    unfold checkComplaints
    have hdrop : buf.drop (bodySize hd + c.sigLen hd.genId) = encodeComplaints cs := by
      refine drop_len (encodeHdr hd ++ span ++ encodeAll es ++ sg) _ ?_ ?_
      · rw [w.layout]
      · rw [hbs]; simp [encodeHdr_length, hsl]; omega
    rw [← w.ccount, complLoop_complete buf hbuf cs _ _ (by omega) (by unfold sub32; omega) hdrop
      (fun x hx => (w.complaints x hx).1)]
    simp
  rw [e1]
  simp only
  rw [e2]

/-! ## The sender's side -/

/-- a message under construction holds exactly the elements `es` and complaints `cs` -/
structure Built (m : Builder) (src : Nat) (nv ls : Int) (ep mt : Nat) (span : Bytes) (es : List Elem) (cs : List Bytes) :
    Prop where
  hdr : m.hdr = {
    msgType := mt, spanSize := span.length, genId := src, newView := nv, lastStable := ls,
    epoch := ep, numComplaints := cs.length, sizeComplaints := (encodeComplaints cs).length,
    numElements := es.length,
    locAfterLast := if es = [] then 0 else hdrSize + span.length + (encodeAll es).length }
  span : m.span = span
  elems : m.elems = encodeAll es
  compl : m.compl = encodeComplaints cs

theorem encodeElem_length (e : Elem) (h : e.digest.length = 32) :
    (encodeElem e).length = elemSize + (if e.flag = 0 then 0 else certSize + e.sig.length) := by
  unfold encodeElem
  rw [List.length_append, encodeElemHead_length e h]
  split
  · rfl
  · rw [encodeCert_length]

theorem encodeAll_append (a b : List Elem) : encodeAll (a ++ b) = encodeAll a ++ encodeAll b := by
  simp [encodeAll]

theorem encodeComplaints_append (a b : List Bytes) :
    encodeComplaints (a ++ b) = encodeComplaints a ++ encodeComplaints b := by
  simp [encodeComplaints]

theorem newMsg_built (src : Nat) (nv ls : Int) (ep mt : Nat) (span : Bytes) :
    Built (newMsg src nv ls ep mt span) src nv ls ep mt span [] [] := by
  constructor <;> simp [newMsg, encodeAll, encodeComplaints]

theorem addElement_built {cap sl : Nat} {m m' : Builder} {src : Nat} {nv ls : Int} {ep mt : Nat} {span : Bytes}
    {es : List Elem} {e : Elem} (b : Built m src nv ls ep mt span es []) (hd : e.digest.length = 32)
    (h : addElement cap sl m e = some m') :
    Built m' src nv ls ep mt span (es ++ [e]) [] ∧
      hdrSize + span.length + (encodeAll (es ++ [e])).length + sl ≤ cap ∧ es.length + 1 ≤ 300 := by
  have hloc : (if m.hdr.locAfterLast = 0 then hdrSize + m.hdr.spanSize else m.hdr.locAfterLast) =
      hdrSize + span.length + (encodeAll es).length := by
    rw [b.hdr]
    by_cases h0 : es = []
    · simp [h0, encodeAll]
    · simp [h0, hdrSize]
  have hne : m.hdr.numElements = es.length := by rw [b.hdr]
  unfold addElement at h
  simp only at h
  rw [hloc, hne] at h
  by_cases g1 : (es.length : Int) < window
  · rw [if_neg (by simpa using g1)] at h
    by_cases g2 : es.length > 0 ∨ m.hdr.locAfterLast = 0
    · rw [if_neg (fun hx => hx g2)] at h
      by_cases g3 : e.seq > m.hdr.lastStable
      · rw [if_neg (by simpa using g3)] at h
        by_cases g4 : e.seq ≤ upper m.hdr.lastStable
        · rw [if_neg (by simpa using g4)] at h
          by_cases g5 : m.hdr.numComplaints ≠ 0 ∨ m.hdr.sizeComplaints ≠ 0
          · rw [if_pos g5] at h; exact absurd h (by simp)
          · rw [if_neg g5] at h
            have hl := encodeElem_length e hd
            rw [Nat.add_assoc (hdrSize + span.length + (encodeAll es).length), ← hl] at h
            split at h
            · exact absurd h (by simp)
            rename_i hcap
            simp only [Option.some.injEq] at h
            have hall : (encodeAll (es ++ [e])).length = (encodeAll es).length + (encodeElem e).length := by simp [encodeAll]
            refine ⟨?_, by omega, by simp only [window] at g1; omega⟩
            subst h
            refine ⟨?_, b.span, ?_, b.compl⟩
            · simp only [b.hdr, Hdr.mk.injEq, true_and, List.length_append, List.length_singleton]
              rw [if_neg (by simp), hall]
              omega
            · simp [b.elems, encodeAll]
        · rw [if_pos g4] at h; exact absurd h (by simp)
      · rw [if_pos g3] at h; exact absurd h (by simp)
    · rw [if_pos g2] at h; exact absurd h (by simp)
  · rw [if_pos g1] at h; exact absurd h (by simp)

theorem addElements_built {cap sl : Nat} {src : Nat} {nv ls : Int} {ep mt : Nat} {span : Bytes} (es : List Elem)
    (hd : ∀ e ∈ es, e.digest.length = 32) :
    ∀ {m m' : Builder} {es0 : List Elem}, Built m src nv ls ep mt span es0 [] →
      (es0.length ≤ 300 ∧ (es0 ≠ [] → hdrSize + span.length + (encodeAll es0).length + sl ≤ cap)) →
      es.foldlM (addElement cap sl) m = some m' →
      Built m' src nv ls ep mt span (es0 ++ es) [] ∧ (es0 ++ es).length ≤ 300 ∧
        (es0 ++ es ≠ [] → hdrSize + span.length + (encodeAll (es0 ++ es)).length + sl ≤ cap) := by
  induction es with
  | nil =>
    intro m m' es0 b hb h
    simp only [List.foldlM_nil, Option.pure_def, Option.some.injEq] at h
    subst h
    simpa using ⟨b, hb⟩
  | cons e es ih =>
    intro m m' es0 b hb h
    simp only [List.foldlM_cons, Option.bind_eq_bind] at h
    cases h1 : addElement cap sl m e with
    | none => rw [h1] at h; exact absurd h (by simp)
    | some m1 =>
      rw [h1] at h
      obtain ⟨b1, c1, l1⟩ := addElement_built b (hd e (by simp)) h1
      have := ih (fun x hx => hd x (by simp [hx])) b1 ⟨by simpa using l1, fun _ => c1⟩ h
      simpa using this

theorem addComplaints_built {cap sl : Nat} {src : Nat} {nv ls : Int} {ep mt : Nat} {span : Bytes} {es : List Elem}
    (hfit : hdrSize + span.length + (encodeAll es).length + sl ≤ cap) (hcap : cap < 2 ^ 32) (cs : List Bytes) :
    ∀ {m m' : Builder} {cs0 : List Bytes}, Built m src nv ls ep mt span es cs0 →
      hdrSize + span.length + (encodeAll es).length + sl + (encodeComplaints cs0).length ≤ cap →
      cs.foldlM (addComplaint cap sl) m = some m' →
      Built m' src nv ls ep mt span es (cs0 ++ cs) ∧
        hdrSize + span.length + (encodeAll es).length + sl + (encodeComplaints (cs0 ++ cs)).length ≤ cap := by
  induction cs with
  | nil =>
    intro m m' cs0 b hb h
    simp only [List.foldlM_nil, Option.pure_def, Option.some.injEq] at h
    subst h
    simpa using ⟨b, hb⟩
  | cons x cs ih =>
    intro m m' cs0 b hb h
    simp only [List.foldlM_cons, Option.bind_eq_bind] at h
    cases h1 : addComplaint cap sl m x with
    | none => rw [h1] at h; exact absurd h (by simp)
    | some m1 =>
      rw [h1] at h
      have hbs : bodySize m.hdr = hdrSize + span.length + (encodeAll es).length := by
        rw [b.hdr]
        unfold bodySize
        by_cases h0 : es = []
        · simp only [h0, if_true, encodeAll, List.map_nil, List.flatten_nil, List.length_nil, Nat.add_zero]
          simp only [h0, encodeAll, List.map_nil, List.flatten_nil, List.length_nil, Nat.add_zero] at hfit
          exact Nat.mod_eq_of_lt (by omega)
        · simp [h0, hdrSize]
      have hcl : (encodeComplaints (cs0 ++ [x])).length = (encodeComplaints cs0).length + (4 + x.length) := by
        simp [encodeComplaints]
      unfold addComplaint at h1
      simp only at h1
      split at h1
      · exact absurd h1 (by simp)
      split at h1
      · exact absurd h1 (by simp)
      rename_i hc
      simp only [Option.some.injEq] at h1
      have b1 : Built m1 src nv ls ep mt span es (cs0 ++ [x]) := by
        subst h1
        refine ⟨?_, b.span, b.elems, ?_⟩
        · simp only [b.hdr, hcl]; simp
        · simp [b.compl, encodeComplaints]
      have hsc : m.hdr.sizeComplaints = (encodeComplaints cs0).length := by rw [b.hdr]
      have := ih b1 (by omega) h
      simpa using this

/-- **C06, sender side.** Whatever an honest replica builds with `addElement` (legal elements, in increasing order) and
`addComplaint` and finalizes is a well-formed message and is accepted by every other replica of the same epoch. -/
theorem validate_of_build (c : Cfg) (src : Nat) (nv ls : Int) (ep mt : Nat) (span : Bytes) (es : List Elem)
    (cs : List Bytes) (cap : Nat) (sign : Bytes → Bytes) (m1 m : Builder)
    (h1 : es.foldlM (addElement cap (c.sigLen src)) (newMsg src nv ls ep mt span) = some m1)
    (h2 : cs.foldlM (addComplaint cap (c.sigLen src)) m1 = some m)
    (hfits : ∀ e ∈ es, e.Fits) (hlegal : LegalList ls nv es)
    (hcs : ∀ x ∈ cs, complaintHdr < x.length) (hcn : cs.length < 2 ^ 16)
    (hcap : cap < 2 ^ 32) (hroom : hdrSize + span.length + c.sigLen src ≤ cap)
    (hnv : -2 ^ 63 ≤ nv ∧ nv < 2 ^ 63) (hls : -2 ^ 63 ≤ ls ∧ ls + 300 < 2 ^ 63)
    (hsrc : src < 2 ^ 16) (hmt : mt < 2 ^ 16) (hep : ep < 2 ^ 64)
    (hrep : c.isReplica src = true) (hme : src ≠ c.myId) (hepoch : ep = c.epoch)
    (hsignlen : ∀ d, (sign d).length = c.sigLen src) (hsign : ∀ d, c.verify src d (sign d) = true) :
    validate c (finalize sign m) = .accept ∧
      WellFormed c (finalize sign m) m.hdr span es (sign m.body) cs ∧ parseHdr (finalize sign m) = some m.hdr := by
  obtain ⟨b1, l1, f1⟩ := addElements_built (sl := c.sigLen src) (cap := cap) es (fun e he => (hfits e he).digest)
    (newMsg_built src nv ls ep mt span) ⟨by simp, by simp⟩ h1
  simp only [List.nil_append] at b1 l1 f1
  have hfit : hdrSize + span.length + (encodeAll es).length + c.sigLen src ≤ cap := by
    by_cases h0 : es = []
    · simp [h0, encodeAll]; omega
    · exact f1 h0
  obtain ⟨b, hall⟩ := addComplaints_built hfit hcap cs b1 (by simp [encodeComplaints]; omega) h2
  simp only [List.nil_append] at b hall
  have hbody : m.body = encodeHdr m.hdr ++ span ++ encodeAll es := by
    unfold Builder.body; rw [b.span, b.elems]
  have hcx : ∀ x ∈ cs, x.length ≤ (encodeComplaints cs).length := by
    intro x hx
    obtain ⟨a, d, rfl⟩ := List.append_of_mem hx
    simp [encodeComplaints]; omega
  have hlen : (finalize sign m).length = hdrSize + span.length + (encodeAll es).length + c.sigLen src +
      (encodeComplaints cs).length := by
    unfold finalize
    rw [hbody, b.compl]
    simp [encodeHdr_length, hsignlen]
    omega
  have w : WellFormed c (finalize sign m) m.hdr span es (sign m.body) cs := by
    refine ⟨?_, ?_, hfits, ?_, ?_, ?_, ?_, ?_, ?_, ?_, ?_, ?_⟩
    · unfold finalize; rw [hbody, b.compl]
    · rw [b.hdr]
    · rw [b.hdr]; exact hlegal
    · rw [b.hdr]
    · rw [b.hdr]
    · rw [b.hdr]; exact ⟨hrep, hme⟩
    · rw [b.hdr]; exact hepoch
    · rw [hsignlen, b.hdr]
    · rw [← hbody, b.hdr]; exact hsign _
    · intro x hx
      have := hcx x hx
      exact ⟨hcs x hx, by omega⟩
    · rw [b.hdr]
  have hf : m.hdr.Fits := by
    rw [b.hdr]
    refine ⟨hmt, by simp; omega, hsrc, hnv, ⟨hls.1, by simp; omega⟩, hep, hcn, by simp; omega, by simp; omega, ?_⟩
    simp only
    split
    · omega
    · omega
  refine ⟨validate_complete c _ _ span es _ cs (by omega) hf (by rw [b.hdr]; exact hls.2) w, w, ?_⟩
  rw [w.layout]
  simp only [List.append_assoc]
  exact parse_encodeHdr hf _

/-- Legal elements never trip an assertion of `addElement` as long as the message fits the buffer. -/
theorem addElements_succeed (cap sl : Nat) (src : Nat) (nv ls : Int) (ep mt : Nat) (span : Bytes)
    (hls : ls + 300 < 2 ^ 63) (es : List Elem) :
    ∀ (m : Builder) (es0 : List Elem), Built m src nv ls ep mt span es0 [] →
      (∀ e ∈ es, e.Fits) → LegalList ls nv (es0 ++ es) →
      hdrSize + span.length + (encodeAll (es0 ++ es)).length + sl ≤ cap →
      ∃ m', es.foldlM (addElement cap sl) m = some m' := by
  induction es with
  | nil => intro m es0 _ _ _ _; exact ⟨m, rfl⟩
  | cons e es ih =>
    intro m es0 b hf hleg hcap
    have hcount : es0.length < 300 := by
      -- strictly increasing integers in a window of 300
      have key : ∀ (l : List Elem) (a : Int), l.Pairwise (fun a b => a.seq < b.seq) → (∀ x ∈ l, a < x.seq ∧ x.seq ≤ ls + 300) →
          a ≤ ls + 300 → (l.length : Int) ≤ ls + 300 - a := by
        intro l
        induction l with
        | nil => intro a _ _ h; simp; omega
        | cons x l ih =>
          intro a hp hx ha
          obtain ⟨p1, p2⟩ := List.pairwise_cons.1 hp
          have h1 := hx x (by simp)
          have := ih x.seq p2 (fun y hy => ⟨p1 y hy, (hx y (by simp [hy])).2⟩) h1.2
          simp only [List.length_cons]
          omega
      have := key (es0 ++ e :: es) ls hleg.sorted (fun x hx => ⟨(hleg.legal x hx).above, (hleg.legal x hx).inWindow⟩) (by omega)
      simp at this
      omega
    have hle := hleg.legal e (by simp)
    have hl := encodeElem_length e (hf e (by simp)).digest
    have hall : (encodeAll (es0 ++ e :: es)).length = (encodeAll es0).length + (encodeElem e).length + (encodeAll es).length := by
      simp [encodeAll]; omega
    have hup : upper ls = ls + 300 := by unfold upper window; rw [if_pos hls]
    have hloc : (if (if es0 = [] then 0 else hdrSize + span.length + (encodeAll es0).length) = 0 then hdrSize + span.length
        else if es0 = [] then 0 else hdrSize + span.length + (encodeAll es0).length) =
        hdrSize + span.length + (encodeAll es0).length := by
      by_cases h0 : es0 = []
      · simp [h0, encodeAll]
      · simp [h0, hdrSize]
    have : ∃ m1, addElement cap sl m e = some m1 := by
      unfold addElement
      simp only [b.hdr]
      rw [if_neg (by simp [window]; omega), if_neg, if_neg (by have := hle.above; omega),
        if_neg (by have := hle.inWindow; rw [hup]; omega), if_neg (by simp [encodeComplaints]), hloc, if_neg (by omega)]
      · exact ⟨_, rfl⟩
      · simp only [Decidable.not_not]
        by_cases h0 : es0 = []
        · right; simp [h0]
        · left; exact List.length_pos_iff.2 h0
    obtain ⟨m1, hm1⟩ := this
    obtain ⟨b1, -, -⟩ := addElement_built b (hf e (by simp)).digest hm1
    obtain ⟨m', hm'⟩ := ih m1 (es0 ++ [e]) b1 (fun x hx => hf x (by simp [hx])) (by simpa using hleg) (by simpa using hcap)
    refine ⟨m', ?_⟩
    simp only [List.foldlM_cons, Option.bind_eq_bind, hm1]
    exact hm'

/-! ## Reading the elements back -/

/-- the caller's loop `while (it.getAndGoToNext(e))`; `none` = assertion failure or read outside the buffer -/
def collect (buf : Bytes) (h : Hdr) : (fuel : Nat) → Iter → Option (List Elem)
  | 0, it => match iterNext buf h it with
    | .atEnd => some []
    | _ => none
  | fuel + 1, it => match iterNext buf h it with
    | .atEnd => some []
    | .elem e it' => (collect buf h fuel it').map (e :: ·)
    | _ => none

theorem iterNext_cons {buf : Bytes} {h : Hdr} {it : Iter} {e : Elem} {es : List Elem} {rest : Bytes}
    (hb : buf.drop it.cur = encodeAll (e :: es) ++ rest) (hf : e.Fits) (hin : it.cur ≤ buf.length)
    (hend : it.endLoc = it.cur + (encodeAll (e :: es)).length) :
    iterNext buf h it = .elem e ⟨it.endLoc, it.cur + (encodeElem e).length, it.next + 1⟩ ∧
      buf.drop (it.cur + (encodeElem e).length) = encodeAll es ++ rest ∧
      it.cur + (encodeElem e).length ≤ buf.length := by
  have hhl := encodeElemHead_length e hf.digest
  have hlen : (encodeAll (e :: es)).length = (encodeElem e).length + (encodeAll es).length := by simp [encodeAll]
  have hel := encodeElem_length e hf.digest
  have hblen := congrArg List.length hb
  simp [hlen] at hblen
  have hb' : buf.drop it.cur = encodeElemHead e ++ ((if e.flag = 0 then [] else encodeCert e) ++ (encodeAll es ++ rest)) := by
    rw [hb]; simp [encodeAll, encodeElem]
  have hsl := slice_of_drop hb' hin
  rw [hhl] at hsl
  have hdrop : buf.drop (it.cur + (encodeElem e).length) = encodeAll es ++ rest := by
    rw [← List.drop_drop, hb]
    simp [encodeAll]
  have hpos : 0 < elemSize := by decide
  refine ⟨?_, hdrop, by omega⟩
  unfold iterNext
  rw [if_neg (by omega)]
  simp only
  rw [if_neg (by omega), hsl]
  simp only [readHead_encode e hf]
  by_cases hflag : e.flag = 0
  · rw [if_pos hflag]
    rw [if_pos hflag] at hel
    obtain ⟨n1, n2⟩ := hf.nocert hflag
    obtain ⟨q1, q2, q3, q4, q5, q6⟩ := e
    simp only at n1 n2
    subst n1 n2
    rw [hel]
    rfl
  · rw [if_neg hflag]
    rw [if_neg hflag] at hel
    rw [if_neg (by omega)]
    have hb2 : buf.drop (it.cur + elemSize) = (leEncode 8 (ofInt64 e.certView) ++ leEncode 2 e.sig.length) ++
        (e.sig ++ (encodeAll es ++ rest)) := by
      rw [← List.drop_drop, hb', if_neg hflag, ← hhl]; simp [encodeCert]
    have hsl2 := slice_of_drop hb2 (by omega)
    rw [show (leEncode 8 (ofInt64 e.certView) ++ leEncode 2 e.sig.length).length = certSize by simp [certSize]] at hsl2
    rw [hsl2]
    simp only
    have t1 : List.take 8 (leEncode 8 (ofInt64 e.certView) ++ leEncode 2 e.sig.length) = leEncode 8 (ofInt64 e.certView) := by
      simp
    have t2 : List.drop 8 (leEncode 8 (ofInt64 e.certView) ++ leEncode 2 e.sig.length) = leEncode 2 e.sig.length := by
      simp [List.drop_append]
    rw [t1, t2, leDecode_leEncode _ _ (ofInt64_lt _), leDecode_leEncode 2 _ (by have := hf.sig; omega),
      toInt64_ofInt64 _ hf.cv.1 hf.cv.2]
    rw [if_neg (by omega)]
    have hb3 : buf.drop (it.cur + elemSize + certSize) = e.sig ++ (encodeAll es ++ rest) := by
      rw [← List.drop_drop, hb2]
      rw [show certSize = (leEncode 8 (ofInt64 e.certView) ++ leEncode 2 e.sig.length).length by
        simp [certSize]]
      exact List.drop_left
    rw [slice_of_drop hb3 (by omega)]
    simp only
    rw [hel, Nat.add_assoc it.cur]

theorem iterNext_nil {buf : Bytes} {h : Hdr} {it : Iter} (hend : it.endLoc = it.cur) (hn : it.next - 1 = h.numElements) :
    iterNext buf h it = .atEnd := by
  unfold iterNext
  rw [if_pos (by omega), if_pos hn]

theorem collect_from {buf : Bytes} {h : Hdr} {rest : Bytes} (es : List Elem) :
    ∀ (it : Iter) (fuel : Nat), es.length ≤ fuel → buf.drop it.cur = encodeAll es ++ rest → (∀ e ∈ es, e.Fits) →
      it.cur ≤ buf.length → it.endLoc = it.cur + (encodeAll es).length → it.next - 1 + es.length = h.numElements →
      1 ≤ it.next → collect buf h fuel it = some es := by
  induction es with
  | nil =>
    intro it fuel hfu hb _ hin hend hn _
    have : iterNext buf h it = .atEnd := iterNext_nil (by simpa [encodeAll] using hend) (by simpa using hn)
    cases fuel <;> simp [collect, this]
  | cons e es ih =>
    intro it fuel hfu hb hf hin hend hn h1
    obtain ⟨n1, n2, n3⟩ := iterNext_cons (h := h) hb (hf e (by simp)) hin hend
    cases fuel with
    | zero => simp at hfu
    | succ fuel =>
      simp only [collect, n1]
      have hlen : (encodeAll (e :: es)).length = (encodeElem e).length + (encodeAll es).length := by simp [encodeAll]
      rw [ih ⟨it.endLoc, it.cur + (encodeElem e).length, it.next + 1⟩ fuel (by simpa using hfu) n2
        (fun x hx => hf x (by simp [hx])) n3 (by simp only; omega) (by simp only; simp at hn; omega) (by simp)]
      rfl

theorem iterInit_accepted {c : Cfg} {buf : Bytes} {h : Hdr} {span : Bytes} {es : List Elem} {sg : Bytes}
    {cs : List Bytes} (w : WellFormed c buf h span es sg cs) :
    ∃ it rest, iterInit h = some it ∧ it.next = 1 ∧ buf.drop it.cur = encodeAll es ++ rest ∧ it.cur ≤ buf.length ∧
      it.endLoc = it.cur + (encodeAll es).length := by
  have hlen := congrArg List.length w.layout
  simp only [List.length_append, encodeHdr_length] at hlen
  unfold iterInit
  by_cases he : es = []
  · have hn : h.numElements = 0 := by rw [← w.count, he]; rfl
    rw [if_pos hn]
    exact ⟨_, buf, rfl, rfl, by simp [he, encodeAll], by simp, by simp [he, encodeAll]⟩
  · have hn : h.numElements ≠ 0 := by
      rw [← w.count]; exact fun hx => he (List.length_eq_zero_iff.1 hx)
    have hloc := w.loc
    rw [if_neg he] at hloc
    have hpos : 0 < (encodeAll es).length := by
      cases es with
      | nil => exact absurd rfl he
      | cons e es =>
        have := encodeElem_length e (w.fits e (by simp)).digest
        simp [encodeAll, elemSize] at this ⊢
        omega
    rw [if_neg hn, if_pos (by rw [hloc, ← w.spanLen]; omega)]
    refine ⟨_, sg ++ encodeComplaints cs, rfl, rfl, ?_, ?_, ?_⟩
    · refine drop_len (encodeHdr h ++ span) _ ?_ ?_
      · rw [w.layout]; simp
      · simp [encodeHdr_length, w.spanLen]
    · simp only; rw [← w.spanLen]; omega
    · simp only; rw [hloc, w.spanLen]

/-- **C06, reading back.** Iterating over an accepted message returns exactly the elements of the well-formed list, with
no assertion failure and no read outside the buffer. -/
theorem iterate_accepted {c : Cfg} {buf : Bytes} {h : Hdr} {span : Bytes} {es : List Elem} {sg : Bytes}
    {cs : List Bytes} (w : WellFormed c buf h span es sg cs) :
    ∃ it, iterInit h = some it ∧ collect buf h h.numElements it = some es := by
  obtain ⟨it, rest, h1, h2, h3, h4, h5⟩ := iterInit_accepted w
  exact ⟨it, h1, collect_from es it _ (by rw [w.count]; omega) h3 w.fits h4 h5 (by rw [h2, w.count]; omega) (by omega)⟩

theorem goTo_from {buf : Bytes} {h : Hdr} {rest : Bytes} (lb : Int) (es : List Elem) :
    ∀ (it : Iter) (fuel : Nat), es.length ≤ fuel → buf.drop it.cur = encodeAll es ++ rest → (∀ e ∈ es, e.Fits) →
      it.cur ≤ buf.length → it.endLoc = it.cur + (encodeAll es).length → it.next - 1 + es.length = h.numElements →
      1 ≤ it.next →
      match es.find? (fun e => decide (lb ≤ e.seq)) with
      | none => goToAtLeast buf h lb fuel it = .atEnd
      | some e => ∃ it', goToAtLeast buf h lb fuel it = .elem e it' := by
  induction es with
  | nil =>
    intro it fuel hfu hb _ hin hend hn _
    have : iterNext buf h it = .atEnd := iterNext_nil (by simpa [encodeAll] using hend) (by simpa using hn)
    simp only [List.find?_nil]
    cases fuel <;> simp [goToAtLeast, this]
  | cons e es ih =>
    intro it fuel hfu hb hf hin hend hn h1
    obtain ⟨n1, n2, n3⟩ := iterNext_cons (h := h) hb (hf e (by simp)) hin hend
    cases fuel with
    | zero => simp at hfu
    | succ fuel =>
      simp only [goToAtLeast, n1]
      have hlen : (encodeAll (e :: es)).length = (encodeElem e).length + (encodeAll es).length := by simp [encodeAll]
      have := ih ⟨it.endLoc, it.cur + (encodeElem e).length, it.next + 1⟩ fuel (by simpa using hfu) n2
        (fun x hx => hf x (by simp [hx])) n3 (by simp only; omega) (by simp only; simp at hn; omega) (by simp)
      by_cases hlt : e.seq < lb
      · rw [if_pos hlt, List.find?_cons_of_neg (by simpa using hlt)]
        exact this
      · rw [if_neg hlt, List.find?_cons_of_pos (by simp; omega)]
        exact ⟨it, rfl⟩

/-- **C06, positioning.** `goToAtLeast(lb)` on an accepted message stops on the first element whose sequence number is at
least `lb`, or reports the end when there is none. -/
theorem goToAtLeast_accepted {c : Cfg} {buf : Bytes} {h : Hdr} {span : Bytes} {es : List Elem} {sg : Bytes}
    {cs : List Bytes} (w : WellFormed c buf h span es sg cs) (lb : Int) :
    ∃ it, iterInit h = some it ∧
      match es.find? (fun e => decide (lb ≤ e.seq)) with
      | none => goToAtLeast buf h lb h.numElements it = .atEnd
      | some e => ∃ it', goToAtLeast buf h lb h.numElements it = .elem e it' := by
  obtain ⟨it, rest, h1, h2, h3, h4, h5⟩ := iterInit_accepted w
  exact ⟨it, h1, goTo_from lb es it _ (by rw [w.count]; omega) h3 w.fits h4 h5 (by rw [h2, w.count]; omega) (by omega)⟩

/-- Partial memory safety: when the message is long enough for header, span context and signature, the element scan never
leaves the buffer, whatever the bytes. -/
theorem checkElements_safe (buf : Bytes) (h : Hdr) (sl : Nat) (hbuf : buf.length < 2 ^ 32)
    (hlen : sl + hdrSize + h.spanSize ≤ buf.length) : checkElements buf h sl ≠ .oob := by
  unfold checkElements
  have hs := (elemLoop_safe buf h.lastStable h.newView h.numElements h.lastStable
    (sub32 buf.length (sl + hdrSize + h.spanSize)) (hdrSize + h.spanSize) (by unfold sub32; omega)).1
  simp only
  split
  · rename_i hx; exact absurd hx hs
  · simp
  · simp
  · split <;> simp

/-! ## Counterexamples: `validate` is not memory safe -/

/-- BUG15.  `dataLength + sigLen` is computed in 32 bits (ViewChangeMsg.cpp:190): with `locAfterLast` close to `2^32` the
size check passes and the signature verification is handed a range far outside the buffer.  No signature is needed: this
holds for *any* signature scheme, so any sender can crash a replica. -/
theorem wrap_oob (c : Cfg) (hd : Hdr) (hf : hd.Fits) (rest : Bytes) (hr : c.isReplica hd.genId = true)
    (hm : hd.genId ≠ c.myId) (he : hd.epoch = c.epoch) (hspan : hd.spanSize ≤ rest.length)
    (hloc : hd.locAfterLast + c.sigLen hd.genId = 2 ^ 32) (hsz : hdrSize + rest.length < hd.locAfterLast) :
    validate c (encodeHdr hd ++ rest) = .oob := by
  unfold validate
  rw [parse_encodeHdr hf]
  simp only
  have hlen : (encodeHdr hd ++ rest).length = hdrSize + rest.length := by simp [encodeHdr_length]
  rw [if_neg (by
    simp only [not_or, Decidable.not_not]
    exact ⟨by omega, by simp [hr], hm, he⟩)]
  have hb : bodySize hd = hd.locAfterLast := by unfold bodySize; rw [if_neg (by omega)]
  rw [hb, hloc, if_neg (by simp)]
  have : slice (encodeHdr hd ++ rest) 0 hd.locAfterLast = none := by
    unfold slice; rw [if_neg (by omega)]
  rw [this]

/-- the hypotheses of `wrap_oob` are met by a concrete 44-byte message -/
example : ∃ (c : Cfg) (hd : Hdr), hd.Fits ∧ (encodeHdr hd).length = 44 ∧ (∀ i d s, c.verify i d s = false) ∧
    validate c (encodeHdr hd ++ []) = .oob := by
  refine ⟨⟨fun _ => true, 0, 0, fun _ => 64, fun _ _ _ => false⟩, ⟨0, 0, 1, 1, 0, 0, 0, 0, 0, 2 ^ 32 - 64⟩, ?_, ?_, ?_, ?_⟩
  · constructor <;> decide
  · rw [encodeHdr_length]; rfl
  · intro _ _ _; rfl
  · apply wrap_oob
    · constructor <;> decide
    · rfl
    · decide
    · rfl
    · decide
    · rfl
    · decide

/-- a scheme in which replica 1 (faulty) can sign anything with 64 bytes -/
def cfgSigned : Cfg := ⟨fun i => decide (i < 4), 0, 0, fun _ => 64, fun i _ _ => decide (i = 1)⟩

/-- header of a message of faulty replica 1 claiming one element, with `locAfterLast = 1` -/
def hdrShort : Hdr := ⟨0, 0, 1, 1, 0, 0, 0, 0, 1, 1⟩

/-- BUG16.  A faulty replica signs one byte (`locAfterLast = 1`) and sends a message shorter than header plus signature:
`remainingBytes` underflows (ViewChangeMsg.cpp:204) and the element loop reads outside the buffer. -/
theorem underflow_oob : validate cfgSigned (encodeHdr hdrShort ++ List.replicate 32 0) = .oob := by
  decide +kernel

/-- header of a message of faulty replica 1 without elements and with two complaints -/
def hdrCompl : Hdr := ⟨0, 0, 1, 1, 0, 0, 2, 0, 0, 0⟩

/-- BUG7.  A complaint size larger than the rest of the message makes `remainingBytes` wrap (ViewChangeMsg.cpp:263-273) and
the next complaint size is read outside the buffer. -/
theorem complaint_oob :
    validate cfgSigned (encodeHdr hdrCompl ++ List.replicate 64 0 ++ (leEncode 4 1000 ++ List.replicate 40 0)) = .oob := by
  decide +kernel

/-- header of a message of faulty replica 1 without elements and complaints, claiming 1000 bytes of complaints -/
def hdrDigest : Hdr := ⟨0, 0, 1, 1, 0, 0, 0, 1000, 0, 0⟩

/-- BUG17.  `sizeOfAllComplaints` is never validated: an accepted message can make `getMsgDigest` hash bytes outside the
buffer (ViewChangeMsg.cpp:52-56). -/
theorem digest_oob :
    validate cfgSigned (encodeHdr hdrDigest ++ List.replicate 64 0) = .accept ∧
      digestRange (encodeHdr hdrDigest ++ List.replicate 64 0) hdrDigest = none := by
  decide +kernel

/-! ## Non-vacuity -/

/-- two elements, the second with a prepared certificate -/
def exElems : List Elem :=
  [⟨151, List.replicate 32 7, 3, 0, 0, []⟩, ⟨153, List.replicate 32 9, 3, 1, 2, [1, 2, 3]⟩]

/-- replica 0 validating messages of the others; signatures are 4 zero bytes -/
def exCfg : Cfg := ⟨fun i => decide (i < 4), 0, 0, fun _ => 4, fun _ _ s => decide (s = [0, 0, 0, 0])⟩

/-- a message with two elements and one complaint can be built, and it is accepted -/
example : (((exElems.foldlM (addElement 1000 4) (newMsg 1 4 150 0 0 [5, 5])).bind fun m1 =>
    [List.replicate 30 (1 : UInt8)].foldlM (addComplaint 1000 4) m1).map fun m =>
    validate exCfg (finalize (fun _ => [0, 0, 0, 0]) m)) = some .accept := by
  decide +kernel

example : LegalList 150 4 exElems := by
  refine ⟨?_, ?_⟩
  · intro e he
    simp only [exElems, List.mem_cons, List.not_mem_nil, or_false] at he
    rcases he with rfl | rfl <;> constructor <;> decide
  · simp [exElems]

end Verif.VCBytes
