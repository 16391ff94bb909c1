import Verif.PreExec.Props
set_option linter.unusedVariables false
set_option linter.unusedSimpArgs false
/-!
# C19: the signatures that go with a pre-execution result

Model of `PreProcessResultMsg.cpp` (serialization, parsing and checking of the f+1 signatures), of its caller
`ReplicaImp::validatePreProcessedResults`, and of the byte-level checks of `PreProcessReplyMsg::validate`.
-/
namespace Verif.PreExec
open Verif.Bytes Verif.Kvbc

/-- `toBigEndianStringBuffer` / `fromBigEndianBuffer` (util/include/endianness.hpp) -/
def beEncode (k n : Nat) : Bytes := (leEncode k n).reverse
def beDecode (b : Bytes) : Nat := leDecode b.reverse

/-- one signature: sender (2 bytes), result (4), size (4), the signature (PreProcessResultMsg.cpp:113-119) -/
def serSig (x : Sig) : Bytes := beEncode 2 x.sender ++ beEncode 4 x.res ++ beEncode 4 x.sig.length ++ x.sig

/-- `serializeResultSignatures` (PreProcessResultMsg.cpp:100-123): the first `k` signatures (all, if `k` is 0) -/
def serSigs (l : List Sig) (k : Nat) : Bytes := ((if k = 0 then l else l.take k)).flatMap serSig

/-- result of a function that may throw, or read outside of its buffer -/
inductive R (α : Type) where
  | ok (a : α)
  | throw
  | oob
deriving DecidableEq

/-- emplace into a `std::set` -/
def setAdd (x : Sig) (l : List Sig) : List Sig := (insertSig x l).getD l

/-- `deserializeResultSignatures` (PreProcessResultMsg.cpp:125-164): the loop, with fuel (every iteration reads at least ten
bytes; see `deser_fuel`) -/
def deserLoop (buf : Bytes) : Nat → Nat → List Sig → R (List Sig)
  | 0, _, _ => .throw
  | fuel + 1, pos, ret =>
    if 10 > buf.length - pos then .throw
    else match slice buf pos 2, slice buf (pos + 2) 4, slice buf (pos + 6) 4 with
      | some a, some b, some c =>
        if beDecode c > buf.length - (pos + 10) then .throw
        else match slice buf (pos + 10) (beDecode c) with
          | none => .oob
          | some sg =>
            let ret := setAdd ⟨sg, beDecode a, beDecode b⟩ ret
            if buf.length - (pos + 10 + beDecode c) = 0 then .ok ret
            else deserLoop buf fuel (pos + 10 + beDecode c) ret
      | _, _, _ => .oob

def deserSigs (buf : Bytes) : R (List Sig) := deserLoop buf (buf.length + 1) 0 []

/-- `validatePreProcessResultSignatures` (PreProcessResultMsg.cpp:59-98): `ok none` = valid, `ok (some …)` = error message.
`verify id msg sig`: the signature check; for the own id, comparison with a signature made anew -/
def validateSigs (E : Env) (verify : Nat → Bytes → Bytes → Bool) (f : Nat) (data : Bytes) (client seq : Nat) (sigsBuf : Bytes) :
    R (Option Unit) :=
  match deserSigs sigsBuf with
  | .throw => .throw
  | .oob => .oob
  | .ok sigs =>
    if sigs.length ≠ (f + 1) % 2 ^ 16 then .ok (some ())
    else match sigs with
      | [] => .oob -- `sigs.begin()->…` of an empty set
      | x :: _ =>
        let h := resultHash E data x.res client seq
        if sigs.all (fun y => verify y.sender h y.sig) then .ok none else .ok (some ())

/-- one pre-processed request of a PrePrepare, for `validatePreProcessedResults` (ReplicaImp.cpp:1012-1051): the check runs in a
thread-pool task; the caller waits for the task (`wait`, not `get`), so an exception leaves the error message empty -/
def acceptsResult (E : Env) (verify : Nat → Bytes → Bytes → Bool) (f : Nat) (data : Bytes) (client seq : Nat) (sigsBuf : Bytes) :
    Bool :=
  match validateSigs E verify f data client seq sigsBuf with
  | .ok (some _) => false
  | _ => true

/-! ## Properties -/

/-- hash inputs are bound by the hash -/
theorem hash_binds {E : Env} (hE : ∀ x y, E.hash x = E.hash y → x = y) {d d' : Bytes} {r r' c c' q q' : Nat}
    (hr : r < 2 ^ 32) (hr' : r' < 2 ^ 32) (hc : c < 2 ^ 16) (hc' : c' < 2 ^ 16) (hq : q < 2 ^ 64) (hq' : q' < 2 ^ 64)
    (h : resultHash E d r c q = resultHash E d' r' c' q') : r = r' ∧ c = c' ∧ q = q' ∧ (r = SUCCESS → d = d') := by
  have h := hE _ _ h
  have h1 := List.append_inj' h (by rw [leEncode_length, leEncode_length])
  have h2 := List.append_inj' h1.1 (by rw [leEncode_length, leEncode_length])
  have h3 := List.append_inj' h2.1 (by rw [leEncode_length, leEncode_length])
  have e1 : q = q' := by
    rw [← leDecode_leEncode 8 q (by simpa using hq), ← leDecode_leEncode 8 q' (by simpa using hq'), h1.2]
  have e2 : c = c' := by
    rw [← leDecode_leEncode 2 c (by simpa using hc), ← leDecode_leEncode 2 c' (by simpa using hc'), h2.2]
  have e3 : r = r' := by
    rw [← leDecode_leEncode 4 r (by simpa using hr), ← leDecode_leEncode 4 r' (by simpa using hr'), h3.2]
  refine ⟨e3, e2, e1, fun hs => ?_⟩
  have := h3.1
  rw [← e3, if_pos hs, if_pos hs] at this
  exact this

theorem be_decode_encode (k n : Nat) (h : n < 256 ^ k) : beDecode (beEncode k n) = n := by
  rw [beDecode, beEncode, List.reverse_reverse, leDecode_leEncode k n h]

theorem be_length (k n : Nat) : (beEncode k n).length = k := by
  rw [beEncode, List.length_reverse, leEncode_length]

/-- **C19.** Parsing never reads outside of the buffer. -/
theorem deser_no_oob (buf : Bytes) : ∀ (fuel pos : Nat) (ret : List Sig), pos ≤ buf.length → deserLoop buf fuel pos ret ≠ .oob := by
  intro fuel
  induction fuel with
  | zero => intro pos ret _ h; cases h
  | succ fuel ih =>
    intro pos ret hp
    rw [deserLoop]
    split
    · intro h; cases h
    · rename_i h10
      obtain ⟨a, ha⟩ := slice_isSome (buf := buf) (off := pos) (len := 2) (by omega)
      obtain ⟨b, hb⟩ := slice_isSome (buf := buf) (off := pos + 2) (len := 4) (by omega)
      obtain ⟨c, hc⟩ := slice_isSome (buf := buf) (off := pos + 6) (len := 4) (by omega)
      rw [ha, hb, hc]
      simp only
      split
      · intro h; cases h
      · rename_i hl
        obtain ⟨d, hd⟩ := slice_isSome (buf := buf) (off := pos + 10) (len := beDecode c) (by omega)
        rw [hd]
        simp only
        split
        · intro h; cases h
        · exact ih _ _ (by omega)

theorem deserSigs_no_oob (buf : Bytes) : deserSigs buf ≠ .oob := deser_no_oob buf _ 0 [] (Nat.zero_le _)

/-- more fuel does not change the result -/
theorem deser_fuel (buf : Bytes) : ∀ (fuel fuel' pos : Nat) (ret : List Sig), buf.length - pos < fuel → buf.length - pos < fuel' →
    deserLoop buf fuel pos ret = deserLoop buf fuel' pos ret := by
  intro fuel
  induction fuel with
  | zero => intro fuel' pos ret h; omega
  | succ fuel ih =>
    intro fuel' pos ret h h'
    cases fuel' with
    | zero => omega
    | succ fuel' =>
      rw [deserLoop, deserLoop]
      split
      · rfl
      · split
        · split
          · rfl
          · split
            · rfl
            · simp only
              split
              · rfl
              · exact ih fuel' _ _ (by omega) (by omega)
        · rfl

theorem setAdd_last {l : List Sig} {x : Sig} (h : ∀ y ∈ l, y.sender < x.sender) : setAdd x l = l ++ [x] := by
  have : insertSig x l = some (l ++ [x]) := by
    induction l with
    | nil => rfl
    | cons y ys ih =>
      have h1 := h y List.mem_cons_self
      rw [insertSig, if_neg (by omega), if_neg (by omega), ih (fun z hz => h z (List.mem_cons_of_mem _ hz))]
      rfl
  rw [setAdd, this]; rfl

/-- a signature that fits the fields of the format -/
def Sig.Ok (x : Sig) : Prop := x.sender < 2 ^ 16 ∧ x.res < 2 ^ 32 ∧ x.sig.length < 2 ^ 32

theorem deser_ser (pre : List Sig) : ∀ (l : List Sig), l ≠ [] → (∀ x ∈ l, x.Ok) → Asc (pre ++ l) → ∀ (fuel : Nat) (p : Bytes), l.length < fuel →
    deserLoop (p ++ l.flatMap serSig) fuel p.length pre = .ok (pre ++ l) := by
  intro l
  induction l generalizing pre with
  | nil => intro h; exact absurd rfl h
  | cons x xs ih =>
    intro _ hok hasc fuel p hf
    obtain ⟨o1, o2, o3⟩ := hok x List.mem_cons_self
    have hser : (serSig x).length = 10 + x.sig.length := by
      simp only [serSig, List.length_append, be_length]
    cases fuel with
    | zero => cases hf
    | succ fuel =>
      rw [deserLoop]
      have hbuf : p ++ (x :: xs).flatMap serSig = p ++ serSig x ++ xs.flatMap serSig := by
        rw [List.flatMap_cons, List.append_assoc]
      have hlen : (p ++ (x :: xs).flatMap serSig).length = p.length + (10 + x.sig.length) + (xs.flatMap serSig).length := by
        rw [hbuf, List.length_append, List.length_append, hser]
      rw [if_neg (by omega)]
      have s1 : slice (p ++ (x :: xs).flatMap serSig) p.length 2 = some (beEncode 2 x.sender) := by
        refine slice_mid (a := p) (b := beEncode 2 x.sender)
          (c := beEncode 4 x.res ++ beEncode 4 x.sig.length ++ x.sig ++ xs.flatMap serSig) ?_ rfl (by rw [be_length])
        rw [hbuf, serSig]; simp only [List.append_assoc]
      have s2 : slice (p ++ (x :: xs).flatMap serSig) (p.length + 2) 4 = some (beEncode 4 x.res) := by
        refine slice_mid (a := p ++ beEncode 2 x.sender) (b := beEncode 4 x.res)
          (c := beEncode 4 x.sig.length ++ x.sig ++ xs.flatMap serSig) ?_ (by rw [List.length_append, be_length]) (by rw [be_length])
        rw [hbuf, serSig]; simp only [List.append_assoc]
      have s3 : slice (p ++ (x :: xs).flatMap serSig) (p.length + 6) 4 = some (beEncode 4 x.sig.length) := by
        refine slice_mid (a := p ++ beEncode 2 x.sender ++ beEncode 4 x.res) (b := beEncode 4 x.sig.length)
          (c := x.sig ++ xs.flatMap serSig) ?_ (by simp only [List.length_append, be_length]) (by rw [be_length])
        rw [hbuf, serSig]; simp only [List.append_assoc]
      have s4 : slice (p ++ (x :: xs).flatMap serSig) (p.length + 10) x.sig.length = some x.sig := by
        refine slice_mid (a := p ++ beEncode 2 x.sender ++ beEncode 4 x.res ++ beEncode 4 x.sig.length) (b := x.sig)
          (c := xs.flatMap serSig) ?_ (by simp only [List.length_append, be_length]) rfl
        rw [hbuf, serSig]; simp only [List.append_assoc]
      rw [s1, s2, s3]
      simp only
      rw [be_decode_encode 4 x.sig.length (by simpa using o3), be_decode_encode 4 x.res (by simpa using o2),
        be_decode_encode 2 x.sender (by simpa using o1), if_neg (by omega), s4]
      simp only
      have hadd : setAdd ⟨x.sig, x.sender, x.res⟩ pre = pre ++ [x] := by
        apply setAdd_last
        intro y hy
        exact (List.pairwise_append.1 hasc).2.2 y hy x List.mem_cons_self
      rw [hadd]
      by_cases hx : xs = []
      · subst hx
        rw [if_pos (by rw [hlen]; simp; omega)]
      · have hne : (xs.flatMap serSig).length ≠ 0 := by
          cases xs with
          | nil => exact absurd rfl hx
          | cons y ys =>
            rw [List.flatMap_cons, List.length_append]
            have : (serSig y).length = 10 + y.sig.length := by simp only [serSig, List.length_append, be_length]
            omega
        rw [if_neg (by omega)]
        have := ih (pre ++ [x]) hx (fun y hy => hok y (List.mem_cons_of_mem _ hy))
          (by rw [List.append_assoc]; exact hasc) fuel (p ++ serSig x) (by rw [List.length_cons] at hf; omega)
        rw [hbuf]
        rw [List.length_append, hser, ← Nat.add_assoc] at this
        rw [this, List.append_assoc]
        rfl

/-- **C19.** The serialized signatures parse back to the first `k` of them. -/
theorem sigs_roundtrip {l : List Sig} {k : Nat} (hk : 1 ≤ k) (hl : l ≠ []) (hok : ∀ x ∈ l, x.Ok) (hasc : Asc l) :
    deserSigs (serSigs l k) = .ok (l.take k) := by
  rw [serSigs, if_neg (by omega), deserSigs]
  have hne : l.take k ≠ [] := by
    cases l with
    | nil => exact absurd rfl hl
    | cons x xs =>
      cases k with
      | zero => omega
      | succ k => simp
  have hlen : ∀ m : List Sig, m.length ≤ (m.flatMap serSig).length := by
    intro m
    induction m with
    | nil => exact Nat.le_refl _
    | cons y ys ih =>
      rw [List.flatMap_cons, List.length_append, List.length_cons]
      have : (serSig y).length = 10 + y.sig.length := by simp only [serSig, List.length_append, be_length]
      omega
  have := deser_ser [] (l.take k) hne (fun x hx => hok x (List.mem_of_mem_take hx)) (hasc.sublist (List.take_sublist k l))
    ((l.take k).flatMap serSig).length.succ [] (Nat.lt_succ_of_le (hlen _))
  exact this

theorem deserLoop_asc (buf : Bytes) : ∀ (fuel pos : Nat) (ret l : List Sig), Asc ret → deserLoop buf fuel pos ret = .ok l → Asc l := by
  intro fuel
  induction fuel with
  | zero => intro pos ret l _ h; cases h
  | succ fuel ih =>
    intro pos ret l ha h
    have hadd : ∀ x, Asc (setAdd x ret) := by
      intro x
      rw [setAdd]
      cases hi : insertSig x ret with
      | none => exact ha
      | some m => exact insertSig_asc ha hi
    rw [deserLoop] at h
    split at h
    · cases h
    · split at h
      · split at h
        · cases h
        · split at h
          · cases h
          · simp only at h
            split at h
            · cases h; exact hadd _
            · exact ih _ _ _ (hadd _) h
      · cases h

/-- **C19.** A replica whose check of a pre-execution result returns normally without an error has seen valid signatures of f+1
distinct replicas on one hash of exactly this result, client and request number. -/
theorem valid_result_vouched {E : Env} {verify : Nat → Bytes → Bytes → Bool} {f : Nat} {data : Bytes} {client seq : Nat}
    {sigsBuf : Bytes} (hf : f + 1 < 2 ^ 16) (h : validateSigs E verify f data client seq sigsBuf = .ok none) :
    ∃ (res : Nat) (l : List Sig), (l.map (·.sender)).Nodup ∧ l.length = f + 1 ∧
      ∀ x ∈ l, verify x.sender (resultHash E data res client seq) x.sig = true := by
  rw [validateSigs] at h
  split at h
  · cases h
  · cases h
  · rename_i sigs hd
    split at h
    · cases h
    · rename_i hn
      split at h
      · cases h
      · rename_i x xs
        simp only at h
        split at h
        · rename_i hall
          refine ⟨x.res, x :: xs, (deserLoop_asc _ _ _ _ _ List.Pairwise.nil hd).nodup, ?_, ?_⟩
          · rw [Nat.mod_eq_of_lt hf] at hn
            simpa using hn
          · intro y hy
            exact List.all_eq_true.1 hall y hy
        · cases h

/-- **C19.** If every collected signature is a valid one on the agreed hash, and the first record names the result that was
hashed, other replicas accept what the primary sends. -/
theorem honest_result_accepted {E : Env} {verify : Nat → Bytes → Bytes → Bool} {f : Nat} {data : Bytes} {client seq : Nat}
    {l : List Sig} {hh : Bytes} (hf : f + 1 < 2 ^ 16) (hl : f + 1 ≤ l.length) (hok : ∀ x ∈ l, x.Ok) (hasc : Asc l)
    (hv : ∀ x ∈ l, verify x.sender hh x.sig = true) (hr : ∀ x ∈ l.head?, resultHash E data x.res client seq = hh) :
    validateSigs E verify f data client seq (serSigs l (f + 1)) = .ok none := by
  cases l with
  | nil => simp at hl
  | cons x xs =>
    rw [validateSigs, sigs_roundtrip (by omega) (by simp) hok hasc]
    simp only
    have h1 : ((x :: xs).take (f + 1)).length = f + 1 := by rw [List.length_take]; omega
    rw [if_neg (by rw [h1, Nat.mod_eq_of_lt hf]; simp)]
    rw [List.take_succ_cons]
    simp only
    have h2 := hr x (by simp)
    rw [h2, if_pos]
    rw [List.all_eq_true]
    intro y hy
    exact hv y (List.mem_of_mem_take (i := f + 1) (by rw [List.take_succ_cons]; exact hy))

/-- **Finding.** Whatever the result: a signature buffer shorter than ten bytes makes the check throw, the exception is dropped
with the task's future, and the result is accepted without any valid signature. -/
theorem short_signatures_accepted (E : Env) (verify : Nat → Bytes → Bytes → Bool) (f : Nat) (data : Bytes) (client seq : Nat)
    (sigsBuf : Bytes) (h : sigsBuf.length < 10) : acceptsResult E verify f data client seq sigsBuf = true := by
  have : deserSigs sigsBuf = .throw := by
    rw [deserSigs, deserLoop, if_pos (by omega)]
  rw [acceptsResult, validateSigs, this]

/-! ## `PreProcessReplyMsg::validate` and reading the signature -/

/-- header fields used by the checks (PreProcessReplyMsg.hpp:70-83); `size` = size of the message -/
structure ReplyHdr where
  size : Nat
  bodySender : Nat
  transportSender : Nat
  status : Status
  replyLength : Nat
  cidLength : Nat

/-- `PreProcessReplyMsg::validate` (PreProcessReplyMsg.cpp:60-93); `hdr` = size of the header -/
def replyValid (hdr me sigLen : Nat) (sigOk : Bool) (m : ReplyHdr) : Bool :=
  !(m.size < hdr || m.size < hdr + m.replyLength) && !(m.bodySender = me) &&
  (match m.status with
   | .good => !(m.size < hdr + sigLen) && sigOk
   | _ => true)

/-- bytes read by `getResultHashSignature` (PreProcessReplyMsg.cpp:95-102), for a reply that is not a rejection -/
def sigReadInBounds (hdr sigLen : Nat) (m : ReplyHdr) : Prop := hdr + sigLen ≤ m.size
/-- bytes read by `getCid` (PreProcessReplyMsg.cpp:181-183) -/
def cidReadInBounds (m : ReplyHdr) : Prop := m.cidLength ≤ m.size

/-- **C19.** Reading the signature of an accepted successful reply stays inside the message. -/
theorem good_reply_sig_in_bounds {hdr me sigLen : Nat} {sigOk : Bool} {m : ReplyHdr} (h : replyValid hdr me sigLen sigOk m = true)
    (hs : m.status = .good) : sigReadInBounds hdr sigLen m ∧ sigOk = true := by
  rw [replyValid, hs] at h
  simp only [Bool.and_eq_true, Bool.not_eq_true', decide_eq_false_iff_not] at h
  refine ⟨?_, h.2.2⟩
  rw [sigReadInBounds]
  omega

/-- **Finding.** A reply with status FAILED is accepted with any signature, also when the message ends before the signature:
reading it leaves the message.  The length of the cid is never checked. -/
theorem failed_reply_oob : ∃ m : ReplyHdr, m.status = .failed ∧ (∀ sigOk, replyValid 100 0 256 sigOk m = true) ∧
    ¬ sigReadInBounds 100 256 m ∧ ¬ cidReadInBounds m :=
  ⟨{ size := 100
     bodySender := 1
     transportSender := 1
     status := .failed
     replyLength := 0
     cidLength := 4000 }, rfl, (by intro b; cases b <;> rfl), (by simp [sigReadInBounds]), (by simp [cidReadInBounds])⟩

end Verif.PreExec
