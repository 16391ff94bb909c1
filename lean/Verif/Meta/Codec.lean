import Verif.Meta.Spec
set_option linter.unusedSimpArgs false
set_option linter.unusedVariables false
/-!
# Encoding and decoding of the stored objects
-/
namespace Verif.Meta
open Verif.Bytes

theorem slice_app (a b : Bytes) : slice (a ++ b) 0 a.length = some a := by
  unfold slice; simp

theorem slice_app' {a b : Bytes} {k : Nat} (h : k = a.length) : slice (a ++ b) 0 k = some a := by subst h; exact slice_app a b

theorem deNat_app {k n : Nat} (r : Bytes) (h : n < 256 ^ k) : deNat k (leEncode k n ++ r) = some (n, r) := by
  unfold deNat
  rw [slice_app' (by simp)]
  simp [leDecode_leEncode k n h, List.drop_append]

theorem deBool_app (b : Bool) (r : Bytes) : deBool (serBool b ++ r) = some (b, r) := by
  cases b <;> rfl

theorem serBool_length (b : Bool) : (serBool b).length = 1 := by cases b <;> rfl

/-- a message object of at most `n` bytes -/
structure Msg.Ok (g : Cfg) (n : Nat) (m : Msg) : Prop where
  sender : m.sender < 65536
  pos : 0 < m.body.length
  ext : m.body.length ≤ g.maxExt
  max : m.body.length ≤ n

/-- nothing, or a message object of at most `n` bytes -/
def OkOpt (g : Cfg) (n : Nat) (m : Option Msg) : Prop := ∀ x, m = some x → x.Ok g n

theorem okOpt_none (g : Cfg) (n : Nat) : OkOpt g n none := by intro x h; cases h

theorem serMsg_some_length (m : Msg) : (serMsg (some m)).length = 11 + m.body.length := by
  simp [serMsg]; omega

theorem serMsg_pos (m : Option Msg) : 0 < (serMsg m).length := by
  cases m with
  | none => simp [serMsg]
  | some m => rw [serMsg_some_length]; omega

theorem serMsg_le {g : Cfg} {n : Nat} {m : Option Msg} (h : OkOpt g n m) : (serMsg m).length ≤ inBuf n + 1 := by
  cases m with
  | none => simp [serMsg, inBuf]
  | some m => rw [serMsg_some_length]; have := (h m rfl).max; unfold inBuf; omega

theorem deMsg_app {g : Cfg} (hg : g.maxExt < 2 ^ 32) {n bufLen : Nat} {m : Option Msg} (h : OkOpt g n m) (r : Bytes)
    (hb : (serMsg m).length ≤ bufLen) : deMsg g bufLen (serMsg m ++ r) = some (m, r) := by
  cases m with
  | none => simp [serMsg, deMsg]
  | some m =>
    obtain ⟨hs, hp, he, hm⟩ := h m rfl
    rw [serMsg_some_length] at hb
    have e1 : slice (leEncode 4 magic ++ leEncode 4 m.body.length ++ leEncode 2 m.sender ++ m.body ++ r) 0 4 = some (leEncode 4 magic) :=
      slice_mid (a := []) (b := leEncode 4 magic) (c := leEncode 4 m.body.length ++ leEncode 2 m.sender ++ m.body ++ r) (by simp) rfl (by simp)
    have e2 : slice (leEncode 4 magic ++ leEncode 4 m.body.length ++ leEncode 2 m.sender ++ m.body ++ r) 4 4 = some (leEncode 4 m.body.length) :=
      slice_mid (a := leEncode 4 magic) (c := leEncode 2 m.sender ++ m.body ++ r) (by simp) (by simp) (by simp)
    have e3 : slice (leEncode 4 magic ++ leEncode 4 m.body.length ++ leEncode 2 m.sender ++ m.body ++ r) 8 2 = some (leEncode 2 m.sender) :=
      slice_mid (a := leEncode 4 magic ++ leEncode 4 m.body.length) (c := m.body ++ r) (by simp) (by simp) (by simp)
    have e4 : slice (leEncode 4 magic ++ leEncode 4 m.body.length ++ leEncode 2 m.sender ++ m.body ++ r) 10 m.body.length = some m.body :=
      slice_mid (a := leEncode 4 magic ++ leEncode 4 m.body.length ++ leEncode 2 m.sender) (c := r) (by simp) (by simp) rfl
    have d1 : leDecode (leEncode 4 magic) = magic := leDecode_leEncode 4 magic (by decide)
    have d2 : leDecode (leEncode 4 m.body.length) = m.body.length := leDecode_leEncode 4 _ (by
      have : (256 : Nat) ^ 4 = 2 ^ 32 := by decide
      omega)
    have d3 : leDecode (leEncode 2 m.sender) = m.sender := leDecode_leEncode 2 _ (by
      have : (256 : Nat) ^ 2 = 65536 := by decide
      omega)
    have e5 : (leEncode 4 magic ++ leEncode 4 m.body.length ++ leEncode 2 m.sender ++ m.body ++ r).drop (10 + m.body.length) = r := by
      have : 10 + m.body.length = (leEncode 4 magic ++ leEncode 4 m.body.length ++ leEncode 2 m.sender ++ m.body).length := by simp; omega
      rw [this, List.drop_left]
    have key : deObj g bufLen (leEncode 4 magic ++ leEncode 4 m.body.length ++ leEncode 2 m.sender ++ m.body ++ r) = some (m, r) := by
      unfold deObj
      rw [if_neg (by omega), e1, e2, e3]
      dsimp only
      rw [d1, d2, if_pos ⟨rfl, by omega, he, by omega⟩, e4]
      dsimp only
      rw [d3, e5]
    show deMsg g bufLen (1 :: (leEncode 4 magic ++ leEncode 4 m.body.length ++ leEncode 2 m.sender ++ m.body ++ r)) = _
    unfold deMsg
    dsimp only
    rw [if_neg (by decide), key]
    rfl

theorem serElem_pos (e : PrevView) : 0 < (serElem e).length := by
  unfold serElem; have := serMsg_pos e.prePrepare; simp only [List.length_append]; omega

/-- a well-formed element of the previous view -/
def OkElem (g : Cfg) (e : PrevView) : Prop := OkOpt g g.maxExt e.prePrepare ∧ OkOpt g g.maxFull e.prepareFull

theorem serElem_le {g : Cfg} {e : PrevView} (h : OkElem g e) : (serElem e).length ≤ g.maxElem := by
  have h1 := serMsg_le h.1
  have h2 := serMsg_le h.2
  have h3 := serBool_length e.hasAll
  unfold serElem Cfg.maxElem
  simp only [List.length_append]; omega

theorem deElem_app {g : Cfg} (hg : g.maxExt < 2 ^ 32) {e : PrevView} (h : OkElem g e) (r : Bytes) :
    deElem g (serElem e).length (serElem e ++ r) = some e := by
  have e0 : serElem e ++ r = serMsg e.prePrepare ++ (serMsg e.prepareFull ++ (serBool e.hasAll ++ r)) := by simp [serElem]
  unfold deElem
  rw [e0, deMsg_app hg h.1 _ (by simp only [serElem, List.length_append]; omega)]
  simp only [Option.bind_some]
  rw [deMsg_app hg h.2 _ (by simp only [serElem, List.length_append]; omega)]
  simp only [Option.bind_some, deBool_app, Option.map_some]

/-- a well-formed bitmap -/
structure Bits.Ok (b : Bits) : Prop where
  n : b.n ≤ 4096
  len : b.data.length = (b.n + 7) / 8

theorem deBits_app {b : Bits} (h : b.Ok) (r : Bytes) : deBits (maxExec - 16) (leEncode 4 b.n ++ (b.data ++ r)) = some (b, r) := by
  have hn := h.n
  have hM : maxExec - 16 = 516 := by decide
  have hl := h.len
  unfold deBits
  rw [if_neg (by rw [hM]; decide), deNat_app _ (by have : (256 : Nat) ^ 4 = 4294967296 := by decide
                                                   omega)]
  simp only [Option.bind_some]
  rw [if_neg (by rw [hM]; omega), slice_app' hl.symm, ← hl, List.drop_left]
  rfl

def OkExec (d : ExecDesc) : Prop := d.seq < 2 ^ 63 ∧ d.bits.Ok ∧ d.ticks < 2 ^ 64

theorem serExec_length {d : ExecDesc} (h : OkExec d) : 0 < (serExec d).length ∧ (serExec d).length ≤ maxExec := by
  have hl := h.2.1.len
  have hn := h.2.1.n
  have hM : maxExec = 532 := by decide
  unfold serExec
  simp only [List.length_append, leEncode_length, hM]
  omega

theorem pow8 : (256 : Nat) ^ 8 = 2 ^ 64 := by decide

theorem deExec_app {d : ExecDesc} (h : OkExec d) (r : Bytes) :
    ((deNat 8 (serExec d ++ r)).bind fun a => (deBits (maxExec - 16) a.2).bind fun b => (deNat 8 b.2).map fun c => (⟨a.1, b.1, c.1⟩ : ExecDesc)) = some d := by
  obtain ⟨h1, h2, h3⟩ := h
  have e0 : serExec d ++ r = leEncode 8 d.seq ++ (leEncode 4 d.bits.n ++ (d.bits.data ++ (leEncode 8 d.ticks ++ r))) := by simp [serExec]
  rw [e0, deNat_app _ (by rw [pow8]; omega)]
  simp only [Option.bind_some]
  rw [deBits_app h2]
  simp only [Option.bind_some]
  rw [deNat_app _ (by rw [pow8]; omega)]
  rfl

def OkStable (g : Cfg) (l : List (Option Msg)) : Prop :=
  (l.length < 65536 ∧ l.length ≤ g.numReplicas) ∧ ∀ m ∈ l, OkOpt g (g.maxExt + 1024) m

theorem serMsg_ext {g : Cfg} {n : Nat} {m : Option Msg} (h : OkOpt g n m) : (serMsg m).length ≤ inBuf (g.maxExt + 1024) := by
  cases m with
  | none => simp [serMsg, inBuf]
  | some m => rw [serMsg_some_length]; have := (h m rfl).ext; unfold inBuf; omega

theorem serMsgs_le {g : Cfg} {n : Nat} : ∀ {l : List (Option Msg)}, (∀ m ∈ l, OkOpt g n m) →
    ((l.map serMsg).flatten).length ≤ inBuf (g.maxExt + 1024) * l.length
  | [], _ => by simp
  | m :: l, h => by
    have h1 := serMsgs_le (l := l) (fun x hx => h x (by simp [hx]))
    have h2 := serMsg_ext (h m (by simp))
    simp only [List.map_cons, List.flatten_cons, List.length_append, List.length_cons, Nat.mul_add, Nat.mul_one]
    omega

theorem serStable_le {g : Cfg} {l : List (Option Msg)} (h : OkStable g l) : (serStable l).length ≤ g.maxStable := by
  have h1 := serMsgs_le h.2
  have h2 := Nat.mul_le_mul_left (inBuf (g.maxExt + 1024)) h.1.2
  unfold serStable Cfg.maxStable
  simp only [List.length_append, leEncode_length]
  omega

theorem deMsgs_app {g : Cfg} (hg : g.maxExt < 2 ^ 32) {n : Nat} : ∀ (l : List (Option Msg)) (r : Bytes),
    (∀ m ∈ l, OkOpt g (g.maxExt + 1024) m) → (∀ m ∈ l, (serMsg m).length ≤ n) → deMsgs g n l.length ((l.map serMsg).flatten ++ r) = some l
  | [], r, _, _ => rfl
  | m :: l, r, h, hl => by
    have e0 : ((m :: l).map serMsg).flatten ++ r = serMsg m ++ ((l.map serMsg).flatten ++ r) := by simp
    show (deMsg g n (((m :: l).map serMsg).flatten ++ r)).bind (fun a => (deMsgs g n l.length a.2).map (a.1 :: ·)) = _
    rw [e0, deMsg_app hg (h m (by simp)) _ (hl m (by simp))]
    simp only [Option.bind_some]
    rw [deMsgs_app hg l r (fun m hm => h m (by simp [hm])) (fun m hm => hl m (by simp [hm]))]
    rfl

theorem mem_flatten_le {n : Nat} {m : Option Msg} : ∀ {l : List (Option Msg)}, ((l.map serMsg).flatten).length ≤ n → m ∈ l → (serMsg m).length ≤ n
  | x :: l, h, hm => by
    simp only [List.map_cons, List.flatten_cons, List.length_append] at h
    cases List.mem_cons.1 hm with
    | inl e => subst e; omega
    | inr hm => exact mem_flatten_le (l := l) (by omega) hm

theorem deStable_app {g : Cfg} (hg : g.maxExt < 2 ^ 32) {l : List (Option Msg)} (h : OkStable g l) (r : Bytes) :
    ((deNat 2 (serStable l ++ r)).bind fun a => deMsgs g g.maxStable a.1 a.2) = some l := by
  have h3 := serStable_le h
  obtain ⟨⟨h1, h1'⟩, h2⟩ := h
  have e0 : serStable l ++ r = leEncode 2 l.length ++ ((l.map serMsg).flatten ++ r) := by simp [serStable]
  rw [e0, deNat_app _ (by have : (256 : Nat) ^ 2 = 65536 := by decide
                          omega)]
  simp only [Option.bind_some]
  apply deMsgs_app hg _ _ h2
  intro m hm
  refine mem_flatten_le ?_ hm
  simp only [serStable, List.length_append] at h3
  omega

structure OkExit (g : Cfg) (d : ExitDesc) : Prop where
  view : d.view < 2 ^ 63
  ls : d.lastStable < 2 ^ 63
  le : d.lastExecuted < 2 ^ 63
  lower : d.lower < 2 ^ 63
  vc : OkOpt g (g.maxExt + 1024) d.myVc
  n : d.elements.length ≤ 300
  k : d.complaints.length ≤ 300
  els : ∀ e ∈ d.elements, OkElem g e
  cs : ∀ m ∈ d.complaints, OkOpt g (g.maxExt + 1024) m

structure OkNew (g : Cfg) (d : NewDesc) : Prop where
  view : d.view < 2 ^ 63
  ms : d.maxSeq < 2 ^ 63
  lower : d.lower < 2 ^ 63
  nv : OkOpt g (g.maxExt + 1024) d.newView
  vc : OkOpt g (g.maxExt + 1024) d.myVc
  n : d.vcs.length = g.vcNum
  vcs : ∀ m ∈ d.vcs, OkOpt g (g.maxExt + 1024) m

theorem serExitSimple_le {g : Cfg} {d : ExitDesc} (h : OkExit g d) : (serExitSimple d).length ≤ g.exitSimple := by
  have h1 := serMsg_le h.vc
  have h3 := serBool_length d.isDefault
  unfold serExitSimple Cfg.exitSimple
  simp only [List.length_append, leEncode_length]; omega

theorem pad_length {n : Nat} {b : Bytes} (h : b.length ≤ n) : (pad n b).length = n := by unfold pad; simp; omega

theorem serNewSimple_le {g : Cfg} {d : NewDesc} (h : OkNew g d) : 0 < (serNewSimple d).length ∧ (serNewSimple d).length ≤ g.newSimple := by
  have h1 := serMsg_le h.vc
  have h2 := serMsg_le h.nv
  have h3 := serBool_length d.isDefault
  unfold serNewSimple Cfg.newSimple
  simp only [List.length_append, leEncode_length]; omega

theorem serStable_pos (l : List (Option Msg)) : 0 < (serStable l).length := by
  unfold serStable; simp only [List.length_append, leEncode_length]; omega

end Verif.Meta
