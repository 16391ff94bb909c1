import Verif.Meta.Codec
set_option linter.unusedSimpArgs false
set_option linter.unusedVariables false
/-!
# The stored objects as an encoding of the record
-/
namespace Verif.Meta
open Verif.Bytes

/-- the configurations the theorems are about: the object ids fit (`REPLICA_SPECIFIC_INFO_BASE` and the counter of objects) -/
structure Cfg.Ok (g : Cfg) : Prop where
  ext : g.maxExt < 2 ^ 32
  rsi : g.idRsi ≤ 9996
  objs : max 10000 (g.idRsi + g.numPrinc * g.batch) < 65540
  dbCk : 0 < g.maxDbCk

theorem Cfg.Ok.objs_eq {g : Cfg} (h : g.Ok) : g.objs = max 10000 (g.idRsi + g.numPrinc * g.batch) - 4 := by
  have := h.objs
  unfold Cfg.objs
  rw [Nat.mod_eq_of_lt (by omega)]
  omega

theorem Cfg.Ok.le_objs {g : Cfg} (h : g.Ok) : 9996 ≤ g.objs := by
  rw [h.objs_eq]; omega

/-- the stored objects -/
inductive Key where
  | version | lastExec | primary | lower | lastView | lastStable | seqB | ckB
  | seq (i p : Nat) | ck (i p : Nat)
  | exitS | exitE (i : Nat) | exitC (i : Nat)
  | exec | stable
  | newS | newE (i : Nat)
  | user | rsi (i : Nat) | erase | epoch | dbCk
deriving DecidableEq

def Key.id (g : Cfg) : Key → Nat
  | .version => 2
  | .lastExec => 3
  | .primary => 4
  | .lower => 5
  | .lastView => 6
  | .lastStable => 7
  | .erase => 9
  | .user => 10
  | .epoch => 11
  | .dbCk => 12
  | .seqB => 512
  | .seq i p => 513 + p + i * 6
  | .ckB => 2313
  | .ck i p => 2314 + p + i * 2
  | .exitS => 5320
  | .exitE i => 5321 + i
  | .exitC i => 5621 + i
  | .exec => 5922
  | .stable => 5923
  | .newS => 5924
  | .newE i => 5925 + i
  | .rsi i => g.idRsi + i

def Key.Valid (g : Cfg) : Key → Prop
  | .seq i p => i < 300 ∧ p < 6
  | .ck i p => i < 3 ∧ p < 2
  | .exitE i => i < 300
  | .exitC i => i < 300
  | .newE i => i < g.vcNum
  | .rsi i => i < g.numPrinc * g.batch ∧ g.idRsi + i < g.objs
  | _ => True

/-- the largest size of the object -/
def Key.size (g : Cfg) : Key → Nat
  | .version => 80
  | .lastExec | .primary | .lower | .lastView | .lastStable | .seqB | .ckB => 8
  | .seq _ _ => (inBuf g.maxExt + 1) + (inBuf g.maxFcp + 1) + (inBuf g.maxFull + 1) + (inBuf g.maxFull + 1) + 2
  | .ck _ _ => inBuf (g.maxExt + 1024) + 1 + 1
  | .exitS => g.exitSimple
  | .exitE _ => g.maxElem
  | .exitC _ => g.maxComplaint
  | .exec => maxExec
  | .stable => g.maxStable
  | .newS => g.newSimple
  | .newE _ => g.maxVc
  | .user => 256
  | .rsi _ => 24 + 1024 * 1024
  | .erase | .epoch => 1
  | .dbCk => g.maxDbCk

theorem rsi_base (g : Cfg) : g.idRsi = 5925 + g.vcNum := rfl

theorem Key.id_inj {g : Cfg} {k k' : Key} (h : k.Valid g) (h' : k'.Valid g) (e : k.id g = k'.id g) : k = k' := by
  have hb := rsi_base g
  cases k <;> cases k' <;> simp only [Key.id, Key.Valid, Key.seq.injEq, Key.ck.injEq, Key.exitE.injEq, Key.exitC.injEq, Key.newE.injEq,
    Key.rsi.injEq, reduceCtorEq] at * <;> omega

theorem Key.id_lt {g : Cfg} (hg : g.Ok) {k : Key} (h : k.Valid g) : 2 ≤ k.id g ∧ k.id g < g.objs := by
  have hb := rsi_base g
  have h1 := hg.le_objs
  have h2 := hg.rsi
  cases k <;> simp only [Key.id, Key.Valid] at * <;> omega

theorem ids : idVersion = 2 ∧ idLastExec = 3 ∧ idPrimary = 4 ∧ idLower = 5 ∧ idLastView = 6 ∧ idLastStable = 7 ∧ idErase = 9 ∧ idUser = 10 ∧
    idEpoch = 11 ∧ idDbCk = 12 ∧ idSeq = 512 ∧ idCk = 2313 ∧ idWinEnd = 2320 ∧ idExit = 5320 ∧ idComplaints = 5621 ∧ idExec = 5922 ∧
    idStable = 5923 ∧ idNew = 5924 := by decide

theorem Key.size_eq {g : Cfg} {k : Key} (h : k.Valid g) : g.size (k.id g) = k.size g := by
  obtain ⟨i1, i2, i3, i4, i5, i6, i7, i8, i9, i10, i11, i12, i13, i14, i15, i16, i17, i18⟩ := ids
  have hb := rsi_base g
  obtain ⟨x, hx⟩ : ∃ x, x = k.id g := ⟨_, rfl⟩
  rw [← hx]
  unfold Cfg.size
  rw [i1, i2, i3, i4, i5, i6, i7, i8, i9, i10, i11, i12, i13, i14, i15, i16, i17, i18]
  cases k <;> simp only [Key.id, Key.Valid, Key.size] at *
  all_goals repeat (first | rw [if_pos (by omega)] | rw [if_neg (by omega)])

theorem Key.limit {g : Cfg} (hg : g.Ok) {k : Key} (h : k.Valid g) : g.limit (k.id g) = some (k.size g) := by
  have h1 := Key.id_lt hg h
  unfold Cfg.limit
  rw [if_pos (Or.inr h1), Key.size_eq h]

theorem Key.writable {g : Cfg} (hg : g.Ok) {k : Key} (h : k.Valid g) {v : Bytes} (h1 : 0 < v.length) (h2 : v.length ≤ k.size g) :
    g.writable (k.id g) v = true := by
  unfold Cfg.writable
  rw [Key.limit hg h]
  simp [h1, h2]

/-! ## The encoding -/

/-- the sequence number of the window that starts at `b` and has index `i` -/
def seqAt (b i : Nat) : Nat := b + (i + 300 - b % 300) % 300
/-- the checkpoint of the window that starts at `b` and has index `i` -/
def ckAt (b i : Nat) : Nat := (b / 150 + (i + 3 - b / 150 % 3) % 3) * 150

def slotBytes (s : Spec.Slot) (p : Nat) : Bytes :=
  if p = 0 then serMsg s.prePrepare else if p = 1 then serMsg s.fullCommitProof else if p = 2 then serMsg s.prepareFull
  else if p = 3 then serMsg s.commitFull else if p = 4 then serBool s.forceCompleted else serBool s.slowStarted

def ckBytes (s : Spec.CkSlot) (p : Nat) : Bytes := if p = 0 then serMsg s.msg else serBool s.completed

/-- the bytes of an object (`some none`: absent); `none`: anything -/
def enc (g : Cfg) (m : Spec.Rec) : Key → Option (Option Bytes)
  | .version => some (some versionBytes)
  | .lastExec => some (some (leEncode 8 m.lastExec))
  | .primary => some (some (leEncode 8 m.primary))
  | .lower => some (some (leEncode 8 m.lower))
  | .lastView => some (some (leEncode 8 m.lastView))
  | .lastStable => some (some (leEncode 8 m.lastStable))
  | .seqB => some (some (leEncode 8 (m.lastStable + 1)))
  | .ckB => some (some (leEncode 8 m.lastStable))
  | .seq i p => some (some (slotBytes (m.slot (seqAt (m.lastStable + 1) i)) p))
  | .ck i p => some (some (ckBytes (m.ck (ckAt m.lastStable i)) p))
  | .exitS => some (some (pad g.exitSimple (serExitSimple m.exit)))
  | .exitE i => if i < m.exit.elements.length then some (some (serElem (m.exit.elements.getD i ⟨none, none, false⟩))) else none
  | .exitC i => if i < m.exit.complaints.length then some (some (serMsg (m.exit.complaints.getD i none))) else none
  | .exec => some (some (serExec m.exec))
  | .stable => some (some (serStable m.stable))
  | .newS => some (some (serNewSimple m.newView))
  | .newE i => some (some (serVc m.newView i))
  | .user => some m.user
  | .rsi i => some (m.rsi i)
  | .erase => some (if m.erase then some [1] else none)
  | .epoch => none
  | .dbCk => some m.dbCk

/-- the store holds the record -/
structure Holds (g : Cfg) (d : Db) (m : Spec.Rec) : Prop where
  key : ∀ k, k.Valid g → ∀ v, enc g m k = some v → d (k.id g) = v
  mark : (d 1).isSome = true
  epoch : (d 11 = none ∧ m.epoch = false) ∨ d 11 = some (serBool m.epoch)

structure OkSlot (g : Cfg) (s : Spec.Slot) : Prop where
  pp : OkOpt g g.maxExt s.prePrepare
  fcp : OkOpt g g.maxFcp s.fullCommitProof
  pf : OkOpt g g.maxFull s.prepareFull
  cf : OkOpt g g.maxFull s.commitFull

/-- an optional value of 1 to `n` bytes -/
def OkBytes (n : Nat) (v : Option Bytes) : Prop := ∀ b, v = some b → 0 < b.length ∧ b.length ≤ n

/-- a record of admissible values -/
structure WF (g : Cfg) (m : Spec.Rec) : Prop where
  lastExec : m.lastExec < 2 ^ 63
  primary : m.primary < 2 ^ 63
  lower : m.lower < 2 ^ 63
  lastView : m.lastView < 2 ^ 63
  lastStable : m.lastStable < 2 ^ 63
  aligned : m.lastStable % 150 = 0
  exit : OkExit g m.exit
  newView : OkNew g m.newView
  exec : OkExec m.exec
  stable : OkStable g m.stable
  slot : ∀ n, OkSlot g (m.slot n)
  slotOut : ∀ n, ¬(m.lastStable < n ∧ n ≤ m.lastStable + 300) → m.slot n = Spec.Slot.empty
  ck : ∀ n, OkOpt g (g.maxExt + 1024) (m.ck n).msg
  ckOut : ∀ n, ¬(n % 150 = 0 ∧ m.lastStable ≤ n ∧ n < m.lastStable + 450) → m.ck n = Spec.CkSlot.empty
  user : OkBytes 256 m.user
  rsi : ∀ i, OkBytes (24 + 1024 * 1024) (m.rsi i)
  dbCk : OkBytes g.maxDbCk m.dbCk

theorem seqAt_range (b i : Nat) : b ≤ seqAt b i ∧ seqAt b i < b + 300 := by unfold seqAt; omega
theorem seqAt_mod (b : Nat) {i : Nat} (h : i < 300) : seqAt b i % 300 = i := by unfold seqAt; omega
theorem seqAt_eq {b n : Nat} (h1 : b ≤ n) (h2 : n < b + 300) : seqAt b (n % 300) = n := by unfold seqAt; omega
theorem seqAt_iff {b n i : Nat} (h1 : b ≤ n) (h2 : n < b + 300) (h : i < 300) : seqAt b i = n ↔ i = n % 300 := by
  constructor
  · rintro rfl; rw [seqAt_mod b h]
  · rintro rfl; exact seqAt_eq h1 h2

theorem ckAt_range {b : Nat} (h : b % 150 = 0) (i : Nat) : b ≤ ckAt b i ∧ ckAt b i < b + 450 ∧ ckAt b i % 150 = 0 := by unfold ckAt; omega
theorem ckAt_mod (b : Nat) {i : Nat} (h : i < 3) : ckAt b i / 150 % 3 = i := by unfold ckAt; omega
theorem ckAt_eq {b n : Nat} (h0 : b % 150 = 0) (h3 : n % 150 = 0) (h1 : b ≤ n) (h2 : n < b + 450) : ckAt b (n / 150 % 3) = n := by
  unfold ckAt; omega
theorem ckAt_iff {b n i : Nat} (h0 : b % 150 = 0) (h3 : n % 150 = 0) (h1 : b ≤ n) (h2 : n < b + 450) (h : i < 3) :
    ckAt b i = n ↔ i = n / 150 % 3 := by
  constructor
  · rintro rfl; rw [ckAt_mod b h]
  · rintro rfl; exact ckAt_eq h0 h3 h1 h2

/-! ## Writes -/

def Db.putAll (d : Db) (ws : List (Nat × Bytes)) : Db := ws.foldl (fun d w => d.put w.1 w.2) d

theorem over_put (d b : Db) (id : Nat) (v : Bytes) : d.over (b.put id v) = (d.over b).put id v := by
  funext i
  unfold Db.over Db.put
  by_cases h : i = id
  · simp [h]
  · simp [h]

theorem over_putAll (d : Db) : ∀ (ws : List (Nat × Bytes)) (b : Db), d.over (b.putAll ws) = (d.over b).putAll ws
  | [], _ => rfl
  | w :: ws, b => by
    show d.over ((b.put w.1 w.2).putAll ws) = ((d.over b).put w.1 w.2).putAll ws
    rw [over_putAll d ws, over_put]

theorem putAll_append (d : Db) (a b : List (Nat × Bytes)) : d.putAll (a ++ b) = (d.putAll a).putAll b := by
  unfold Db.putAll; rw [List.foldl_append]

/-- the writes to one id -/
theorem putAll_at {id : Nat} {v : Option Bytes} : ∀ (ws : List (Nat × Bytes)) (d : Db), (∀ w ∈ ws, w.1 = id → some w.2 = v) →
    ((∃ w ∈ ws, w.1 = id) ∨ d id = v) → d.putAll ws id = v
  | [], d, _, h => by
    cases h with
    | inl h => obtain ⟨w, hw, _⟩ := h; cases hw
    | inr h => exact h
  | w :: ws, d, h1, h2 => by
    show (d.put w.1 w.2).putAll ws id = v
    refine putAll_at ws _ (fun w hw => h1 w (by simp [hw])) ?_
    by_cases e : w.1 = id
    · right
      unfold Db.put; rw [if_pos e.symm]; exact h1 w (by simp) e
    · cases h2 with
      | inl h2 =>
        obtain ⟨x, hx, hxe⟩ := h2
        cases List.mem_cons.1 hx with
        | inl hx => subst hx; exact absurd hxe e
        | inr hx => exact Or.inl ⟨x, hx, hxe⟩
      | inr h2 =>
        right
        unfold Db.put; rw [if_neg (fun x => e x.symm)]; exact h2

theorem putAll_ne {id : Nat} (ws : List (Nat × Bytes)) (d : Db) (h : ∀ w ∈ ws, w.1 ≠ id) : d.putAll ws id = d id :=
  putAll_at ws d (fun w hw e => absurd e (h w hw)) (Or.inr rfl)

/-- a write of keys -/
structure KW (g : Cfg) (k : Key) (w : Nat × Bytes) : Prop where
  valid : k.Valid g
  id : w.1 = k.id g
  pos : 0 < w.2.length
  max : w.2.length ≤ k.size g

theorem St.wrAll_eq {g : Cfg} (hg : g.Ok) : ∀ (ws : List (Nat × Bytes)) (s : St) (b : Db), s.bat = some b → (∀ w ∈ ws, ∃ k, KW g k w) →
    s.wrAll g ws = some { s with bat := some (b.putAll ws) }
  | [], s, b, hb, _ => by
    show some s = _
    congr 1
    cases s; cases hb; rfl
  | w :: ws, s, b, hb, h => by
    obtain ⟨k, hk⟩ := h w (by simp)
    have hw : s.wr g w.1 w.2 = some { s with bat := some (b.put w.1 w.2) } := by
      unfold St.wr
      rw [hk.id, if_pos (Key.writable hg hk.valid hk.pos hk.max), hb]
    show (s.wr g w.1 w.2).bind (fun s => s.wrAll g ws) = _
    rw [hw, Option.bind_some, St.wrAll_eq hg ws _ (b.put w.1 w.2) rfl (fun x hx => h x (by simp [hx]))]
    rfl

/-- a list of writes brings the store from one record to another -/
theorem Holds.putAll {g : Cfg} (hg : g.Ok) {d : Db} {m m' : Spec.Rec} {ws : List (Nat × Bytes)} (h : Holds g d m)
    (hk : ∀ w ∈ ws, ∃ k, KW g k w ∧ enc g m' k = some (some w.2))
    (hr : ∀ k, k.Valid g → ∀ v, enc g m' k = some v → (∃ w ∈ ws, w.1 = k.id g) ∨ enc g m k = some v)
    (he : m'.epoch = m.epoch) : Holds g (d.putAll ws) m' := by
  constructor
  · intro k hv v hvv
    refine putAll_at ws d ?_ ?_
    · intro w hw e
      obtain ⟨k', hk', he'⟩ := hk w hw
      have : k' = k := Key.id_inj hk'.valid hv (by rw [← hk'.id, e])
      subst this
      rw [he'] at hvv
      exact Option.some.inj hvv
    · cases hr k hv v hvv with
      | inl x => exact Or.inl x
      | inr x => exact Or.inr (h.key k hv v x)
  · rw [putAll_ne]
    · exact h.mark
    · intro w hw e
      obtain ⟨k', hk', _⟩ := hk w hw
      have := (Key.id_lt hg hk'.valid).1
      rw [hk'.id] at e; omega
  · rw [putAll_ne, he]
    · exact h.epoch
    · intro w hw e
      obtain ⟨k', hk', he'⟩ := hk w hw
      have : k' = Key.epoch := Key.id_inj hk'.valid trivial (by rw [← hk'.id, e]; rfl)
      subst this
      cases he'

end Verif.Meta
