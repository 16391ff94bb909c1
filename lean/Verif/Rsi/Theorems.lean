import Verif.Rsi.Model

/-!
# C38: replica specific information
-/
set_option linter.unusedSimpArgs false
set_option linter.unusedVariables false
namespace Verif.Rsi
open Verif.Bytes

/-! ## Specification -/

/-- a record made by the application: client, request number, data -/
structure Rec where
  client : Nat
  sn : Nat
  data : Bytes
  deriving DecidableEq, Repr

/-- the records of a client among all records, oldest first -/
def ofClient (h : List Rec) (c : Nat) : List Rec := h.filter fun r => r.client == c

/-- the last `n` elements -/
def lastN {α : Type} (n : Nat) (l : List α) : List α := l.drop (l.length - n)

/-- a process that recorded `h` -/
def run (m : Mgr) (h : List Rec) : Mgr := h.foldl (fun m r => m.set r.client r.sn r.data) m

/-! ## Inside one process -/

theorem snocInd {α : Type} {P : List α → Prop} (h0 : P []) (h1 : ∀ l x, P l → P (l ++ [x])) (l : List α) : P l := by
  rw [← List.reverse_reverse l]
  generalize l.reverse = r
  induction r with
  | nil => exact h0
  | cons x r ih => rw [List.reverse_cons]; exact h1 _ _ ih

theorem lastN_snoc {α : Type} {n : Nat} (hn : 0 < n) (l : List α) (x : α) :
    (if n ≤ (lastN n l).length then (lastN n l).drop 1 else lastN n l) ++ [x] = lastN n (l ++ [x]) := by
  unfold lastN
  rw [List.length_drop, List.length_append, List.length_singleton]
  by_cases h : n ≤ l.length
  · rw [if_pos (by omega), List.drop_drop, List.drop_append_of_le_length (by omega)]
    congr 2
    omega
  · rw [if_neg (by omega), List.drop_append_of_le_length (by omega)]
    congr 2
    omega

/-- the items of records, numbered from `k` -/
def items (k : Nat) : List Rec → List Item
  | [] => []
  | r :: l => ⟨k % 2 ^ 32, r.sn, r.data⟩ :: items (k + 1) l

theorem items_append (k : Nat) (l l' : List Rec) : items k (l ++ l') = items k l ++ items (k + l.length) l' := by
  induction l generalizing k with
  | nil => simp [items]
  | cons r l ih =>
    simp only [List.cons_append, items, List.length_cons]
    rw [ih (k + 1)]
    congr 3
    omega

theorem items_length (k : Nat) (l : List Rec) : (items k l).length = l.length := by
  induction l generalizing k with
  | nil => rfl
  | cons r l ih => simp [items, ih]

theorem ofClient_snoc (h : List Rec) (r : Rec) (c : Nat) :
    ofClient (h ++ [r]) c = if r.client = c then ofClient h c ++ [r] else ofClient h c := by
  unfold ofClient
  rw [List.filter_append]
  by_cases hc : r.client = c
  · rw [if_pos hc, List.filter_cons_of_pos (by simp [hc]), List.filter_nil]
  · rw [if_neg hc, List.filter_cons_of_neg (by simp [hc]), List.filter_nil, List.append_nil]

/-- the invariant of a process that started with nothing -/
theorem run_state {num batch : Nat} (hb : 0 < batch) {store : Nat → Option Bytes} (h : List Rec) :
    (run { num := num, batch := batch, store := store } h).batch = batch ∧
    (run { num := num, batch := batch, store := store } h).num = num ∧
    ∀ c, (run { num := num, batch := batch, store := store } h).next c = (ofClient h c).length ∧
      (run { num := num, batch := batch, store := store } h).cache c = lastN batch (items 0 (ofClient h c)) := by
  generalize hm : ({ num := num, batch := batch, store := store } : Mgr) = m0
  have key : ∀ h : List Rec, (run m0 h).batch = batch ∧ (run m0 h).num = num ∧ ∀ c, (run m0 h).next c = (ofClient h c).length ∧
      (run m0 h).cache c = lastN batch (items 0 (ofClient h c)) := by
    intro h
    refine snocInd (P := fun h => (run m0 h).batch = batch ∧ (run m0 h).num = num ∧ ∀ c, (run m0 h).next c = (ofClient h c).length ∧
      (run m0 h).cache c = lastN batch (items 0 (ofClient h c))) ?_ ?_ h
    · subst hm; exact ⟨rfl, rfl, fun c => ⟨rfl, by simp [run, lastN, ofClient, items]⟩⟩
    · intro h r ih
      obtain ⟨h1, h0, h2⟩ := ih
      have hs : run m0 (h ++ [r]) = (run m0 h).set r.client r.sn r.data := by
        unfold run; rw [List.foldl_append]; rfl
      rw [hs]
      refine ⟨h1, h0, ?_⟩
      intro c
      rw [ofClient_snoc]
      by_cases hc : r.client = c
      · subst hc
        rw [if_pos rfl, List.length_append, List.length_singleton, items_append]
        obtain ⟨h3, h4⟩ := h2 r.client
        refine ⟨?_, ?_⟩
        · show (if r.client = r.client then _ else _) = _
          rw [if_pos rfl, h3]
        · show (if r.client = r.client then _ else _) = _
          rw [if_pos rfl, h1, h4, h3, Nat.zero_add]
          exact lastN_snoc hb _ _
      · rw [if_neg hc]
        refine ⟨?_, ?_⟩
        · show (if c = r.client then _ else _) = _
          rw [if_neg (fun e => hc e.symm)]; exact (h2 c).1
        · show (if c = r.client then _ else _) = _
          rw [if_neg (fun e => hc e.symm)]; exact (h2 c).2
  exact key h

theorem find_items (sn : Nat) : ∀ (k : Nat) (l : List Rec),
    ((items k l).find? fun i => i.sn == sn).map (·.data) = (l.find? fun r => r.sn == sn).map (·.data) := by
  intro k l
  induction l generalizing k with
  | nil => rfl
  | cons r l ih =>
    rw [items]
    by_cases h : r.sn = sn
    · rw [List.find?_cons_of_pos (by simp [h]), List.find?_cons_of_pos (by simp [h])]; rfl
    · rw [List.find?_cons_of_neg (by simp [h]), List.find?_cons_of_neg (by simp [h])]; exact ih _

theorem items_drop (n k : Nat) : ∀ (l : List Rec), (items k l).drop n = items (k + n) (l.drop n) := by
  induction n generalizing k with
  | zero => intro l; rfl
  | succ n ih =>
    intro l
    cases l with
    | nil => simp [items]
    | cons r l => rw [items, List.drop_succ_cons, List.drop_succ_cons, ih]; congr 1; omega

/-- **C38, inside a process.**  The information returned for a request is the one recorded for it, as long as it is
among the last `batch` records of the client (the oldest of several records for one request); for any other request
nothing is returned. -/
theorem rsi_get {num batch : Nat} (hb : 0 < batch) (store : Nat → Option Bytes) (h : List Rec) (c sn : Nat) :
    ((run { num := num, batch := batch, store := store } h).get c sn).data =
      (((lastN batch (ofClient h c)).find? fun r => r.sn == sn).map (·.data)).getD [] := by
  unfold Mgr.get
  rw [((run_state hb h).2.2 c).2]
  unfold lastN
  rw [items_length, items_drop, ← find_items sn (0 + ((ofClient h c).length - batch))]
  cases List.find? (fun i => i.sn == sn) (items (0 + ((ofClient h c).length - batch))
    ((ofClient h c).drop ((ofClient h c).length - batch))) <;> rfl

/-- what a recorded request reads as: the corollary for request numbers that are not repeated -/
theorem rsi_read_back {num batch : Nat} (hb : 0 < batch) (store : Nat → Option Bytes) (h : List Rec) (r : Rec)
    (hm : r ∈ lastN batch (ofClient h r.client)) (hu : ((ofClient h r.client).map (·.sn)).Nodup) :
    ((run { num := num, batch := batch, store := store } h).get r.client r.sn).data = r.data := by
  rw [rsi_get hb]
  have hn : ((lastN batch (ofClient h r.client)).map (·.sn)).Nodup := by
    unfold lastN
    rw [List.map_drop]
    exact hu.sublist (List.drop_sublist _ _)
  generalize lastN batch (ofClient h r.client) = l at hm hn
  induction l with
  | nil => cases hm
  | cons x l ih =>
    rw [List.map_cons, List.nodup_cons] at hn
    rcases List.mem_cons.1 hm with he | hm
    · subst he
      rw [List.find?_cons_of_pos (by simp)]
      rfl
    · have : x.sn ≠ r.sn := fun e => hn.1 (by rw [e]; exact List.mem_map.2 ⟨r, hm, rfl⟩)
      rw [List.find?_cons_of_neg (by simp [this])]
      exact ih hm hn.2

/-! ## On disk -/

/-- **C38, slots.**  Records of different clients, and the records of one client that are kept at the same time, are
stored in different objects. -/
theorem rsi_slots {batch c c' n n' : Nat} (hb : 0 < batch) (hc : c * batch + batch ≤ 2 ^ 32) (hc' : c' * batch + batch ≤ 2 ^ 32)
    (hn : n < 2 ^ 32) (hn' : n' < 2 ^ 32) (h : slot batch c n = slot batch c' n') : c = c' ∧ n % batch = n' % batch := by
  unfold slot at h
  have h1 := Nat.mod_lt n hb
  have h2 := Nat.mod_lt n' hb
  rw [Nat.mod_eq_of_lt (a := c * batch) (by omega), Nat.mod_eq_of_lt (a := c' * batch) (by omega),
    Nat.mod_eq_of_lt hn, Nat.mod_eq_of_lt hn', Nat.mod_eq_of_lt (a := c * batch + n % batch) (by omega),
    Nat.mod_eq_of_lt (a := c' * batch + n' % batch) (by omega)] at h
  have hcc : c = c' := by
    rcases Nat.lt_trichotomy c c' with hlt | he | hlt
    · have : (c + 1) * batch ≤ c' * batch := Nat.mul_le_mul_right _ hlt
      rw [Nat.succ_mul] at this
      omega
    · exact he
    · have : (c' + 1) * batch ≤ c * batch := Nat.mul_le_mul_right _ hlt
      rw [Nat.succ_mul] at this
      omega
  subst hcc
  exact ⟨rfl, by omega⟩

theorem deserialize_serialize {i : Item} (h1 : i.index < 2 ^ 64) (h2 : i.sn < 2 ^ 64) (h3 : i.data.length < 2 ^ 64) :
    deserialize i.serialize = some ({ i with data := [] }, i.data.length) := by
  unfold deserialize Item.serialize
  have e1 : slice (leEncode 8 i.index ++ leEncode 8 i.sn ++ leEncode 8 i.data.length ++ i.data) 0 8 = some (leEncode 8 i.index) :=
    slice_mid (a := []) (b := leEncode 8 i.index) (c := leEncode 8 i.sn ++ leEncode 8 i.data.length ++ i.data)
      (by simp) rfl (by simp)
  have e2 : slice (leEncode 8 i.index ++ leEncode 8 i.sn ++ leEncode 8 i.data.length ++ i.data) 8 8 = some (leEncode 8 i.sn) :=
    slice_mid (a := leEncode 8 i.index) (b := leEncode 8 i.sn) (c := leEncode 8 i.data.length ++ i.data)
      (by simp) (by simp) (by simp)
  have e3 : slice (leEncode 8 i.index ++ leEncode 8 i.sn ++ leEncode 8 i.data.length ++ i.data) 16 8 = some (leEncode 8 i.data.length) :=
    slice_mid (a := leEncode 8 i.index ++ leEncode 8 i.sn) (b := leEncode 8 i.data.length) (c := i.data)
      (by simp) (by simp) (by simp)
  have e4 : slice (leEncode 8 i.index ++ leEncode 8 i.sn ++ leEncode 8 i.data.length ++ i.data) prefixSize i.data.length = some i.data :=
    slice_mid (a := leEncode 8 i.index ++ leEncode 8 i.sn ++ leEncode 8 i.data.length) (b := i.data) (c := [])
      (by simp) (by simp [prefixSize]) rfl
  rw [e1, e2, e3]
  dsimp only
  rw [leDecode_leEncode 8 _ h3, e4, leDecode_leEncode 8 _ h1, leDecode_leEncode 8 _ h2]

/-- every stored record is a serialised item -/
def StoreOk (store : Nat → Option Bytes) : Prop :=
  ∀ x b, store x = some b → ∃ i : Item, i.index < 2 ^ 64 ∧ i.sn < 2 ^ 64 ∧ i.data.length < 2 ^ 64 ∧ b = i.serialize

theorem run_store {m : Mgr} (hs : StoreOk m.store) (h : List Rec) (hr : ∀ r ∈ h, r.sn < 2 ^ 64 ∧ r.data.length < 2 ^ 64) :
    StoreOk (run m h).store := by
  induction h generalizing m with
  | nil => exact hs
  | cons r h ih =>
    show StoreOk (run (m.set r.client r.sn r.data) h).store
    apply ih
    · intro x b hx
      have hx : (if x = slot m.batch r.client (m.next r.client) then some (Item.serialize ⟨m.next r.client % 2 ^ 32, r.sn, r.data⟩)
        else m.store x) = some b := hx
      have hr' := hr r (List.mem_cons_self ..)
      have := Nat.mod_lt (m.next r.client) (show 0 < 2 ^ 32 by decide)
      split at hx
      · cases hx
        exact ⟨⟨m.next r.client % 2 ^ 32, r.sn, r.data⟩, by dsimp only; omega, hr'.1, hr'.2, rfl⟩
      · exact hs x b hx
    · exact fun r' hr' => hr r' (List.mem_cons_of_mem _ hr')

theorem loadClient_nil {store : Nat → Option Bytes} (hs : StoreOk store) (batch client : Nat) (l : List Nat) :
    ∃ w, loadClient store batch client l = some ([], w) := by
  induction l with
  | nil => exact ⟨0, rfl⟩
  | cons o l ih =>
    obtain ⟨w, hw⟩ := ih
    unfold loadClient
    rw [hw]
    dsimp only
    cases hx : store ((client * batch % 2 ^ 32 + o) % 2 ^ 32) with
    | none => exact ⟨w, rfl⟩
    | some b =>
      obtain ⟨i, h1, h2, h3, rfl⟩ := hs _ _ hx
      dsimp only
      rw [deserialize_serialize h1 h2 h3]
      exact ⟨_, rfl⟩

theorem initAll_cache {m : Mgr} (hs : StoreOk m.store) (hc : ∀ x, m.cache x = []) (hn : ∀ x, m.next x = 0) (l : List Nat) :
    ∃ m' w, m.initAll l = some (m', w) ∧ (∀ x, m'.cache x = []) ∧ (∀ x, m'.next x = 0) ∧ m'.store = m.store := by
  induction l generalizing m with
  | nil => exact ⟨m, 0, rfl, hc, hn, rfl⟩
  | cons c l ih =>
    obtain ⟨w, hw⟩ := loadClient_nil hs m.batch c (List.range m.batch)
    unfold Mgr.initAll Mgr.initClient
    rw [hw]
    dsimp only
    obtain ⟨m', w', h1, h2, h3, h4⟩ := ih (m := { m with
        cache := fun x => if x = c then sortByIndex [] else m.cache x
        next := fun x => if x = c then ((sortByIndex []).getLast?.map (·.index)).getD 0 else m.next x }) hs
      (by intro x; dsimp only; split
          · rfl
          · exact hc x)
      (by intro x; dsimp only; split
          · rfl
          · exact hn x)
    exact ⟨m', w + w', by rw [h1], h2, h3, h4⟩

/-- **C38, refuted: a restart loses everything.**  Whatever was recorded, the next process returns nothing for every
client and request, and starts to overwrite the stored records from the first slot on. -/
theorem rsi_restart_loses {num batch : Nat} (h : List Rec) (hr : ∀ r ∈ h, r.sn < 2 ^ 64 ∧ r.data.length < 2 ^ 64) :
    ∃ m w, restart (run { num := num, batch := batch } h) = some (m, w) ∧ (∀ c sn, (m.get c sn).data = []) ∧
      ∀ c, m.next c = 0 := by
  have hs : StoreOk (run { num := num, batch := batch } h).store :=
    run_store (m := { num := num, batch := batch }) (by intro x b hx; cases hx) h hr
  obtain ⟨m, w, h1, h2, h3, _⟩ := initAll_cache
    (m := { num := (run { num := num, batch := batch } h).num, batch := (run { num := num, batch := batch } h).batch,
            store := (run { num := num, batch := batch } h).store }) hs (fun _ => rfl) (fun _ => rfl)
    (List.range (run { num := num, batch := batch } h).num)
  exact ⟨m, w, h1, fun c sn => by unfold Mgr.get; rw [h2 c]; rfl, h3⟩

/-- **C38, refuted: loading a record writes out of bounds.**  Reading a stored record back writes as many bytes as it
has data beyond an empty string. -/
theorem rsi_load_overruns {i : Item} (h1 : i.index < 2 ^ 64) (h2 : i.sn < 2 ^ 64) (h3 : i.data.length < 2 ^ 64)
    (hd : i.data ≠ []) : ∃ j n, deserialize i.serialize = some (j, n) ∧ j.data = [] ∧ 0 < n :=
  ⟨_, _, deserialize_serialize h1 h2 h3, rfl, by
    cases hx : i.data with
    | nil => exact absurd hx hd
    | cons a l => simp⟩

/-! ## Replies -/

/-- **C38, refuted: a resent reply aborts.**  When there is replica specific information for the request, resending
its reply fails an assertion. -/
theorem rsi_resend_aborts (m : Mgr) (client sn : Nat) (common : Bytes) (h : (m.get client sn).data ≠ []) :
    savedReply m client sn common = none := by
  have hp : 0 < (m.get client sn).data.length := by
    cases hx : (m.get client sn).data with
    | nil => exact absurd hx h
    | cons a l => simp
  unfold savedReply
  dsimp only
  rw [if_pos hp]
  unfold Msg.setReplyLen
  rw [if_neg (by dsimp only; omega)]

theorem received_eq {hdr : Bytes} (hh : hdr.length = 28) {a b : Bytes} (hl : a.length + b.length < 2 ^ 32) :
    received hdr ⟨a ++ b, a.length + b.length, b.length⟩ = some (a, b) := by
  unfold received Client.splitReply
  dsimp only
  have e : (a.length + b.length + (2 ^ 32 - b.length)) % 2 ^ 32 = a.length := by omega
  rw [e]
  have e1 : slice (hdr ++ (a ++ b)) (Client.replyHdr + 0) a.length = some a :=
    slice_mid (a := hdr) (b := a) (c := b) (by simp) (by simp [Client.replyHdr, hh]) rfl
  have e2 : slice (hdr ++ (a ++ b)) (Client.replyHdr + 0 + a.length) b.length = some b :=
    slice_mid (a := hdr ++ a) (b := b) (c := []) (by simp) (by simp [Client.replyHdr, hh]) rfl
  rw [e1, e2]

theorem slice_zero_take {b : Bytes} {n : Nat} (h : n ≤ b.length) : slice b 0 n = some (b.take n) :=
  slice_mid (a := []) (b := b.take n) (c := b.drop n) (by simp) rfl (by rw [List.length_take]; omega)

/-- **C38, what works: replies without replica specific information.**  The client gets the reply as it was, for the
first answer and for resent ones. -/
theorem rsi_none_ok {m : Mgr} {client sn : Nat} {buf rest hdr reply : Bytes} (hbuf : buf = reply ++ rest)
    (hspace : Clients.hdrLen + reply.length ≤ buf.length) (hh : hdr.length = 28) (hl : reply.length < 2 ^ 32) :
    ∃ m' r, newReply m client sn buf reply.length 0 = some (m', r) ∧ received hdr r = some (reply, []) ∧
      ∀ (m2 : Mgr), (m2.get client sn).data = [] → ∃ r2, savedReply m2 client sn reply = some r2 ∧
        received hdr r2 = some (reply, []) := by
  have h1 : slice buf 0 (reply.length - 0) = some reply := slice_mid (a := []) (c := rest) (by simp [hbuf]) rfl rfl
  have h2 : slice buf (Clients.hdrLen + (reply.length - 0)) 0 = some [] :=
    slice_mid (a := buf.take (Clients.hdrLen + reply.length)) (b := []) (c := buf.drop (Clients.hdrLen + reply.length))
      (by simp) (by rw [List.length_take]; omega) rfl
  have hrec : received hdr ⟨reply, reply.length, 0⟩ = some (reply, []) := by
    have := received_eq hh (a := reply) (b := []) (by simpa using hl)
    simpa using this
  refine ⟨m.set client sn [], ⟨reply, reply.length, 0⟩, ?_, hrec, ?_⟩
  · unfold newReply
    dsimp only
    rw [h1, h2]
    rfl
  · intro m2 h0
    refine ⟨⟨reply, reply.length, 0⟩, ?_, hrec⟩
    unfold savedReply
    dsimp only
    rw [h0]
    rfl

/-- **C38, refuted: the first reply.**  A reply that ends with replica specific information `info` reaches the client
without it: what the client takes for the information is the end of the common part, and that end is missing from the
data.  (If the information is longer than the common part, the replica aborts.) -/
theorem rsi_first_reply_wrong {m : Mgr} {client sn : Nat} {buf hdr common info rest : Bytes}
    (hbuf : buf = common ++ info ++ rest) (hspace : Clients.hdrLen ≤ rest.length) (hh : hdr.length = 28)
    (hl : common.length < 2 ^ 32) :
    (info.length ≤ common.length → ∃ m' r, newReply m client sn buf (common.length + info.length) info.length = some (m', r) ∧
      received hdr r = some (common.take (common.length - info.length), common.drop (common.length - info.length))) ∧
    (common.length < info.length → newReply m client sn buf (common.length + info.length) info.length = none) := by
  have e : common.length + info.length - info.length = common.length := by omega
  have h1 : slice buf 0 common.length = some common := slice_mid (a := []) (c := info ++ rest) (by simp [hbuf]) rfl rfl
  have hlen : Clients.hdrLen + common.length + info.length ≤ buf.length := by
    rw [hbuf]; simp only [List.length_append]; omega
  have h2 : slice buf (Clients.hdrLen + common.length) info.length =
      some ((buf.drop (Clients.hdrLen + common.length)).take info.length) :=
    slice_mid (a := buf.take (Clients.hdrLen + common.length)) (c := (buf.drop (Clients.hdrLen + common.length)).drop info.length)
      (by rw [List.append_assoc, List.take_append_drop, List.take_append_drop]) (by rw [List.length_take]; omega)
      (by rw [List.length_take, List.length_drop]; omega)
  constructor
  · intro hle
    refine ⟨m.set client sn ((buf.drop (Clients.hdrLen + common.length)).take info.length), ⟨common, common.length, info.length⟩, ?_, ?_⟩
    · unfold newReply
      dsimp only
      rw [e, h1, h2]
      dsimp only
      unfold Msg.setRsiLen
      rw [if_pos hle]
    · have ht : common.take (common.length - info.length) ++ common.drop (common.length - info.length) = common :=
        List.take_append_drop _ _
      have hlt : (common.take (common.length - info.length)).length = common.length - info.length := by
        rw [List.length_take]; omega
      have hld : (common.drop (common.length - info.length)).length = info.length := by rw [List.length_drop]; omega
      have := received_eq hh (a := common.take (common.length - info.length)) (b := common.drop (common.length - info.length))
        (by omega)
      rw [ht, hlt, hld] at this
      have e2 : common.length - info.length + info.length = common.length := by omega
      rw [e2] at this
      exact this
  · intro hlt
    unfold newReply
    dsimp only
    rw [e, h1, h2]
    dsimp only
    unfold Msg.setRsiLen
    rw [if_neg (by dsimp only; omega)]

/-! ## Concrete runs -/

def mgr : Mgr := { num := 8, batch := 2 }
def hist : List Rec := [⟨5, 100, [1, 2]⟩, ⟨6, 50, [9]⟩, ⟨5, 101, [3]⟩, ⟨5, 102, [4, 5, 6]⟩]

/-- the last two records of client 5 are there, the first one has gone -/
example : ((run mgr hist).get 5 102).data = [4, 5, 6] ∧ ((run mgr hist).get 5 101).data = [3] ∧
    ((run mgr hist).get 5 100).data = [] ∧ ((run mgr hist).get 6 50).data = [9] := by decide +kernel

/-- after a restart all is gone, and 5 bytes were written out of bounds on the way -/
example : (restart (run mgr hist)).map (fun x => ((x.1.get 5 102).data, (x.1.get 6 50).data, x.2)) = some ([], [], 5) := by
  decide +kernel

/-- a reply "abcd" with information "xy": the client takes "cd" for it, and the record holds what lies 28 bytes further -/
def buf : Bytes := [97, 98, 99, 100, 120, 121] ++ List.replicate 40 0

example : (newReply mgr 5 7 buf 6 2).map (fun x => (received (List.replicate 28 0) x.2, (x.1.get 5 7).data)) =
    some (some ([97, 98], [99, 100]), [0, 0]) := by decide +kernel

/-- and resending the reply aborts -/
example : (newReply mgr 5 7 buf 6 2).map (fun x => savedReply x.1 5 7 [97, 98, 99, 100]) = some none := by decide +kernel

end Verif.Rsi
