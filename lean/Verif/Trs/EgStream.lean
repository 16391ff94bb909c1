import Verif.Trs.EgRead
set_option linter.unusedVariables false
set_option linter.unusedSimpArgs false
/-!
# Event groups: from stored to live (C32)

thin-replica-server/include/thin-replica-server/thin_replica_impl.hpp:522-572, 1006-1114.  The subscriber's thread is sequential and
takes what is published from a FIFO queue (`Verif.Trs.Buffer`), so what it sends is a function of the published event groups: here
`Q` is the list of the published global ids, and `S` the storage.  When the thread waits forever the model ends with what was sent.
`filterEventGroupUpdate` returns nothing exactly for the event groups the client may not see.  Not modelled: cancellation, a closed
stream, the queue overflowing.
-/
namespace Verif.Trs

/-- filling the gap (thin_replica_impl.hpp:1082-1111): event groups `next`, …, `next + n - 1` from storage; `ext` is the next external
id to hand out, `last` what `setLastEgIdsRead` remembers -/
def fill (S : Snap) : Nat → Nat → Nat → Nat × Nat → Res (List (Nat × Nat) × (Nat × Nat))
  | 0, _, _, last => .ok ([], last)
  | n + 1, next, ext, last =>
    if S.stored next = false then .throw
    else if atB isRel S.G next = false then fill S n (next + 1) ext last
    else match fill S n (next + 1) (ext + 1) (ext, next) with
      | .ok (l, last) => .ok ((ext, next) :: l, last)
      | .abort => .abort
      | .throw => .throw

/-- the live loop (thin_replica_impl.hpp:524-570) -/
def live (S : Snap) : Nat × Nat → List Nat → Res (List (Nat × Nat))
  | _, [] => .ok []
  | last, q :: Q =>
    if ¬ q > last.2 then .abort
    else if atB isRel S.G q = false then live S last Q
    else match live S (last.1 + 1, q) Q with
      | .ok l => .ok ((last.1 + 1, q) :: l)
      | .abort => .abort
      | .throw => .throw

/-- `syncAndSendEventGroups` after the reading from storage (thin_replica_impl.hpp:1036-1113), then the live loop.  `endExt`: the newest
external id read *before* the reading from storage (1015); `last`: the ids of the last event group read from storage. -/
def sync (S : Snap) (endExt : Nat) (last : Nat × Nat) : Nat → List Nat → Res (List (Nat × Nat))
  | _, [] => .ok []
  | next, q :: Q =>
    if q < next then sync S endExt last next Q
    else if q = next then
      if atB isRel S.G q = false then sync S endExt last (next + 1) Q
      else live S last (q :: Q)
    else match fill S (q - next) next (endExt + 1) last with
      | .abort => .abort
      | .throw => .throw
      | .ok (l, last) => match live S last (q :: Q) with
        | .ok l' => .ok (l ++ l')
        | .abort => .abort
        | .throw => .throw

/-- the whole stream after the stored part -/
def afterStored (S : Snap) (endExt : Nat) (last : Nat × Nat) (Q : List Nat) : Res (List (Nat × Nat)) :=
  sync S endExt last (last.2 + 1) Q

/-! ## Specification -/

/-- the client's event groups among the `n` global ones from `lo`, each with its external id -/
def due (G : List Kind) (lo n : Nat) : List (Nat × Nat) :=
  ((List.range' lo n).filter (atB isRel G)).map (fun g => (cnt isRel G g, g))

theorem due_zero (G : List Kind) (lo : Nat) : due G lo 0 = [] := rfl

theorem due_succ (G : List Kind) (lo n : Nat) : due G lo (n + 1) =
    if atB isRel G lo = false then due G (lo + 1) n else (cnt isRel G lo, lo) :: due G (lo + 1) n := by
  rw [due, due, List.range'_succ]
  cases h : atB isRel G lo <;> simp [h]

theorem due_append (G : List Kind) : ∀ (m lo n : Nat), due G lo (m + n) = due G lo m ++ due G (lo + m) n := by
  intro m lo n
  rw [due, due, due, ← List.map_append, ← List.filter_append]
  congr 2
  rw [← List.range'_append]
  simp

theorem cnt_not_at {p : Kind → Bool} {G : List Kind} {g : Nat} (h1 : 1 ≤ g) (h : atB p G g = false) : cnt p G g = cnt p G (g - 1) := by
  have e : g = (g - 1) + 1 := by omega
  rw [e, cnt_succ, Nat.add_sub_cancel]
  rw [atB] at h
  cases hx : G[g - 1]? with
  | none => simp
  | some x =>
    rw [hx] at h
    simp [h1] at h
    simp [h]

theorem cnt_at' {p : Kind → Bool} {G : List Kind} {g : Nat} (h : ¬ atB p G g = false) : cnt p G g = cnt p G (g - 1) + 1 :=
  cnt_at (atB_iff.1 (by cases hh : atB p G g; · exact absurd hh h
                        · rfl))

theorem live_due {S : Snap} : ∀ (n b : Nat) (last : Nat × Nat), last.2 < b → last.1 = cnt isRel S.G (b - 1) →
    live S last (List.range' b n) = .ok (due S.G b n) := by
  intro n
  induction n with
  | zero => intro b last h1 h2; rfl
  | succ n ih =>
    intro b last h1 h2
    rw [List.range'_succ, live, if_neg (by omega), due_succ]
    by_cases hr : atB isRel S.G b = false
    · rw [if_pos hr, if_pos hr]
      refine ih (b + 1) last (by omega) ?_
      rw [Nat.add_sub_cancel, h2, cnt_not_at (by omega) hr]
    · rw [if_neg hr, if_neg hr]
      have hc := cnt_at' hr
      rw [ih (b + 1) (last.1 + 1, b) (by dsimp only; omega) (by dsimp only; rw [Nat.add_sub_cancel]; omega)]
      dsimp only
      rw [h2, hc]

theorem fill_due {S : Snap} : ∀ (n next ext : Nat) (last : Nat × Nat), S.pruned < next → next + n ≤ S.G.length + 1 → last.2 < next →
    last.1 = cnt isRel S.G (next - 1) → ext = last.1 + 1 →
    ∃ l', fill S n next ext last = .ok (due S.G next n, l') ∧ l'.2 < next + n ∧ l'.1 = cnt isRel S.G (next + n - 1) := by
  intro n
  induction n with
  | zero => intro next ext last h1 h2 h3 h4 h5; exact ⟨last, rfl, by omega, h4⟩
  | succ n ih =>
    intro next ext last h1 h2 h3 h4 h5
    have hst : S.stored next = true := by
      rw [Snap.stored]
      simp [h1]
      omega
    rw [fill, if_neg (by rw [hst]; decide), due_succ, show next + (n + 1) = next + 1 + n by omega]
    by_cases hr : atB isRel S.G next = false
    · rw [if_pos hr, if_pos hr]
      exact ih (next + 1) ext last (by omega) (by omega) (by omega) (by rw [Nat.add_sub_cancel, h4, cnt_not_at (by omega) hr]) h5
    · rw [if_neg hr, if_neg hr]
      have hc := cnt_at' hr
      obtain ⟨l', k1, k2, k3⟩ := ih (next + 1) (ext + 1) (ext, next) (by omega) (by omega) (by dsimp only; omega)
        (by dsimp only; rw [Nat.add_sub_cancel]; omega) rfl
      refine ⟨l', ?_, k2, k3⟩
      rw [k1]
      dsimp only
      rw [h5, h4, hc]

theorem sync_due {S : Snap} {endExt : Nat} {last : Nat × Nat} (he : endExt = last.1) : ∀ (n a next : Nat), last.2 < next → S.pruned < next →
    a + n ≤ S.G.length + 1 → last.1 = cnt isRel S.G (next - 1) →
    sync S endExt last next (List.range' a n) = .ok (due S.G next (a + n - next)) ∨ n = 0 := by
  intro n
  induction n with
  | zero => intro a next _ _ _ _; exact Or.inr rfl
  | succ n ih =>
    intro a next h1 h2 h3 h4
    left
    have hnil : ∀ m, sync S endExt last m (List.range' (a + 1) 0) = .ok [] := fun m => rfl
    rw [List.range'_succ, sync]
    by_cases ha : a < next
    · rw [if_pos ha]
      rcases ih (a + 1) next h1 h2 (by omega) h4 with h | h
      · rw [h, show a + 1 + n = a + (n + 1) by omega]
      · subst h
        rw [hnil, show a + (0 + 1) - next = 0 by omega]; rfl
    · rw [if_neg ha]
      by_cases hq : a = next
      · rw [if_pos hq]
        subst hq
        rw [show a + (n + 1) - a = n + 1 by omega]
        by_cases hr : atB isRel S.G a = false
        · rw [if_pos hr, due_succ, if_pos hr]
          rcases ih (a + 1) (a + 1) (by omega) (by omega) (by omega) (by rw [Nat.add_sub_cancel, h4, cnt_not_at (by omega) hr]) with h | h
          · rw [h, show a + 1 + n - (a + 1) = n by omega]
          · subst h
            rw [hnil]; rfl
        · rw [if_neg hr, ← List.range'_succ]
          exact live_due (n + 1) a last h1 h4
      · rw [if_neg hq]
        obtain ⟨l', k1, k2, k3⟩ := fill_due (S := S) (a - next) next (endExt + 1) last h2 (by omega) h1 h4 (by omega)
        rw [k1]
        dsimp only
        rw [show next + (a - next) = a by omega] at k2 k3
        rw [← List.range'_succ, live_due (n + 1) a l' k2 k3]
        dsimp only
        rw [show a + (n + 1) - next = (a - next) + (n + 1) by omega, due_append S.G (a - next) next (n + 1), show next + (a - next) = a by omega]

/-- **C32.** After the stored part, which ended with the client's event group `last` (external and global id), the subscriber gets
every later event group it may see up to the last published one, once, in order and with its own external id; nothing aborts.  This
holds for any gap between the stored part and the first published event group, and for any overlap, if the storage was not pruned
past `last` and the newest external id read at the beginning is that of `last`. -/
theorem afterStored_exact {S : Snap} {last : Nat × Nat} {a n : Nat} (hl : extGlobal S.G last.1 = some last.2) (hp : S.pruned ≤ last.2)
    (hpub : a + n ≤ S.G.length + 1) (hn : 0 < n) :
    afterStored S last.1 last (List.range' a n) = .ok (due S.G (last.2 + 1) (a + n - (last.2 + 1))) := by
  rcases sync_due (S := S) (endExt := last.1) (last := last) rfl n a (last.2 + 1) (by omega) (by omega) hpub
    (by rw [Nat.add_sub_cancel]; exact (nth_iff.1 hl).2.symm) with h | h
  · exact h
  · omega

theorem mem_due {G : List Kind} {lo n : Nat} {x : Nat × Nat} : x ∈ due G lo n ↔ lo ≤ x.2 ∧ x.2 < lo + n ∧ extGlobal G x.1 = some x.2 := by
  rw [due, List.mem_map, extGlobal, nth_iff]
  constructor
  · rintro ⟨g, h1, rfl⟩
    rw [List.mem_filter, List.mem_range'_1] at h1
    exact ⟨h1.1.1, h1.1.2, atB_iff.1 h1.2, rfl⟩
  · rintro ⟨h1, h2, h3, h4⟩
    exact ⟨x.2, List.mem_filter.2 ⟨List.mem_range'_1.2 ⟨h1, h2⟩, atB_iff.2 h3⟩, by rw [h4]⟩

/-- **C32.** The external ids of `due` are consecutive: they continue after the number of event groups the client saw before. -/
theorem due_ids (G : List Kind) : ∀ (n lo : Nat), 1 ≤ lo →
    (due G lo n).map (·.1) = List.range' (cnt isRel G (lo - 1) + 1) (cnt isRel G (lo + n - 1) - cnt isRel G (lo - 1)) := by
  intro n
  induction n with
  | zero => intro lo h; rw [due_zero, show lo + 0 - 1 = lo - 1 by omega, Nat.sub_self]; rfl
  | succ n ih =>
    intro lo h
    have h2 := ih (lo + 1) (by omega)
    rw [Nat.add_sub_cancel] at h2
    rw [due_succ, show lo + (n + 1) - 1 = lo + 1 + n - 1 by omega]
    by_cases hr : atB isRel G lo = false
    · rw [if_pos hr, h2, cnt_not_at h hr]
    · rw [if_neg hr, List.map_cons, h2]
      have hc := cnt_at' hr
      have hm := cnt_mono isRel G (show lo ≤ lo + 1 + n - 1 by omega)
      rw [hc] at hm ⊢
      generalize cnt isRel G (lo + 1 + n - 1) = z at *
      generalize cnt isRel G (lo - 1) = y at *
      obtain ⟨w, hw⟩ : ∃ w, z - y = w + 1 := ⟨z - y - 1, by omega⟩
      rw [hw, List.range'_succ, show z - (y + 1) = w by omega]

/-- **C32, the whole stream.** A subscriber asking for event group `start`, which is stored, gets — on storage that is not changed by
anything else than publishing — exactly the event groups `start`, `start + 1`, … up to the last published one. -/
theorem stream_exact {S S' : Snap} {start a n : Nat} (h0 : S.oldestExt ≠ 0) (h1 : S.oldestExt ≤ start) (h2 : start ≤ S.newestExt)
    (hext : ∃ more, S'.G = S.G ++ more) (hpr : S'.pruned = S.pruned) (hpub : a + n ≤ S'.G.length + 1) (hn : 0 < n) :
    ∃ l g, readEG S (S.newest isPub) (S.newest isPriv) start = .ok (l, (S.newestExt, g)) ∧
      ∃ l', afterStored S' S.newestExt (S.newestExt, g) (List.range' a n) = .ok l' ∧
        (l ++ l').map (·.1) = List.range' start (l ++ l').length ∧
        (∀ x ∈ l ++ l', extGlobal S'.G x.1 = some x.2) ∧
        (∀ e h, start ≤ e → extGlobal S'.G e = some h → h < a + n → (e, h) ∈ l ++ l') := by
  obtain ⟨more, hext⟩ := hext
  obtain ⟨l, g, k1, k2, k3, k4⟩ := readEG_correct h0 h1 h2
  -- ids of stored event groups do not change
  have htake : ∀ p k, k ≤ S.G.length → cnt p S'.G k = cnt p S.G k := by
    intro p k hk
    rw [cnt, cnt, hext, List.take_append_of_le_length hk]
  have hsame : ∀ e h, extGlobal S.G e = some h → extGlobal S'.G e = some h := by
    intro e h hh
    obtain ⟨q1, q2⟩ := nth_iff.1 hh
    have hle := at_le q1
    obtain ⟨q3, x, q4, q5⟩ := q1
    refine nth_iff.2 ⟨⟨q3, x, ?_, q5⟩, by rw [htake _ _ hle]; exact q2⟩
    rw [hext, List.getElem?_append_left (by omega)]
    exact q4
  have hg : S.pruned ≤ g := by
    obtain ⟨h, q1, q2, _⟩ := find_correct h0 h1 h2
    apply Classical.byContradiction
    intro hn
    have m := cnt_mono isRel S.G (show g ≤ h by omega)
    have e1 := (nth_iff.1 k4).2
    have e2 := (nth_iff.1 q1).2
    have : start = S.newestExt := by omega
    rw [this, k4] at q1
    cases q1
    omega
  have k4' := hsame _ _ k4
  have ha := afterStored_exact (S := S') (last := (S.newestExt, g)) (a := a) (n := n) k4' (by rw [hpr]; exact hg) hpub hn
  have hcg : cnt isRel S'.G g = S.newestExt := (nth_iff.1 k4').2
  have hids := due_ids S'.G (a + n - (g + 1)) (g + 1) (by omega)
  rw [Nat.add_sub_cancel, hcg] at hids
  refine ⟨l, g, k1, _, ha, ?_, ?_, ?_⟩
  · dsimp only
    have hl : l.length = S.newestExt + 1 - start := by
      have := congrArg List.length k2
      rw [List.length_map, List.length_range'] at this
      exact this
    have hd : (due S'.G (g + 1) (a + n - (g + 1))).length = cnt isRel S'.G (g + 1 + (a + n - (g + 1)) - 1) - S.newestExt := by
      have := congrArg List.length hids
      rw [List.length_map, List.length_range'] at this
      exact this
    rw [List.map_append, List.length_append, k2, hids, hl, hd, ← List.range'_append]
    congr 2
    omega
  · intro x hx
    rcases List.mem_append.1 hx with hx | hx
    · exact hsame _ _ (k3 x hx)
    · exact (mem_due.1 hx).2.2
  · intro e h he hh hlt
    by_cases hen : e ≤ S.newestExt
    · have : e ∈ l.map (·.1) := by rw [k2, List.mem_range'_1]; omega
      obtain ⟨x, hx, rfl⟩ := List.mem_map.1 this
      have := hsame _ _ (k3 x hx)
      rw [hh] at this
      cases this
      exact List.mem_append_left _ hx
    · apply List.mem_append_right
      rw [mem_due]
      dsimp only
      have hgh : g < h := by
        apply Classical.byContradiction
        intro hnn
        have m := cnt_mono isRel S'.G (show h ≤ g by omega)
        have := (nth_iff.1 hh).2
        omega
      exact ⟨by omega, by omega, hh⟩

end Verif.Trs
