import Verif.Keys.Mgr
/-!
# The invariant of a run
-/
set_option linter.unusedSimpArgs false
set_option linter.unusedVariables false
namespace Verif.Keys
open Verif.Bytes

/-! ## The sorted list of all keys -/

theorem insMulti_mem (e d : Ex) (l : List Ex) : d ∈ insMulti e l ↔ d = e ∨ d ∈ l := by
  induction l with
  | nil => simp [insMulti]
  | cons x l ih =>
    unfold insMulti
    split
    · simp only [List.mem_cons, ih]
      constructor
      · rintro (h | h | h)
        · exact Or.inr (Or.inl h)
        · exact Or.inl h
        · exact Or.inr (Or.inr h)
      · rintro (h | h | h)
        · exact Or.inr (Or.inl h)
        · exact Or.inl h
        · exact Or.inr (Or.inr h)
    · simp

theorem insMulti_sorted (e : Ex) (l : List Ex) (h : l.Pairwise (fun a b => a.sn ≤ b.sn)) :
    (insMulti e l).Pairwise (fun a b => a.sn ≤ b.sn) := by
  induction l with
  | nil => simp [insMulti]
  | cons x l ih =>
    rw [List.pairwise_cons] at h
    unfold insMulti
    split
    · next hle =>
      rw [List.pairwise_cons]
      refine ⟨?_, ih h.2⟩
      intro b hb
      rcases (insMulti_mem e b l).1 hb with rfl | hb
      · exact hle
      · exact h.1 b hb
    · next hle =>
      rw [List.pairwise_cons]
      refine ⟨?_, List.pairwise_cons.2 h⟩
      intro b hb
      rcases List.mem_cons.1 hb with rfl | hb
      · omega
      · have := h.1 b hb
        omega

theorem insMulti_filter (P : Ex → Bool) (e : Ex) (l : List Ex) (h : l.Pairwise (fun a b => a.sn ≤ b.sn)) :
    (P e = false → (insMulti e l).filter P = l.filter P) ∧
    (P e = true → (∀ x ∈ l, P x = true → x.sn ≤ e.sn) → (insMulti e l).filter P = l.filter P ++ [e]) := by
  induction l with
  | nil =>
    constructor
    · intro hp
      simp [insMulti, hp]
    · intro hp _
      simp [insMulti, hp]
  | cons x l ih =>
    rw [List.pairwise_cons] at h
    obtain ⟨ih1, ih2⟩ := ih h.2
    constructor
    · intro hp
      unfold insMulti
      split
      · rw [List.filter_cons, List.filter_cons, ih1 hp]
      · rw [List.filter_cons, if_neg (by simp [hp])]
    · intro hp hall
      unfold insMulti
      split
      · rw [List.filter_cons, List.filter_cons, ih2 hp (fun y hy => hall y (by simp [hy]))]
        split <;> simp
      · next hle =>
        have hn : ∀ y ∈ x :: l, ¬ P y = true := by
          intro y hy hpy
          have h1 := hall y hy hpy
          rcases List.mem_cons.1 hy with rfl | hy
          · omega
          · have := h.1 y hy
            omega
        rw [List.filter_cons, if_pos hp, List.filter_eq_nil_iff.2 hn]
        rfl

theorem fold_sorted (xs acc : List Ex) (h : acc.Pairwise (fun a b => a.sn ≤ b.sn)) :
    (xs.foldl (fun l e => insMulti e l) acc).Pairwise (fun a b => a.sn ≤ b.sn) := by
  induction xs generalizing acc with
  | nil => exact h
  | cons e xs ih => exact ih _ (insMulti_sorted e acc h)

theorem fold_filter (P : Ex → Bool) (xs acc : List Ex) (h : acc.Pairwise (fun a b => a.sn ≤ b.sn))
    (hp : (acc.filter P ++ xs.filter P).Pairwise (fun a b => a.sn ≤ b.sn)) :
    (xs.foldl (fun l e => insMulti e l) acc).filter P = acc.filter P ++ xs.filter P := by
  induction xs generalizing acc with
  | nil => simp
  | cons e xs ih =>
    obtain ⟨f1, f2⟩ := insMulti_filter P e acc h
    simp only [List.foldl_cons]
    cases he : P e with
    | false =>
      have f1 := f1 he
      rw [List.filter_cons, if_neg (by simp [he])] at hp
      rw [ih _ (insMulti_sorted e acc h) (by rw [f1]; exact hp), f1, List.filter_cons, if_neg (by simp [he])]
    | true =>
      rw [List.filter_cons, if_pos he] at hp
      have f2 := f2 he (fun x hx hpx => (List.pairwise_append.1 hp).2.2 x (by simp [hx, hpx]) e (by simp))
      rw [ih _ (insMulti_sorted e acc h) (by rw [f2]; simpa using hp), f2, List.filter_cons, if_pos he]
      simp

/-- the keys of `r` in the history -/
def storeOf (h : List Ex) (r : Nat) : List (Nat × Key) := (h.filter (fun e => decide (e.rep = r))).map (fun e => (e.sn, e.key))

theorem storeOf_back (h : List Ex) (r : Nat) :
    (storeOf h r).map (fun p => (⟨r, p.1, p.2⟩ : Ex)) = h.filter (fun e => decide (e.rep = r)) := by
  unfold storeOf
  rw [List.map_map]
  conv => rhs; rw [← List.map_id (h.filter (fun e => decide (e.rep = r)))]
  apply List.map_congr_left
  intro e he
  have : e.rep = r := by simpa using (List.mem_filter.1 he).2
  subst this
  rfl

theorem allKeys_succ (n : Nat) (store : Nat → List (Nat × Key)) :
    allKeys (n + 1) store = allKeys n store ++ (store n).map (fun p => (⟨n, p.1, p.2⟩ : Ex)) := by
  simp [allKeys, List.range_succ]

theorem allKeys_filter (n : Nat) (h : List Ex) (r : Nat) :
    (allKeys n (storeOf h)).filter (fun e => decide (e.rep = r)) = if r < n then h.filter (fun e => decide (e.rep = r)) else [] := by
  induction n with
  | zero => simp [allKeys]
  | succ n ih =>
    rw [allKeys_succ, List.filter_append, ih, storeOf_back]
    by_cases hr : r = n
    · subst hr
      simp [List.filter_filter]
    · have : (h.filter (fun e => decide (e.rep = n))).filter (fun e => decide (e.rep = r)) = [] := by
        rw [List.filter_filter, List.filter_eq_nil_iff]
        intro e _
        simp
        intro h1 h2
        omega
      rw [this, List.append_nil]
      by_cases h1 : r < n
      · rw [if_pos h1, if_pos (by omega)]
      · rw [if_neg h1, if_neg (by omega)]

theorem ordered_spec (n : Nat) (h : List Ex) (hord : InOrder h) (hr : ∀ e ∈ h, e.rep < n) :
    (ordered n (storeOf h)).Pairwise (fun a b => a.sn ≤ b.sn) ∧
      ∀ r, (ordered n (storeOf h)).filter (fun e => decide (e.rep = r)) = h.filter (fun e => decide (e.rep = r)) := by
  refine ⟨fold_sorted _ _ (by simp), fun r => ?_⟩
  have hall := allKeys_filter n h r
  have hend : (if r < n then h.filter (fun e => decide (e.rep = r)) else []) = h.filter (fun e => decide (e.rep = r)) := by
    split
    · rfl
    · symm
      rw [List.filter_eq_nil_iff]
      intro e he
      have := hr e he
      simp
      omega
  rw [hend] at hall
  unfold ordered
  rw [fold_filter]
  · rw [hall]
    simp
  · simp
  · rw [hall]
    simp only [List.filter_nil, List.nil_append]
    exact List.Pairwise.filter _ hord

/-! ## Loading the pages -/

/-- the page for a list of keys -/
def pageOf (l : List (Nat × Key)) : Option Bytes := if l.isEmpty then none else some (encKeys l)

theorem loadPage_pageOf (ps : Nat) (l : List (Nat × Key)) (hps : ps < 2 ^ 63) (hfit : l = [] ∨ (encKeys l).length ≤ ps)
    (hsn : ∀ p ∈ l, p.1 < 2 ^ 64) : loadPage ps (pageOf l) = .ok l := by
  cases l with
  | nil => rfl
  | cons a l =>
    have hfit : (encKeys (a :: l)).length ≤ ps := by
      rcases hfit with h | h
      · exact absurd h (by simp)
      · exact h
    obtain ⟨b1, b2⟩ := encKeys_bounds (a :: l)
    have : pageOf (a :: l) = some (encKeys (a :: l)) := rfl
    rw [this]
    unfold loadPage
    simp only
    rw [decKeys_enc (a :: l) _ (fun e he => ⟨hsn e he, by have := b2 e he; omega⟩) (by omega)]

theorem loadPages_ok (ps : Nat) (pages : Nat → Option Bytes) (st : Nat → List (Nat × Key)) (n : Nat)
    (h : ∀ r < n, loadPage ps (pages r) = .ok (st r)) : loadPages ps pages n = .ok (fun r => if r < n then st r else []) := by
  induction n with
  | zero => simp [loadPages]
  | succ n ih =>
    unfold loadPages
    rw [ih (fun r hr => h r (by omega)), h n (by omega)]
    simp only [Except.ok.injEq]
    funext r
    by_cases h1 : r = n
    · simp [h1]
    · rw [if_neg h1]
      by_cases h2 : r < n
      · rw [if_pos h2, if_pos (by omega)]
      · rw [if_neg h2, if_neg (by omega)]

/-! ## Private keys -/

theorem struct_modify {h : List Ex} {m : Mgr} {c : Nat} {f : Sys → Sys} (hs : Struct h m) : Struct h (modifyAt c f m) := by
  refine ⟨asc_modifyAt hs.asc, ?_, ?_, ?_⟩
  · rw [hasKey_modifyAt]
    exact hs.zero
  · intro e he
    rw [hasKey_modifyAt]
    exact hs.all e he
  · intro p hp
    obtain ⟨q, hq, e1, _⟩ := mem_modifyAt hp
    rw [← e1]
    exact hs.only q hq

theorem vk_modify {init : Nat → Key} {h : List Ex} {m : Mgr} {c : Nat} {f : Sys → Sys} {r : Nat} (hv : Vk init h r m)
    (hf : ∀ y : Sys, (f y).vk r = y.vk r) : Vk init h r (modifyAt c f m) := by
  intro p hp
  obtain ⟨q, hq, e1, e2⟩ := mem_modifyAt hp
  rw [← e1, e2, ← hv q hq]
  split
  · rw [hf]
  · rfl

theorem replayPrivate_spec {init : Nat → Key} {h : List Ex} (me : Nat) (store : Nat → List (Nat × Key)) (l : List (Nat × Bytes)) :
    ∀ m : Mgr, Struct h m → (∀ r, r ≠ me → Vk init h r m) → (∀ p ∈ l, ∃ e ∈ h, e.sn = p.1) → (∀ p ∈ l, (getKey store me p.1).isSome) →
      ∃ m', replayPrivate me store m l = .ok m' ∧ Struct h m' ∧ ∀ r, r ≠ me → Vk init h r m' := by
  induction l with
  | nil =>
    intro m hs hv _ _
    exact ⟨m, rfl, hs, hv⟩
  | cons p l ih =>
    intro m hs hv h1 h2
    obtain ⟨sn, pr⟩ := p
    obtain ⟨e, he, hsn⟩ := h1 (sn, pr) (by simp)
    obtain ⟨k, hk⟩ := Option.isSome_iff_exists.1 (h2 (sn, pr) (by simp))
    have hk : getKey store me sn = some k := hk
    have hhas := hs.all e he
    rw [hsn] at hhas
    have hop : onPrivate m me pr k sn = modifyAt (effectiveFrom sn) (fun s => s.setOwn me pr k) m := by
      unfold onPrivate
      rw [create_has m sn hhas]
    unfold replayPrivate
    rw [hk]
    simp only
    rw [hop]
    apply ih
    · exact struct_modify hs
    · intro r hr
      apply vk_modify (hv r hr)
      intro y
      show (if r = me then k else y.vk r) = _
      rw [if_neg hr]
    · exact fun p hp => h1 p (by simp [hp])
    · exact fun p hp => h2 p (by simp [hp])

/-! ## The invariant -/

structure Inv (c : Cfg) (s : St) (h : List Ex) : Prop where
  rep : ∀ e ∈ h, e.rep < c.n
  sn64 : ∀ e ∈ h, e.sn < 2 ^ 64
  store : s.store = storeOf h
  pages : ∀ r, s.pages r = pageOf (storeOf h r)
  fits : ∀ r, storeOf h r = [] ∨ (encKeys (storeOf h r)).length ≤ c.pageSize
  privs : ∀ p ∈ s.privs, ∃ e ∈ h, e.rep = c.me ∧ e.sn = p.1
  struct : Struct h s.mgr
  vk : ∀ r, r ≠ c.me → Vk c.init.vk h r s.mgr

theorem inv_boot (c : Cfg) : Inv c (boot c) [] :=
  ⟨by simp, by simp, rfl, fun _ => rfl, fun _ => Or.inl rfl, by simp [boot], struct_start _, fun r _ => vk_start _ r⟩

theorem inv_gen {c : Cfg} {s : St} {h : List Ex} (hi : Inv c s h) (sn : Nat) (fresh : Pair) : Inv c (generate c s sn fresh).1 h := by
  have e : (generate c s sn fresh).1.store = s.store ∧ (generate c s sn fresh).1.pages = s.pages ∧
      (generate c s sn fresh).1.privs = s.privs ∧ (generate c s sn fresh).1.mgr = s.mgr := by
    unfold generate
    split
    · simp
    · split <;> simp
  obtain ⟨e1, e2, e3, e4⟩ := e
  exact ⟨hi.rep, hi.sn64, by rw [e1]; exact hi.store, by rw [e2]; exact hi.pages, hi.fits, by rw [e3]; exact hi.privs,
    by rw [e4]; exact hi.struct, by rw [e4]; exact hi.vk⟩

theorem storeOf_snoc (h : List Ex) (e : Ex) (r : Nat) :
    storeOf (h ++ [e]) r = if r = e.rep then storeOf h r ++ [(e.sn, e.key)] else storeOf h r := by
  unfold storeOf
  rw [List.filter_append, List.map_append]
  by_cases hr : r = e.rep
  · rw [if_pos hr]
    simp [List.filter, hr]
  · rw [if_neg hr, List.filter_cons_of_neg (by simp; omega)]
    simp

/-- a successful execution -/
theorem exec_cases {c : Cfg} {s s' : St} {client : Nat} {m : Msg} {req : Nat} (ha : accepts c s m req = true)
    (h : executeKeyExchange c s client m req = .ok s') :
    m.rep < c.n ∧ (encKeys (insertAt m.sn m.key (s.store m.rep))).length ≤ c.pageSize ∧
    s'.store = (fun r => if r = m.rep then insertAt m.sn m.key (s.store m.rep) else s.store r) ∧
    s'.pages = (fun r => if r = m.rep then some (encKeys (insertAt m.sn m.key (s.store m.rep))) else s.pages r) ∧
    ((m.rep = c.me ∧ ∃ p, candAt s m.sn = some p ∧ p.pub = m.key ∧ hasKey m.sn s.privs = false ∧ s'.privs = insertAt m.sn p.priv s.privs ∧
        s'.mgr = onPrivate s.mgr c.me p.priv m.key m.sn) ∨
     ((m.rep ≠ c.me ∨ candAt s m.sn = none) ∧ s'.privs = s.privs ∧ s'.mgr = onPublic s.mgr m.key m.rep m.sn)) := by
  unfold executeKeyExchange onKeyExchange at h
  rw [if_pos ha] at h
  cases hp : push c s m with
  | error x =>
    rw [hp] at h
    simp at h
  | ok s1 =>
    rw [hp] at h
    simp only at h
    unfold push at hp
    simp only at hp
    split at hp
    · simp at hp
    · next hrep =>
      split at hp
      · simp at hp
      · next hsz =>
        simp only [Except.ok.injEq] at hp
        refine ⟨by omega, by omega, ?_⟩
        have hp1 : s1.store = (fun r => if r = m.rep then insertAt m.sn m.key (s.store m.rep) else s.store r) := by rw [← hp]
        have hp2 : s1.pages = (fun r => if r = m.rep then some (encKeys (insertAt m.sn m.key (s.store m.rep))) else s.pages r) := by rw [← hp]
        have hp3 : s1.privs = s.privs := by rw [← hp]
        have hp4 : s1.mgr = s.mgr := by rw [← hp]
        have hp5 : candAt s1 m.sn = candAt s m.sn := by rw [← hp]; rfl
        clear hp
        unfold install at h
        split at h
        · next p hc =>
          split at h
          · simp at h
          · next hpub =>
            split at h
            · simp at h
            · next hnew =>
              simp only [Except.ok.injEq] at h
              have hme : m.rep = c.me := by
                by_cases hme : m.rep = c.me
                · exact hme
                · rw [if_neg hme] at hc
                  simp at hc
              rw [if_pos hme, hp5] at hc
              subst h
              refine ⟨hp1, hp2, Or.inl ⟨hme, p, hc, by simpa using hpub, by rw [← hp3]; simpa using hnew, by simp only [hp3], by simp only [hp4]⟩⟩
        · next hc =>
          simp only [Except.ok.injEq] at h
          subst h
          refine ⟨hp1, hp2, Or.inr ⟨?_, hp3, by simp only [hp4]⟩⟩
          by_cases hme : m.rep = c.me
          · rw [if_pos hme, hp5] at hc
            exact Or.inr hc
          · exact Or.inl hme

theorem ignore_same {c : Cfg} {s s' : St} {client : Nat} {m : Msg} {req : Nat} (ha : accepts c s m req = false)
    (h : executeKeyExchange c s client m req = .ok s') : s' = s := by
  unfold executeKeyExchange onKeyExchange at h
  rw [if_neg (by simp [ha])] at h
  simp at h
  exact h.symm

theorem mem_insertAt {α : Type} (c : Nat) (y : α) (l : List (Nat × α)) (p : Nat × α) : p ∈ insertAt c y l ↔ p = (c, y) ∨ p ∈ l := by
  induction l with
  | nil => simp [insertAt]
  | cons a l ih =>
    obtain ⟨d, z⟩ := a
    unfold insertAt
    split
    · simp
    · simp only [List.mem_cons, ih]
      constructor
      · rintro (h | h | h)
        · exact Or.inr (Or.inl h)
        · exact Or.inl h
        · exact Or.inr (Or.inr h)
      · rintro (h | h | h)
        · exact Or.inr (Or.inl h)
        · exact Or.inl h
        · exact Or.inr (Or.inr h)

theorem inv_exec {c : Cfg} {s s' : St} {h : List Ex} {client : Nat} {m : Msg} {req : Nat} (hi : Inv c s h)
    (hord : InOrder (h ++ [⟨m.rep, m.sn, m.key⟩])) (hsn : m.sn < 2 ^ 64) (ha : accepts c s m req = true)
    (hx : executeKeyExchange c s client m req = .ok s') : Inv c s' (h ++ [⟨m.rep, m.sn, m.key⟩]) := by
  obtain ⟨h1, h2, h3, h4, h5⟩ := exec_cases ha hx
  have hle : ∀ x ∈ h, x.sn ≤ m.sn := fun x hx => (List.pairwise_append.1 hord).2.2 x hx ⟨m.rep, m.sn, m.key⟩ (by simp)
  have hins : insertAt m.sn m.key (s.store m.rep) = storeOf h m.rep ++ [(m.sn, m.key)] := by
    rw [hi.store, insertAt_end]
    intro p hp
    unfold storeOf at hp
    obtain ⟨e, he, ee⟩ := List.mem_map.1 hp
    have := hle e (List.mem_filter.1 he).1
    rw [← ee]
    exact this
  rw [hins] at h2 h3 h4
  have hb := bound_of_order (e := ⟨m.rep, m.sn, m.key⟩) hi.struct hle
  refine ⟨?_, ?_, ?_, ?_, ?_, ?_, ?_, ?_⟩
  · intro e he
    rw [List.mem_append] at he
    rcases he with he | he
    · exact hi.rep e he
    · simp at he
      subst he
      exact h1
  · intro e he
    rw [List.mem_append] at he
    rcases he with he | he
    · exact hi.sn64 e he
    · simp at he
      subst he
      exact hsn
  · rw [h3]
    funext r
    rw [storeOf_snoc, hi.store]
    simp only
    split
    · next hr => rw [hr]
    · rfl
  · intro r
    rw [h4, storeOf_snoc]
    simp only
    split
    · next hr =>
      rw [hr]
      simp [pageOf]
    · exact hi.pages r
  · intro r
    rw [storeOf_snoc]
    simp only
    split
    · next hr =>
      rw [hr]
      exact Or.inr h2
    · exact hi.fits r
  · intro p hp
    rcases h5 with ⟨hme, q, _, _, _, e1, _⟩ | ⟨_, e1, _⟩
    · rw [e1] at hp
      rcases (mem_insertAt _ _ _ _).1 hp with hp | hp
      · refine ⟨⟨m.rep, m.sn, m.key⟩, by simp, hme, ?_⟩
        rw [hp]
      · obtain ⟨e, he, ee⟩ := hi.privs p hp
        exact ⟨e, by simp [he], ee⟩
    · rw [e1] at hp
      obtain ⟨e, he, ee⟩ := hi.privs p hp
      exact ⟨e, by simp [he], ee⟩
  · rcases h5 with ⟨hme, q, _, _, _, _, e1⟩ | ⟨_, _, e1⟩
    · rw [e1]
      exact struct_change (e := ⟨m.rep, m.sn, m.key⟩) hi.struct (fun _ => hb)
    · rw [e1]
      exact struct_change (e := ⟨m.rep, m.sn, m.key⟩) hi.struct (fun _ => hb)
  · intro r hr
    rcases h5 with ⟨hme, q, _, _, _, _, e1⟩ | ⟨_, _, e1⟩
    · rw [e1]
      apply vk_change (e := ⟨m.rep, m.sn, m.key⟩) hi.struct hle (hi.vk r hr)
      intro y
      show (if r = c.me then m.key else y.vk r) = if r = m.rep then m.key else y.vk r
      rw [hme]
    · rw [e1]
      exact vk_change (e := ⟨m.rep, m.sn, m.key⟩) hi.struct hle (hi.vk r hr) (fun y => rfl)

/-- the pages of a replica with this history give its store -/
theorem loadPages_inv {c : Cfg} {s : St} {h : List Ex} (hi : Inv c s h) (hps : c.pageSize < 2 ^ 63) :
    loadPages c.pageSize s.pages c.n = .ok (storeOf h) := by
  rw [loadPages_ok c.pageSize s.pages (storeOf h) c.n]
  · congr 1
    funext r
    split
    · rfl
    · next hr =>
      symm
      unfold storeOf
      rw [List.map_eq_nil_iff, List.filter_eq_nil_iff]
      intro e he
      have := hi.rep e he
      simp
      omega
  · intro r _
    rw [hi.pages r]
    apply loadPage_pageOf _ _ hps (hi.fits r)
    intro p hp
    unfold storeOf at hp
    obtain ⟨e, he, ee⟩ := List.mem_map.1 hp
    rw [← ee]
    exact hi.sn64 e (List.mem_filter.1 he).1

theorem getKey_storeOf {h : List Ex} {e : Ex} (he : e ∈ h) : (getKey (storeOf h) e.rep e.sn).isSome := by
  unfold getKey
  rw [Option.isSome_map, List.find?_isSome]
  refine ⟨(e.sn, e.key), ?_, by simp⟩
  unfold storeOf
  exact List.mem_map.2 ⟨e, by simp [he], rfl⟩

/-- replaying the store of `h ++ x` on the map of `h` -/
theorem notify_spec {c : Cfg} {h x : List Ex} {m : Mgr} {privs : List (Nat × Bytes)} (hs : Struct h m)
    (hv : ∀ r, r ≠ c.me → Vk c.init.vk h r m) (hord : InOrder (h ++ x)) (hrep : ∀ e ∈ h ++ x, e.rep < c.n)
    (hpr : ∀ p ∈ privs, ∃ e ∈ h ++ x, e.rep = c.me ∧ e.sn = p.1) :
    ∃ m', notify c (storeOf (h ++ x)) privs m = .ok m' ∧ Struct (h ++ x) m' ∧ ∀ r, r ≠ c.me → Vk c.init.vk (h ++ x) r m' := by
  obtain ⟨o1, o2⟩ := ordered_spec c.n (h ++ x) hord hrep
  unfold notify
  apply replayPrivate_spec
  · exact (replay_spec (init := c.init.vk) (c.me + 1) hs (hv _ (by omega)) hord o1 o2).1
  · intro r hr
    exact (replay_spec (init := c.init.vk) r hs (hv r hr) hord o1 o2).2
  · intro p hp
    obtain ⟨e, he, _, h2⟩ := hpr p hp
    exact ⟨e, he, h2⟩
  · intro p hp
    obtain ⟨e, he, h1, h2⟩ := hpr p hp
    rw [← h1, ← h2]
    exact getKey_storeOf he

theorem restart_inv {c : Cfg} {s : St} {h : List Ex} (hi : Inv c s h) (hps : c.pageSize < 2 ^ 63) (hord : InOrder h) :
    ∃ s', restart c s = .ok s' ∧ Inv c s' h := by
  obtain ⟨m', e, h1, h2⟩ := notify_spec (c := c) (h := []) (x := h) (m := [(0, c.init)]) (privs := s.privs) (struct_start _)
    (fun r _ => vk_start _ r) hord hi.rep hi.privs
  rw [List.nil_append] at e h1 h2
  refine ⟨⟨s.pages, storeOf h, s.privs, [], none, m'⟩, ?_, ?_⟩
  · unfold restart
    rw [loadPages_inv hi hps]
    simp only
    rw [e]
  · exact ⟨hi.rep, hi.sn64, rfl, hi.pages, hi.fits, hi.privs, h1, h2⟩

/-- the assertion of `loadPublicKeys` -/
def KeysAssert (c : Cfg) (store : Nat → List (Nat × Key)) : Bool :=
  !(c.exchangeOnStart && exchanged c store && decide (numExchanged c.n store < c.liveSize))

theorem transfer_inv {c c' : Cfg} {s s2 : St} {h x : List Ex} (hi : Inv c s h) (hi2 : Inv c' s2 (h ++ x)) (hps : c.pageSize < 2 ^ 63)
    (hn : c'.n = c.n) (hp : c'.pageSize = c.pageSize) (hord : InOrder (h ++ x)) :
    (KeysAssert c (storeOf (h ++ x)) = false ∧ transferred c s s2.pages = .error .abort) ∨
    ∃ s', transferred c s s2.pages = .ok s' ∧ Inv c s' (h ++ x) := by
  have hl : loadPages c.pageSize s2.pages c.n = .ok (storeOf (h ++ x)) := by
    have := loadPages_inv hi2 (by omega)
    rw [hn, hp] at this
    exact this
  have hrep : ∀ e ∈ h ++ x, e.rep < c.n := by
    intro e he
    have := hi2.rep e he
    omega
  obtain ⟨m', e, h1, h2⟩ := notify_spec (c := c) (x := x) (privs := s.privs) hi.struct hi.vk hord hrep (fun p hp => by
    obtain ⟨e, he, ee⟩ := hi.privs p hp
    exact ⟨e, by simp [he], ee⟩)
  cases hk : KeysAssert c (storeOf (h ++ x)) with
  | false =>
    left
    refine ⟨rfl, ?_⟩
    unfold transferred
    rw [hl]
    simp only
    rw [if_pos (by simpa [KeysAssert] using hk)]
  | true =>
    right
    refine ⟨{ s with
      pages := s2.pages
      store := storeOf (h ++ x)
      mgr := m' }, ?_, ?_⟩
    · unfold transferred
      rw [hl]
      simp only
      have hk' : (c.exchangeOnStart && exchanged c (storeOf (h ++ x)) && decide (numExchanged c.n (storeOf (h ++ x)) < c.liveSize)) = false := by
        unfold KeysAssert at hk
        rw [Bool.not_eq_true'] at hk
        exact hk
      rw [if_neg (by rw [hk']; simp), e]
    · refine ⟨hrep, hi2.sn64, rfl, hi2.pages, ?_, ?_, h1, h2⟩
      · rw [← hp]
        exact hi2.fits
      · intro p hp
        obtain ⟨e, he, ee⟩ := hi.privs p hp
        exact ⟨e, by simp [he], ee⟩

theorem inOrder_prefix {h x : List Ex} (ho : InOrder (h ++ x)) : InOrder h := (List.pairwise_append.1 ho).1

theorem run_inv {c : Cfg} {s : St} {h : List (Nat × Ex)} (hr : Run c s h) : c.pageSize < 2 ^ 63 → InOrder (h.map (·.2)) →
    Inv c s (h.map (·.2)) := by
  induction hr with
  | start c => intro _ _; exact inv_boot c
  | gen sn fresh _ ih => intro hps ho; exact inv_gen (ih hps ho) sn fresh
  | exec client m req _ hsn ha hx ih =>
    intro hps ho
    rw [List.map_append] at ho ⊢
    exact inv_exec (ih hps (inOrder_prefix ho)) ho hsn ha hx
  | ignore client m req _ ha hx ih =>
    intro hps ho
    rw [ignore_same ha hx]
    exact ih hps ho
  | restart _ hx ih =>
    intro hps ho
    obtain ⟨s', e, hi⟩ := restart_inv (ih hps ho) hps ho
    rw [e] at hx
    cases hx
    exact hi
  | transfer _ _ hpre hn hp hx ih1 ih2 =>
    intro hps ho
    obtain ⟨x, rfl⟩ := hpre
    rw [List.map_append] at ho ⊢
    have i1 := ih1 hps (inOrder_prefix ho)
    have i2 := ih2 (by omega) (by rw [List.map_append]; exact ho)
    rw [List.map_append] at i2
    rcases transfer_inv i1 i2 hps hn hp ho with ⟨_, e⟩ | ⟨s', e, hi⟩
    · rw [e] at hx
      simp at hx
    · rw [e] at hx
      cases hx
      exact hi

end Verif.Keys
