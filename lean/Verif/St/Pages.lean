import Verif.St.Theorems
set_option linter.unusedVariables false
set_option linter.unusedSimpArgs false
/-!
# State transfer: reserved pages
-/
namespace Verif.St
open Verif.Bytes

variable {c : Cfg} {evs : List Ev} {s : S}

/-! ## The store -/

/-- the entry of a page with the greatest checkpoint -/
theorem rel_some {m : Store} {p : Nat} : ∀ {n k : Nat} {x : Bytes × Bytes}, k ≤ n → m p k = some x → (∀ k', k < k' → k' ≤ n → m p k' = none) → m.rel p n = some (k, x) := by
  intro n
  induction n with
  | zero =>
    intro k x hk hx _
    have : k = 0 := by omega
    subst this
    rw [Store.rel, hx]; rfl
  | succ n ih =>
    intro k x hk hx hn
    rw [Store.rel]
    by_cases e : k = n + 1
    · subst e; rw [hx]
    · rw [hn (n + 1) (by omega) (Nat.le_refl _)]
      exact ih (by omega) hx (fun k' h1 h2 => hn k' h1 (by omega))

theorem rel_none {m : Store} {p : Nat} : ∀ {n : Nat}, (∀ k, k ≤ n → m p k = none) → m.rel p n = none := by
  intro n
  induction n with
  | zero => intro h; rw [Store.rel, h 0 (Nat.le_refl _)]; rfl
  | succ n ih =>
    intro h
    rw [Store.rel, h (n + 1) (Nat.le_refl _)]
    exact ih (fun k hk => h k (by omega))

theorem rel_cases (m : Store) (p n : Nat) : (∃ k x, k ≤ n ∧ m p k = some x ∧ (∀ k', k < k' → k' ≤ n → m p k' = none) ∧ m.rel p n = some (k, x)) ∨ ((∀ k, k ≤ n → m p k = none) ∧ m.rel p n = none) := by
  induction n with
  | zero =>
    cases h : m p 0 with
    | none => exact .inr ⟨fun k hk => by rw [show k = 0 by omega]; exact h, rel_none fun k hk => by rw [show k = 0 by omega]; exact h⟩
    | some x => exact .inl ⟨0, x, Nat.le_refl _, h, fun k' h1 h2 => by omega, rel_some (Nat.le_refl _) h (fun k' h1 h2 => by omega)⟩
  | succ n ih =>
    cases h : m p (n + 1) with
    | some x => exact .inl ⟨n + 1, x, Nat.le_refl _, h, fun k' h1 h2 => by omega, rel_some (Nat.le_refl _) h (fun k' h1 h2 => by omega)⟩
    | none =>
      rcases ih with ⟨k, x, h1, h2, h3, h4⟩ | ⟨h1, h2⟩
      · have h3' : ∀ k', k < k' → k' ≤ n + 1 → m p k' = none := fun k' q1 q2 => by
          by_cases e : k' = n + 1
          · rw [e]; exact h
          · exact h3 k' q1 (by omega)
        exact .inl ⟨k, x, by omega, h2, h3', rel_some (by omega) h2 h3'⟩
      · have h1' : ∀ k, k ≤ n + 1 → m p k = none := fun k hk => by
          by_cases e : k = n + 1
          · rw [e]; exact h
          · exact h1 k (by omega)
        exact .inr ⟨h1', rel_none h1'⟩

/-- what is deleted does not change the pages at later checkpoints -/
theorem deleteCovered_rel (m : Store) (k0 p n : Nat) (h : k0 ≤ n) : (m.deleteCovered k0).rel p n = m.rel p n := by
  by_cases h1 : k0 ≤ 1
  · have : m.deleteCovered k0 = m := by
      funext p k
      unfold Store.deleteCovered
      rw [if_pos h1]
    rw [this]
  · have hd : ∀ k, m.deleteCovered k0 p k = (match m.rel p k0 with
      | some (k', _) => if k < k' then none else m p k
      | none => m p k) := fun k => by
        unfold Store.deleteCovered
        rw [if_neg h1]
        cases m.rel p k0 with
        | none => rfl
        | some y => obtain ⟨k', y1, y2⟩ := y; rfl
    rcases rel_cases m p n with ⟨k, x, q1, q2, q3, q4⟩ | ⟨q1, q2⟩
    · rw [q4]
      apply rel_some q1
      · rw [hd]
        rcases rel_cases m p k0 with ⟨k', x', z1, z2, z3, z4⟩ | ⟨z1, z4⟩
        · rw [z4]
          dsimp only
          rw [if_neg, q2]
          intro hlt
          rw [q3 k' hlt (by omega)] at z2
          cases z2
        · rw [z4]; exact q2
      · intro k'' w1 w2
        rw [hd]
        cases m.rel p k0 with
        | none => exact q3 k'' w1 w2
        | some y =>
          obtain ⟨k', y1, y2⟩ := y
          dsimp only
          split
          · rfl
          · exact q3 k'' w1 w2
    · rw [q2]
      apply rel_none
      intro k hk
      rw [hd]
      cases m.rel p k0 with
      | none => exact q1 k hk
      | some y =>
        obtain ⟨k', y1, y2⟩ := y
        dsimp only
        split
        · rfl
        · exact q1 k hk

theorem deleteCovered_sub {m : Store} {k0 p k : Nat} {x : Bytes × Bytes} (h : m.deleteCovered k0 p k = some x) : m p k = some x := by
  unfold Store.deleteCovered at h
  split at h
  · exact h
  · split at h
    · split at h
      · cases h
      · exact h
    · exact h

theorem firstKept_le (descs : Nat → Option Desc) (num : Nat) : ∀ (fuel k : Nat), k ≤ num → firstKept descs num fuel k ≤ num := by
  intro fuel
  induction fuel with
  | zero => intro k h; exact h
  | succ fuel ih =>
    intro k h
    rw [firstKept]
    split
    · rename_i g; exact ih _ (by omega)
    · exact h

theorem keptFrom_le (hm : 1 ≤ c.maxStored) (descs : Nat → Option Desc) (num : Nat) : c.keptFrom descs num ≤ num := by
  unfold Cfg.keptFrom
  dsimp only
  have h0 : (if c.maxStored ≤ num then num - c.maxStored + 1 else 0) ≤ num := by split <;> omega
  generalize (if c.maxStored ≤ num then num - c.maxStored + 1 else 0) = k0 at h0
  split
  · exact firstKept_le _ _ _ _ h0
  · exact h0

theorem deleteOld_pages (hm : 1 ≤ c.maxStored) (s : S) (num : Nat) :
    (s.deleteOld c num).lastStored = num ∧ (∀ p k x, (s.deleteOld c num).pages p k = some x → s.pages p k = some x) ∧ ∀ p n, num ≤ n → (s.deleteOld c num).pages.rel p n = s.pages.rel p n := by
  refine ⟨rfl, ?_, ?_⟩
  · intro p k x h
    have h : (if decide (2 ≤ c.keptFrom s.descs num ∧ s.firstStored < c.keptFrom s.descs num) = true then s.pages.deleteCovered (c.keptFrom s.descs num) else s.pages) p k = some x := h
    split at h
    · exact deleteCovered_sub h
    · exact h
  · intro p n hn
    show (if decide (2 ≤ c.keptFrom s.descs num ∧ s.firstStored < c.keptFrom s.descs num) = true then s.pages.deleteCovered (c.keptFrom s.descs num) else s.pages).rel p n = _
    split
    · exact deleteCovered_rel _ _ _ _ (Nat.le_trans (keptFrom_le hm _ _) hn)
    · rfl

/-! ## Elements -/

/-- pages in ascending order -/
theorem elems_sorted (known : Nat) : ∀ {es : List Elem} {l : Option Nat}, elemsOk known l es = true →
    (∀ e ∈ es, known ≤ e.ckpt) ∧ (∀ p, l = some p → ∀ e ∈ es, p < e.page) ∧ es.Pairwise (fun a b => a.page < b.page) := by
  intro es
  induction es with
  | nil => intro l _; exact ⟨fun e h => (by cases h), fun p _ e h => (by cases h), List.Pairwise.nil⟩
  | cons e es ih =>
    intro l h
    unfold elemsOk at h
    simp only [Bool.and_eq_true, decide_eq_true_eq] at h
    obtain ⟨⟨⟨h1, h2⟩, h3⟩, h4⟩ := h
    obtain ⟨g1, g2, g3⟩ := ih h4
    refine ⟨fun x hx => ?_, fun p hp x hx => ?_, List.pairwise_cons.2 ⟨fun x hx => g2 _ rfl x hx, g3⟩⟩
    · rcases List.mem_cons.1 hx with rfl | hx
      · exact h1
      · exact g1 x hx
    · subst hp
      have h3 : p < e.page := of_decide_eq_true h3
      rcases List.mem_cons.1 hx with rfl | hx
      · exact h3
      · exact Nat.lt_trans h3 (g2 _ rfl x hx)

theorem page_unique : ∀ {es : List Elem}, es.Pairwise (fun a b => a.page < b.page) → ∀ {a b : Elem}, a ∈ es → b ∈ es → a.page = b.page → a = b := by
  intro es
  induction es with
  | nil => intro _ a b h; cases h
  | cons e es ih =>
    intro hp a b ha hb hab
    rw [List.pairwise_cons] at hp
    rcases List.mem_cons.1 ha with ea | ha'
    · rcases List.mem_cons.1 hb with eb | hb'
      · rw [ea, eb]
      · have := hp.1 _ hb'
        rw [← ea] at this; omega
    · rcases List.mem_cons.1 hb with eb | hb'
      · have := hp.1 _ ha'
        rw [← eb] at this; omega
      · exact ih hp.2 ha' hb' hab

theorem applyElems_spec (c : Cfg) (known : Nat) : ∀ (es : List Elem) (D : List (Nat × Nat × Bytes)), es.Pairwise (fun a b => a.page < b.page) →
    (applyElems c known es D).All (fun o => ∀ L, o = some L → L.length = D.length ∧ (∀ p, (∀ e ∈ es, e.page ≠ p) → L[p]? = D[p]?) ∧
      ∀ e ∈ es, L[e.page]? = some (e.page, e.ckpt, e.digest) ∧ c.pageH e.page e.ckpt e.content = e.digest) := by
  intro es
  induction es with
  | nil =>
    intro D _
    rw [applyElems, all_ok]
    intro L e
    cases e
    exact ⟨rfl, fun p _ => rfl, fun e h => (by cases h)⟩
  | cons e es ih =>
    intro D hp
    rw [applyElems]
    rw [List.pairwise_cons] at hp
    refine all_ite.2 ⟨fun _ => all_ok.2 (fun L h => by cases h), fun hd => ?_⟩
    cases hx : D[e.page]? with
    | none => exact all_fault
    | some x =>
      dsimp only
      refine all_bind.2 (all_require.2 fun _ => (ih _ hp.2).mono fun o ho L hL => ?_)
      obtain ⟨g1, g2, g3⟩ := ho L hL
      refine ⟨by rw [g1, List.length_set], fun p hne => ?_, fun e' he' => ?_⟩
      · rw [g2 p (fun e' he' => hne e' (List.mem_cons_of_mem _ he')), List.getElem?_set_ne (hne e (List.mem_cons_self ..))]
      · rcases List.mem_cons.1 he' with rfl | he'
        · refine ⟨?_, Decidable.not_not.1 hd⟩
          rw [g2 _ (fun x hx => by have := hp.1 x hx; omega)]
          have := List.getElem?_eq_some_iff.1 hx
          rw [List.getElem?_set_self this.1]
        · exact g3 e' he'

theorem installElems_spec (check : Bool) : ∀ (es : List Elem) (m : Store), es.Pairwise (fun a b => a.page < b.page) →
    (installElems check m es).All (fun m' => (∀ p k, (∀ e ∈ es, ¬ (e.page = p ∧ e.ckpt = k)) → m' p k = m p k) ∧
      ∀ e ∈ es, m' e.page e.ckpt = some (((m e.page e.ckpt).map (·.1)).getD e.digest, e.content)) := by
  intro es
  induction es with
  | nil => intro m _; rw [installElems, all_ok]; exact ⟨fun _ _ _ => rfl, fun e h => (by cases h)⟩
  | cons e es ih =>
    intro m hp
    rw [installElems]
    rw [List.pairwise_cons] at hp
    have key : ∀ x, (∀ y, m e.page e.ckpt = some y → x = (y.1, e.content)) → (m e.page e.ckpt = none → x = (e.digest, e.content)) →
        (installElems check (m.set e.page e.ckpt x) es).All (fun m' => (∀ p k, (∀ e' ∈ e :: es, ¬ (e'.page = p ∧ e'.ckpt = k)) → m' p k = m p k) ∧
          ∀ e' ∈ e :: es, m' e'.page e'.ckpt = some (((m e'.page e'.ckpt).map (·.1)).getD e'.digest, e'.content)) := by
      intro x hx hx'
      refine (ih _ hp.2).mono fun m' hm' => ⟨fun p k hne => ?_, fun e' he' => ?_⟩
      · rw [hm'.1 p k (fun e' he' => hne e' (List.mem_cons_of_mem _ he'))]
        unfold Store.set
        rw [if_neg]
        intro hh
        exact hne e (List.mem_cons_self ..) ⟨hh.1.symm, hh.2.symm⟩
      · rcases List.mem_cons.1 he' with rfl | he'
        · rw [hm'.1 _ _ (fun x hx h => by have := hp.1 x hx; omega)]
          unfold Store.set
          rw [if_pos ⟨rfl, rfl⟩]
          cases hm : m e'.page e'.ckpt with
          | none => rw [hx' hm]; rfl
          | some y => rw [hx y hm]; rfl
        · rw [hm'.2 e' he']
          have : (m.set e.page e.ckpt x) e'.page e'.ckpt = m e'.page e'.ckpt := by
            unfold Store.set
            rw [if_neg]
            intro hh
            have := hp.1 e' he'
            omega
          rw [this]
    unfold Store.setResPage
    cases hm : m e.page e.ckpt with
    | none => exact all_bind.2 (all_ok.2 (key _ (fun y hy => by rw [hm] at hy; cases hy) (fun _ => rfl)))
    | some y =>
      dsimp only
      refine all_bind.2 (all_ite.2 ⟨fun _ => all_abort, fun _ => all_ok.2 (key _ (fun z hz => by rw [hm] at hz; cases hz; rfl) (fun hz => by rw [hm] at hz; cases hz))⟩)

/-! ## What is true of the pages -/

/-- digests in the store are those of the contents, and no page is newer than the last checkpoint -/
def Sto (c : Cfg) (m : Store) (last : Nat) : Prop := ∀ p k x, m p k = some x → k ≤ last ∧ x.1 = c.pageH p k x.2

/-- the list of pages `lines` differs from the true one of the checkpoint, with the same digest -/
def PagesCollision (c : Cfg) (tl : Nat → List (Nat × Nat × Bytes)) (log : List Out) : Prop :=
  ∃ d before lines after, Out.complete d before lines after ∈ log ∧ lines ≠ tl d.num ∧ c.descH lines = c.descH (tl d.num)

/-- the replica itself already had a page of the accepted list, with another digest -/
def Conflict (log : List Out) : Prop :=
  ∃ d before lines after p k dg x, Out.complete d before lines after ∈ log ∧ (p, k, dg) ∈ lines ∧ before p k = some x ∧ x.1 ≠ dg

/-- the pages after the transfer are exactly the accepted list -/
def PagesOk (c : Cfg) : Out → Prop
  | .complete d before lines after => after.desc c.pages d.num = lines ∧ Sto c after d.num
  | _ => True

/-- the correct replicas' list of pages for a checkpoint: none newer than the checkpoint -/
structure TruePages (c : Cfg) (tl : Nat → List (Nat × Nat × Bytes)) (d : Desc) : Prop where
  digest : d.pagesDigest = c.descH (tl d.num)
  upto : ∀ x ∈ tl d.num, x.2.1 ≤ d.num

/-- the elements that pass make the store agree with the list -/
theorem checkV_install {m : Store} {ls : Nat} {want v : Bytes} {es : List Elem} {L : List (Nat × Nat × Bytes)} (h : checkV c m ls want v = .ok (some (es, L))) (hs : Sto c m ls) {num : Nat}
    (hnum : ls ≤ num) (hL : ∀ x ∈ L, x.2.1 ≤ num) (hno : ∀ p k dg x, (p, k, dg) ∈ L → m p k = some x → x.1 = dg) {check : Bool} {m' : Store} (hm : installElems check m es = .ok m') :
    (∀ n, num ≤ n → ∀ p < c.pages, some (m'.line n p) = L[p]?) ∧ L.length = c.pages ∧ Sto c m' num := by
  unfold checkV at h
  split at h
  · cases h
  · rename_i es' known hpv
    split at h
    · cases h
    · rename_i hk
      have hk : ls = known := Decidable.not_not.1 hk
      subst hk
      have hok : elemsOk ls none es' = true := by
        unfold parseV at hpv
        split at hpv
        · cases hpv
        · split at hpv
          · cases hpv
          · dsimp only at hpv
            split at hpv
            · rename_i g
              cases hpv
              exact g.2
            · cases hpv
      obtain ⟨g1, _, g3⟩ := elems_sorted ls hok
      have ha := applyElems_spec c ls es' (m.desc c.pages ls) g3
      cases hap : applyElems c ls es' (m.desc c.pages ls) with
      | abort => rw [hap] at h; cases h
      | fault => rw [hap] at h; cases h
      | ok o =>
        rw [hap] at h
        cases o with
        | none => cases h
        | some D =>
          have h : R.ok (if c.descH D = want then some (es', D) else none) = R.ok (some (es, L)) := h
          split at h
          · injection h with h
            injection h with h
            injection h with h1 h2
            subst h1; subst h2
            obtain ⟨a1, a2, a3⟩ := ha _ hap _ rfl
            obtain ⟨i1, i2⟩ := installElems_spec check es' m g3 _ hm
            have hlen : D.length = c.pages := by rw [a1]; unfold Store.desc; simp
            have hdesc : ∀ p, p < c.pages → (m.desc c.pages ls)[p]? = some (m.line ls p) := by
              intro p hp
              unfold Store.desc
              rw [List.getElem?_map, List.getElem?_range hp]; rfl
            -- digests of the elements in the store
            have hel : ∀ e ∈ es', m' e.page e.ckpt = some (e.digest, e.content) ∧ e.ckpt ≤ num := by
              intro e he
              have hin : (e.page, e.ckpt, e.digest) ∈ D := List.mem_of_getElem? (a3 e he).1
              refine ⟨?_, hL _ hin⟩
              rw [i2 e he]
              cases hx : m e.page e.ckpt with
              | none => rfl
              | some x =>
                have := hno _ _ _ x hin hx
                simp only [Option.map_some, Option.getD_some]
                rw [this]
            refine ⟨fun n hn p hp => ?_, hlen, fun p k x hx => ?_⟩
            · by_cases hex : ∃ e ∈ es', e.page = p
              · obtain ⟨e, he, rfl⟩ := hex
                rw [(a3 e he).1]
                have hr : m'.rel e.page n = some (e.ckpt, e.digest, e.content) := by
                  refine rel_some (Nat.le_trans (hel e he).2 hn) (hel e he).1 fun k' q1 q2 => ?_
                  rw [i1 _ _ (fun e' he' hh => ?_)]
                  · cases hx : m e.page k' with
                    | none => rfl
                    | some x =>
                      have := (hs _ _ _ hx).1
                      have := g1 e he
                      omega
                  · have : e' = e := page_unique g3 he' he hh.1
                    subst this
                    omega
                unfold Store.line
                rw [hr]
              · have hne : ∀ e ∈ es', e.page ≠ p := fun e he hh => hex ⟨e, he, hh⟩
                rw [a2 p hne, hdesc p hp]
                have hsame : ∀ k, m' p k = m p k := fun k => i1 p k (fun e he hh => hne e he hh.1)
                have hr : m'.rel p n = m.rel p ls := by
                  rcases rel_cases m p ls with ⟨k, x, q1, q2, q3, q4⟩ | ⟨q1, q2⟩
                  · rw [q4]
                    refine rel_some (by omega) (by rw [hsame]; exact q2) fun k' w1 w2 => ?_
                    rw [hsame]
                    cases hx : m p k' with
                    | none => rfl
                    | some y =>
                      have := (hs _ _ _ hx).1
                      rw [q3 k' w1 this] at hx; cases hx
                  · rw [q2]
                    refine rel_none fun k hk => ?_
                    rw [hsame]
                    cases hx : m p k with
                    | none => rfl
                    | some y =>
                      have := (hs _ _ _ hx).1
                      rw [q1 k this] at hx; cases hx
                unfold Store.line
                rw [hr]
            · by_cases hex : ∃ e ∈ es', e.page = p ∧ e.ckpt = k
              · obtain ⟨e, he, rfl, rfl⟩ := hex
                rw [(hel e he).1] at hx
                cases hx
                exact ⟨(hel e he).2, (a3 e he).2.symm⟩
              · rw [i1 p k (fun e he hh => hex ⟨e, he, hh⟩)] at hx
                have := hs _ _ _ hx
                exact ⟨by omega, this.2⟩
          · cases h

end Verif.St
