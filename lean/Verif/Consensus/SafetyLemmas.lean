import Verif.Consensus.SafetyLogic
/-! Helper lemmas about the model of `ViewChangeSafetyLogic`. -/
namespace Concord.VC

/-! ### sorting -/

theorem insertDesc_perm (x : Nat) (l : List Nat) : (insertDesc x l).Perm (x :: l) := by
  induction l with
  | nil => exact List.Perm.refl _
  | cons y ys ih =>
    unfold insertDesc
    split
    · exact List.Perm.refl _
    · exact ((ih.cons y).trans (List.Perm.swap x y ys))

theorem sortDesc_perm (l : List Nat) : (sortDesc l).Perm l := by
  induction l with
  | nil => exact List.Perm.refl _
  | cons x xs ih => exact (insertDesc_perm x _).trans (ih.cons x)

theorem insertDesc_sorted (x : Nat) (l : List Nat) (h : l.Pairwise (· ≥ ·)) :
    (insertDesc x l).Pairwise (· ≥ ·) := by
  induction l with
  | nil => simp [insertDesc]
  | cons y ys ih =>
    unfold insertDesc
    split
    · rename_i hxy
      refine List.Pairwise.cons ?_ h
      intro a ha
      rcases List.mem_cons.1 ha with rfl | ha
      · exact hxy
      · have := List.rel_of_pairwise_cons h ha; omega
    · rename_i hxy
      rw [List.pairwise_cons] at h ⊢
      refine ⟨?_, ih h.2⟩
      intro a ha
      rcases List.mem_cons.1 ((insertDesc_perm x ys).mem_iff.1 ha) with rfl | ha
      · omega
      · exact h.1 a ha

theorem sortDesc_sorted (l : List Nat) : (sortDesc l).Pairwise (· ≥ ·) := by
  induction l with
  | nil => simp [sortDesc]
  | cons x xs ih => exact insertDesc_sorted x _ ih

/-- two descending lists that are permutations are equal -/
theorem sorted_perm_eq : ∀ (l l' : List Nat), l.Pairwise (· ≥ ·) → l'.Pairwise (· ≥ ·) → l.Perm l' → l = l'
  | [], l', _, _, p => (List.nil_perm.1 p).symm
  | x :: xs, [], _, _, p => by simpa using p.length_eq
  | x :: xs, y :: ys, h, h', p => by
    have hx : x ∈ y :: ys := p.mem_iff.1 (List.mem_cons_self ..)
    have hy : y ∈ x :: xs := p.mem_iff.2 (List.mem_cons_self ..)
    have h1 : y ≥ x := by
      rcases List.mem_cons.1 hx with rfl | hx
      · exact Nat.le_refl _
      · exact List.rel_of_pairwise_cons h' hx
    have h2 : x ≥ y := by
      rcases List.mem_cons.1 hy with rfl | hy
      · exact Nat.le_refl _
      · exact List.rel_of_pairwise_cons h hy
    have : x = y := by omega
    subst this
    rw [sorted_perm_eq xs ys h.of_cons h'.of_cons (List.Perm.cons_inv p)]

theorem sortDesc_perm_eq {l l' : List Nat} (p : l.Perm l') : sortDesc l = sortDesc l' :=
  sorted_perm_eq _ _ (sortDesc_sorted l) (sortDesc_sorted l')
    ((sortDesc_perm l).trans (p.trans (sortDesc_perm l').symm))

theorem sorted_count_ge (l : List Nat) (h : l.Pairwise (· ≥ ·)) (k : Nat) (x : Nat) (hk : l[k]? = some x) :
    k + 1 ≤ l.countP (fun y => decide (y ≥ x)) := by
  induction l generalizing k with
  | nil => simp at hk
  | cons y ys ih =>
    cases k with
    | zero =>
      simp at hk; subst hk; simp
    | succ k =>
      have hm : x ∈ ys := List.mem_of_getElem? (by simpa using hk)
      have hy := List.rel_of_pairwise_cons h hm
      have := ih h.of_cons k (by simpa using hk)
      rw [List.countP_cons]
      simp only [decide_eq_true hy, if_true]
      omega

theorem sorted_count_gt (l : List Nat) (h : l.Pairwise (· ≥ ·)) (k : Nat) (x : Nat) (hk : l[k]? = some x) :
    l.countP (fun y => decide (y > x)) ≤ k := by
  induction l generalizing k with
  | nil => simp at hk
  | cons y ys ih =>
    cases k with
    | zero =>
      simp at hk; subst hk
      rw [Nat.le_zero_eq, List.countP_eq_zero]
      intro a ha
      rcases List.mem_cons.1 ha with rfl | ha
      · simp
      · have := List.rel_of_pairwise_cons h ha; simp; omega
    | succ k =>
      have := ih h.of_cons k (by simpa using hk)
      rw [List.countP_cons]
      split <;> omega

/-! ### the fast-path counting loop -/

/-- number of votes for `d` among `es` for sequence number `s` with origin view at least `m` -/
def votes (s m : Nat) (d : Digest) (es : List Elem) : Nat :=
  es.countP (fun e => decide (e.seq = s ∧ e.originView ≥ m ∧ e.digest = d))

theorem votes_cons (s m : Nat) (d : Digest) (e : Elem) (es : List Elem) :
    votes s m d (e :: es) = (if e.seq = s ∧ e.originView ≥ m ∧ e.digest = d then 1 else 0) + votes s m d es := by
  unfold votes; rw [List.countP_cons]; simp only [decide_eq_true_eq]; omega

theorem votes_perm {s m : Nat} {d : Digest} {es es' : List Elem} (p : es.Perm es') :
    votes s m d es = votes s m d es' := p.countP_eq _

theorem votes_two (s m : Nat) {d d' : Digest} (h : d ≠ d') (es : List Elem) :
    votes s m d es + votes s m d' es ≤ es.length := by
  induction es with
  | nil => simp [votes]
  | cons e es ih =>
    rw [votes_cons, votes_cons, List.length_cons]
    by_cases h1 : e.seq = s ∧ e.originView ≥ m ∧ e.digest = d
    · have h2 : ¬ (e.seq = s ∧ e.originView ≥ m ∧ e.digest = d') := by
        rintro ⟨_, _, h2⟩; exact h (h1.2.2.symm.trans h2)
      rw [if_pos h1, if_neg h2]; omega
    · by_cases h2 : e.seq = s ∧ e.originView ≥ m ∧ e.digest = d'
      · rw [if_neg h1, if_pos h2]; omega
      · simp only [h1, h2, if_false]; omega

/-- the counters agree with the votes counted so far -/
def CountersOk (thr : Nat) (cs : List (Digest × Nat)) (cnt : Digest → Nat) : Prop :=
  ∀ d, cnt d < thr ∧ cs.lookup d = (if cnt d = 0 then none else some (cnt d))

theorem fastLoop_spec (thr m s : Nat) (hthr : 2 ≤ thr) : ∀ (es : List Elem) (cs : List (Digest × Nat))
    (cnt : Digest → Nat), CountersOk thr cs cnt →
    (∀ d, fastLoop thr m s es cs = some d → thr ≤ cnt d + votes s m d es) ∧
    (fastLoop thr m s es cs = none → ∀ d, cnt d + votes s m d es < thr)
  | [], cs, cnt, hc => by
    simp [fastLoop, votes]
    intro d; exact (hc d).1
  | e :: es, cs, cnt, hc => by
    unfold fastLoop
    by_cases hcond : e.seq = s ∧ e.originView ≥ m
    · rw [if_pos hcond]
      have hL := (hc e.digest).2
      have hvd : ∀ d, votes s m d (e :: es) = (if e.digest = d then 1 else 0) + votes s m d es := by
        intro d; rw [votes_cons]; simp [hcond.1, hcond.2]
      have key : ∀ k, cnt e.digest = k → k + 1 < thr →
          CountersOk thr ((e.digest, k + 1) :: cs) (fun d => cnt d + if e.digest = d then 1 else 0) := by
        intro k hk hlt d
        by_cases hd : e.digest = d
        · subst hd
          simp [hk, hlt, List.lookup_cons_self]
        · have hd' : (d == e.digest) = false := by simp; exact fun h => hd h.symm
          simp only [hd, if_false, Nat.add_zero, List.lookup_cons, hd']
          exact hc d
      by_cases h0 : cnt e.digest = 0
      · rw [if_pos h0] at hL
        simp only [hL]
        have ih := fastLoop_spec thr m s hthr es _ _ (key 0 h0 (by omega))
        constructor
        · intro d hd
          have := ih.1 d hd
          rw [hvd d]; omega
        · intro hn d
          have := ih.2 hn d
          rw [hvd d]; omega
      · rw [if_neg h0] at hL
        simp only [hL]
        by_cases hk : cnt e.digest + 1 = thr
        · rw [if_pos hk]
          constructor
          · intro d hd
            have : e.digest = d := by simpa using hd
            subst this
            rw [hvd]; simp; omega
          · intro hn; simp at hn
        · rw [if_neg hk]
          have hlt := (hc e.digest).1
          have ih := fastLoop_spec thr m s hthr es _ _ (key _ rfl (by omega))
          constructor
          · intro d hd
            have := ih.1 d hd
            rw [hvd d]; omega
          · intro hn d
            have := ih.2 hn d
            rw [hvd d]; omega
    · rw [if_neg hcond]
      have ih := fastLoop_spec thr m s hthr es cs cnt hc
      have hvd : ∀ d, votes s m d (e :: es) = votes s m d es := by
        intro d; rw [votes_cons]
        have : ¬ (e.seq = s ∧ e.originView ≥ m ∧ e.digest = d) := fun h => hcond ⟨h.1, h.2.1⟩
        simp [this]
      simp only [hvd]; exact ih

theorem fastLoop_some {thr m s : Nat} (hthr : 2 ≤ thr) {es : List Elem} {d : Digest}
    (h : fastLoop thr m s es [] = some d) : thr ≤ votes s m d es := by
  have := (fastLoop_spec thr m s hthr es [] (fun _ => 0) (by intro d; simp; omega)).1 d h
  omega

theorem fastLoop_none {thr m s : Nat} (hthr : 2 ≤ thr) {es : List Elem}
    (h : fastLoop thr m s es [] = none) (d : Digest) : votes s m d es < thr := by
  have := (fastLoop_spec thr m s hthr es [] (fun _ => 0) (by intro d; simp; omega)).2 h d
  omega

/-! ### the set of slow certificates -/

theorem before_irrefl (a : SlowElem) : a.before a = false := by simp [SlowElem.before]

theorem before_iff (a b : SlowElem) :
    a.before b = true ↔ a.view > b.view ∨ (a.view = b.view ∧ (a.digest : Nat) < b.digest) := by
  unfold SlowElem.before
  by_cases h : a.view = b.view
  · simp [h]
  · simp [h]

/-- equivalent elements of the set -/
def SlowElem.equiv (a b : SlowElem) : Prop := a.view = b.view ∧ (a.digest : Nat) = b.digest

theorem equiv_of_not_before {a b : SlowElem} (h1 : ¬ a.before b = true) (h2 : ¬ b.before a = true) :
    a.equiv b := by
  rw [before_iff] at h1 h2
  unfold SlowElem.equiv; omega

theorem slowInsert_mem {x z : SlowElem} {l : List SlowElem} (h : z ∈ slowInsert x l) : z = x ∨ z ∈ l := by
  induction l with
  | nil => simpa [slowInsert] using h
  | cons y ys ih =>
    unfold slowInsert at h
    split at h
    · simpa using h
    · split at h
      · rcases List.mem_cons.1 h with rfl | h
        · simp
        · rcases ih h with h | h <;> simp [h]
      · exact Or.inr h

theorem slowInsert_old {x z : SlowElem} {l : List SlowElem} (h : z ∈ l) : z ∈ slowInsert x l := by
  induction l with
  | nil => simp at h
  | cons y ys ih =>
    unfold slowInsert
    split
    · exact List.mem_cons_of_mem _ h
    · split
      · rcases List.mem_cons.1 h with rfl | h
        · simp
        · exact List.mem_cons_of_mem _ (ih h)
      · exact h

theorem slowInsert_new (x : SlowElem) (l : List SlowElem) : ∃ z ∈ slowInsert x l, z.equiv x := by
  induction l with
  | nil => exact ⟨x, by simp [slowInsert], rfl, rfl⟩
  | cons y ys ih =>
    unfold slowInsert
    split
    · exact ⟨x, by simp, rfl, rfl⟩
    · split
      · obtain ⟨z, hz, he⟩ := ih
        exact ⟨z, List.mem_cons_of_mem _ hz, he⟩
      · rename_i h1 h2
        exact ⟨y, by simp, equiv_of_not_before h2 h1⟩

theorem slowInsert_sorted (x : SlowElem) (l : List SlowElem)
    (h : l.Pairwise (fun a b => a.before b = true)) :
    (slowInsert x l).Pairwise (fun a b => a.before b = true) := by
  induction l with
  | nil => simp [slowInsert]
  | cons y ys ih =>
    unfold slowInsert
    split
    · rename_i hb
      refine List.Pairwise.cons ?_ h
      intro a ha
      rcases List.mem_cons.1 ha with rfl | ha
      · exact hb
      · have := List.rel_of_pairwise_cons h ha
        rw [before_iff] at *; omega
    · split
      · rename_i h1 h2
        rw [List.pairwise_cons] at h ⊢
        refine ⟨?_, ih h.2⟩
        intro a ha
        rcases slowInsert_mem ha with rfl | ha
        · exact h2
        · exact h.1 a ha
      · exact h

/-- one step of `collectSlow` -/
def slowStep (s : Nat) (acc : List SlowElem) (e : Elem) : List SlowElem :=
  if e.seq = s then (match e.slow? with | some x => slowInsert x acc | none => acc) else acc

theorem collectSlow_eq (s : Nat) (cur : List Elem) : collectSlow s cur = cur.foldl (slowStep s) [] := rfl

theorem foldl_slow_sorted (s : Nat) (cur : List Elem) (acc : List SlowElem)
    (h : acc.Pairwise (fun a b => a.before b = true)) :
    (cur.foldl (slowStep s) acc).Pairwise (fun a b => a.before b = true) := by
  induction cur generalizing acc with
  | nil => exact h
  | cons e es ih =>
    apply ih
    unfold slowStep
    split
    · split
      · exact slowInsert_sorted _ _ h
      · exact h
    · exact h

theorem foldl_slow_mem (s : Nat) (cur : List Elem) (acc : List SlowElem) {x : SlowElem}
    (h : x ∈ cur.foldl (slowStep s) acc) : x ∈ acc ∨ ∃ e ∈ cur, e.seq = s ∧ e.slow? = some x := by
  induction cur generalizing acc with
  | nil => exact Or.inl h
  | cons e es ih =>
    rcases ih _ h with h | ⟨e', he', h'⟩
    · unfold slowStep at h
      split at h
      · rename_i hs
        split at h
        · rename_i y hy
          rcases slowInsert_mem h with rfl | h
          · exact Or.inr ⟨e, by simp, hs, hy⟩
          · exact Or.inl h
        · exact Or.inl h
      · exact Or.inl h
    · exact Or.inr ⟨e', List.mem_cons_of_mem _ he', h'⟩

theorem foldl_slow_keep (s : Nat) (cur : List Elem) (acc : List SlowElem) {x : SlowElem} (h : x ∈ acc) :
    x ∈ cur.foldl (slowStep s) acc := by
  induction cur generalizing acc with
  | nil => exact h
  | cons e es ih =>
    apply ih
    unfold slowStep
    split
    · split
      · exact slowInsert_old h
      · exact h
    · exact h

theorem foldl_slow_new (s : Nat) (cur : List Elem) (acc : List SlowElem) {e : Elem} {x : SlowElem}
    (he : e ∈ cur) (hs : e.seq = s) (hx : e.slow? = some x) :
    ∃ z ∈ cur.foldl (slowStep s) acc, z.equiv x := by
  induction cur generalizing acc with
  | nil => simp at he
  | cons e' es ih =>
    rcases List.mem_cons.1 he with rfl | he
    · obtain ⟨z, hz, hzx⟩ := slowInsert_new x acc
      refine ⟨z, ?_, hzx⟩
      rw [List.foldl_cons]
      apply foldl_slow_keep
      unfold slowStep
      rw [if_pos hs]; simp only [hx]; exact hz
    · rw [List.foldl_cons]; exact ih _ he

theorem collectSlow_sorted (s : Nat) (cur : List Elem) :
    (collectSlow s cur).Pairwise (fun a b => a.before b = true) :=
  foldl_slow_sorted s cur [] List.Pairwise.nil

theorem collectSlow_mem {s : Nat} {cur : List Elem} {x : SlowElem} (h : x ∈ collectSlow s cur) :
    ∃ e ∈ cur, e.seq = s ∧ e.slow? = some x := by
  rcases foldl_slow_mem s cur [] h with h | h
  · simp at h
  · exact h

theorem collectSlow_new {s : Nat} {cur : List Elem} {e : Elem} {x : SlowElem}
    (he : e ∈ cur) (hs : e.seq = s) (hx : e.slow? = some x) : ∃ z ∈ collectSlow s cur, z.equiv x :=
  foldl_slow_new s cur [] he hs hx

theorem collectSlow_seq {s : Nat} {cur : List Elem} {x : SlowElem} (h : x ∈ collectSlow s cur) : x.seq = s := by
  obtain ⟨e, _, hs, hx⟩ := collectSlow_mem h
  unfold Elem.slow? at hx
  cases hc : e.cert with
  | none => simp [hc] at hx
  | some c => simp [hc] at hx; rw [← hx]; exact hs

theorem checkSlow_collect (s : Nat) (cur : List Elem) : checkSlow (collectSlow s cur) = true := by
  have hs := collectSlow_sorted s cur
  have hq : ∀ x ∈ collectSlow s cur, x.seq = s := fun x h => collectSlow_seq h
  generalize collectSlow s cur = l at *
  induction l with
  | nil => rfl
  | cons a t ih =>
    cases t with
    | nil => rfl
    | cons b t =>
      have hab := List.rel_of_pairwise_cons hs (List.mem_cons_self ..)
      rw [before_iff] at hab
      have ha := hq a (by simp)
      have hb := hq b (by simp)
      have := ih hs.of_cons (fun x hx => hq x (List.mem_cons_of_mem _ hx))
      simp only [checkSlow, this, Bool.and_true, ha, hb, bne_self_eq_false, Bool.and_false, Bool.not_false]
      simp; omega

/-! ### `decideSeq` depends only on the elements for `s` -/

theorem foldl_slow_filter (s : Nat) (cur : List Elem) (acc : List SlowElem) :
    cur.foldl (slowStep s) acc = (cur.filter (fun e => decide (e.seq = s))).foldl (slowStep s) acc := by
  induction cur generalizing acc with
  | nil => rfl
  | cons e es ih =>
    by_cases h : e.seq = s
    · rw [List.filter_cons_of_pos (by simpa using h), List.foldl_cons, List.foldl_cons, ih]
    · rw [List.filter_cons_of_neg (by simpa using h), List.foldl_cons]
      have : slowStep s acc e = acc := by unfold slowStep; rw [if_neg h]
      rw [this, ih]

theorem fastLoop_filter (thr m s : Nat) (cur : List Elem) (cs : List (Digest × Nat)) :
    fastLoop thr m s cur cs = fastLoop thr m s (cur.filter (fun e => decide (e.seq = s))) cs := by
  induction cur generalizing cs with
  | nil => rfl
  | cons e es ih =>
    by_cases h : e.seq = s
    · rw [List.filter_cons_of_pos (by simpa using h)]
      unfold fastLoop
      split
      · split
        · exact ih _
        · split
          · rfl
          · exact ih _
      · exact ih _
    · rw [List.filter_cons_of_neg (by simpa using h), ← ih]
      conv => lhs; unfold fastLoop
      rw [if_neg (by rintro ⟨h', _⟩; exact h h')]

theorem decideSeq_filter (g : Cfg) (s : Nat) (cur : List Elem) :
    decideSeq g s cur = decideSeq g s (cur.filter (fun e => decide (e.seq = s))) := by
  unfold decideSeq
  rw [collectSlow_eq, collectSlow_eq, ← foldl_slow_filter]
  simp only
  rw [← fastLoop_filter]

/-! ### iterators -/

/-- what one round does to one iterator -/
def iterStep (s ub : Nat) (it : List Elem) : Option (List Elem) :=
  match it with
  | [] => some []
  | e :: rest =>
    if e.seq > s then some it
    else match rest with
      | [] => none
      | e' :: _ => if e'.seq > ub then none else some rest

theorem set_dropLast {α} (pre : List α) (x : α) (tl : List α) (z : α) :
    ((pre ++ x :: (tl ++ [z])).set pre.length z).dropLast = pre ++ z :: tl := by
  rw [List.set_append_right _ _ (Nat.le_refl _)]
  simp only [Nat.sub_self, List.set_cons_zero]
  rw [List.dropLast_append_of_ne_nil (by simp)]
  rw [← List.cons_append, List.dropLast_concat]

theorem advance_perm (s ub : Nat) : ∀ (n : Nat) (its : List (List Elem)) (idx : Nat),
    its.length - idx ≤ n → (∀ it ∈ its, it ≠ []) →
    (advanceF s ub n its idx).Perm (its.take idx ++ (its.drop idx).filterMap (iterStep s ub)) := by
  intro n
  induction n with
  | zero =>
    intro its idx hn _
    unfold advanceF
    rw [List.take_of_length_le (by omega), List.drop_of_length_le (by omega)]
    simp
  | succ n ih =>
    intro its idx hn hne
    unfold advanceF
    by_cases h : idx < its.length
    · rw [dif_pos h]
      have hdrop : its.drop idx = its[idx] :: its.drop (idx + 1) := List.drop_eq_getElem_cons h
      have htake : its.take (idx + 1) = its.take idx ++ [its[idx]] := List.take_succ_eq_append_getElem h
      have hne' := hne its[idx] (List.getElem_mem h)
      split
      · rename_i heq; exact absurd heq hne'
      · rename_i e rest heq
        by_cases hgt : e.seq > s
        · rw [if_pos hgt]
          refine (ih its (idx + 1) (by omega) hne).trans ?_
          rw [hdrop, List.filterMap_cons]
          have : iterStep s ub its[idx] = some its[idx] := by rw [heq]; simp [iterStep, hgt]
          rw [this]; simp only; rw [htake, List.append_assoc]; exact List.Perm.refl _
        · rw [if_neg hgt]
          -- decompose the list
          have hsplit : its = its.take idx ++ its[idx] :: its.drop (idx + 1) := by
            rw [← hdrop]; exact (List.take_append_drop idx its).symm
          have hlen : (its.take idx).length = idx := by rw [List.length_take]; omega
          by_cases hfin : finished ub rest = true
          · rw [if_pos hfin]
            have hstep : iterStep s ub its[idx] = none := by
              rw [heq]; unfold iterStep; simp only [if_neg hgt]
              cases rest with
              | nil => rfl
              | cons e' r => simp only [finished, decide_eq_true_eq] at hfin; simp [hfin]
            rw [hdrop, List.filterMap_cons, hstep]
            -- the resulting list
            have hcases : its.drop (idx + 1) = [] ∨ ∃ tl z, its.drop (idx + 1) = tl ++ [z] := by
              rcases List.eq_nil_or_concat (its.drop (idx + 1)) with h | ⟨tl, z, h⟩
              · exact Or.inl h
              · exact Or.inr ⟨tl, z, by simpa using h⟩
            have hdr : its.drop idx ≠ [] := by intro h'; rw [h'] at hdrop; simp at hdrop; omega
            have hlast : its[its.length - 1]'(by omega) = (its.drop idx).getLast hdr := by
              rw [List.getLast_eq_getElem]
              simp only [List.getElem_drop, List.length_drop]
              congr 1; omega
            rcases hcases with h0 | ⟨tl, z, h0⟩
            · have hl : (its.set idx (its[its.length - 1]'(by omega))).dropLast = its.take idx := by
                rw [List.dropLast_eq_take, List.length_set]
                have : its.length - 1 = idx := by
                  have := congrArg List.length h0
                  simp at this; omega
                simp [this]
              rw [hl]
              refine (ih (its.take idx) idx (by rw [hlen]; omega) ?_).trans ?_
              · intro it hit; exact hne it (List.mem_of_mem_take hit)
              · rw [h0]; simp [List.take_take]
            · have hz : its[its.length - 1]'(by omega) = z := by
                rw [hlast]
                have : its.drop idx = (its[idx] :: tl) ++ [z] := by rw [hdrop, h0]; rfl
                simp only [this, List.getLast_concat]
              have hl : (its.set idx (its[its.length - 1]'(by omega))).dropLast = its.take idx ++ z :: tl := by
                rw [hz]
                have := set_dropLast (its.take idx) its[idx] tl z
                rw [hlen, ← h0, ← hsplit] at this
                exact this
              rw [hl]
              have hlen2 : its.length = idx + 1 + (tl.length + 1) := by
                have := congrArg List.length h0
                simp at this; omega
              refine (ih _ idx ?_ ?_).trans ?_
              · simp [hlen]; omega
              · intro it hit
                rcases List.mem_append.1 hit with hit | hit
                · exact hne it (List.mem_of_mem_take hit)
                · apply hne it
                  apply List.mem_of_mem_drop (i := idx + 1)
                  rw [h0]; rcases List.mem_cons.1 hit with rfl | hit <;> simp [*]
              · have e1 : (its.take idx ++ z :: tl).take idx = its.take idx := by
                  rw [List.take_append_of_le_length (by omega), List.take_of_length_le (by omega)]
                have e2 : (its.take idx ++ z :: tl).drop idx = z :: tl := by
                  rw [List.drop_append_of_le_length (by omega), List.drop_of_length_le (by omega)]; rfl
                rw [e1, e2, h0]
                refine List.Perm.append_left _ ?_
                apply List.Perm.filterMap
                exact (List.perm_append_singleton z tl).symm
          · rw [if_neg hfin]
            have hrest : rest ≠ [] := by
              rintro rfl; simp [finished] at hfin
            have hstep : iterStep s ub its[idx] = some rest := by
              rw [heq]; unfold iterStep; simp only [if_neg hgt]
              cases rest with
              | nil => simp [finished] at hfin
              | cons e' r => simp only [finished, decide_eq_true_eq] at hfin; simp [hfin]
            refine (ih (its.set idx rest) (idx + 1) (by rw [List.length_set]; omega) ?_).trans ?_
            · intro it hit
              rcases List.mem_or_eq_of_mem_set hit with hit | rfl
              · exact hne it hit
              · exact hrest
            · rw [hdrop, List.filterMap_cons, hstep]
              have e1 : (its.set idx rest).take (idx + 1) = its.take idx ++ [rest] := by
                rw [List.take_succ_eq_append_getElem (by rw [List.length_set]; exact h)]
                rw [List.getElem_set_self, List.take_set_of_le (Nat.le_refl _)]
              have e2 : (its.set idx rest).drop (idx + 1) = its.drop (idx + 1) := by
                rw [List.drop_set_of_lt (by omega)]
              rw [e1, e2]; simp
    · rw [dif_neg h, List.take_of_length_le (by omega), List.drop_of_length_le (by omega)]
      simp

end Concord.VC
