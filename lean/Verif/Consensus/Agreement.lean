import Verif.Consensus.RangeLemmas
/-!
C01: agreement across views.
-/
namespace Concord.Protocol
open Concord.VC Concord.VC.Spec

/-- the replicas that produced a share -/
def signersOf (P : Params) (sh : List Share) (k : Kind) (v s d : Nat) : List Nat :=
  (List.range P.cfg.N).filter (fun i => sh.contains ⟨k, v, s, d, i⟩)

theorem signersOf_nodup {P : Params} {sh : List Share} {k : Kind} {v s d : Nat} : (signersOf P sh k v s d).Nodup :=
  List.nodup_range.filter _

theorem signersOf_lt {P : Params} {sh : List Share} {k : Kind} {v s d : Nat} :
    ∀ x ∈ signersOf P sh k v s d, x < P.cfg.N := fun _ hx => List.mem_range.1 (List.mem_filter.1 hx).1

theorem signersOf_mem {P : Params} {sh : List Share} {k : Kind} {v s d x : Nat} (h : x ∈ signersOf P sh k v s d) :
    (⟨k, v, s, d, x⟩ : Share) ∈ sh := by
  have := (List.mem_filter.1 h).2
  rwa [List.contains_iff_mem] at this

/-- any `F+1` distinct replicas include an honest one -/
theorem honest_signer {P : Params} (hf : FewFaulty P.cfg P.honest) {A : List Nat} (hn : A.Nodup)
    (hlt : ∀ x ∈ A, x < P.cfg.N) (hl : P.cfg.F + 1 ≤ A.length) : ∃ x ∈ A, P.ok x = true := by
  have := Quorum.filter_length (p := P.honest) hn hlt hf
  have hpos : 0 < (A.filter P.honest).length := by omega
  obtain ⟨x, hx⟩ := List.exists_mem_of_length_pos hpos
  rw [List.mem_filter] at hx
  exact ⟨x, hx.1, by simp [Params.ok, hx.2, hlt x hx.1]⟩

/-- two quorums of `2F+C+1` share an honest replica -/
theorem quorums_meet {P : Params} (hf : FewFaulty P.cfg P.honest) {A B : List Nat} (hA : A.Nodup) (hB : B.Nodup)
    (hAl : ∀ x ∈ A, x < P.cfg.N) (hBl : ∀ x ∈ B, x < P.cfg.N)
    (h1 : P.slowQ ≤ A.length) (h2 : P.slowQ ≤ B.length) : ∃ x, x ∈ A ∧ x ∈ B ∧ P.ok x = true := by
  have h := Quorum.inter_length hA hB hAl hBl
  obtain ⟨x, hx, hok⟩ := honest_signer hf (A := A.filter (fun x => decide (x ∈ B))) (hA.filter _)
    (fun x hx => hAl x (List.mem_filter.1 hx).1) (by unfold Params.slowQ at h1 h2; unfold Cfg.N at h; omega)
  rw [List.mem_filter] at hx
  exact ⟨x, hx.1, by simpa using hx.2, hok⟩

/-- The signers behind a commit: at least `2F+C+1` commit shares, or at least `3F+C+1` fast shares. -/
theorem CommitEv.signers {P : Params} {sh : List Share} {v s d : Nat} (h : CommitEv P sh v s d) :
    (∃ A : List Nat, A.Nodup ∧ (∀ x ∈ A, x < P.cfg.N) ∧ 2 * P.cfg.F + P.cfg.C + 1 ≤ A.length ∧
      ∀ x ∈ A, (⟨.commit, v, s, d, x⟩ : Share) ∈ sh) ∨
    (∃ (A : List Nat) (k : Kind), (k = .fastThr ∨ k = .fastOpt) ∧ A.Nodup ∧ (∀ x ∈ A, x < P.cfg.N) ∧
      3 * P.cfg.F + P.cfg.C + 1 ≤ A.length ∧ ∀ x ∈ A, (⟨k, v, s, d, x⟩ : Share) ∈ sh) := by
  rcases h with h | ⟨_, h⟩ | h
  · exact Or.inl ⟨signersOf P sh .commit v s d, signersOf_nodup, signersOf_lt, h, fun x hx => signersOf_mem hx⟩
  · exact Or.inr ⟨signersOf P sh .fastThr v s d, .fastThr, Or.inl rfl, signersOf_nodup, signersOf_lt, h,
      fun x hx => signersOf_mem hx⟩
  · refine Or.inr ⟨signersOf P sh .fastOpt v s d, .fastOpt, Or.inr rfl, signersOf_nodup, signersOf_lt, ?_,
      fun x hx => signersOf_mem hx⟩
    have : P.cfg.N ≤ (signersOf P sh .fastOpt v s d).length := h
    unfold Cfg.N at this; omega

/-- a quorum of replicas that bound `d` to `(v,s)`, those among them that are honest -/
theorem CommitEv.quorum {P : Params} {c : Core} {v s d : Nat} (hI : Inv P c) (h : CommitEv P c.shares v s d) :
    ∃ A : List Nat, A.Nodup ∧ (∀ x ∈ A, x < P.cfg.N) ∧ P.slowQ ≤ A.length ∧
      ∀ x ∈ A, P.ok x = true → Asg c x v s d := by
  rcases h.signers with ⟨A, h1, h2, h3, h4⟩ | ⟨A, k, _, h1, h2, h3, h4⟩
  · exact ⟨A, h1, h2, h3, fun x hx hok => (hI.reps x hok).shareA _ _ _ _ (h4 x hx)⟩
  · exact ⟨A, h1, h2, by unfold Params.slowQ; omega, fun x hx hok => (hI.reps x hok).shareA _ _ _ _ (h4 x hx)⟩

theorem backed.quorum {P : Params} {c : Core} {v s d : Nat} (hI : Inv P c) (h : backed P c.shares v s d) :
    ∃ A : List Nat, A.Nodup ∧ (∀ x ∈ A, x < P.cfg.N) ∧ P.slowQ ≤ A.length ∧
      ∀ x ∈ A, P.ok x = true → Asg c x v s d :=
  ⟨signersOf P c.shares .prepare v s d, signersOf_nodup, signersOf_lt, h,
    fun x hx hok => (hI.reps x hok).shareA _ _ _ _ (signersOf_mem hx)⟩

/-- Conditions on an entry into a view under which the code is safe; each one excludes a situation in which
the code's view-change computation loses a committed batch (see DESIGN.md, "Findings"). -/
structure GoodInstall (P : Params) (I : Install) : Prop where
  /-- no honest replica among the senders is more advanced than the lower bound used -/
  stable : ∀ m ∈ msgs I.arr, P.honest m.sender = true → m.lastStable ≤ I.lb
  /-- a certified null operation is not cut off by the shortened range -/
  nulls : ∀ rs, computeRestrictions P.cfg I.arr I.lb = some rs → ∀ s v, I.lb < s → s ≤ I.lb + 300 →
    HasCert P.cfg s (reported s (msgs I.arr)) v P.cfg.nullDigest → s ≤ rs.max
  /-- no faulty replica repeats view and digest of a valid certificate with a bad signature, or `F ≤ 1` -/
  shadow : P.cfg.F ≤ 1 ∨ ∀ s, NoShadow P.cfg s (reported s (msgs I.arr))

section
variable {P : Params} {c : Core} {v s d : Nat}

/-- what the honest signers of the commit report when they leave for view `w` -/
def ReportS (P : Params) (c : Core) (v s d w : Nat) : Prop :=
  ∀ m ∈ c.vcs, P.ok m.sender = true → m.newView = w → (⟨.commit, v, s, d, m.sender⟩ : Share) ∈ c.shares →
    s ≤ m.lastStable ∨ ∃ e ∈ m.elems, e.seq = s ∧ e.digest = d ∧ ∃ ct, e.cert = some ct ∧ v ≤ ct.view

def ReportF (P : Params) (c : Core) (v s d w : Nat) : Prop :=
  ∀ m ∈ c.vcs, P.ok m.sender = true → m.newView = w → ∀ k, k = Kind.fastThr ∨ k = Kind.fastOpt →
    (⟨k, v, s, d, m.sender⟩ : Share) ∈ c.shares →
    s ≤ m.lastStable ∨ ∃ e ∈ m.elems, e.seq = s ∧ e.digest = d ∧ v ≤ e.originView

/-- every honest replica entering `w` re-proposes `d` at `s`, unless `s` is stable for it -/
def Filled (c : Core) (s d w : Nat) : Prop :=
  ∀ I ∈ c.installs, I.view = w → I.stable < s → Asg c I.rep w s d

def Asgd (P : Params) (c : Core) (s d w : Nat) : Prop :=
  ∀ i d', P.ok i = true → Asg c i w s d' → d' = d

theorem reportS_step (hI : Inv P c) {w : Nat} (hw : v < w)
    (hB : ∀ u, v < u → u < w → ReportS P c v s d u) (hF : ∀ u, v < u → u < w → Filled c s d u) :
    ReportS P c v s d w := by
  intro m hm hok hnv hsh
  obtain ⟨u, hu⟩ := hI.vcf m hm hok
  have hasg := (hI.reps _ hok).shareA _ _ _ _ hsh
  have hvu := hu.skip v s d hasg (by omega)
  rcases Nat.lt_or_ge m.lastStable s with hls | hls
  · refine Or.inr ?_
    rcases Nat.eq_or_lt_of_le hvu with rfl | hlt
    · exact hu.q2 s d hsh hls
    · have hult := hu.lt
      obtain ⟨m', h1, h2, h3, h4, h5⟩ := hu.q3 (by omega)
      obtain ⟨I, i1, i2, i3, i4⟩ := hu.inst (by omega)
      have hA : Asg c m.sender u s d := by
        have := hF u hlt (by omega) I i1 i3 (by omega)
        rwa [i2] at this
      rcases hB u hlt (by omega) m' h1 (by rw [h2]; exact hok) h3 (by rw [h2]; exact hsh) with h6 | ⟨e', e1, e2, e3, ct', e4, e5⟩
      · omega
      · obtain ⟨e, g1, g2, g3, ct, g4, g5⟩ := h5 e' e1 ct' e4 (by rw [e2]; exact hls) (by rw [e2, e3]; exact hA)
        exact ⟨e, g1, by omega, by rw [g3, e3], ct, g4, by omega⟩
  · exact Or.inl hls

theorem reportF_step (hI : Inv P c) {w : Nat} (hw : v < w)
    (hF : ∀ u, v < u → u < w → Filled c s d u) : ReportF P c v s d w := by
  intro m hm hok hnv k hk hsh
  obtain ⟨u, hu⟩ := hI.vcf m hm hok
  have hasg := (hI.reps _ hok).shareA _ _ _ _ hsh
  have hvu := hu.skip v s d hasg (by omega)
  have hnn := (hI.reps _ hok).shareFast _ _ _ _ hsh hk
  rcases Nat.lt_or_ge m.lastStable s with hls | hls
  · refine Or.inr ?_
    have hA : Asg c m.sender u s d := by
      rcases Nat.eq_or_lt_of_le hvu with rfl | hlt
      · exact hasg
      · have hult := hu.lt
        obtain ⟨I, i1, i2, i3, i4⟩ := hu.inst (by omega)
        have := hF u hlt (by omega) I i1 i3 (by omega)
        rwa [i2] at this
    obtain ⟨e, g1, g2, g3⟩ := hu.q1 s d hA hls hnn
    exact ⟨e, g1, g2, g3, by rw [(hu.elems e g1).1]; exact hvu⟩
  · exact Or.inl hls

theorem ok_honest {P : Params} {i : Nat} (h : P.ok i = true) : P.honest i = true := by
  unfold Params.ok at h; simp at h; exact h.1

theorem ok_of {P : Params} {i : Nat} (h : P.honest i = true) (h' : i < P.cfg.N) : P.ok i = true := by
  unfold Params.ok; simp [h, h']

/-- everything valid and recent that is reported about `s` is about `d` -/
theorem locked_step (hI : Inv P c) (hf : FewFaulty P.cfg P.honest) (hc : CommitEv P c.shares v s d)
    {I : Install} (hIn : I ∈ c.installs) (hA : ∀ u, v < u → u < I.view → Asgd P c s d u) :
    Locked P.cfg P.honest (msgs I.arr) s v d := by
  have hfact := (hI.insts I hIn).2
  constructor
  · rintro v' d' hv' ⟨e, he, hd, sig, hcert, hval⟩
    obtain ⟨m, hm, hem, hes⟩ := mem_reported.1 he
    have hb := hI.vcBacked m (hfact.nv m hm).2 e hem _ hcert (by rw [hes, hd]; exact hval)
    rw [hes, hd] at hb
    simp only at hb
    obtain ⟨B, b1, b2, b3, b4⟩ := backed.quorum hI hb
    rcases Nat.eq_or_lt_of_le hv' with rfl | hlt
    · obtain ⟨A, a1, a2, a3, a4⟩ := CommitEv.quorum hI hc
      obtain ⟨x, hx1, hx2, hok⟩ := quorums_meet hf a1 b1 a2 b2 a3 b3
      exact (hI.reps x hok).aUniq _ _ _ _ (b4 x hx2 hok) (a4 x hx1 hok)
    · obtain ⟨x, hx, hok⟩ := honest_signer hf b1 b2 (by unfold Params.slowQ at b3; omega)
      have h1 := (hfact.q.valid m hm).cert e hem _ hcert
      have h2 := (hfact.q.valid m hm).origin e hem
      have h3 := (hfact.nv m hm).1
      simp only at h1
      exact hA v' hlt (by omega) x d' hok (b4 x hx hok)
  · intro m hm hh e he hes hov
    have hok := ok_of hh (hfact.q.ids m hm)
    obtain ⟨u, hu⟩ := hI.vcf m (hfact.nv m hm).2 hok
    obtain ⟨e1, e2, _⟩ := hu.elems e he
    have h2 := (hfact.q.valid m hm).origin e he
    have h3 := (hfact.nv m hm).1
    rw [hes] at e2
    exact hA u (by omega) (by omega) _ _ hok e2

theorem filled_step (hI : Inv P c) (hf : FewFaulty P.cfg P.honest) (hFC : 1 ≤ P.cfg.F + P.cfg.C)
    (hc : CommitEv P c.shares v s d) {w : Nat} (hw : v < w)
    (hgood : ∀ I ∈ c.installs, GoodInstall P I)
    (hA : ∀ u, v < u → u < w → Asgd P c s d u) (hF : ∀ u, v < u → u < w → Filled c s d u)
    (hB : ∀ u, v < u → u < w → ReportS P c v s d u) : Filled c s d w := by
  intro I hIn hIw hst
  have hfact := (hI.insts I hIn).2
  have hg := hgood I hIn
  have hq := hfact.q
  have hlb := hfact.lb
  have hL := locked_step (v := v) (s := s) (d := d) hI hf hc hIn (by rw [hIw]; exact hA)
  have hmem : ∀ m ∈ msgs I.arr, P.honest m.sender = true → P.ok m.sender = true ∧ m ∈ c.vcs ∧ m.newView = w ∧
      m.lastStable ≤ I.lb := fun m hm hh =>
    ⟨ok_of hh (hq.ids m hm), (hfact.nv m hm).2, by rw [(hfact.nv m hm).1, hIw], hg.stable m hm hh⟩
  -- the restriction at `s`
  have key : s ≤ I.lb + 300 ∧ reported s (msgs I.arr) ≠ [] ∧
      (d = P.cfg.nullDigest → ∃ v', HasCert P.cfg s (reported s (msgs I.arr)) v' d) ∧
      ∃ r, computeRestrictions P.cfg I.arr I.lb = some r ∧ r.arr[s - (I.lb + 1)]? = some (nonNull P.cfg (some d)) := by
    rcases hc.signers with ⟨A, a1, a2, a3, a4⟩ | ⟨A, k, hk, a1, a2, a3, a4⟩
    · have hrep : ∀ m ∈ msgs I.arr, P.honest m.sender = true → m.sender ∈ A →
          ∃ e ∈ m.elems, e.seq = s ∧ e.digest = d ∧ ∃ ct, e.cert = some ct ∧ v ≤ ct.view ∧
            P.cfg.valid ct.view s d ct.sig = true := by
        intro m hm hh hmA
        obtain ⟨h1, h2, h3, h4⟩ := hmem m hm hh
        rcases reportS_step hI hw hB hF m h2 h1 h3 (a4 _ hmA) with h5 | ⟨e, g1, g2, g3, ct, g4, g5⟩
        · omega
        · obtain ⟨u, hu⟩ := hI.vcf m h2 h1
          have := (hu.elems e g1).2.2 ct g4
          rw [g2, g3] at this
          exact ⟨e, g1, g2, g3, ct, g4, g5, this⟩
      have hcnt := quorum_honest_count hq hf a1 a2
      have hpos : 0 < (msgs I.arr).countP (fun m => P.honest m.sender && decide (m.sender ∈ A)) := by omega
      obtain ⟨m1, hm1, hcond⟩ := List.countP_pos_iff.1 hpos
      simp only [Bool.and_eq_true, decide_eq_true_eq] at hcond
      obtain ⟨h1, h2, h3, h4⟩ := hmem m1 hm1 hcond.1
      obtain ⟨u, hu⟩ := hI.vcf m1 h2 h1
      have hwin := hu.win v s d ((hI.reps _ h1).shareA _ _ _ _ (a4 _ hcond.2)) (by omega)
      obtain ⟨e, g1, g2, g3, ct, g4, g5, g6⟩ := hrep m1 hm1 hcond.1 hcond.2
      have he : e ∈ reported s (msgs I.arr) := mem_reported.2 ⟨m1, hm1, g1, g2⟩
      refine ⟨by omega, List.ne_nil_of_mem he, fun _ => ⟨ct.view, e, he, g3, ct.sig, g4, g6⟩, ?_⟩
      rcases hg.shadow with hF1 | hns
      · refine slow_commit_survives_f1 P.cfg I.arr I.lb s v d P.honest A hF1 hq hf hFC a1 a2 a3 hrep ?_ hL
          (by omega) (by omega)
        intro m hm hh e he c' hc'
        obtain ⟨h1, h2, h3, h4⟩ := hmem m hm hh
        obtain ⟨u, hu⟩ := hI.vcf m h2 h1
        exact (hu.elems e he).2.2 c' hc'
      · exact slow_commit_survives_partial P.cfg I.arr I.lb s v d P.honest A hq hf hFC a1 a2 a3 hrep hL (hns s)
          (by omega) (by omega)
    · have hrep : ∀ m ∈ msgs I.arr, P.honest m.sender = true → m.sender ∈ A →
          ∃ e ∈ m.elems, e.seq = s ∧ e.digest = d ∧ v ≤ e.originView := by
        intro m hm hh hmA
        obtain ⟨h1, h2, h3, h4⟩ := hmem m hm hh
        rcases reportF_step hI hw hF m h2 h1 h3 k hk (a4 _ hmA) with h5 | h5
        · omega
        · exact h5
      have hcnt := quorum_honest_count hq hf a1 a2
      have hpos : 0 < (msgs I.arr).countP (fun m => P.honest m.sender && decide (m.sender ∈ A)) := by omega
      obtain ⟨m1, hm1, hcond⟩ := List.countP_pos_iff.1 hpos
      simp only [Bool.and_eq_true, decide_eq_true_eq] at hcond
      obtain ⟨h1, h2, h3, h4⟩ := hmem m1 hm1 hcond.1
      obtain ⟨u, hu⟩ := hI.vcf m1 h2 h1
      have hwin := hu.win v s d ((hI.reps _ h1).shareA _ _ _ _ (a4 _ hcond.2)) (by omega)
      obtain ⟨e, g1, g2, g3, g4⟩ := hrep m1 hm1 hcond.1 hcond.2
      have he : e ∈ reported s (msgs I.arr) := mem_reported.2 ⟨m1, hm1, g1, g2⟩
      refine ⟨by omega, List.ne_nil_of_mem he, ?_, ?_⟩
      · intro hnull
        exact absurd hnull ((hI.reps _ h1).shareFast _ _ _ _ (a4 _ hcond.2) hk)
      · exact fast_commit_survives P.cfg I.arr I.lb s v d P.honest A hq hf hFC a1 a2 a3 hrep hL
          (by omega) (by omega)
  obtain ⟨hhi, hne, hnull, r, hr, hat⟩ := key
  obtain ⟨rs, hrs, hfill⟩ := hfact.fill
  rw [hr] at hrs
  cases hrs
  obtain ⟨hmin, hmax⟩ := computeRestrictions_range P.cfg I.arr I.lb r hq.valid hr
  have hmin := hmin s (by omega) hne
  have hs : s ≤ r.max := by
    by_cases hd : d = P.cfg.nullDigest
    · obtain ⟨v', hc'⟩ := hnull hd
      rw [hd] at hc'
      exact hg.nulls r hr s v' (by omega) hhi hc'
    · apply hmax s d (by omega) _ hne
      rw [hat]; simp [nonNull, hd]
  have hfin := hfill s (nonNull P.cfg (some d)) hst (by
    unfold Restrictions.at?
    rw [if_pos ⟨by omega, hs, by omega⟩, hmin, hat]; rfl) (by omega)
  rw [hIw] at hfin
  have hget : (nonNull P.cfg (some d)).getD P.cfg.nullDigest = d := by
    unfold nonNull; simp only
    by_cases hd : d = P.cfg.nullDigest
    · simp [hd]
    · simp [hd]
  rwa [hget] at hfin

theorem locked_all (hI : Inv P c) (hf : FewFaulty P.cfg P.honest) (hFC : 1 ≤ P.cfg.F + P.cfg.C)
    (hc : CommitEv P c.shares v s d) (hgood : ∀ I ∈ c.installs, GoodInstall P I) :
    ∀ w, v < w → Filled c s d w ∧ Asgd P c s d w ∧ ReportS P c v s d w := by
  intro w
  induction w using Nat.strongRecOn with
  | ind w ih =>
    intro hw
    have hF : ∀ u, v < u → u < w → Filled c s d u := fun u h1 h2 => (ih u h2 h1).1
    have hA : ∀ u, v < u → u < w → Asgd P c s d u := fun u h1 h2 => (ih u h2 h1).2.1
    have hB : ∀ u, v < u → u < w → ReportS P c v s d u := fun u h1 h2 => (ih u h2 h1).2.2
    have hfill := filled_step hI hf hFC hc hw hgood hA hF hB
    refine ⟨hfill, ?_, reportS_step hI hw hB hF⟩
    intro i d' hok ha
    obtain ⟨I, h1, h2, h3, h4⟩ := (hI.reps i hok).aInst w s d' ha (by omega)
    have := hfill I h1 h3 h4
    rw [h2] at this
    exact (hI.reps i hok).aUniq _ _ _ _ ha this

theorem agree_same (hI : Inv P c) (hf : FewFaulty P.cfg P.honest) {d' : Nat}
    (h1 : CommitEv P c.shares v s d) (h2 : CommitEv P c.shares v s d') : d = d' := by
  obtain ⟨A, a1, a2, a3, a4⟩ := CommitEv.quorum hI h1
  obtain ⟨B, b1, b2, b3, b4⟩ := CommitEv.quorum hI h2
  obtain ⟨x, hx1, hx2, hok⟩ := quorums_meet hf a1 b1 a2 b2 a3 b3
  exact (hI.reps x hok).aUniq _ _ _ _ (a4 x hx1 hok) (b4 x hx2 hok)

theorem agree_lt (hI : Inv P c) (hf : FewFaulty P.cfg P.honest) (hFC : 1 ≤ P.cfg.F + P.cfg.C)
    (hgood : ∀ I ∈ c.installs, GoodInstall P I) {v' d' : Nat} (hlt : v < v')
    (h1 : CommitEv P c.shares v s d) (h2 : CommitEv P c.shares v' s d') : d' = d := by
  obtain ⟨B, b1, b2, b3, b4⟩ := CommitEv.quorum hI h2
  obtain ⟨x, hx, hok⟩ := honest_signer hf b1 b2 (by unfold Params.slowQ at b3; omega)
  exact (locked_all hI hf hFC h1 hgood v' hlt).2.1 x d' hok (b4 x hx hok)

end

end Concord.Protocol
