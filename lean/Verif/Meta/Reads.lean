import Verif.Meta.Keys
set_option linter.unusedSimpArgs false
set_option linter.unusedVariables false
/-!
# Reading the stored objects
-/
namespace Verif.Meta
open Verif.Bytes

variable {g : Cfg} {d : Db} {m : Spec.Rec}

theorem read_key (hg : g.Ok) (h : Holds g d m) {k : Key} (hk : k.Valid g) {v : Bytes} (he : enc g m k = some (some v)) {n : Nat}
    (hn : n ≠ 0) (hl : v.length ≤ n) (junk : Bytes) : g.read d junk (k.id g) n = some (v ++ junk, v.length) := by
  unfold Cfg.read
  rw [if_neg (by rw [Key.limit hg hk]; simp [hn]), h.key k hk _ he]
  dsimp only
  rw [if_pos hl]

theorem read_none (hg : g.Ok) (h : Holds g d m) {k : Key} (hk : k.Valid g) (he : enc g m k = some none) {n : Nat}
    (hn : n ≠ 0) (junk : Bytes) : g.read d junk (k.id g) n = some (List.replicate n 0, 0) := by
  unfold Cfg.read
  rw [if_neg (by rw [Key.limit hg hk]; simp [hn]), h.key k hk _ he]

theorem readNat_key (hg : g.Ok) (h : Holds g d m) {k : Key} (hk : k.Valid g) {n : Nat} (he : enc g m k = some (some (leEncode 8 n)))
    (hn : n < 2 ^ 64) : g.readNat d (k.id g) = some n := by
  unfold Cfg.readNat
  rw [read_key hg h hk he (by decide) (by simp) []]
  dsimp only
  rw [if_pos (by simp), List.append_nil, leDecode_leEncode 8 n (by rw [pow8]; exact hn)]

theorem readMsg_key (hg : g.Ok) (h : Holds g d m) {k : Key} (hk : k.Valid g) {x : Option Msg} (he : enc g m k = some (some (serMsg x))) {n b : Nat}
    (ho : OkOpt g n x) (hl : inBuf n + 1 ≤ b) (junk : Bytes) : g.readMsg d junk (k.id g) b = some x := by
  have h1 := serMsg_le ho
  unfold Cfg.readMsg
  rw [read_key hg h hk he (by omega) (by omega) junk, Option.bind_some]
  dsimp only
  rw [deMsg_app hg.ext ho _ (by omega), Option.bind_some]
  dsimp only
  rw [if_pos (by simp)]

theorem readByte_key (hg : g.Ok) (h : Holds g d m) {k : Key} (hk : k.Valid g) {x : Bool} (he : enc g m k = some (some (serBool x))) :
    g.readByte d (k.id g) = some x := by
  unfold Cfg.readByte
  rw [read_key hg h hk he (by decide) (by rw [serBool_length]; exact Nat.le_refl _) [], Option.bind_some]
  cases x <;> rfl

theorem readBytes_key (hg : g.Ok) (h : Holds g d m) {k : Key} (hk : k.Valid g) {v : Option Bytes} (he : enc g m k = some v) {n : Nat}
    (hn : n ≠ 0) (ho : OkBytes n v) : g.readBytes d (k.id g) n = some v := by
  unfold Cfg.readBytes
  cases v with
  | none => rw [read_none hg h hk he hn [], Option.bind_some]; rfl
  | some b =>
    obtain ⟨h1, h2⟩ := ho b rfl
    rw [read_key hg h hk he hn h2 [], Option.bind_some]
    dsimp only
    rw [if_neg (by omega)]
    simp

theorem mapM_range {α : Type} {f : Nat → Option α} {l : List α} (dflt : α) (h : ∀ i, i < l.length → f i = some (l.getD i dflt)) :
    (List.range l.length).mapM f = some l := by
  have key : ∀ (l' : List Nat), (∀ i ∈ l', i < l.length) → l'.mapM f = some (l'.map (fun i => l.getD i dflt)) := by
    intro l'
    induction l' with
    | nil => intro _; rfl
    | cons a t ih =>
      intro hh
      rw [List.mapM_cons, h a (hh a (by simp)), ih (fun i hi => hh i (by simp [hi]))]
      rfl
  rw [key _ (fun i hi => List.mem_range.1 hi)]
  congr 1
  apply List.ext_getElem
  · simp
  · intro i h1 h2
    simp only [List.length_map, List.length_range] at h1
    simp [List.getD_eq_getElem?_getD, h1]

theorem getD_mem {α : Type} {l : List α} {i : Nat} (dflt : α) (h : i < l.length) : l.getD i dflt ∈ l := by
  rw [List.getD_eq_getElem?_getD, List.getElem?_eq_getElem h, Option.getD_some]
  exact List.getElem_mem h

theorem getExit_eq (hg : g.Ok) (h : Holds g d m) (w : WF g m) (junk : Nat → Bytes) : g.getExit d junk = some m.exit := by
  have ho := w.exit
  have hle := serExitSimple_le ho
  have hp := pad_length hle
  have p4 : (256 : Nat) ^ 4 = 4294967296 := by decide
  have hr : g.read d (junk idExit) idExit g.exitSimple = some (pad g.exitSimple (serExitSimple m.exit) ++ junk idExit, g.exitSimple) := by
    have := read_key hg h (k := .exitS) trivial (v := pad g.exitSimple (serExitSimple m.exit)) rfl (n := g.exitSimple)
      (by unfold Cfg.exitSimple; omega) (by omega) (junk idExit)
    rw [hp] at this
    exact this
  unfold Cfg.getExit
  rw [hr, Option.bind_some]
  dsimp only
  rw [if_neg (by simp)]
  obtain ⟨r, hr⟩ : ∃ r, r = List.replicate (g.exitSimple - (serExitSimple m.exit).length) (0 : UInt8) ++ junk idExit := ⟨_, rfl⟩
  have e0 : pad g.exitSimple (serExitSimple m.exit) ++ junk idExit =
      serBool m.exit.isDefault ++ (leEncode 8 m.exit.view ++ (leEncode 8 m.exit.lastStable ++ (leEncode 8 m.exit.lastExecuted ++
        (leEncode 8 m.exit.lower ++ (serMsg m.exit.myVc ++ (leEncode 4 m.exit.elements.length ++ (leEncode 4 m.exit.complaints.length ++ r))))))) := by
    rw [hr]; simp [pad, serExitSimple]
  have hv : (serMsg m.exit.myVc).length ≤ g.exitSimple := by
    have := serMsg_le ho.vc; unfold Cfg.exitSimple; omega
  have h1 := ho.view; have h2 := ho.ls; have h3 := ho.le; have h4 := ho.lower
  have hn := ho.n; have hk := ho.k
  rw [e0, deBool_app, Option.bind_some]
  dsimp only
  rw [deNat_app _ (by rw [pow8]; omega), Option.bind_some]
  dsimp only
  rw [deNat_app _ (by rw [pow8]; omega), Option.bind_some]
  dsimp only
  rw [deNat_app _ (by rw [pow8]; omega), Option.bind_some]
  dsimp only
  rw [deNat_app _ (by rw [pow8]; omega), Option.bind_some]
  dsimp only
  rw [deMsg_app hg.ext ho.vc _ hv, Option.bind_some]
  dsimp only
  rw [deNat_app _ (by rw [p4]; omega), Option.bind_some]
  dsimp only
  rw [deNat_app _ (by rw [p4]; omega), Option.bind_some]
  dsimp only
  rw [mapM_range (l := m.exit.elements) ⟨none, none, false⟩, Option.bind_some, mapM_range (l := m.exit.complaints) none, Option.map_some]
  · intro i hi
    have hi' : i < 300 := by omega
    have hm := ho.cs _ (getD_mem none hi)
    have hs := serMsg_ext hm
    rw [if_pos (by have : idComplaints = 5621 := by decide
                   have : idExec = 5922 := by decide
                   omega)]
    have := read_key hg h (k := .exitC i) hi' (v := serMsg (m.exit.complaints.getD i none)) (by simp only [enc]; rw [if_pos hi]) (n := g.maxComplaint)
      (by unfold Cfg.maxComplaint inBuf; omega) (by unfold Cfg.maxComplaint; exact hs) (junk (idComplaints + i))
    have e : idComplaints + i = (Key.exitC i).id g := rfl
    rw [e] at this ⊢
    rw [this, Option.bind_some]
    dsimp only
    rw [deMsg_app hg.ext hm _ (Nat.le_refl _)]
    rfl
  · intro i hi
    have hi' : i < 300 := by omega
    have hm := ho.els _ (getD_mem ⟨none, none, false⟩ hi)
    have hs := serElem_le hm
    rw [if_pos (by have : idComplaints = 5621 := by decide
                   have : idExit = 5320 := by decide
                   omega)]
    have := read_key hg h (k := .exitE i) hi' (v := serElem (m.exit.elements.getD i ⟨none, none, false⟩)) (by simp only [enc]; rw [if_pos hi])
      (n := g.maxElem) (by unfold Cfg.maxElem; omega) hs (junk (idExit + 1 + i))
    have e : idExit + 1 + i = (Key.exitE i).id g := rfl
    rw [e] at this ⊢
    rw [this, Option.bind_some]
    exact deElem_app hg.ext hm _

theorem getNew_eq (hg : g.Ok) (h : Holds g d m) (w : WF g m) (junk : Nat → Bytes) : g.getNew d junk = some m.newView := by
  have ho := w.newView
  obtain ⟨hpos, hle⟩ := serNewSimple_le ho
  have hr := read_key hg h (k := .newS) trivial (v := serNewSimple m.newView) rfl (n := g.newSimple) (by omega) hle (junk idNew)
  have e : (Key.newS).id g = idNew := rfl
  rw [e] at hr
  unfold Cfg.getNew
  rw [hr, Option.bind_some]
  dsimp only
  have e0 : serNewSimple m.newView ++ junk idNew =
      serBool m.newView.isDefault ++ (leEncode 8 m.newView.view ++ (leEncode 8 m.newView.maxSeq ++
        (leEncode 8 m.newView.lower ++ (serMsg m.newView.newView ++ (serMsg m.newView.myVc ++ junk idNew))))) := by
    simp [serNewSimple]
  have hv1 : (serMsg m.newView.newView).length ≤ g.newSimple := by
    have := serMsg_le ho.nv; unfold Cfg.newSimple; omega
  have hv2 : (serMsg m.newView.myVc).length ≤ g.newSimple := by
    have := serMsg_le ho.vc; unfold Cfg.newSimple; omega
  have h1 := ho.view; have h2 := ho.ms; have h4 := ho.lower
  rw [e0, deBool_app, Option.bind_some]
  dsimp only
  rw [deNat_app _ (by rw [pow8]; omega), Option.bind_some]
  dsimp only
  rw [deNat_app _ (by rw [pow8]; omega), Option.bind_some]
  dsimp only
  rw [deNat_app _ (by rw [pow8]; omega), Option.bind_some]
  dsimp only
  rw [deMsg_app hg.ext ho.nv _ hv1, Option.bind_some]
  dsimp only
  rw [deMsg_app hg.ext ho.vc _ hv2, Option.bind_some]
  dsimp only
  rw [← ho.n, mapM_range (l := m.newView.vcs) none, Option.map_some]
  intro i hi
  have hi' : i < g.vcNum := by have := ho.n; omega
  have hm := ho.vcs _ (getD_mem none hi)
  have hs := serMsg_le hm
  have := read_key hg h (k := .newE i) hi' (v := serMsg (m.newView.vcs.getD i none)) rfl (n := g.maxVc)
    (by unfold Cfg.maxVc; omega) (by unfold Cfg.maxVc; omega) (junk (idNew + 1 + i))
  have e : idNew + 1 + i = (Key.newE i).id g := rfl
  rw [e] at this ⊢
  rw [this, Option.bind_some]
  dsimp only
  rw [deMsg_app hg.ext hm _ (Nat.le_refl _)]
  rfl

theorem getExec_eq (hg : g.Ok) (h : Holds g d m) (w : WF g m) (junk : Nat → Bytes) : g.getExec d junk = some m.exec := by
  have hl := serExec_length w.exec
  have hr := read_key hg h (k := .exec) trivial (v := serExec m.exec) rfl (n := maxExec) (by decide) hl.2 (junk idExec)
  have e : (Key.exec).id g = idExec := rfl
  rw [e] at hr
  unfold Cfg.getExec
  rw [hr, Option.bind_some]
  exact deExec_app w.exec _

theorem getStable_eq (hg : g.Ok) (h : Holds g d m) (w : WF g m) (junk : Nat → Bytes) : g.getStable d junk = some m.stable := by
  have hl := serStable_le w.stable
  have hr := read_key hg h (k := .stable) trivial (v := serStable m.stable) rfl (n := g.maxStable) (by unfold Cfg.maxStable; omega) hl (junk idStable)
  have e : (Key.stable).id g = idStable := rfl
  rw [e] at hr
  unfold Cfg.getStable
  rw [hr, Option.bind_some]
  exact deStable_app hg.ext w.stable _

end Verif.Meta
