import Verif.Smt.Binding
/-!
# Concrete cases that meet the hypotheses of the theorems
-/
set_option maxRecDepth 20000
namespace Verif.Smt.Ex

/-- the bits of a byte, most significant first -/
def byteBits (b : UInt8) : List Bool := [7, 6, 5, 4, 3, 2, 1, 0].map (fun i => b.toNat / 2 ^ i % 2 == 1)

/-- a toy hash: the bits of the string, padded with ones -/
def toy : Hasher where
  hash b := (b.flatMap byteBits ++ List.replicate 256 true).take 256
  parent a b := a.zipWith (fun x y => x != y) (b.drop 1 ++ [true])
  hash_len b := by rw [List.length_take, List.length_append, List.length_replicate]; omega

def k1 : Bytes := [0x12, 0x34]
def k2 : Bytes := [0x12, 0x35]
def k3 : Bytes := [0x80]

/-- three batches: two colliding keys, a third key and a change, then a delete -/
def us : List Upd := [⟨[(k1, [1]), (k2, [2])], []⟩, ⟨[(k3, [3]), (k1, [4])], []⟩, ⟨[], [k2]⟩]

def evs : List Ev := (us.map Ev.upd) ++ [.prune 2, .prune 1]

theorem upd_evs : updates evs = us := rfl

theorem distinct : DistinctHashes toy (keysOf us) := by unfold DistinctHashes; decide +kernel

theorem effective : Effective us := by
  intro i u hu
  match i with
  | 0 =>
    have : (⟨[(k1, [1]), (k2, [2])], []⟩ : Upd) = u := by simpa [us] using hu
    subst this; exact ⟨by unfold Upd.ok; decide, Or.inl (by simp)⟩
  | 1 =>
    have : (⟨[(k3, [3]), (k1, [4])], []⟩ : Upd) = u := by simpa [us] using hu
    subst this; exact ⟨by unfold Upd.ok; decide, Or.inl (by simp)⟩
  | 2 =>
    have : (⟨[], [k2]⟩ : Upd) = u := by simpa [us] using hu
    subst this; exact ⟨by unfold Upd.ok; decide, Or.inr ⟨k2, by simp, by decide⟩⟩
  | i + 3 => simp [us] at hu

/-- the theorems apply to this history: the root of the final version, and reads at versions 2 and 3 -/
example : ∃ db, run toy Db.empty evs = some db ∧
    db.rootHash toy = some (rootSpec toy (pairs toy (contentsAt us 3) [k3, k1])) ∧
    db.read toy 2 k1 = some [4] ∧ db.read toy 2 k2 = some [2] ∧ db.read toy 3 k2 = none ∧ db.read toy 3 k3 = some [3] := by
  obtain ⟨db, h1, h2⟩ := root_is_contents toy evs distinct effective
  have rd : ∀ (x : Nat) (key : Bytes), DistinctHashes toy (key :: keysOf us) → 2 ≤ x → x ≤ 3 → db.read toy x key = contentsAt us x key := by
    intro x key hd hx hx3
    exact old_versions_readable toy evs key hd effective h1 (Nat.le_trans (by decide) hx) (by rw [upd_evs]; exact hx3)
      (by intro (w : Nat) hw; have : w = 2 ∨ w = 1 := by simpa [evs, prunes, us] using hw
          show w ≤ x; omega)
  refine ⟨db, h1, ?_, ?_, ?_, ?_, ?_⟩
  · refine h2 [k3, k1] ⟨by decide, fun k => ?_⟩
    constructor
    · intro hk
      rcases List.mem_cons.1 hk with rfl | hk
      · decide
      · rw [List.mem_singleton.1 hk]; decide
    · intro hk
      obtain ⟨v, hv⟩ := Option.isSome_iff_exists.1 hk
      have hm := contentsAt_key hv
      have : k = k1 ∨ k = k2 ∨ k = k3 ∨ k = k1 ∨ k = k2 := by simpa [upd_evs, keysOf, us] using hm
      rcases this with rfl | rfl | rfl | rfl | rfl
      · decide
      · exact absurd hk (by decide)
      · decide
      · decide
      · exact absurd hk (by decide)
  · rw [rd 2 k1 (by unfold DistinctHashes; decide +kernel) (by decide) (by decide)]; decide
  · rw [rd 2 k2 (by unfold DistinctHashes; decide +kernel) (by decide) (by decide)]; decide
  · rw [rd 3 k2 (by unfold DistinctHashes; decide +kernel) (by decide) (by decide)]; decide
  · rw [rd 3 k3 (by unfold DistinctHashes; decide +kernel) (by decide) (by decide)]; decide

/-- pruning version 2 really removes nodes: the old root is gone, and version 1 is no longer readable -/
example : (run toy Db.empty evs).map (fun db => (db.internal 1 []).isNone && (db.internal 2 []).isSome && (db.read toy 1 k1).isNone) = some true := by
  decide +kernel

/-- the no-garbage theorem applies to this history with `x0 = 2` -/
example : ∃ db, run toy Db.empty evs = some db ∧ ∀ u q c, db.internal u q = some c → ∃ y, 2 ≤ y ∧ y ≤ 3 ∧ Reach db y u q := by
  obtain ⟨db, h1, _⟩ := root_is_contents toy evs distinct effective
  refine ⟨db, h1, (prune_leaves_no_garbage toy evs distinct effective h1 (x0 := 2) (by omega) (by decide)
    (by intro (w : Nat) hw; have : w = 2 ∨ w = 1 := by simpa [evs, prunes, us] using hw
        show w ≤ 2; omega) ?_).1⟩
  intro w hw1 hw2
  have : w = 2 := by omega
  subst this
  exact ⟨us.map Ev.upd, [.prune 1], rfl, by decide⟩

/-- a batch that only deletes absent keys moves the latest version to one that has no root: the next opening of the
tree aborts (tree.cpp:142-162 with block_merkle_category.cpp:778-788); `Effective` rules it out -/
example : (run toy Db.empty [.upd ⟨[(k1, [1])], []⟩, .upd ⟨[], [k3]⟩]).map (fun db => db.latestRoot.isNone) = some true := by
  decide +kernel

/-- the counterexample to C21 has instances -/
example : (toy.hash k1).getD 0 false = (toy.hash k2).getD 0 false ∧ k1 ≠ k2 := by decide +kernel
example : (toy.hash k1).getD 0 false = false ∧ (toy.hash k3).getD 0 false = true := by decide +kernel

end Verif.Smt.Ex
