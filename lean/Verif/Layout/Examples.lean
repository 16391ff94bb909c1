/-
Reserved pages of the components: concrete cases (C54).
-/
import Verif.Layout.Theorems

set_option linter.unusedVariables false

namespace Verif.Layout

/-- The components of a replica in the order of the names of their types: cron (0), epochs (1), reconfiguration (2),
client keys (3), clients manager (4), replica keys (5), database checkpoints (6), time (7); four replicas, 100 pages
for clients.  They register in any order. -/
def components : List Op :=
  [.register 4 0, .register 7 1, .register 0 1, .register 5 0, .register 1 1, .register 2 1, .register 3 1,
   .register 6 1] ++ sizes 4 5 4 0 10 6 1 4

def started : Option (List (Nat × Nat)) := (run 8 components St.init).map (·.2.reg)

/-- The registry is sorted, with the last numbers. -/
theorem started_eq : started = some [(0, 1), (1, 1), (2, 1), (3, 1), (4, 100), (5, 4), (6, 1), (7, 1)] := by decide

def answersOf (ops : List Op) : Option (List (Option Bytes)) := (run 8 ops St.init).map (·.1)

/-- The hypotheses of `private_pages` are met. -/
example : ∀ o ∈ components, Spec.IsStart o := by
  intro o ho
  simp [components, sizes] at ho
  rcases ho with rfl | rfl | rfl | rfl | rfl | rfl | rfl | rfl | rfl | rfl <;> trivial

def uses : List Op := [.save 5 3 [1, 2, 3], .save 7 0 [9], .save 4 99 [5], .load 5 3 4, .load 7 0 2, .load 6 0 1, .zero 7 0, .load 7 0 1]

example : ∀ o ∈ uses, Spec.Own 8 components o := by
  intro o ho
  simp [uses] at ho
  rcases ho with rfl | rfl | rfl | rfl | rfl | rfl | rfl | rfl
  · exact ⟨⟨4, rfl, by decide⟩, by decide⟩
  · exact ⟨⟨1, rfl, by decide⟩, by decide⟩
  · exact ⟨⟨100, rfl, by decide⟩, by decide⟩
  · exact ⟨⟨4, rfl, by decide⟩, by decide⟩
  · exact ⟨⟨1, rfl, by decide⟩, by decide⟩
  · exact ⟨⟨1, rfl, by decide⟩, by decide⟩
  · exact ⟨1, rfl, by decide⟩
  · exact ⟨⟨1, rfl, by decide⟩, by decide⟩

example : sum [(0, 1), (1, 1), (2, 1), (3, 1), (4, 100), (5, 4), (6, 1), (7, 1)] < 2 ^ 32 := by decide

/-- What the components get to see. -/
example : (answersOf (components ++ .start :: uses)).map (·.drop 11) =
    some [none, none, none, some [1, 2, 3, 0], some [9, 0], none, none, some [0]] := by decide +kernel

/-- BUG120: the replica id of a key exchange is not checked (KeyExchangeManager.cpp:97-98, KeyStore.h:53-58): an
exchange for replica 5 of 4 writes its key over the page of the time service, which reads it as the time. -/
theorem stray_exchange :
    (answersOf (components ++ .start :: [.save 7 0 [9], .save 5 5 [255, 255, 255], .load 7 0 3])).map (·.drop 11) =
      some [none, none, some [255, 255, 255]] := by decide +kernel

/-- A replica id beyond all pages ends every replica. -/
theorem exchange_beyond_all : answersOf (components ++ .start :: [.save 5 6 [255]]) = none := by decide +kernel

/-- Numbers may not change after the first use: a component keeps the place it computed first, and two components share
a page from then on. -/
theorem late_number_shares :
    (answersOf (components ++ .start :: [.save 6 0 [7], .setNum 4 101, .start, .save 5 3 [8], .load 6 0 1])).map (·.drop 11) =
      some [none, none, none, none, some [8]] := by decide +kernel

/-- `stray_page`: the two components are neighbours. -/
example : place 5 [(0, 1), (1, 1), (2, 1), (3, 1), (4, 100), (5, 4), (6, 1), (7, 1)] 0 = some 104 ∧
    place 6 [(0, 1), (1, 1), (2, 1), (3, 1), (4, 100), (5, 4), (6, 1), (7, 1)] 0 = some (104 + 4) := by decide

/-- `Configured`: four replicas, one read-only, two proxies, three external clients of which one is the operator, one
service; replies of two pages, two requests in a batch. -/
def exReplicas : Replicas.Config := ⟨0, 4, 1, 2, 3, 1, 1, 0, true, false, false⟩
def exClients : Clients.Cfg := ⟨8, 16, 2, List.range 15, [11, 12, 13, 14]⟩

example : Configured exReplicas exClients ∧ asked exReplicas exClients = 75 := by
  refine ⟨⟨by decide, ?_⟩, by decide⟩
  intro i hi
  have : i < 15 := List.mem_range.mp hi
  have key : ∀ i : Fin 15, i.val < exReplicas.numReplicas + exReplicas.numRo ∨ Replicas.isProxy exReplicas i = true ∨
      Replicas.isExternal exReplicas i = true ∨ Replicas.isService exReplicas i = true ∨
      Replicas.isInternal exReplicas i = true := by decide
  exact key ⟨i, this⟩

end Verif.Layout
