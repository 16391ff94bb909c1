import Verif.Trs.EgStream
/-!
# Event groups: concrete runs (C32)
-/
namespace Verif.Trs

/-- eight event groups, the first three pruned: the client's are 1:priv 2:pub 4:pub 5:priv 7:pub 8:priv -/
def exS : Snap where
  G := [.priv, .pub, .other, .pub, .priv, .other, .pub, .priv]
  pruned := 3

/-- the hypotheses of `find_correct`, `readEG_correct` hold -/
example : exS.oldestExt = 3 ∧ exS.newestExt = 6 := by decide +kernel
example : find exS 5 = .ok ⟨7, true, 2, 3⟩ := by decide +kernel
example : find exS 4 = .ok ⟨5, false, 2, 2⟩ := by decide +kernel
example : readEG exS (exS.newest isPub) (exS.newest isPriv) 4 = .ok ([(4, 5), (5, 7), (6, 8)], (6, 8)) := by decide +kernel
/-- only public event groups are left -/
example : (⟨[.priv, .pub, .pub, .pub], 2⟩ : Snap).oldestExt = 3 ∧ find ⟨[.priv, .pub, .pub, .pub], 2⟩ 4 = .ok ⟨4, true, 1, 3⟩ := by decide +kernel
/-- the hypotheses of `stream_exact` hold, with a gap (9, 10) and live event groups 11, 12 -/
example : afterStored ⟨exS.G ++ [.other, .pub, .priv, .pub], 3⟩ 6 (6, 8) (List.range' 11 2) = .ok [(7, 10), (8, 11), (9, 12)] := by
  decide +kernel
/-- with overlap: 7 and 8 were published too -/
example : afterStored ⟨exS.G ++ [.other, .pub, .priv, .pub], 3⟩ 6 (6, 8) (List.range' 7 6) = .ok [(7, 10), (8, 11), (9, 12)] := by
  decide +kernel

/-! ## Findings -/

/-- **Finding.** `readEventGroups` reads the newest public id first.  If a public event group and then a private one are written before
it reads the other counters, it takes the public one for not existing and the assertion on the private one's external id
(kvbc_app_filter.cpp:526) fails: the replica aborts. -/
theorem reader_race_aborts :
    let before : Snap := ⟨[.pub], 0⟩
    let after : Snap := ⟨[.pub, .pub, .priv], 0⟩
    readEG after (before.newest isPub) (after.newest isPriv) 1 = .abort := by decide +kernel

/-- the same reading without the race -/
example :
    let after : Snap := ⟨[.pub, .pub, .priv], 0⟩
    readEG after (after.newest isPub) (after.newest isPriv) 1 = .ok ([(1, 1), (2, 2), (3, 3)], (3, 3)) := by decide +kernel

/-- **Finding.** `findGlobalEventGroupId` asserts the range its callers have checked before: if pruning comes in between, the replica
aborts instead of telling the subscriber that its event group is pruned. -/
theorem find_pruned_aborts :
    let before : Snap := ⟨[.pub, .pub, .pub], 0⟩
    let after : Snap := ⟨[.pub, .pub, .pub], 2⟩
    before.oldestExt ≤ 1 ∧ 1 ≤ before.newestExt ∧ find after 1 = .abort := by decide +kernel

/-- **Finding.** `syncAndSendEventGroups` numbers the event groups that fill a gap from the newest external id it read *before* the
reading from storage.  The reading itself goes further if event groups were added since (in data mode).  If then state transfer adds
event groups, which are not published, external ids are given out twice: here 3 for global 3 (read from storage) and 4; and the
following ones are wrong too. -/
theorem gap_ids_repeat :
    let start : Snap := ⟨[.pub, .pub], 0⟩
    let reading : Snap := ⟨[.pub, .pub, .pub], 0⟩
    let later : Snap := ⟨[.pub, .pub, .pub, .pub, .pub], 0⟩
    readEG reading (reading.newest isPub) (reading.newest isPriv) 1 = .ok ([(1, 1), (2, 2), (3, 3)], (3, 3)) ∧
    afterStored later start.newestExt (3, 3) [5] = .ok [(3, 4), (4, 5)] := by decide +kernel

/-- **Finding.** The live loop does not notice event groups that were not published (state transfer): they are lost, and the later
ones get the lost ones' ids. -/
theorem live_gap_lost :
    afterStored ⟨[.pub, .pub, .pub, .pub], 0⟩ 1 (1, 1) [2, 4] = .ok [(2, 2), (3, 4)] := by decide +kernel

end Verif.Trs
