import Verif.Meta.Findings
set_option linter.unusedSimpArgs false
set_option linter.unusedVariables false
/-!
# Concrete runs of the metadata storage (C34)
-/
namespace Verif.Meta.Examples
open Verif.Bytes Verif.Meta

/-- a small configuration: 4 replicas, 2 clients -/
def g0 : Cfg where
  maxExt := 20
  maxFull := 20
  maxFcp := 20
  numReplicas := 4
  f := 1
  c := 0
  numPrinc := 6
  batch := 1
  maxDbCk := 16
  vw := fun m => (m.body.headD 0).toNat
  sq := fun m => m.sender
  nv := fun m => (m.body.headD 0).toNat
  cnt := fun _ => 0
  incl := fun _ _ => true

theorem g0_ok : g0.Ok := ⟨by decide, by decide, by decide, by decide⟩

def pp : Msg := ⟨1, [0, 7, 7]⟩
def ck : Msg := ⟨2, [9]⟩
def vc : Msg := ⟨3, [1, 2]⟩

/-- the first view ended, the second began, requests 1 and 2 were ordered, 150 became stable -/
def tran1 : List Upd :=
  [.prePrepare 1 (some pp), .commitFull 300 (some pp), .slowStarted 1 true, .lower 5,
   .exit ⟨false, 0, 0, 0, 0, some vc, [⟨some pp, none, true⟩], [some vc]⟩,
   .newView ⟨false, 1, 10, 0, some vc, none, [some vc, some vc, some vc]⟩,
   .exec ⟨1, ⟨9, [1, 1]⟩, 77⟩, .lastExec 1, .user [1, 2, 3], .rsi 5 [8], .ckMsg 150 (some ck), .completed 150 true,
   .stable [some ck, none]]

def tran2 : List Upd := [.lastStable 150, .prePrepare 449 (some pp)]

def noJunk : Nat → Bytes := fun _ => [1, 2, 3, 4, 5, 6, 7, 8, 9, 10, 11, 12, 13, 14, 15, 16, 17, 18, 19, 20]

def asks (l : List Get) : List Op := l.map (fun q => .get q noJunk)

def run1 : List Op :=
  .begin :: (tran1.map .set ++ [.begin, .set (.primary 3), .fin false, .fin true] ++
    asks [.prePrepare 1, .commitFull 300, .slowStarted 1, .exec, .exit, .newView, .primary, .stable, .user, .rsi 5] ++
    [.begin] ++ tran2.map .set ++ [.crash 1] ++ asks [.lastStable, .prePrepare 1, .completed 150, .ckMsg 150, .rsi 4] ++
    [.begin] ++ tran2.map .set ++ [.fin false] ++ asks [.lastStable, .ckMsg 150, .prePrepare 449] ++
    [.power 1 0] ++ asks [.lastStable, .commitFull 300, .exit])

set_option maxRecDepth 100000 in
example : ((g0.start.bind fun s => s.run g0 run1).map (·.2)) = some
    (List.replicate 18 .ok ++
    [.msg (some pp), .msg (some pp), .bool true, .exec ⟨1, ⟨9, [1, 1]⟩, 77⟩,
     .exit ⟨false, 0, 0, 0, 0, some vc, [⟨some pp, none, true⟩], [some vc]⟩,
     .newView ⟨false, 1, 10, 0, some vc, none, [some vc, some vc, some vc]⟩, .nat 3, .stable [some ck, none],
     .bytes (some [1, 2, 3]), .bytes (some [8])] ++
    List.replicate 4 .ok ++ [.nat 0, .msg (some pp), .bool true, .msg (some ck), .bytes none] ++
    List.replicate 4 .ok ++ [.nat 150, .msg (some ck), .msg (some pp)] ++
    [.ok] ++ [.nat 0, .msg (some pp), .exit ⟨false, 0, 0, 0, 0, some vc, [⟨some pp, none, true⟩], [some vc]⟩]) := by decide +kernel

theorem ok3 (n : Nat) (hn : 20 ≤ n) : OkOpt g0 n (some pp) ∧ OkOpt g0 n (some ck) ∧ OkOpt g0 n (some vc) := by
  refine ⟨?_, ?_, ?_⟩ <;> (intro x hx; cases hx; constructor <;> first | decide | (show _ ≤ n; exact Nat.le_trans (by decide) hn))

/-- the updates of the run are admissible -/
theorem tran_ok : ∀ u ∈ tran1 ++ tran2, u.Ok g0 := by
  obtain ⟨a, b, c⟩ := ok3 20 (by decide)
  obtain ⟨a', b', c'⟩ := ok3 (g0.maxExt + 1024) (by decide)
  intro u hu
  simp only [tran1, tran2, List.cons_append, List.nil_append, List.mem_cons, List.not_mem_nil, or_false] at hu
  rcases hu with rfl | rfl | rfl | rfl | rfl | rfl | rfl | rfl | rfl | rfl | rfl | rfl | rfl | rfl | rfl
  · exact a
  · exact a
  · exact True.intro
  · show 5 < 2 ^ 63; decide
  · refine ⟨rfl, fun _ => ⟨by decide, by decide, by decide, by decide, c', by decide, by decide, ?_, ?_⟩⟩
    · intro e he; cases List.mem_singleton.1 he; exact ⟨a, okOpt_none _ _⟩
    · intro e he; cases List.mem_singleton.1 he; exact c'
  · refine ⟨rfl, fun _ => ⟨by decide, by decide, by decide, c', okOpt_none _ _, by decide, ?_⟩⟩
    intro e he
    simp only [List.mem_cons, List.not_mem_nil, or_false] at he
    rcases he with rfl | rfl | rfl <;> exact c'
  · intro _; exact ⟨by decide, ⟨by decide, by decide⟩, by decide⟩
  · show 1 < 2 ^ 63; decide
  · exact ⟨by decide, by decide⟩
  · exact ⟨⟨by decide, by decide⟩, by decide, by decide⟩
  · exact b'
  · exact True.intro
  · refine ⟨⟨by decide, by decide⟩, ?_⟩
    intro e he
    simp only [List.mem_cons, List.not_mem_nil, or_false] at he
    rcases he with rfl | rfl
    · exact b'
    · exact okOpt_none _ _
  · show 150 < 2 ^ 63; decide
  · exact a

theorem sets_admissible : ∀ (us : List Upd) (l : List Op), (∀ u ∈ us, u.Ok g0) → (∀ s, Admissible g0 s l) → ∀ s, Admissible g0 s (us.map .set ++ l)
  | [], l, _, h, s => h s
  | u :: us, l, hu, h, s => ⟨hu u List.mem_cons_self, fun s' _ _ => sets_admissible us l (fun x hx => hu x (List.mem_cons_of_mem _ hx)) h s'⟩

/-- a state with a transaction of thirteen updates open, and one with it committed -/
theorem open_state : ∃ s0 s rs, g0.start = some s0 ∧ s0.run g0 (.begin :: tran1.map .set) = some (s, rs) ∧ Reach g0 s ∧ Reach g0 s0 ∧ s0.nest = 0 := by
  obtain ⟨s0, h0, hi⟩ := start_ok g0_ok
  have ha : Admissible g0 s0 (.begin :: tran1.map .set) := by
    have hn : s0.nest = 0 := hi.nest
    refine ⟨by show s0.nest < 255; omega, fun s' r _ => ?_⟩
    have := sets_admissible tran1 [] (fun u hu => tran_ok u (List.mem_append.2 (Or.inl hu))) (fun _ => trivial) s'
    rw [List.append_nil] at this; exact this
  obtain ⟨s, t, rs, h1, h2, h3⟩ := run_ok g0_ok _ hi ha
  exact ⟨s0, s, rs, h0, h1, ⟨s0, _, rs, h0, ha, h1⟩, ⟨s0, [], [], h0, trivial, rfl⟩, hi.nest⟩

set_option maxRecDepth 100000 in
/-- all thirteen updates are accepted, and the transaction is open -/
example : ((g0.start.bind fun s => s.run g0 (.begin :: tran1.map .set)).map (fun x => (x.1.nest, x.2))) = some (1, List.replicate 14 .ok) := by
  decide +kernel

set_option maxRecDepth 100000 in
/-- the read that fails -/
example : ((g0.start.bind fun s => s.run g0 (.begin :: (tran1.map .set ++ [.fin true, .crashIo] ++ asks [.lastExec, .prePrepare 1, .user, .exit]))).map (·.2)) =
    some (List.replicate 16 .ok ++ [.nat 0, .msg none, .bytes (some [1, 2, 3]), .exit ExitDesc.empty]) := by decide +kernel

/-- a configuration of `last_rsi_refused`: 100 principals, batches of 64 -/
def g1 : Cfg := { g0 with numPrinc := 100, batch := 64 }

example : 10000 ≤ g1.idRsi + g1.numPrinc * g1.batch ∧ g1.idRsi + g1.numPrinc * g1.batch < 65540 ∧ g1.Ok :=
  ⟨by decide, by decide, ⟨by decide, by decide, by decide, by decide⟩⟩

/-- a configuration of `object_count_wraps` -/
example : ({ g0 with numPrinc := 65540 - g0.idRsi, batch := 1 } : Cfg).idRsi + (65540 - g0.idRsi) * 1 = 65540 := by decide

end Verif.Meta.Examples
