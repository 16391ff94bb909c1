/-!
# Cron tables and periodic actions

ccron/src/cron_table.cpp, ccron/src/periodic_action.cpp, ccron/include/ccron/{tick,cron_entry,cron_table_registry}.hpp, and the execution of
tick requests in bftengine/src/bftengine/RequestHandler.cpp:118-138.

Simplifications: the schedule is a function from component and position to the next time (a missing component and a component with an empty
table are not told apart: they differ only in the bytes of the page); the page keeps the schedule itself (serialization: C28); times are
unbounded integers; actions are opaque: what is recorded is which of them run; an action does not change the table it runs in.
-/
namespace Verif.Cron

/-- tick.hpp:21-32 -/
structure Tick where
  comp : Nat
  seq : Nat
  time : Option Int

/-- `PeriodicActionSchedule`, ccron_msgs.cmf -/
abbrev Sched := Nat → Nat → Option Int

def emptySched : Sched := fun _ _ => none

def Sched.set (s : Sched) (c p : Nat) (t : Option Int) : Sched := fun c' p' => if c' = c ∧ p' = p then t else s c' p'

/-- the static variables of periodic_action.cpp:24-27 and the reserved page -/
structure St where
  schedule : Sched
  pending : Bool
  page : Option Sched

/-- the entries that the code base makes: a periodic action, the entry that persists the schedule, and a user's entry whose rule
depends on the tick only -/
inductive Kind where
  | periodic (period : Int)
  | persist
  | user (rule : Tick → Bool)

/-- the entries of one table in the order of `std::map`: position, kind -/
abbrev Table := List (Nat × Kind)

/-- `CronTable::addEntry`, cron_table.cpp:20: `emplace` keeps an entry that is already at the position -/
def addEntry : Table → Nat → Kind → Table
  | [], p, k => [(p, k)]
  | (q, j) :: t, p, k => if p < q then (p, k) :: (q, j) :: t else if p = q then (q, j) :: t else (q, j) :: addEntry t p k

/-- `rule`, periodic_action.cpp:47-66 and 90 -/
def rule (k : Kind) (pos : Nat) (tick : Tick) (s : St) : Bool :=
  match k with
  | .periodic _ =>
    match tick.time with
    | none => false
    | some now => match s.schedule tick.comp pos with | none => true | some next => decide (now ≥ next)
  | .persist => s.pending
  | .user r => r tick

/-- `schedule_next`, periodic_action.cpp:68-72 -/
def scheduleNext (k : Kind) (pos : Nat) (tick : Tick) (s : St) : St :=
  match k, tick.time with
  | .periodic period, some now => { s with schedule := s.schedule.set tick.comp pos (some (now + period)), pending := true }
  | _, _ => s

/-- the effect of `action` on the schedule: only the persisting entry has one, periodic_action.cpp:92-95 -/
def actionEffect (k : Kind) (s : St) : St :=
  match k with
  | .persist => { s with page := some s.schedule, pending := false }
  | _ => s

/-- `CronTable::evaluate`, cron_table.cpp:60-70: the positions whose actions ran, in order, and the new state -/
def evaluate (comp : Nat) : Table → Tick → St → List Nat × St
  | [], _, s => ([], s)
  | (p, k) :: t, tick, s =>
    if tick.comp = comp ∧ rule k p tick s = true then
      let r := evaluate comp t tick (actionEffect k (scheduleNext k p tick s))
      (p :: r.1, r.2)
    else evaluate comp t tick s

/-- `removeEntry`, cron_table.cpp:22-33, with `on_remove` of the entry (periodic_action.cpp:74-79, 97) -/
def removeEntry (comp : Nat) (t : Table) (p : Nat) (s : St) : Bool × Table × St :=
  match t.find? (fun e => e.1 = p) with
  | none => (false, t, s)
  | some (_, k) =>
    let s' := match k with
      | .periodic _ => let sch := s.schedule.set comp p none; { s with schedule := sch, page := some sch }
      | .persist => { s with page := none }
      | .user _ => s
    (true, t.filter (fun e => e.1 ≠ p), s')

/-- `loadSchedule` at the first call of `periodicAction`/`persistPeriodicSchedule` in a process (periodic_action.cpp:36-45, 88): a new process
starts with an empty schedule and nothing pending -/
def restart (s : St) : St := { schedule := s.page.getD emptySched, pending := false, page := s.page }

/-- State transfer replaces the reserved page; nothing in periodic_action.cpp reloads the schedule. -/
def transfer (page : Option Sched) (s : St) : St := { s with page := page }

/-- `CronTableRegistry`, cron_table_registry.hpp:22-36: a table per component -/
abbrev Registry := Nat → Table

/-- the tables in a registry are evaluated for their own component, RequestHandler.cpp:135 -/
def onTick (reg : Registry) (tick : Tick) (s : St) : List Nat × St := evaluate tick.comp (reg tick.comp) tick s

/-- what happens to a replica -/
inductive Ev where
  | tick (t : Tick)
  | restart
  | transfer (page : Option Sched)

/-- the actions run (component, position, time of the tick), in order, and the final state -/
def run (reg : Registry) : List Ev → St → List (Nat × Nat × Option Int) × St
  | [], s => ([], s)
  | .tick t :: es, s =>
    let r := onTick reg t s
    let q := run reg es r.2
    (r.1.map (fun p => (t.comp, p, t.time)) ++ q.1, q.2)
  | .restart :: es, s => run reg es (restart s)
  | .transfer pg :: es, s => run reg es (transfer pg s)

/-- RequestHandler.cpp:134: the tick made from an ordered tick request; `timestamp` is the agreed time of the batch -/
def tickOfRequest (comp seq : Nat) (_timestamp : Option Int) : Tick := ⟨comp, seq, none⟩

/-- first start of a replica -/
def fresh : St := ⟨emptySched, false, none⟩

end Verif.Cron
