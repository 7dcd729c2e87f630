import Verif.TraceSum.Model

/-!
# Specification of the statistics of traces (C88)
-/

namespace ReactorC.TraceSum
open ReactorC.Trace.File

/-- The statistics of some values: how many, their sum, their average rounded towards 0, the greatest and the least. -/
def summary (vs : List Int) : Line := ⟨vs.length, vs.sum, vs.sum.tdiv vs.length, vs.max?.getD 0, vs.min?.getD 0⟩

/-- Beginnings (`false`) and ends (`true`) with their times: between each beginning and the end that follows it. -/
def durations : List (Bool × Int) → List Int
  | (false, s) :: (true, e) :: l => (e - s) :: durations l
  | _ => []

/-- Beginnings and ends alternate, with a beginning first. -/
def Alternate : List (Bool × Int) → Prop
  | [] => True
  | [(b, _)] => b = false
  | (b, _) :: (c, _) :: l => b = false ∧ c = true ∧ Alternate l

/-- They alternate, and the last one is an end. -/
def Complete : List (Bool × Int) → Prop
  | [] => True
  | [_] => False
  | (b, _) :: (c, _) :: l => b = false ∧ c = true ∧ Complete l

section
variable (table : List Object)

/-- The entry of the table that belongs to the pointer of a record, and the one of a trigger that belongs to its trigger. -/
def object (r : Record) : Option Nat := table.findIdx? fun x => x.pointer = r.pointer
def trigger (r : Record) : Option Nat := table.findIdx? fun x => x.trigger = r.trigger && x.type = 1

/-- The beginnings and ends of the executions of reaction `j` of entry `o` of the table. -/
def executions (o : Nat) (j : Int) (l : List Record) : List (Bool × Int) :=
  l.filterMap fun r =>
    if (r.event = 0 ∨ r.event = 1) ∧ object table r = some o ∧ signed 32 r.dst = j then some (decide (r.event = 1), signed 64 r.physical) else none

/-- The values of the user-defined events with value of entry `o`. -/
def values (o : Nat) (l : List Record) : List Int :=
  l.filterMap fun r => if r.event = 5 ∧ object table r = some o then some (signed 64 r.extra) else none

/-- The user-defined events, with or without value, of entry `o`. -/
def userEvents (o : Nat) (l : List Record) : List Record :=
  l.filter fun r => (decide (r.event = 4) || decide (r.event = 5)) && decide (object table r = some o)

/-- The calls of schedule for the trigger of entry `o`. -/
def schedules (o : Nat) (l : List Record) : List Record :=
  l.filter fun r => decide (r.event = 3) && decide (trigger table r = some o)

/-- The waits of worker `w` for reactions. -/
def waits (w : Int) (l : List Record) : List (Bool × Int) :=
  l.filterMap fun r => if (r.event = 6 ∨ r.event = 7) ∧ signed 32 r.src = w then some (decide (r.event = 7), signed 64 r.physical) else none

/-- A record as programs write it: its type exists; reactions and user-defined events are in the table with their type, and so are triggers; numbers of
reactions and workers are not negative.  Two conditions leave out records that programs write: there are less than 32 workers, and no record of the advancement of time,
which the threaded runtime writes (`scheduler_advancing_time_starts`, core/threaded/scheduler_sync_tag_advance.c:60-62). -/
structure Ordinary (r : Record) : Prop where
  known : r.event < 54
  reactor : r.event = 0 ∨ r.event = 1 → ∃ o x, object table r = some o ∧ table[o]? = some x ∧ x.type = 0
  reaction : r.event = 0 ∨ r.event = 1 → 0 ≤ signed 32 r.dst
  user : r.event = 4 ∨ r.event = 5 → ∃ o x, object table r = some o ∧ table[o]? = some x ∧ x.type = 2
  scheduled : r.event = 3 → ∃ o, trigger table r = some o
  worker : r.event = 6 ∨ r.event = 7 → 0 ≤ signed 32 r.src ∧ signed 32 r.src < 32
  untimed : r.event ≠ 8 ∧ r.event ≠ 9

/-! What the tables are to say about records. -/

/-- How often each type of event occurs, if it does. -/
def eventLines (names : Nat → List UInt8) (l : List Record) : List (Option (List UInt8) × Nat) :=
  (List.range 54).filterMap fun e =>
    if l.countP (fun r => r.event = e) = 0 then none else some (some (names e), l.countP fun r => r.event = e)

/-- For each entry of the table and each reaction with a number below 64 that has completed executions: how long they took. -/
def reactionLines (l : List Record) : List (Option (List UInt8) × Nat × Line) :=
  (List.range table.length).flatMap fun o : Nat => (List.range 64).filterMap fun j : Nat =>
    if durations (executions table o j l) = [] then none
    else some (table[o]?.map Object.description, j, summary (durations (executions table o j l)))

/-- For each entry of the table for whose trigger schedule is called: how often. -/
def scheduleLines (l : List Record) : List (Option (List UInt8) × Nat) :=
  (List.range table.length).filterMap fun o =>
    if schedules table o l = [] then none else some (table[o]?.map Object.description, (schedules table o l).length)

/-- For each entry of the table with user-defined events: how many there are, and their values, if there are values. -/
def userLines (l : List Record) : List (Option (List UInt8) × Nat × Option Line) :=
  (List.range table.length).filterMap fun o =>
    if userEvents table o l = [] then none
    else some (table[o]?.map Object.description, (userEvents table o l).length,
      if values table o l = [] then none else some (summary (values table o l)))

/-- For each worker that waits for reactions: how long. -/
def workerLines (l : List Record) : List (Nat × Bool × Line) :=
  (List.range 32).filterMap fun w : Nat => if waits w l = [] then none else some (w, false, summary (durations (waits w l)))

end

end ReactorC.TraceSum
