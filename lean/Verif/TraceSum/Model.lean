import Verif.Trace.File

/-!
# The statistics of traces

Models what util/tracing/trace_to_csv.c does with the records of a trace file: the statistics that it collects
(`read_and_write_trace`) and the tables that it prints (`write_summary_file`).  Times are integers: that they fit
into 64 bits is left out, and so are the percentages, which are floating-point numbers, and the text of the first file that the tool writes.
-/

namespace ReactorC.TraceSum
open ReactorC.Trace.File

/-- `NUM_EVENT_TYPES`, trace/api/types/trace_types.h:18-74. -/
def NUM_EVENT_TYPES : Nat := 54

/-- `MAX_NUM_REACTIONS` and `MAX_NUM_WORKERS`, util/tracing/trace_to_csv.c:40-41. -/
def MAX_NUM_REACTIONS : Nat := 64
def MAX_NUM_WORKERS : Nat := 64

/-- Event types, trace/api/types/trace_types.h:19-28. -/
abbrev reaction_starts : Nat := 0
abbrev reaction_ends : Nat := 1
abbrev schedule_called : Nat := 3
abbrev user_event : Nat := 4
abbrev user_value : Nat := 5
abbrev worker_wait_starts : Nat := 6
abbrev worker_wait_ends : Nat := 7
abbrev scheduler_advancing_time_starts : Nat := 8
abbrev scheduler_advancing_time_ends : Nat := 9

/-- A number of `bits` bits as a number with a sign. -/
def signed (bits n : Nat) : Int := if n < 2 ^ (bits - 1) then n else (n : Int) - 2 ^ bits

/-- `reaction_stats_t`, util/tracing/trace_to_csv.c:71-77. -/
structure RStats where
  occurrences : Nat
  latestStart : Int
  total : Int
  max : Int
  min : Int
deriving DecidableEq, Repr

/-- What `calloc` gives. -/
def RStats.zero : RStats := ⟨0, 0, 0, 0, 0⟩

/-- A value is counted, util/tracing/trace_to_csv.c:169-178, 201-210 and 244-253. -/
def RStats.count (r : RStats) (v : Int) : RStats :=
  { r with
    occurrences := r.occurrences + 1
    total := r.total + v
    max := if v > r.max then v else r.max
    min := if v < r.min ∨ r.min = 0 then v else r.min }

/-- Something begins, util/tracing/trace_to_csv.c:167 and 242. -/
def RStats.starts (r : RStats) (time : Int) : RStats := { r with latestStart := time }

/-- Something ends, util/tracing/trace_to_csv.c:169-178 and 244-253. -/
def RStats.ends (r : RStats) (time : Int) : RStats := { r.count (time - r.latestStart) with latestStart := 0 }

/-- `summary_stats_t`, util/tracing/trace_to_csv.c:82-88; `description` is `none` for NULL. -/
structure Stats where
  event : Nat
  description : Option (List UInt8)
  occurrences : Nat
  seen : Int
  reactions : Nat → RStats

/-- What `calloc` gives. -/
def Stats.zero : Stats := ⟨0, none, 0, 0, fun _ => .zero⟩

/-- `summary_stats` (`none` for NULL), util/tracing/trace_to_csv.c:95; `fault` is set by an access outside of an array. -/
structure Sum where
  slot : Nat → Option Stats
  fault : Bool

def Sum.init : Sum := ⟨fun _ => none, false⟩

/-- `table_size`, util/tracing/trace_to_csv.c:488. -/
def tableSize (objects : Nat) : Nat := NUM_EVENT_TYPES + objects + MAX_NUM_WORKERS * 2

/-- An access to an entry of `summary_stats`, which is allocated if there is none. -/
def Sum.at (S : Sum) (objects : Nat) (i : Int) (f : Stats → Stats) : Sum :=
  if 0 ≤ i ∧ i < tableSize objects then
    { S with slot := Function.update S.slot i.toNat (some (f ((S.slot i.toNat).getD .zero))) }
  else { S with fault := true }

/-- An access to an entry of `reactions` of an entry of `summary_stats`. -/
def Sum.atReaction (S : Sum) (objects : Nat) (i j : Int) (f : RStats → RStats) : Sum :=
  if 0 ≤ j ∧ j < MAX_NUM_REACTIONS then
    S.at objects i fun s => { s with reactions := Function.update s.reactions j.toNat (f (s.reactions j.toNat)) }
  else { S with fault := true }

/-- "Common stats across event types", util/tracing/trace_to_csv.c:260-264. -/
def Sum.common (S : Sum) (objects : Nat) (i : Int) (event : Nat) : Sum :=
  S.at objects i fun s => { s with occurrences := s.occurrences + 1, event := event }

/-- `trace_event_names[e]`, trace/api/types/trace_types.h:79-136; the names themselves are left to `names`. -/
def eventName (names : Nat → List UInt8) (e : Nat) : Option (List UInt8) := some (names e)

/-- `NO REACTOR` and `NO TRIGGER`, util/tracing/trace_to_csv.c:113-120. -/
def NO_REACTOR : List UInt8 := "NO REACTOR".toUTF8.toList
def NO_TRIGGER : List UInt8 := "NO TRIGGER".toUTF8.toList

/-- Whether a record is between the times that are asked for, util/tracing/trace_to_csv.c:121-122. -/
def inRange (start lo hi : Int) (r : Record) : Prop := lo ≤ signed 64 r.logical - start ∧ signed 64 r.logical - start < hi

instance (start lo hi : Int) (r : Record) : Decidable (inRange start lo hi r) := inferInstanceAs (Decidable (_ ∧ _))

/-- The `switch`, util/tracing/trace_to_csv.c:151-259, and what follows it. -/
def Sum.cases (S : Sum) (table : List Object) (r : Record) : Sum :=
  let n := table.length
  let object : Int := NUM_EVENT_TYPES + (getObjectDescription table r.pointer).2
  let name := (getObjectDescription table r.pointer).1.getD NO_REACTOR
  let trigger : Int := NUM_EVENT_TYPES + (getTriggerName table r.trigger).2
  let triggerName := (getTriggerName table r.trigger).1.getD NO_TRIGGER
  let time := signed 64 r.physical
  if r.event = reaction_starts ∨ r.event = reaction_ends then
    let j := signed 32 r.dst
    if j ≥ MAX_NUM_REACTIONS then S
    else
      let S := S.at n object fun s => { s with description := some name, seen := if j ≥ s.seen then j + 1 else s.seen }
      let S := S.atReaction n object j fun x => if r.event = reaction_starts then x.starts time else x.ends time
      S.common n object r.event
  else if r.event = schedule_called then
    let S := S.at n trigger fun s => { s with description := some triggerName }
    S.common n trigger r.event
  else if r.event = user_event then
    let S := S.at n object fun s => { s with description := some name }
    S.common n object r.event
  else if r.event = user_value then
    let S := S.at n object fun s => { s with description := some name }
    let S := S.atReaction n object 0 fun x => x.count (signed 64 r.extra)
    S.common n object r.event
  else if r.event = worker_wait_starts ∨ r.event = worker_wait_ends ∨ r.event = scheduler_advancing_time_starts ∨
      r.event = scheduler_advancing_time_ends then
    let index : Int := signed 32 r.src * 2 +
      (if r.event = scheduler_advancing_time_starts ∨ r.event = scheduler_advancing_time_ends then 1 else 0)
    if n + index ≥ tableSize n then S
    else
      let S := S.at n (NUM_EVENT_TYPES + n + index) fun s => { s with seen := if index ≥ s.seen then index else s.seen }
      let S := S.atReaction n (NUM_EVENT_TYPES + n + index) index fun x =>
        if r.event = worker_wait_starts ∨ r.event = scheduler_advancing_time_starts then x.starts time else x.ends time
      S.common n (NUM_EVENT_TYPES + n + index) r.event
  else S

/-- One record, util/tracing/trace_to_csv.c:109-268: the entries of the object, of the trigger and of the type of the event are allocated if
there are none (131-146; a `trigger_instance` or `object_instance` below 0 does not occur, see `getObjectDescription`), and the
event is counted.  An event type that does not exist gives a name from outside of `trace_event_names`. -/
def Sum.record (names : Nat → List UInt8) (table : List Object) (S : Sum) (r : Record) : Sum :=
  let n := table.length
  let S := S.at n (NUM_EVENT_TYPES + (getObjectDescription table r.pointer).2) id
  let S := S.at n (NUM_EVENT_TYPES + (getTriggerName table r.trigger).2) id
  if r.event ≥ NUM_EVENT_TYPES then { S with fault := true }
  else
    let S := S.at n r.event fun s =>
      { s with event := r.event, description := eventName names r.event, occurrences := s.occurrences + 1 }
    S.cases table r

/-- `read_and_write_trace` for all records of the file. -/
def collect (names : Nat → List UInt8) (start lo hi : Int) (table : List Object) (records : List Record) : Sum :=
  records.foldl (fun S r => if inRange start lo hi r then S.record names table r else S) .init

/-! ## The tables -/

/-- A line of the tables of reactions, user values and workers: occurrences, total, average (division rounds towards 0), maximum, minimum. -/
structure Line where
  occurrences : Nat
  total : Int
  average : Int
  max : Int
  min : Int
deriving DecidableEq, Repr

def RStats.line (r : RStats) : Line := ⟨r.occurrences, r.total, r.total.tdiv r.occurrences, r.max, r.min⟩

/-- `Total Event Occurrences`, util/tracing/trace_to_csv.c:281-287. -/
def Sum.eventTable (S : Sum) : List (Option (List UInt8) × Nat) :=
  (List.range NUM_EVENT_TYPES).filterMap fun i => (S.slot i).map fun s => (s.description, s.occurrences)

/-- The entries that the other tables are about: `for (int i = NUM_EVENT_TYPES; i < table_size; i++)`, those that are not NULL. -/
def Sum.entries (S : Sum) (objects : Nat) : List Stats :=
  (List.range (objects + MAX_NUM_WORKERS * 2)).filterMap fun i => S.slot (NUM_EVENT_TYPES + i)

/-- `Reaction Executions`, util/tracing/trace_to_csv.c:289-308: the name, the number of the reaction, and the line. -/
def Sum.reactionTable (S : Sum) (objects : Nat) : List (Option (List UInt8) × Nat × Line) :=
  (S.entries objects).flatMap fun s =>
    if s.seen > 0 then
      (List.range s.seen.toNat).filterMap fun j =>
        if (s.reactions j).occurrences > 0 then some (s.description, j, (s.reactions j).line) else none
    else []

/-- `Schedule calls`, util/tracing/trace_to_csv.c:310-322. -/
def Sum.scheduleTable (S : Sum) (objects : Nat) : List (Option (List UInt8) × Nat) :=
  (S.entries objects).filterMap fun s =>
    if s.event = schedule_called ∧ s.occurrences > 0 then some (s.description, s.occurrences) else none

/-- `User events`, util/tracing/trace_to_csv.c:324-346: the values are printed if the last event had one. -/
def Sum.userTable (S : Sum) (objects : Nat) : List (Option (List UInt8) × Nat × Option Line) :=
  (S.entries objects).filterMap fun s =>
    if (s.event = user_event ∨ s.event = user_value) ∧ s.occurrences > 0 then
      some (s.description, s.occurrences,
        if s.event = user_value ∧ (s.reactions 0).occurrences > 0 then some (s.reactions 0).line else none)
    else none

/-- `Workers Waiting`, util/tracing/trace_to_csv.c:348-374: the number of the worker, whether it waits for time to advance, and the line. -/
def Sum.workerTable (S : Sum) (objects : Nat) : List (Nat × Bool × Line) :=
  (S.entries objects).flatMap fun s =>
    if s.event = worker_wait_ends ∨ s.event = scheduler_advancing_time_ends then
      (List.range (s.seen.toNat + 1)).filterMap fun j =>
        if (s.reactions j).occurrences > 0 then some (j / 2, decide (s.event = scheduler_advancing_time_ends), (s.reactions j).line)
        else none
    else []

end ReactorC.TraceSum
