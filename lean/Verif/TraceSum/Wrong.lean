import Verif.TraceSum.Props

/-!
# C88: where the statistics of traces are wrong
-/

namespace ReactorC.TraceSum
open ReactorC.Trace.File

variable {table : List Object} {names : Nat → List UInt8} {start lo hi : Int} {records : List Record} {S : Sum}

theorem at_faulty (h : S.fault = true) (n : Nat) (i : Int) (f : Stats → Stats) : (S.at n i f).fault = true := by
  unfold Sum.at; split
  · exact h
  · rfl

theorem atReaction_faulty (h : S.fault = true) (n : Nat) (i j : Int) (f : RStats → RStats) : (S.atReaction n i j f).fault = true := by
  unfold Sum.atReaction; split
  · exact at_faulty h _ _ _
  · rfl

theorem cases_faulty (h : S.fault = true) (r : Record) : (S.cases table r).fault = true := by
  unfold Sum.cases Sum.common
  dsimp only
  split
  · split
    · exact h
    · exact at_faulty (atReaction_faulty (at_faulty h _ _ _) _ _ _ _) _ _ _
  split
  · exact at_faulty (at_faulty h _ _ _) _ _ _
  split
  · exact at_faulty (at_faulty h _ _ _) _ _ _
  split
  · exact at_faulty (atReaction_faulty (at_faulty h _ _ _) _ _ _ _) _ _ _
  split
  · split <;> split <;> first | exact h | exact at_faulty (atReaction_faulty (at_faulty h _ _ _) _ _ _ _) _ _ _
  · exact h

theorem record_faulty (h : S.fault = true) (r : Record) : (S.record names table r).fault = true := by
  unfold Sum.record
  dsimp only
  split
  · rfl
  · exact cases_faulty (at_faulty (at_faulty (at_faulty h _ _ _) _ _ _) _ _ _) r

theorem foldl_faulty (h : S.fault = true) (l : List Record) : (l.foldl (fun (S : Sum) r => S.record names table r) S).fault = true := by
  induction l generalizing S with
  | nil => exact h
  | cons r l ih => exact ih (record_faulty h r)

theorem collect_faulty {r : Record} (hr : r ∈ kept start lo hi records) (h : ∀ S : Sum, (S.record names table r).fault = true) :
    (collect names start lo hi table records).fault = true := by
  rw [collect_eq]
  obtain ⟨a, b, e⟩ := List.append_of_mem hr
  rw [e, List.foldl_append, List.foldl_cons]
  exact foldl_faulty (h _) b

/-- A record of a wait whose entry of `reactions` does not exist. -/
theorem wait_faulty {r : Record} (h : r.event = 6 ∨ r.event = 7 ∨ r.event = 8 ∨ r.event = 9)
    (hi : signed 32 r.src * 2 + (if r.event = 8 ∨ r.event = 9 then 1 else 0) < 0 ∨
      64 ≤ signed 32 r.src * 2 + (if r.event = 8 ∨ r.event = 9 then 1 else 0) ∧ signed 32 r.src * 2 + (if r.event = 8 ∨ r.event = 9 then 1 else 0) < 182) :
    (S.record names table r).fault = true := by
  unfold Sum.record
  dsimp only
  split
  · rfl
  · unfold Sum.cases
    dsimp only [reaction_starts, reaction_ends, schedule_called, user_event, user_value, worker_wait_starts, worker_wait_ends,
      scheduler_advancing_time_starts, scheduler_advancing_time_ends]
    rw [if_neg (by omega), if_neg (by omega), if_neg (by omega), if_neg (by omega), if_pos h, if_neg (by simp only [tableSize, NUM_EVENT_TYPES, MAX_NUM_WORKERS]; omega)]
    refine at_faulty ?_ _ _ _
    unfold Sum.atReaction
    rw [if_neg (by simp only [MAX_NUM_REACTIONS]; omega)]

/-- **C88 (not safe).**  If a record of the advancement of time lies between the times that are asked for, the tool writes outside of its arrays.  The threaded runtime
writes such a record whenever it advances time, and always with −1 for the worker (include/core/tracepoint.h:174-183). -/
theorem C88_not_safe_when_time_advances {r : Record} (hr : r ∈ kept start lo hi records) (he : r.event = 8 ∨ r.event = 9) (hs : r.src = 0xffffffff) :
    (collect names start lo hi table records).fault = true := by
  refine collect_faulty hr fun S => wait_faulty (by omega) (.inl ?_)
  rw [if_pos he, hs]
  decide

/-- **C88 (not safe with many workers).**  So it does if worker 32, or one above it up to 90, waits: the warning "Too many workers" comes only from worker 91 on. -/
theorem C88_not_safe_with_many_workers {r : Record} (hr : r ∈ kept start lo hi records) (he : r.event = 6 ∨ r.event = 7)
    (hs : 32 ≤ signed 32 r.src ∧ signed 32 r.src ≤ 90) : (collect names start lo hi table records).fault = true := by
  refine collect_faulty hr fun S => wait_faulty (by omega) (.inr ?_)
  rw [if_neg (by omega)]
  omega

/-! ## Examples -/

def thing (p t : Nat) (type : Nat) (d : String) : Object := ⟨p, t, type, d.toUTF8.toList⟩

/-- A reactor, an action of it and two labels of user-defined events. -/
def things : List Object := [thing 16 0 0 "r", thing 16 48 1 "r.a", thing 64 0 2 "load", thing 80 0 2 "hello"]

def rec (event pointer src dst logical physical trigger extra : Nat) : Record := ⟨event, pointer, src, dst, logical, 0, physical, trigger, extra⟩

/-- Worker 1 waits; two reactions are executed, the first of them twice; schedule is called; values 5 and 3 are recorded; the last record is after the end. -/
def recorded : List Record :=
  [rec 6 0 1 0xffffffff 100 101 0 0, rec 7 0 1 0xffffffff 100 105 0 0,
   rec 0 16 1 0 100 106 0 0, rec 3 16 0xffffffff 0xffffffff 100 107 48 0, rec 1 16 1 0 100 109 0 0,
   rec 0 16 1 1 100 110 0 0, rec 5 64 1 0xffffffff 100 111 0 5, rec 4 80 1 0xffffffff 100 111 0 0, rec 1 16 1 1 100 112 0 0,
   rec 0 16 1 0 150 151 0 0, rec 5 64 1 0xffffffff 150 152 0 3, rec 1 16 1 0 150 156 0 0, rec 0 16 1 0 200 201 0 0]

def label (s : String) : Option (List UInt8) := some s.toUTF8.toList

instance (r : Record) : Decidable (Ordinary things r) :=
  decidable_of_iff
    (r.event < 54 ∧ (r.event = 0 ∨ r.event = 1 → (((object things r).bind fun o => things[o]?).map (·.type)) = some 0) ∧
      (r.event = 0 ∨ r.event = 1 → 0 ≤ signed 32 r.dst) ∧
      (r.event = 4 ∨ r.event = 5 → (((object things r).bind fun o => things[o]?).map (·.type)) = some 2) ∧
      (r.event = 3 → (trigger things r).isSome = true) ∧ (r.event = 6 ∨ r.event = 7 → 0 ≤ signed 32 r.src ∧ signed 32 r.src < 32) ∧ r.event ≠ 8 ∧ r.event ≠ 9)
    (by
      have key (t : Nat) : ((((object things r).bind fun o => things[o]?).map (·.type)) = some t) ↔
          ∃ o x, object things r = some o ∧ things[o]? = some x ∧ x.type = t := by
        cases h : object things r with
        | none => simp
        | some o => cases h' : things[o]? <;> simp [h']
      rw [key, key, Option.isSome_iff_exists]
      constructor
      · rintro ⟨h1, h2, h3, h4, h5, h6, h7⟩; exact ⟨h1, h2, h3, h4, h5, h6, h7⟩
      · rintro ⟨h1, h2, h3, h4, h5, h6, h7⟩; exact ⟨h1, h2, h3, h4, h5, h6, h7⟩)

/-- The hypotheses of the theorems are met, and the tables are not empty. -/
example : ∀ r ∈ kept 100 0 100 recorded, Ordinary things r := by decide +kernel
example : (collect (fun _ => []) 100 0 100 things recorded).reactionTable 4 =
    [(label "r", 0, ⟨2, 8, 4, 5, 3⟩), (label "r", 1, ⟨1, 2, 2, 2, 2⟩)] := by decide +kernel
example : (collect (fun _ => []) 100 0 100 things recorded).scheduleTable 4 = [(label "r.a", 1)] := by decide +kernel
example : (collect (fun _ => []) 100 0 100 things recorded).userTable 4 =
    [(label "load", 2, some ⟨2, 8, 4, 5, 3⟩), (label "hello", 1, none)] := by decide +kernel
example : (collect (fun _ => []) 100 0 100 things recorded).workerTable 4 = [(1, false, ⟨1, 4, 4, 4, 4⟩)] := by decide +kernel
example : executions things 0 0 (kept 100 0 100 recorded) = [(false, 106), (true, 109), (false, 151), (true, 156)] := by decide +kernel
example : Alternate (executions things 0 0 (kept 100 0 100 recorded)) := by
  rw [show executions things 0 0 (kept 100 0 100 recorded) = [(false, 106), (true, 109), (false, 151), (true, 156)] by decide +kernel]
  exact ⟨rfl, rfl, rfl, rfl, trivial⟩
example : Complete (waits 1 (kept 100 0 100 recorded)) := by
  rw [show waits 1 (kept 100 0 100 recorded) = [(false, 101), (true, 105)] by decide +kernel]
  exact ⟨rfl, rfl, trivial⟩

/-- **C88 (not the least).**  An execution that takes no time is not the shortest one if another one comes after it. -/
theorem C88_shortest_not_zero :
    let l := [rec 0 16 1 0 100 106 0 0, rec 1 16 1 0 100 106 0 0, rec 0 16 1 0 100 107 0 0, rec 1 16 1 0 100 112 0 0]
    (∀ r ∈ kept 100 0 100 l, Ordinary things r) ∧
    reactionLines things (kept 100 0 100 l) = [(label "r", 0, ⟨2, 5, 2, 5, 0⟩)] ∧
    (collect (fun _ => []) 100 0 100 things l).reactionTable 4 = [(label "r", 0, ⟨2, 5, 2, 5, 5⟩)] := by
  decide +kernel

/-- **C88 (not the greatest).**  Of negative values, the greatest is said to be 0: here of −5 and −3. -/
theorem C88_greatest_not_negative :
    let l := [rec 5 64 1 0xffffffff 100 111 0 (2 ^ 64 - 5), rec 5 64 1 0xffffffff 100 111 0 (2 ^ 64 - 3)]
    (∀ r ∈ kept 100 0 100 l, Ordinary things r) ∧
    userLines things (kept 100 0 100 l) = [(label "load", 2, some ⟨2, -8, -4, -3, -5⟩)] ∧
    (collect (fun _ => []) 100 0 100 things l).userTable 4 = [(label "load", 2, some ⟨2, -8, -4, 0, -5⟩)] := by
  decide +kernel

/-- **C88 (events with and without value).**  Values are not shown if the last event with the label has none. -/
theorem C88_values_not_shown :
    let l := [rec 5 64 1 0xffffffff 100 111 0 7, rec 4 64 1 0xffffffff 100 112 0 0]
    (∀ r ∈ kept 100 0 100 l, Ordinary things r) ∧
    userLines things (kept 100 0 100 l) = [(label "load", 2, some ⟨1, 7, 7, 7, 7⟩)] ∧
    (collect (fun _ => []) 100 0 100 things l).userTable 4 = [(label "load", 2, none)] := by
  decide +kernel

/-- **C88 (unfinished waits).**  Of a worker that still waits at the end of the trace, none of the waits are reported. -/
theorem C88_waits_not_reported :
    let l := [rec 6 0 1 0xffffffff 100 101 0 0, rec 7 0 1 0xffffffff 100 105 0 0, rec 6 0 1 0xffffffff 100 106 0 0]
    (∀ r ∈ kept 100 0 100 l, Ordinary things r) ∧
    workerLines (kept 100 0 100 l) = [(1, false, ⟨1, 4, 4, 4, 4⟩)] ∧
    (collect (fun _ => []) 100 0 100 things l).workerTable 4 = [] := by
  decide +kernel

/-- **C88 (waits that begin before the given time).**  A wait whose beginning is before the times that are asked for is said to have taken the time since 1970. -/
theorem C88_waits_not_measured :
    let l := [rec 6 0 1 0xffffffff 100 101 0 0, rec 7 0 1 0xffffffff 150 1700000000000000000 0 0]
    (∀ r ∈ kept 100 50 100 l, Ordinary things r) ∧
    (collect (fun _ => []) 100 50 100 things l).workerTable 4 =
      [(1, false, ⟨1, 1700000000000000000, 1700000000000000000, 1700000000000000000, 1700000000000000000⟩)] := by
  decide +kernel

/-- **C88 (objects that are missing).**  A reaction of a reactor that is not in the table is counted as one of the first entry of the table, whose name changes. -/
theorem C88_unknown_reactors_not_kept_apart :
    let l := [rec 0 16 1 0 100 106 0 0, rec 1 16 1 0 100 109 0 0, rec 0 32 1 0 100 110 0 0, rec 1 32 1 0 100 117 0 0]
    reactionLines things (kept 100 0 100 l) = [(label "r", 0, ⟨1, 3, 3, 3, 3⟩)] ∧
    (collect (fun _ => []) 100 0 100 things l).reactionTable 4 = [(label "NO REACTOR", 0, ⟨2, 10, 5, 7, 3⟩)] := by
  decide +kernel

end ReactorC.TraceSum
