import Verif.Tag.Model

/-!
# Tag barriers

Models the barrier on tag advance of core/threaded/reactor_threaded.c and its users in core/federated/federate.c, for one
environment: a thread that reads a tagged message in two parts (its header, then its contents) and, between the two, keeps
the tag from reaching the tag of the message; the stop protocol, which keeps the tag from advancing until the stop tag is
known; and the worker that advances the tag.

Every step below is done with the environment's mutex held, except that the worker releases it while it waits.  (The one
exception in the code, the release of the barrier when the contents cannot be read, core/federated/federate.c:597, is
modelled in `Unlocked` at the end.)

Simplifications: an event is only its tag.  What precedes the last call of `get_next_event_tag` in `_lf_next_locked`
(reactor_threaded.c:313-408: the wait for physical time, the request to the RTI) decides only when the step `next` is
made; of it the model keeps that, unless the option `-fast` is given, the worker does not get past the wait for physical
time for an event at time `FOREVER`.  The step `deliver` does not distinguish a message inserted directly at the current
tag (`handle_message_now`, for port absent reactions) from one that is scheduled as tardy.
-/

namespace ReactorC.Barrier
open ReactorC

/-- Who asked for a barrier, what for, and what the current tag and the stop tag were then. -/
structure Request where
  id : Nat
  tag : Tag
  cur : Tag
  stop : Tag
deriving DecidableEq, Repr

/-- What an observer sees. -/
inductive Entry
  /-- the tag is advanced -/
  | advanced (tag : Tag)
  /-- the message that made the request is handed over when the current tag is `cur` -/
  | delivered (r : Request) (cur : Tag)
  /-- the message that made the request is discarded because the stop tag has been reached -/
  | discarded (r : Request)
deriving DecidableEq, Repr

/-- The fields of `environment_t` used here (include/core/environment.h:54-95: `current_tag`, `stop_tag`, `event_q`,
`barrier.horizon`, `barrier.requestors`), the tag the worker waits with, if it waits, whether the program has exited
with an error, and three records: the barriers outstanding, those asked for since none was outstanding, and the log
(latest first). -/
structure State where
  cur : Tag
  stop : Tag
  q : List Tag
  horizon : Tag
  requestors : Int
  waiting : Option Tag
  failed : Bool
  out : List Request
  batch : List Request
  log : List Entry
deriving DecidableEq, Repr

/-- `environment_init`, core/environment.c:59-70 (`horizon` is `FOREVER_TAG`, `requestors` is 0). -/
def init (cur stop : Tag) (q : List Tag) : State :=
  { cur := cur, stop := stop, q := q, horizon := FOREVER_TAG, requestors := 0, waiting := none, failed := false,
    out := [], batch := [], log := [] }

/-- `lf_is_tag_after_stop_tag`, core/reactor_common.c:224-227, and the use of the stop tag instead, as in
core/threaded/reactor_threaded.c:55-58, 144-146, 160-162, 244-246. -/
def clamp (stop tag : Tag) : Tag := if 0 < lf_tag_compare tag stop then stop else tag

/-- `_lf_increment_tag_barrier_locked`, core/threaded/reactor_threaded.c:49-90. -/
def increment (s : State) (future_tag : Tag) : State :=
  let future_tag := clamp s.stop future_tag
  let horizon :=
    if 0 < lf_tag_compare future_tag s.cur then
      if lf_tag_compare future_tag s.horizon < 0 then future_tag else s.horizon
    else ⟨s.cur.time, wrapU32 (s.cur.microstep + 1)⟩
  { s with horizon := horizon, requestors := s.requestors + 1 }

/-- `_lf_decrement_tag_barrier_locked`, core/threaded/reactor_threaded.c:99-115.  The broadcast only makes the step `wake`
possible, which is always possible here since waits may end spuriously. -/
def decrement (s : State) : State :=
  let s := { s with requestors := s.requestors - 1 }
  if s.requestors < 0 then { s with failed := true }
  else if s.requestors = 0 then { s with horizon := FOREVER_TAG }
  else s

/-- `lf_set_stop_tag`, core/reactor_common.c:145-150. -/
def setStop (s : State) (tag : Tag) : State :=
  if lf_tag_compare tag s.stop < 0 then { s with stop := tag } else s

/-- The least tag in the queue, `FOREVER_TAG` if there is none: `pqueue_tag_peek`. -/
def earliest : List Tag → Tag
  | [] => FOREVER_TAG
  | t :: q => if lf_tag_compare t (earliest q) < 0 then t else earliest q

/-- `get_next_event_tag`, core/threaded/reactor_threaded.c:226-251.  The exit with an error is in `tooEarly`. -/
def nextEvent (s : State) : Tag := clamp s.stop (earliest s.q)

/-- The exit with an error of `get_next_event_tag`, core/threaded/reactor_threaded.c:232-238. -/
def tooEarly (s : State) : Bool := decide (s.q ≠ [] ∧ lf_tag_compare (earliest s.q) s.cur < 0)

/-- The loop test of `_lf_wait_on_tag_barrier`, core/threaded/reactor_threaded.c:154. -/
def blocked (s : State) (proposed : Tag) : Bool :=
  decide (0 < s.requestors ∧ 0 ≤ lf_tag_compare proposed s.horizon)

/-- The end of `_lf_next_locked`, core/threaded/reactor_threaded.c:431-463, with `_lf_advance_tag`,
core/reactor_common.c:664-671, and `_lf_pop_events`. -/
def finish (s : State) (next : Tag) : State :=
  let s := { s with waiting := none }
  if 0 ≤ lf_tag_compare next s.stop ∧ 0 ≤ lf_tag_compare s.cur s.stop then s
  else if lf_tag_compare s.cur next < 0 then
    { s with cur := next, q := s.q.filter (fun t => t ≠ next), log := .advanced next :: s.log }
  else { s with failed := true }

/-- `_lf_next_locked` from its last call of `get_next_event_tag` before the barrier,
core/threaded/reactor_threaded.c:400-463, with `_lf_wait_on_tag_barrier`, 137-153, up to its first wait. -/
def next (s : State) : State :=
  if tooEarly s then { s with failed := true }
  else
    let next := nextEvent s
    if 0 < lf_tag_compare next s.stop then s
    else if s.requestors = 0 then finish s next
    else
      let proposed := clamp s.stop next
      if proposed.time = FOREVER then finish s next
      else if blocked s proposed then { s with waiting := some proposed }
      else finish s next

/-- The worker returns from `lf_cond_wait`, core/threaded/reactor_threaded.c:160-167, and, unless it waits again, goes on
in `_lf_next_locked`, 422-463. -/
def wake (s : State) (proposed : Tag) : State :=
  let proposed := clamp s.stop proposed
  if blocked s proposed then { s with waiting := some proposed }
  else if tooEarly s then { s with failed := true }
  else finish s (nextEvent s)

/-- A thread asks for a barrier: core/federated/federate.c:586 for a message, federate.c:1472 and
core/threaded/reactor_threaded.c:497 to stop.  The two records are extended. -/
def raise (s : State) (id : Nat) (tag : Tag) : State :=
  let r : Request := ⟨id, tag, s.cur, s.stop⟩
  { increment s tag with out := r :: s.out, batch := r :: s.batch }

/-- The barrier asked for by `r` is given back.  When no barrier is outstanding any more a new batch begins. -/
def giveBack (s : State) (r : Request) : State :=
  let out := s.out.erase r
  { decrement s with out := out, batch := if out = [] then [] else s.batch }

/-- `handle_tagged_message` after the contents have been read, core/federated/federate.c:632-680: the message is
discarded if the stop tag has been reached, otherwise an event is inserted (at the tag of the message, or one microstep
after the current tag if that has passed); then the barrier is given back. -/
def deliver (s : State) (r : Request) : State :=
  let s :=
    if 0 ≤ lf_tag_compare s.cur s.stop then { s with log := .discarded r :: s.log }
    else
      { s with
        q := (if lf_tag_compare s.cur r.tag < 0 then r.tag else ⟨s.cur.time, wrapU32 (s.cur.microstep + 1)⟩) :: s.q
        log := .delivered r s.cur :: s.log }
  giveBack s r

/-- `handle_stop_granted_message`, core/federated/federate.c:1383-1402, up to the release: the stop tag is the one
received or, if that is not later than the current tag, the next microstep. -/
def stopGranted (s : State) (tag : Tag) : State :=
  setStop s (if lf_tag_compare tag s.cur ≤ 0 then ⟨s.cur.time, wrapU32 (s.cur.microstep + 1)⟩ else tag)

/-- One step of any thread; `fast` is the option `-fast`. -/
inductive Step (fast : Bool) : State → State → Prop
  | raise (s : State) (id : Nat) (tag : Tag) : s.failed = false → Step fast s (raise s id tag)
  /-- the message cannot be read, or the stop request cannot be sent -/
  | release (s : State) (r : Request) : s.failed = false → r ∈ s.out → Step fast s (giveBack s r)
  | deliver (s : State) (r : Request) : s.failed = false → r ∈ s.out → Step fast s (deliver s r)
  /-- the RTI grants a stop tag; the barrier `r` was raised by the stop protocol -/
  | stopGranted (s : State) (tag : Tag) (r : Request) : s.failed = false → r ∈ s.out →
      Step fast s (giveBack (stopGranted s tag) r)
  /-- an event is scheduled for the current tag or a later one -/
  | schedule (s : State) (tag : Tag) : s.failed = false → 0 ≤ lf_tag_compare tag s.cur →
      Step fast s { s with q := tag :: s.q }
  /-- the stop tag is set for another reason, such as starvation -/
  | setStop (s : State) (tag : Tag) : s.failed = false → Step fast s (setStop s tag)
  | next (s : State) : s.failed = false → s.waiting = none → (fast = true ∨ (nextEvent s).time < FOREVER) →
      Step fast s (next s)
  | wake (s : State) (proposed : Tag) : s.failed = false → s.waiting = some proposed → Step fast s (wake s proposed)

/-- Any execution of any length, from any tag, stop tag and event queue, before anyone has asked for a barrier. -/
inductive Reach (fast : Bool) : State → Prop
  | init (cur stop : Tag) (q : List Tag) : Reach fast (init cur stop q)
  | step {s t : State} : Reach fast s → Step fast s t → Reach fast t

/-!
## The release without the mutex

core/federated/federate.c:595-599 calls `_lf_decrement_tag_barrier_locked` without holding the mutex when the contents of
a message cannot be read.  `env->barrier.requestors--` then is a load and a store between which other threads' steps may
come.
-/

/-- The load of `env->barrier.requestors--` made by a thread without the mutex. -/
def loadRequestors (s : State) : Int := s.requestors

/-- The store that follows, and the rest of `_lf_decrement_tag_barrier_locked`, with the value loaded before. -/
def storeRequestors (s : State) (r : Request) (loaded : Int) : State :=
  let s := { s with requestors := loaded - 1, out := s.out.erase r }
  if s.requestors < 0 then { s with failed := true }
  else if s.requestors = 0 then { s with horizon := FOREVER_TAG }
  else s

end ReactorC.Barrier
