import Verif.Tag.Order
import Verif.Level.Model
import Mathlib.Logic.Function.Basic
import Mathlib.Data.List.Basic

/-!
# Model of waiting, asynchronous events and stop requests in programs with threads

How the worker that advances the tag waits (`_lf_sched_advance_tag_locked`, core/threaded/scheduler_sync_tag_advance.c:27-67; `_lf_next_locked`, `wait_until`,
`get_next_event_tag`, core/threaded/reactor_threaded.c:197-262 and 311-466), how other threads and reactions add events
(`lf_schedule_token` and the like, lib/schedule.c:35-87; `lf_notify_of_event`, reactor_threaded.c:1144-1147), and how the program is stopped
(`lf_request_stop`, reactor_threaded.c:474-530), for programs that are not federated, with one environment or, with enclaves, with several.

Each step is a critical section under the mutex of an environment, and the steps of all threads interleave arbitrarily.  What workers do between two calls
of `_lf_sched_advance_tag_locked` is the phase `working`.

Simplifications.  Enclaves are not connected, so that the local RTI lets each of them advance at once (rti_local.c:101-118).  Microsteps do not overflow
(`C16_request_stop_wraps` has the overflow).  An event has no content but its tag.  No modes.
-/

namespace ReactorC.Async
open ReactorC.Level (MIN_SLEEP_DURATION)

/-- What does not change: the number of environments; `fast` and `keepalive_specified`, core/reactor_common.c:68 and 88; whether the program is compiled with
`LF_ENCLAVES`; the start tag and the first stop tag, core/environment.c:195-205; and whether threads other than those that execute reactions call
`lf_request_stop`. -/
structure Config where
  n : Nat
  fast : Bool
  keepalive : Bool
  enclaves : Bool
  start : Int
  stop : Tag
  outside : Bool

/-- Where the worker is that advances the tag: outside of `_lf_sched_advance_tag_locked`; in `lf_clock_cond_timedwait`, reactor_threaded.c:213, until a time,
and whether the condition variable has been signalled since it waits; ended; or in `lf_print_error_and_exit`. -/
inductive Pc
  | working
  | waiting (until_ : Int) (woken : Bool)
  | exited
  | failed
deriving DecidableEq, Repr

/-- An environment: the current tag, the stop tag, the event queue, and its worker.  For the properties only: how often shutdown reactions were triggered,
the tags that were begun and the physical time then, the latest first, and the events that were accepted. -/
structure Env where
  cur : Tag
  stop : Tag
  queue : List Tag
  pc : Pc
  shutdown : Nat
  log : List (Tag × Int)
  accepted : List Tag
deriving DecidableEq, Repr

/-- `lf_request_stop`: not called; in its first loop; in its second loop; done.  With the number of the environment that comes next, the largest current tag so far, and
the environment whose reaction has called it, if one has. -/
inductive Req
  | idle
  | gathering (i : Nat) (max : Tag) (caller : Option Nat)
  | setting (i : Nat) (max : Tag) (caller : Option Nat)
  | done
deriving DecidableEq, Repr

/-- The state: the physical time, `_latest_tag_completed` (which is one variable for all environments, scheduler_sync_tag_advance.c:25), the environments and the stop request. -/
structure State where
  now : Int
  latest : Tag
  env : Nat → Env
  req : Req

/-- The earliest event on the event queue, reactor_threaded.c:241-253. -/
def earliest (q : List Tag) : Tag := q.foldr min FOREVER_TAG

/-- `get_next_event_tag`, reactor_threaded.c:237-262.  (Its error is in `proceed`.) -/
def nextTag (e : Env) : Tag := if e.stop < earliest e.queue then e.stop else earliest e.queue

/-- `lf_set_stop_tag`, core/reactor_common.c:145-150. -/
def setStop (e : Env) (t : Tag) : Env := if t < e.stop then { e with stop := t } else e

/-- The next microstep. -/
def bumped (t : Tag) : Tag := ⟨t.time, t.microstep + 1⟩

/-- `_lf_next_locked` when the wait is over, reactor_threaded.c:403-466, with the checks of `get_next_event_tag` (242-249) and `_lf_advance_tag`
(core/reactor_common.c:642-674). -/
def proceed (now : Int) (e : Env) : Env :=
  let t := nextTag e
  if earliest e.queue < e.cur then { e with pc := .failed }
  else if e.stop < t then { e with pc := .working }
  else if e.stop ≤ t ∧ e.stop ≤ e.cur then { e with pc := .working }
  else if t ≤ e.cur then { e with pc := .failed }
  else
    { e with
      cur := t
      queue := e.queue.filter (· ≠ t)
      pc := .working
      shutdown := if e.stop ≤ t then e.shutdown + 1 else e.shutdown
      log := (t, now) :: e.log }

/-- The loop with `wait_until`, reactor_threaded.c:383-402 and 197-232. -/
def tryWait (C : Config) (now : Int) (e : Env) : Env :=
  let t := nextTag e
  if C.fast = true ∨ t.time - now < MIN_SLEEP_DURATION then proceed now e
  else { e with pc := .waiting t.time false }

/-- Whether the program ends because there is nothing to do, reactor_threaded.c:336-343 for enclaves and 366-378 otherwise. -/
def starving (C : Config) (e : Env) : Bool :=
  !C.keepalive && (if C.enclaves then decide (nextTag e = FOREVER_TAG) else e.queue.isEmpty)

/-- `_lf_sched_advance_tag_locked`, scheduler_sync_tag_advance.c:42-67: `should_stop_locked` and the beginning of `_lf_next_locked`. -/
def begin_ (C : Config) (now : Int) (latest : Tag) (e : Env) : Env × Tag :=
  if latest = e.cur ∧ e.stop ≤ e.cur then ({ e with pc := .exited }, latest)
  else (tryWait C now (if starving C e = true then setStop e (bumped e.cur) else e), e.cur)

/-- The condition variable `event_q_changed` is signalled. -/
def signal (e : Env) : Env :=
  match e.pc with
  | .waiting u _ => { e with pc := .waiting u true }
  | _ => e

/-- `lf_schedule_trigger` and `lf_notify_of_event`, lib/schedule.c:35-45: an event after the stop tag is discarded. -/
def schedule (e : Env) (t : Tag) : Env :=
  if e.stop < t then signal e
  else signal { e with queue := t :: e.queue, accepted := t :: e.accepted }

/-- Whether a reaction of environment `i` is executing `lf_request_stop`. -/
def busy (r : Req) (i : Nat) : Prop :=
  match r with
  | .gathering _ _ c => c = some i
  | .setting _ _ c => c = some i
  | _ => False

instance (r : Req) (i : Nat) : Decidable (busy r i) := by
  unfold busy
  split <;> infer_instance

/-- After the first loop of `lf_request_stop` has visited environment `i`, the next one, or the second loop. -/
def afterGather (n i : Nat) (m : Tag) (c : Option Nat) : Req := if i + 1 < n then .gathering (i + 1) m c else .setting 0 m c
/-- The same for the second loop. -/
def afterSet (n i : Nat) (m : Tag) (c : Option Nat) : Req := if i + 1 < n then .setting (i + 1) m c else .done

/-- What the worker of environment `i` that advances the tag does. -/
inductive Own (C : Config) (i : Nat) : State → State → Prop
  /-- the reactions of the tag have finished (and none of them is still executing `lf_request_stop`) -/
  | finish {s} : i < C.n → (s.env i).pc = .working → ¬ busy s.req i →
      Own C i s { s with
        env := Function.update s.env i (begin_ C s.now s.latest (s.env i)).1
        latest := (begin_ C s.now s.latest (s.env i)).2 }
  /-- the wait ends because of a signal -/
  | woken {s} {u : Int} : i < C.n → (s.env i).pc = .waiting u true →
      Own C i s { s with env := Function.update s.env i (tryWait C s.now (s.env i)) }
  /-- the wait ends because the time has come -/
  | timeout {s} {u : Int} {w : Bool} : i < C.n → (s.env i).pc = .waiting u w → u ≤ s.now →
      Own C i s { s with env := Function.update s.env i (proceed s.now (s.env i)) }

/-- One step. -/
inductive Step (C : Config) : State → State → Prop
  | own {s s'} (i : Nat) : Own C i s s' → Step C s s'
  /-- time passes -/
  | tick {s} {t : Int} : s.now ≤ t → Step C s { s with now := t }
  /-- the wait ends without a reason, as it may with POSIX -/
  | spurious {s} {i : Nat} {u : Int} : i < C.n → (s.env i).pc = .waiting u false →
      Step C s { s with env := Function.update s.env i (tryWait C s.now (s.env i)) }
  /-- a reaction or another thread schedules an event later than the current tag (C10) -/
  | schedule {s} {i : Nat} {t : Tag} : i < C.n → (s.env i).cur < t → t ≤ FOREVER_TAG →
      Step C s { s with env := Function.update s.env i (schedule (s.env i) t) }
  /-- a reaction of environment `i` calls `lf_request_stop`, reactor_threaded.c:475-488; later calls do nothing -/
  | request {s} {i : Nat} : s.req = .idle → i < C.n → (s.env i).pc = .working →
      Step C s { s with req := .gathering 0 NEVER_TAG (some i) }
  /-- another thread calls it -/
  | requestOutside {s} : s.req = .idle → C.outside = true → 0 < C.n → Step C s { s with req := .gathering 0 NEVER_TAG none }
  /-- the first loop, reactor_threaded.c:489-497.  The barrier it raises has no effect: `_lf_wait_on_tag_barrier` is called in federated programs only
  (reactor_threaded.c:419-432). -/
  | gather {s} {i : Nat} {m : Tag} {c : Option Nat} : s.req = .gathering i m c → i < C.n →
      Step C s { s with req := afterGather C.n i (if m < (s.env i).cur then (s.env i).cur else m) c }
  /-- the second loop, reactor_threaded.c:515-528: the condition variable that is signalled is always that of the first environment -/
  | set {s} {i : Nat} {m : Tag} {c : Option Nat} : s.req = .setting i m c → i < C.n →
      Step C s { s with
        env := Function.update (Function.update s.env i (setStop (s.env i) (bumped m))) 0
          (signal (Function.update s.env i (setStop (s.env i) (bumped m)) 0))
        req := afterSet C.n i m c }

/-- The beginning, `_lf_initialize_start_tag` without `FEDERATED` (reactor_threaded.c:557-570 and 642-656): timers are scheduled by later steps. -/
def init (C : Config) (now : Int) : State where
  now := now
  latest := NEVER_TAG
  env _ :=
    { cur := ⟨C.start, 0⟩
      stop := C.stop
      queue := []
      pc := .working
      shutdown := if C.stop ≤ ⟨C.start, 0⟩ then 1 else 0
      log := [(⟨C.start, 0⟩, now)]
      accepted := [] }
  req := .idle

/-- A program: the start is a time, it has begun, and the stop tag is the tag of a time not before the start. -/
structure Config.Ok (C : Config) : Prop where
  start : NEVER < C.start
  le : (⟨C.start, 0⟩ : Tag) ≤ C.stop
  stop : C.stop ≤ FOREVER_TAG

/-- The reachable states. -/
inductive Reach (C : Config) : State → Prop
  | init {now : Int} : C.start ≤ now → Reach C (init C now)
  | step {s s'} : Reach C s → Step C s s' → Reach C s'

end ReactorC.Async
