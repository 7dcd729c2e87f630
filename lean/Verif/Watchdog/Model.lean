import Mathlib.Data.List.Basic

/-!
# Watchdogs

Models core/threaded/watchdog.c for one watchdog: its thread, the reactor's mutex, the reactions of the reactor, which
hold that mutex while they run (core/reactor_common.c:683-704), and the main thread that terminates the watchdog at the
end.  Any interleaving is possible, and condition variables may wake up spuriously.

Simplifications: the expiration time `current_tag.time + min_expiration + additional_timeout` is a sum of integers
(no overflow of int64); the physical clock never goes back (proved for `lf_clock_gettime` in Verif.Clock.Props); reading
the clock and testing it is one step, since the fields tested with it are protected by the mutex.
-/

namespace ReactorC.Watchdog

/-- `NEVER`, include/core/tag.h:33. -/
def NEVER : Int := -9223372036854775808

/-- Where the watchdog's thread is, core/threaded/watchdog.c:56-69,89-140. -/
inductive Pc
  /-- before taking the mutex (97) -/
  | begin
  /-- with the mutex, before the test `!watchdog->terminate` (98) -/
  | top
  /-- in `LF_COND_WAIT` (107), the mutex released -/
  | idle
  /-- woken from it, but without the mutex yet -/
  | woken
  /-- with the mutex, in `watchdog_wait` before reading the clock and testing (58-59, 63) -/
  | check
  /-- in `lf_clock_cond_timedwait` (62) until the given time, the mutex released -/
  | timed (until_ : Int)
  /-- woken from it, but without the mutex yet -/
  | timedWoken
  /-- with the mutex, running the handler (131) -/
  | handler
  /-- terminated (137-139) -/
  | done
deriving DecidableEq, Repr

/-- Who holds the reactor's mutex: the watchdog's thread, or a thread executing a reaction of the reactor or terminating
the watchdogs. -/
inductive Holder
  | watchdog
  | user
deriving DecidableEq, Repr

/-- What an observer sees. -/
inductive Entry
  /-- `lf_watchdog_start` with the given additional timeout, called at the given logical time -/
  | start (logical additional : Int)
  /-- `lf_watchdog_stop` -/
  | stop
  /-- `_lf_watchdog_terminate` -/
  | terminate
  /-- the handler is called; the clock was last read with the given result -/
  | fire (physical : Int)
  /-- the handler returns -/
  | handled
deriving DecidableEq, Repr

/-- The watchdog (include/core/lf_types.h, `watchdog_t`), the mutex, the clock, and the record of what happened, latest
first. -/
structure State where
  owner : Option Holder
  pc : Pc
  expiration : Int
  active : Bool
  terminate : Bool
  now : Int
  log : List Entry
deriving DecidableEq, Repr

/-- A watchdog as the generated code sets it up: `expiration` is `NEVER`, `active` and `terminate` are false. -/
def init (now : Int) : State :=
  { owner := none
    pc := .begin
    expiration := NEVER
    active := false
    terminate := false
    now := now
    log := [] }

/-- `LF_COND_SIGNAL(&watchdog->cond)`: only the watchdog's thread waits on that variable. -/
def signal : Pc → Pc
  | .idle => .woken
  | .timed _ => .timedWoken
  | p => p

/-- `lf_watchdog_start`, core/threaded/watchdog.c:142-152; `minimum` is `watchdog->min_expiration`. -/
def start (minimum logical additional : Int) (s : State) : State :=
  { s with
    terminate := false
    expiration := logical + minimum + additional
    pc := if s.active then s.pc else signal s.pc
    log := .start logical additional :: s.log }

/-- `lf_watchdog_stop`, core/threaded/watchdog.c:154-165. -/
def stop (s : State) : State :=
  { s with
    expiration := NEVER
    pc := if s.active then signal s.pc else s.pc
    log := .stop :: s.log }

/-- `_lf_watchdog_terminate`, core/threaded/watchdog.c:167-171. -/
def terminate (s : State) : State :=
  { s with
    terminate := true
    expiration := NEVER
    pc := signal s.pc
    log := .terminate :: s.log }

/-- The caller of `lf_watchdog_start` or `lf_watchdog_stop` holds the reactor's mutex: it is a reaction, or it is the
handler itself. -/
def Callable (s : State) : Prop := s.owner = some .user ∨ s.pc = .handler

/-- The loop test of `watchdog_thread_main`, core/threaded/watchdog.c:98-113. -/
def atTop (s : State) : State :=
  if s.terminate then { s with pc := .done, active := false, owner := none }
  else if s.expiration = NEVER then { s with pc := .idle, active := false, owner := none }
  else { s with pc := .check, active := true }

/-- The test in `watchdog_wait` and, if it fails, what follows its return, core/threaded/watchdog.c:59-68,117-131. -/
def atCheck (s : State) : State :=
  if s.expiration ≠ NEVER ∧ s.now < s.expiration ∧ s.terminate = false then
    { s with pc := .timed s.expiration, owner := none }
  else if s.terminate then { s with pc := .done, active := false, owner := none }
  else if s.expiration = NEVER then { s with pc := .top }
  else { s with pc := .handler, log := .fire s.now :: s.log }

/-- One step of any thread, for a watchdog whose `min_expiration` is `minimum`. -/
inductive Step (minimum : Int) : State → State → Prop
  /-- physical time advances -/
  | tick (s : State) (n : Int) : s.now ≤ n → Step minimum s { s with now := n }
  /-- a reaction of the reactor begins, or the main thread takes the mutex to terminate the watchdogs -/
  | lock (s : State) : s.owner = none → Step minimum s { s with owner := some .user }
  | unlock (s : State) : s.owner = some .user → Step minimum s { s with owner := none }
  | start (s : State) (logical additional : Int) : Callable s → Step minimum s (start minimum logical additional s)
  | stop (s : State) : Callable s → Step minimum s (stop s)
  | terminate (s : State) : s.owner = some .user → Step minimum s (terminate s)
  /-- the watchdog's thread takes the mutex: core/threaded/watchdog.c:97, or on return from a wait -/
  | enter (s : State) : s.pc = .begin ∨ s.pc = .woken → s.owner = none →
      Step minimum s { s with pc := .top, owner := some .watchdog }
  | resume (s : State) : s.pc = .timedWoken → s.owner = none →
      Step minimum s { s with pc := .check, owner := some .watchdog }
  | top (s : State) : s.pc = .top → Step minimum s (atTop s)
  | check (s : State) : s.pc = .check → Step minimum s (atCheck s)
  /-- the handler returns, core/threaded/watchdog.c:132 -/
  | handled (s : State) : s.pc = .handler →
      Step minimum s { s with pc := .top, expiration := NEVER, log := .handled :: s.log }
  /-- the timed wait times out -/
  | timeout (s : State) (u : Int) : s.pc = .timed u → u ≤ s.now → Step minimum s { s with pc := .timedWoken }
  /-- a wait ends spuriously -/
  | spurious (s : State) : Step minimum s { s with pc := signal s.pc }

/-- Any execution of any length. -/
inductive Reach (minimum : Int) : State → Prop
  | init (now : Int) : Reach minimum (init now)
  | step {s t : State} : Reach minimum s → Step minimum s t → Reach minimum t

end ReactorC.Watchdog
