import Verif.Np.Pool
import Verif.Np.Good

/-!
# The scheduler that follows deadlines

Models core/threaded/scheduler_GEDF_NP.c for unfederated programs, with any number of workers and reactions, and the loop of
the workers (`_lf_worker_do_work`, core/threaded/reactor_threaded.c:826-866).  What a thread does between two operations on
the mutex of the environment and the condition variable is one step; the steps of different threads alternate arbitrarily.
The status of a reaction, which is changed without the mutex, is changed in a step of its own.  A waiting thread may wake up
without a signal, as POSIX allows.

The priority queue is a list of reactions; what is taken from it is any reaction with the least index, which is what the heap
of core/utils/pqueue_base.c does (Verif.PQueue).

Not modelled: `FEDERATED`, `MODAL`, tracing, and other users of the mutex (`lf_schedule`, for example), which only hold it for
a while.  `LF_MUTEX_LOCK` by the thread that already has the mutex succeeds, as with the recursive mutexes of
low_level_platform/impl/src/lf_POSIX_threads_support.c:36; the main thread relies on it when it triggers the reactions at the
start tag (core/threaded/reactor_threaded.c:1076-1080).

A chain of reactions that a worker executes without the queue (`schedule_output_reactions`, core/reactor_common.c:784-867) is
one reaction here; Verif.Uni models it.
-/

namespace ReactorC.Gedf

open Np (Ev put)

/-- The program: the number of workers, the highest level (`max_reaction_level`), the reactions, their indices (the inferred
deadline shifted left by 16 bits, and the level) and which reactions depend on which: `dep r r'` if `r` has to be executed
before `r'` when both are executed at the same tag. -/
structure Config where
  n : Nat
  maxLevel : Nat
  reactions : List Nat
  index : Nat → Nat
  dep : Nat → Nat → Prop

/-- `LF_LEVEL`, include/core/utils/util.h:71. -/
def Config.level (C : Config) (r : Nat) : Nat := C.index r % 65536

/-- Who triggers a reaction: the main thread before it lets the workers go on, a worker that executes the reaction `r`, or
the worker that advances the tag (`_lf_pop_events`). -/
inductive Who
  | boot
  | running (r : Nat)
  | events
deriving DecidableEq, Repr

/-- Where a thread is. -/
inductive Pc
  /-- the main thread triggers reactions at the start tag; it has the mutex -/
  | boot
  /-- `LF_MUTEX_LOCK`, scheduler_GEDF_NP.c:160 -/
  | enter
  /-- `while (!scheduler->should_stop)`, :164, with the mutex -/
  | loop
  /-- executes the reaction -/
  | run (r : Nat)
  /-- `lf_sched_done_with_reaction`, :229-234 -/
  | done (r : Nat)
  /-- `LF_MUTEX_LOCK` if `solo_holds_mutex` is not set, :244-248, to trigger the reaction `r` -/
  | lock (who : Who) (r : Nat)
  /-- `pqueue_insert` and `LF_MUTEX_UNLOCK` if `solo_holds_mutex` is not set, :249-263 -/
  | insert (who : Who) (r : Nat)
  /-- in `LF_COND_WAIT`, :61 -/
  | wait
  /-- woken up in `LF_COND_WAIT`; needs the mutex -/
  | woken
  /-- `_lf_sched_advance_tag_locked`, :75, with the mutex -/
  | tag
  /-- in it, waiting for time or events to come, without the mutex -/
  | pause
  /-- in it, `_lf_pop_events` -/
  | events
  /-- left the loop of the worker -/
  | exited
deriving DecidableEq, Repr

/-- `lf_scheduler_t`, `custom_scheduler_data_t` and the mutex: its owner and how often it was locked by it.  The record `hist`
has the latest event first.  `fault` is set when the queue is accessed by a thread that does not have the mutex, when a
mutex is unlocked by such a thread, and by the error exit of `lf_sched_done_with_reaction`. -/
structure State where
  queue : List Nat
  level : Nat
  solo : Bool
  idle : Nat
  stop : Bool
  owner : Option Nat
  depth : Nat
  queued : Nat → Bool
  pc : Nat → Pc
  hist : List Ev
  fault : Bool

/-- `lf_sched_init`, core/threaded/scheduler_GEDF_NP.c:122-143, and `lf_reactor_c_main` up to
core/threaded/reactor_threaded.c:1080.  The threads below `n` are the workers; the thread `n` is the main thread until it
unlocks the mutex (line 1099). -/
def init (C : Config) : State :=
  { queue := []
    level := 0
    solo := false
    idle := 0
    stop := false
    owner := some C.n
    depth := 1
    queued := fun _ => false
    pc := fun w => if w < C.n then .enter else if w = C.n then .boot else .exited
    hist := []
    fault := false }

/-- Where to continue when a reaction has been triggered. -/
def Who.pc : Who → Pc
  | .boot => .boot
  | .running r => .run r
  | .events => .events

/-- What `pqueue_peek` returns: a reaction with the least index.  Only its level matters, which is the same for all
reactions with this index. -/
def Config.front (C : Config) : List Nat → Option Nat
  | [] => none
  | r :: q => match C.front q with
    | none => some r
    | some r' => if C.index r ≤ C.index r' then some r else some r'

/-- The next step of a thread: the one determined by the scheduler (`go`); it takes the reaction `r` from the queue and
signals the worker `x`, if there is one to be signalled (`take`).  The others are not determined by the scheduler: a reaction
or the event queue triggers a reaction; a reaction ends; the tag advances; it does not advance (`_lf_next_locked` returns
before core/threaded/reactor_threaded.c:446); the stop tag has been completed; the thread that advances the tag waits; a
thread wakes up without a signal. -/
inductive Act
  | go (w : Nat)
  | take (w r : Nat) (x : Option Nat)
  | trigger (w r : Nat)
  | finish (w : Nat)
  | advance (w : Nat)
  | retry (w : Nat)
  | stop (w : Nat)
  | pause (w : Nat)
  | spurious (w : Nat)
deriving DecidableEq, Repr

/-- `lf_scheduler_trigger_reaction`, core/threaded/scheduler_GEDF_NP.c:236-242, up to the lock. -/
def trigger (s : State) (w : Nat) (who : Who) (r : Nat) : State :=
  let s := { s with hist := .trigger r :: s.hist }
  if s.queued r then s else { s with queued := put s.queued r true, pc := put s.pc w (.lock who r) }

/-- `LF_MUTEX_UNLOCK`. -/
def State.unlock (s : State) (w : Nat) : State :=
  if s.owner = some w then
    if s.depth ≤ 1 then { s with owner := none, depth := 0 } else { s with depth := s.depth - 1 }
  else { s with fault := true }

/-- `wait_for_reaction_queue_updates`, core/threaded/scheduler_GEDF_NP.c:58-61. -/
def State.sleep (s : State) (w : Nat) : State :=
  { s with idle := s.idle + 1, owner := none, depth := 0, pc := put s.pc w .wait }

/-- `advance_level`, core/threaded/scheduler_GEDF_NP.c:97-108. -/
def Config.nextLevel (C : Config) (l : Nat) : Nat := if l + 1 > C.maxLevel then 0 else l + 1

/-- Some worker is in `LF_COND_WAIT`. -/
def Config.waiting (C : Config) (s : State) : Bool := (List.range C.n).any fun y => decide (s.pc y = .wait)

/-- The condition to signal, core/threaded/scheduler_GEDF_NP.c:178-180; `q` is the queue after `pqueue_pop`. -/
def Config.signals (C : Config) (s : State) (q : List Nat) : Bool :=
  (match C.front q with
    | none => false
    | some r => decide (C.level r = s.level)) && decide (0 < s.idle)

/-- `x` is the worker that `LF_COND_SIGNAL` wakes up; nobody if nobody waits or nobody is signalled. -/
def Config.picks (C : Config) (s : State) (q : List Nat) (x : Option Nat) : Bool :=
  if C.signals s q && C.waiting s then
    match x with
    | none => false
    | some y => decide (y < C.n) && decide (s.pc y = .wait)
  else x.isNone

/-- Some thread, or none, is woken up. -/
def wake (pc : Nat → Pc) : Option Nat → Nat → Pc
  | none => pc
  | some y => put pc y .woken

/-- `LF_COND_BROADCAST`. -/
def wakeAll (pc : Nat → Pc) : Nat → Pc := fun y => if pc y = .wait then .woken else pc y

/-- One step; `none` if the thread cannot make it. -/
def exec (C : Config) (s : State) : Act → Option State
  | .go w =>
    match s.pc w with
    | .boot => some ({ s with pc := put s.pc w .exited }.unlock w)
    | .enter => if s.owner = none then some { s with owner := some w, depth := 1, pc := put s.pc w .loop } else none
    | .loop =>
      if s.stop then some ({ s with pc := put s.pc w .exited }.unlock w)
      else match C.front s.queue with
        | none => if s.idle = C.n - 1 then some { s with solo := true, pc := put s.pc w .tag } else some (s.sleep w)
        | some r =>
          if C.level r = s.level then none
          else if s.idle = C.n - 1 then some { s with level := C.nextLevel s.level }
          else some (s.sleep w)
    | .woken =>
      if s.owner = none then
        some { s with owner := some w, depth := 1, idle := s.idle - 1, pc := put s.pc w .loop }
      else none
    | .done r => if s.queued r then some { s with queued := put s.queued r false, pc := put s.pc w .enter }
        else some { s with fault := true }
    | .lock who r =>
      if s.solo then some { s with pc := put s.pc w (.insert who r) }
      else if s.owner = none then some { s with owner := some w, depth := 1, pc := put s.pc w (.insert who r) }
      else if s.owner = some w then some { s with depth := s.depth + 1, pc := put s.pc w (.insert who r) }
      else none
    | .insert who r =>
      let s' := { s with queue := r :: s.queue, fault := s.fault || decide (s.owner ≠ some w), pc := put s.pc w who.pc }
      some (if s.solo then s' else s'.unlock w)
    | .pause => if s.owner = none then some { s with owner := some w, depth := 1, pc := put s.pc w .tag } else none
    | .events => some { s with solo := false, level := 0, pc := put s.pc w .loop }
    | _ => none
  | .take w r x =>
    match s.pc w with
    | .loop =>
      if s.stop = false ∧ r ∈ s.queue ∧ (∀ r' ∈ s.queue, C.index r ≤ C.index r') ∧ C.level r = s.level ∧
          C.picks s (s.queue.erase r) x = true then
        some ({ s with
          queue := s.queue.erase r
          pc := put (wake s.pc x) w (.run r)
          hist := .start w r :: s.hist }.unlock w)
      else none
    | _ => none
  | .trigger w r =>
    match s.pc w with
    | .boot => some (trigger s w .boot r)
    | .run r' => some (trigger s w (.running r') r)
    | .events => some (trigger s w .events r)
    | _ => none
  | .finish w =>
    match s.pc w with
    | .run r => some { s with pc := put s.pc w (.done r), hist := .finish w r :: s.hist }
    | _ => none
  | .advance w =>
    match s.pc w with
    | .tag => some { s with pc := put s.pc w .events, hist := .advance :: s.hist }
    | _ => none
  | .retry w =>
    match s.pc w with
    | .tag => some { s with solo := false, level := 0, pc := put s.pc w .loop }
    | _ => none
  | .stop w =>
    match s.pc w with
    | .tag => some ({ s with
        stop := true, solo := false, pc := put (wakeAll s.pc) w .exited, hist := .stop :: s.hist }.unlock w)
    | _ => none
  | .pause w =>
    match s.pc w with
    | .tag => some { s with owner := none, depth := 0, pc := put s.pc w .pause }
    | _ => none
  | .spurious w =>
    match s.pc w with
    | .wait => some { s with pc := put s.pc w .woken }
    | _ => none

/-- The rules: only reactions of the program are triggered, and a reaction triggers only reactions that depend on it. -/
def Act.allowed (C : Config) (s : State) : Act → Prop
  | .trigger w r => r ∈ C.reactions ∧ ∀ r', s.pc w = .run r' → C.dep r' r
  | _ => True

/-- The states in which the scheduler can be. -/
inductive Reach (C : Config) : State → Prop
  | init : Reach C (init C)
  | step {s s' : State} (a : Act) : Reach C s → a.allowed C s → exec C s a = some s' → Reach C s'

/-- What the compiler makes sure of: there is a worker; levels do not exceed the highest one; a reaction that depends on
another one has a higher level and, because deadlines are inherited by the reactions before, no smaller deadline, hence a
greater index. -/
structure Config.Ok (C : Config) : Prop where
  workers : 0 < C.n
  levels : ∀ r ∈ C.reactions, C.level r ≤ C.maxLevel
  trans : ∀ r r' r'', C.dep r r' → C.dep r' r'' → C.dep r r''
  level : ∀ r r', C.dep r r' → C.level r < C.level r'
  index : ∀ r r', C.dep r r' → C.index r < C.index r'

end ReactorC.Gedf
