import Mathlib.Data.List.Basic

/-!
# The non-preemptive scheduler

Models core/threaded/scheduler_NP.c for unfederated programs, with any number of workers, levels and reactions, and the
loop of the workers (`_lf_worker_do_work`, core/threaded/reactor_threaded.c:826-866).  Every access to a variable that
threads share is a step of its own, and the steps of different threads alternate arbitrarily (accesses take effect in one order for all threads).  The
semaphore is the one whose implementation is modelled in Verif.Semaphore: a permit is taken in one step when there is one.

Not modelled: `FEDERATED` (mutexes of the levels, waiting for the inputs of a level), tracing, and integer overflow of the
counters.  That `number_of_idle_workers`, a `size_t`, is incremented through a pointer to `int` is modelled as an increment
(which it is on little-endian machines).

A chain of reactions that a worker executes without the queue (`schedule_output_reactions`, core/reactor_common.c:784-867) is
one reaction here; Verif.Uni models it.
-/

namespace ReactorC.Np

/-- The program: the number of workers, the highest level (`max_reaction_level`), the reactions and their levels. -/
structure Config where
  n : Nat
  maxLevel : Nat
  reactions : List Nat
  level : Nat → Nat

/-- The size of the array for a level, `num_reactions_per_level`, core/threaded/scheduler_NP.c:265-272. -/
def Config.cap (C : Config) (l : Nat) : Nat := (C.reactions.filter fun r => C.level r = l).length

/-- Who triggers a reaction: the main thread before it starts the workers, a worker that executes the reaction `r`, or the
worker that advances the tag (`_lf_pop_events`). -/
inductive Who
  | boot
  | running (r : Nat)
  | events
deriving DecidableEq, Repr

/-- The next statement of a thread. -/
inductive Pc
  /-- the main thread triggers reactions at the start tag (core/threaded/reactor_threaded.c:1080) -/
  | boot
  /-- `while (!scheduler->should_stop)`, scheduler_NP.c:316 -/
  | check
  /-- reads `next_reaction_level`, :318 -/
  | read
  /-- `lf_atomic_add_fetch(&indexes[l], -1)`, :325 -/
  | dec (l : Nat)
  /-- reads `executing_reactions[i]`, :330 -/
  | take (i : Nat)
  /-- `executing_reactions[i] = NULL`, :331, having read `x` -/
  | clear (i : Nat) (x : Option Nat)
  /-- executes the reaction -/
  | run (r : Nat)
  /-- `lf_sched_done_with_reaction`, :362-367 -/
  | done (r : Nat)
  /-- `lf_atomic_fetch_add(&indexes[level], 1)`, :80, to trigger the reaction `r` -/
  | fetch (who : Who) (r : Nat)
  /-- `triggered_reactions[level][i] = reaction`, :84 -/
  | store (who : Who) (r : Nat) (i : Nat)
  /-- `lf_atomic_add_fetch(&number_of_idle_workers, 1)`, :206 -/
  | wait
  /-- `lf_semaphore_acquire`, :214 -/
  | acquire
  /-- `indexes[next_reaction_level - 1] = 0`, :167 -/
  | reset
  /-- `if (next_reaction_level == max_reaction_level + 1)`, :171-172 -/
  | loop
  /-- `_lf_sched_advance_tag_locked`, :177 -/
  | tag
  /-- in it, `_lf_pop_events` -/
  | events
  /-- `_lf_sched_signal_stop`, :152 -/
  | signal
  /-- the release in it, :153 -/
  | halt
  /-- `_lf_sched_distribute_ready_reactions`, :99-120: the test of the loop -/
  | dist
  /-- `_lf_sched_notify_workers`, :128-141 -/
  | notify
  /-- the release in it, :143 -/
  | release (m : Nat)
  /-- left the loop of the worker -/
  | exited
deriving DecidableEq, Repr

/-- What happens, as seen from outside: a call of `lf_scheduler_trigger_reaction`; a worker gets a reaction; it has
executed it; the tag advances; the scheduler decides to stop. -/
inductive Ev
  | trigger (r : Nat)
  | start (w r : Nat)
  | finish (w r : Nat)
  | advance
  | stop
deriving DecidableEq, Repr

/-- `lf_scheduler_t` and `custom_scheduler_data_t`; `exec` is the level to whose array `executing_reactions` points.  The
record `hist` has the latest event first.  `fault` is set by an access outside of an array and by the error exit of
`lf_sched_done_with_reaction`. -/
structure State where
  arr : Nat → Nat → Option Nat
  idx : Nat → Int
  exec : Nat
  next : Nat
  idle : Nat
  stop : Bool
  sem : Nat
  queued : Nat → Bool
  started : Bool
  pc : Nat → Pc
  hist : List Ev
  fault : Bool

def put {α : Type} (f : Nat → α) (k : Nat) (a : α) : Nat → α := fun j => if j = k then a else f j

/-- `lf_sched_init`, core/threaded/scheduler_NP.c:233-283.  The threads below `n` are the workers, the thread `n` is the main
thread until it has started them. -/
def init (C : Config) : State :=
  { arr := fun _ _ => none
    idx := fun _ => 0
    exec := 0
    next := 1
    idle := 0
    stop := false
    sem := 0
    queued := fun _ => false
    started := false
    pc := fun w => if w < C.n then .check else if w = C.n then .boot else .exited
    hist := []
    fault := false }

def State.goto (s : State) (w : Nat) (p : Pc) : State := { s with pc := put s.pc w p }

/-- The statement to continue with when a reaction has been triggered. -/
def Who.pc : Who → Pc
  | .boot => .boot
  | .running r => .run r
  | .events => .events

/-- The next step of a thread (`go`), or, where it is not determined by the scheduler: a reaction or the event queue
triggers a reaction; a reaction ends; the tag advances; it does not advance (`_lf_next_locked` returns before line 446); the
stop tag has been completed. -/
inductive Act
  | go (w : Nat)
  | trigger (w r : Nat)
  | finish (w : Nat)
  | advance (w : Nat)
  | retry (w : Nat)
  | stop (w : Nat)

/-- The thread that acts. -/
def Act.thread : Act → Nat
  | .go w | .trigger w _ | .finish w | .advance w | .retry w | .stop w => w

/-- `lf_scheduler_trigger_reaction`, core/threaded/scheduler_NP.c:388-397, up to the insertion. -/
def trigger (s : State) (w : Nat) (who : Who) (r : Nat) : State :=
  let s := { s with hist := .trigger r :: s.hist }
  if s.queued r then s else { s with queued := put s.queued r true, pc := put s.pc w (.fetch who r) }

/-- `number_of_idle_workers` cut to the number of reactions, core/threaded/scheduler_NP.c:133-134: the conversion to
`size_t` makes negative numbers large. -/
def toAwaken (idle : Nat) (i : Int) : Nat := if i < 0 then idle else min idle i.toNat

/-- One step; `none` if the thread cannot make it. -/
def exec (C : Config) (s : State) : Act → Option State
  | .go w =>
    match s.pc w with
    | .boot => some { s with started := true, pc := put s.pc w .exited }
    | .check => some (s.goto w (if s.stop then .exited else .read))
    | .read => if s.next = 0 then some { s with fault := true } else some (s.goto w (.dec (s.next - 1)))
    | .dec l => some { s with
        idx := put s.idx l (s.idx l - 1)
        pc := put s.pc w (if 0 ≤ s.idx l - 1 then .take (s.idx l - 1).toNat else .wait) }
    | .take i => some { s with
        fault := s.fault || decide (C.cap s.exec ≤ i)
        pc := put s.pc w (.clear i (s.arr s.exec i)) }
    | .clear i none => some { s with arr := put s.arr s.exec (put (s.arr s.exec) i none), pc := put s.pc w .wait }
    | .clear i (some r) => some { s with
        arr := put s.arr s.exec (put (s.arr s.exec) i none)
        pc := put s.pc w (.run r)
        hist := .start w r :: s.hist }
    | .done r => if s.queued r then some { s with queued := put s.queued r false, pc := put s.pc w .check }
        else some { s with fault := true }
    | .fetch who r => some { s with
        idx := put s.idx (C.level r) (s.idx (C.level r) + 1)
        fault := s.fault || decide (s.idx (C.level r) < 0)
        pc := put s.pc w (.store who r (s.idx (C.level r)).toNat) }
    | .store who r i => some { s with
        arr := put s.arr (C.level r) (put (s.arr (C.level r)) i (some r))
        fault := s.fault || decide (C.cap (C.level r) ≤ i)
        pc := put s.pc w who.pc }
    | .wait => some { s with idle := s.idle + 1, pc := put s.pc w (if s.idle + 1 = C.n then .reset else .acquire) }
    | .acquire => if 0 < s.sem then some { s with sem := s.sem - 1, pc := put s.pc w .check } else none
    | .reset => if s.next = 0 then some { s with fault := true }
        else some { s with idx := put s.idx (s.next - 1) 0, pc := put s.pc w .loop }
    | .loop => if s.next = C.maxLevel + 1 then some { s with next := 0, pc := put s.pc w .tag } else some (s.goto w .dist)
    | .events => some (s.goto w .dist)
    | .dist =>
      if s.next ≤ C.maxLevel then
        some { s with
          exec := s.next
          next := s.next + 1
          fault := s.fault || decide (C.cap s.next = 0)
          pc := put s.pc w (if s.arr s.next 0 ≠ none then .notify else .dist) }
      else some (s.goto w .loop)
    | .notify =>
      let k := toAwaken s.idle (s.idx (s.next - 1))
      some { s with idle := s.idle - k, pc := put s.pc w (if k > 1 then .release (k - 1) else .check) }
    | .release m => some { s with sem := s.sem + m, pc := put s.pc w .check }
    | .signal => some { s with stop := true, pc := put s.pc w .halt }
    | .halt => some { s with sem := s.sem + (C.n - 1), pc := put s.pc w .check }
    | _ => none
  | .trigger w r =>
    match s.pc w with
    | .boot => some (trigger s w .boot r)
    | .run r' => some (trigger s w (.running r') r)
    | .events => some (trigger s w .events r)
    | _ => none
  | .finish w =>
    match s.pc w with
    | .run r => some { s with pc := put s.pc w (.done r), hist := .finish w r :: s.hist }
    | _ => none
  | .advance w =>
    match s.pc w with
    | .tag => some { s with pc := put s.pc w .events, hist := .advance :: s.hist }
    | _ => none
  | .retry w =>
    match s.pc w with
    | .tag => some (s.goto w .dist)
    | _ => none
  | .stop w =>
    match s.pc w with
    | .tag => some { s with pc := put s.pc w .signal, hist := .stop :: s.hist }
    | _ => none

/-- The rules: the workers act once the main thread has started them; only reactions of the program are triggered, and a reaction triggers only reactions of higher levels, as
the compiler makes sure. -/
def Act.allowed (C : Config) (s : State) (a : Act) : Prop :=
  (if s.started then a.thread < C.n else a.thread = C.n) ∧
  match a with
  | .trigger w r => r ∈ C.reactions ∧ ∀ r', s.pc w = .run r' → C.level r' < C.level r
  | _ => True

/-- The states in which the scheduler can be. -/
inductive Reach (C : Config) : State → Prop
  | init : Reach C (init C)
  | step {s s' : State} (a : Act) : Reach C s → a.allowed C s → exec C s a = some s' → Reach C s'

end ReactorC.Np
