import Verif.Np.Spec

/-!
# The adaptive scheduler

Models core/threaded/scheduler_adaptive.c for unfederated programs, with any number of workers, levels and reactions, and
the loop of the workers (`_lf_worker_do_work`, core/threaded/reactor_threaded.c:826-866).  Every access to a variable that
threads share is a step of its own (pointers to the arrays of the current level are read together with the element), and the
steps of different threads alternate arbitrarily; accesses take effect in one order for all threads.

Statements between taking the mutex and giving it back that access nothing a thread without the mutex accesses are one step.
A thread that waits for a condition variable is in the state `asleep`; being woken up, getting the mutex and testing the
condition again is one step, which a wake-up without a cause (`Act.spurious`) makes possible at any time.

The times measured and the random numbers are not modelled: the number of workers they suggest for each level is arbitrary
(`Act.close`).  The functions that compute it are modelled in Verif.Adaptive.Data.  Not modelled: `FEDERATED`, tracing, overflow
of the counters, and that the wait for the time of the next tag gives back the mutex for a while.

The counts of reactions and of threads are of type `size_t`, and the atomic functions access their lower halves as `int`.  They
are integers here: read as `size_t`, -1 is a large number.

A chain of reactions that a worker executes without the queue (`schedule_output_reactions`, core/reactor_common.c:784-867) is
one reaction here; Verif.Uni models it.
-/

namespace ReactorC.Adaptive

open Np (Ev Who put)

/-- The program: the number of workers, the highest level (`num_levels - 1`), the reactions, their levels, and the hash of
their addresses (core/threaded/scheduler_adaptive.c:279-283); whether the program runs with `-fast`; and whether condition
variables may wake up a thread without a cause at a critical moment (see `Act.allowed`). -/
structure Config where
  n : Nat
  maxLevel : Nat
  reactions : List Nat
  level : Nat → Nat
  hash : Nat → Nat
  fast : Bool
  spurious : Bool

/-- `num_reactions_per_level`, the size of each array of a level, core/threaded/scheduler_adaptive.c:172, 181-184. -/
def Config.cap (C : Config) (l : Nat) : Nat := (C.reactions.filter fun r => C.level r = l).length

/-- `max_num_workers_by_level`, core/threaded/scheduler_adaptive.c:173-175; also the number of arrays of the level, :181. -/
def Config.maxw (C : Config) (l : Nat) : Nat := if C.cap l < C.n then C.cap l else C.n

/-- The loop of `cond_of`. -/
def condLoop : Nat → Nat → Nat
  | 0, _ => 0
  | fuel + 1, w => if w = 0 then 0 else condLoop fuel (w / 2) + 1

/-- `cond_of`, core/threaded/scheduler_adaptive.c:117-125: the index of the condition variable of a worker. -/
def condOf (w : Nat) : Nat := condLoop w w

/-- `cumsum_of_worker_group_sizes[c]`, core/threaded/scheduler_adaptive.c:298-303: the number of workers whose condition
variable has at most the index `c`. -/
def cumsum (n c : Nat) : Nat := (List.range n).countP fun w => decide (condOf w ≤ c)

/-- `restrict_to_range`, core/threaded/scheduler_adaptive.c:586-593, without its assertion. -/
def restrict (low high v : Nat) : Nat := if v < low then low else if v > high then high else v

/-- The next statement of a thread.  `sn` is `level_counter_snapshot`, `v` the worker from whom a reaction is taken. -/
inductive Pc
  /-- the main thread triggers reactions at the start tag (core/threaded/reactor_threaded.c:1080) -/
  | boot
  /-- `level_counter_snapshot = level_counter`, scheduler_adaptive.c:705 -/
  | snap
  /-- `lf_atomic_add_fetch(num_reactions_by_worker + v, -1)`, :210 -/
  | get (sn v : Nat)
  /-- reads `reactions_by_worker[v][i]`, :212 -/
  | took (v i : Nat)
  /-- `num_reactions_by_worker[v] = 0`, :214 -/
  | zero (sn v : Nat)
  /-- reads `num_workers` to find the next victim, :248-250 -/
  | scan (sn v : Nat)
  /-- `worker_states_lock`, :353-356: reads `num_loose_threads` -/
  | look (sn : Nat)
  /-- the lock in it, :357-359 -/
  | lock (sn : Nat)
  /-- `if (!num_reactions_by_worker[worker])`, :256 -/
  | test (sn : Nat)
  /-- `worker_states_unlock`, :259, 364-370 -/
  | unlock (sn : Nat)
  /-- the assertions of `worker_states_finished_with_level_locked`, :382-383 -/
  | check (sn : Nat)
  /-- `lf_atomic_add_fetch(&num_loose_threads, -1)`, :386-388 -/
  | dec (sn : Nat)
  /-- executes the reaction -/
  | run (r : Nat)
  /-- `lf_sched_done_with_reaction`, :721-725 -/
  | done (r : Nat)
  /-- `lf_atomic_fetch_add(&num_reactions_by_worker_by_level[level][worker], 1)`, :272-285, to trigger the reaction `r` -/
  | fetch (who : Who) (r : Nat)
  /-- `reactions_by_worker_by_level[level][v][i] = reaction`, :286 -/
  | store (who : Who) (r v i : Nat)
  /-- the loop of `advance_level_and_unlock`, :429-449 -/
  | adv
  /-- `total_num_reactions = get_num_reactions(scheduler)`, :450 -/
  | total
  /-- `data_collection_end_tag` and `set_level(scheduler, 0)`, :431-433 -/
  | close
  /-- `_lf_sched_advance_tag_locked`, :434 -/
  | tag
  /-- in it, `_lf_pop_events` -/
  | events
  /-- `should_stop = true`, :435 -/
  | signal
  /-- `worker_states_awaken_locked`, :327-331 -/
  | awaken (k : Nat)
  /-- the lock in it, :334-337 -/
  | lockB (k : Nat)
  /-- the rest of it, :340-346 -/
  | wake (k : Nat)
  /-- `worker_states_unlock`, :437, 455 -/
  | unlockB
  /-- `worker_states_sleep_and_unlock`, :404-408 -/
  | sleep (sn : Nat)
  /-- the rest of it up to the wait, :409-413 -/
  | doze (sn : Nat)
  /-- waits for the condition variable, :413 -/
  | asleep (sn : Nat)
  /-- `if (should_stop)`, :714 -/
  | leave
  /-- left the loop of the worker -/
  | exited
deriving DecidableEq, Repr

/-- `lf_scheduler_t` and `custom_scheduler_data_t`.  `cnt` is `num_reactions_by_worker_by_level`, `nw` is
`num_workers_by_level`, `cur` the current level, `num` is `num_workers`, `loose` is `num_loose_threads`, `awak` is
`num_awakened`, `lc` the level counter.  `sig` says whether the thread has been woken up from its wait.  `queued` stands for the status of the
reactions.  The record `hist` has the latest event first.  `fault` is set by an access outside of an array, a division by zero
and the assertions that are not mentioned next, `aborted` by the assertions of `restrict_to_range` and
`worker_states_finished_with_level_locked` (:383). -/
structure State where
  arr : Nat → Nat → Nat → Option Nat
  cnt : Nat → Nat → Int
  nw : Nat → Nat
  cur : Nat
  num : Nat
  loose : Int
  awak : Nat
  lc : Nat
  held : Nat → Bool
  mutex : Option Nat
  sig : Nat → Bool
  stop : Bool
  queued : Nat → Bool
  started : Bool
  pc : Nat → Pc
  hist : List Ev
  fault : Bool
  aborted : Bool

/-- `lf_sched_init`, core/threaded/scheduler_adaptive.c:669-690 with `worker_states_init`, :291-308, and
`worker_assignments_init`, :161-187.  The threads below `n` are the workers, the thread `n` is the main thread until it has
started them. -/
def init (C : Config) : State :=
  { arr := fun _ _ _ => none
    cnt := fun _ _ => 0
    nw := C.maxw
    cur := 0
    num := C.maxw 0
    loose := C.n
    awak := 0
    lc := 0
    held := fun _ => false
    mutex := none
    sig := fun _ => false
    stop := false
    queued := fun _ => false
    started := false
    pc := fun w => if w < C.n then .snap else if w = C.n then .boot else .exited
    hist := []
    fault := false
    aborted := false }

def State.goto (s : State) (w : Nat) (p : Pc) : State := { s with pc := put s.pc w p }

/-- The statement to continue with when a reaction has been triggered. -/
def back : Who → Pc
  | .boot => .boot
  | .running r => .run r
  | .events => .events

/-- The next step of a thread (`go`), or, where it is not determined by the scheduler: a reaction or the event queue
triggers a reaction; a reaction ends; the tag ends, where `f` is the number of workers that the measurements suggest for each
level; the tag advances; it does not advance (`_lf_next_locked` returns before line 446); the stop tag has been completed; a
thread is woken up without a cause; a thread that is not a worker, such as one that schedules a physical action, takes the
mutex or gives it back. -/
inductive Act
  | go (w : Nat)
  | trigger (w r : Nat)
  | finish (w : Nat)
  | close (w : Nat) (f : Nat → Nat)
  | advance (w : Nat)
  | retry (w : Nat)
  | stop (w : Nat)
  | spurious (w : Nat)
  | outsideLock
  | outsideUnlock

/-- `lf_scheduler_trigger_reaction`, core/threaded/scheduler_adaptive.c:727-732, up to the insertion. -/
def trigger (s : State) (w : Nat) (who : Who) (r : Nat) : State :=
  let s := { s with hist := .trigger r :: s.hist }
  if s.queued r then s else { s with queued := put s.queued r true, pc := put s.pc w (.fetch who r) }

/-- `get_num_reactions`, core/threaded/scheduler_adaptive.c:151-159. -/
def State.total (s : State) : Int := ((List.range s.num).map (s.cnt s.cur)).sum

/-- `LF_MIN(total_num_reactions, num_workers)`, core/threaded/scheduler_adaptive.c:452. -/
def toAwaken (total : Int) (num : Nat) : Nat := if total < 0 then num else min total.toNat num

/-- The next victim, or the end of the loop, core/threaded/scheduler_adaptive.c:248-250. -/
def scanNext (num w sn v : Nat) : Pc :=
  if w < num then (if (v + 1) % num = w then .look sn else .get sn ((v + 1) % num)) else .look sn

/-- The condition of the wait, core/threaded/scheduler_adaptive.c:411, 414. -/
def State.waits (s : State) (w sn : Nat) : Bool := decide (sn = s.lc ∨ s.awak ≤ w)

/-- The number of workers that are woken up, core/threaded/scheduler_adaptive.c:332-333, 340. -/
def group (C : Config) (k : Nat) : Nat := cumsum C.n (condOf (k - 1))

/-- One step; `none` if the thread cannot make it. -/
def exec (C : Config) (s : State) : Act → Option State
  | .go w =>
    match s.pc w with
    | .boot => some { s with started := true, pc := put s.pc w .exited }
    | .snap => some (s.goto w (.get s.lc w))
    | .get sn v => some { s with
        cnt := put s.cnt s.cur (put (s.cnt s.cur) v (s.cnt s.cur v - 1))
        fault := s.fault || decide (C.n ≤ v)
        pc := put s.pc w (if 0 ≤ s.cnt s.cur v - 1 then .took v (s.cnt s.cur v - 1).toNat else .zero sn v) }
    | .took v i =>
      match s.arr s.cur v i with
      | none => some { s with fault := true }
      | some r => some { s with
          fault := s.fault || decide (C.cap s.cur ≤ i) || decide (C.maxw s.cur ≤ v)
          pc := put s.pc w (.run r)
          hist := .start w r :: s.hist }
    | .zero sn v => some { s with cnt := put s.cnt s.cur (put (s.cnt s.cur) v 0), pc := put s.pc w (.scan sn v) }
    | .scan sn v => some (s.goto w (scanNext s.num w sn v))
    | .look sn => some { s with
        fault := s.fault || decide (s.loose ≤ 0) || decide ((C.n : Int) < s.loose)
        pc := put s.pc w (if 1 < s.loose ∨ C.fast = false then .lock sn else .test sn) }
    | .lock sn => if s.mutex = none then
        some { s with mutex := some w, held := put s.held w true, pc := put s.pc w (.test sn) } else none
    | .test sn => some (s.goto w (if s.cnt s.cur w = 0 then .check sn else .unlock sn))
    | .unlock sn => if s.held w then
        some { s with mutex := none, held := put s.held w false, pc := put s.pc w (.get sn w) }
        else some (s.goto w (.get sn w))
    | .check sn => some { s with
        fault := s.fault || decide (s.cnt s.cur w = 1)
        aborted := s.aborted || decide (s.cnt s.cur w ≠ 0)
        pc := put s.pc w (.dec sn) }
    | .dec sn => some { s with
        loose := s.loose - 1
        fault := s.fault || decide (s.loose - 1 < 0) || decide ((C.n : Int) < s.loose - 1)
        pc := put s.pc w (if s.loose - 1 = 0 then .adv else .sleep sn) }
    | .done r => some { s with
        queued := put s.queued r false
        fault := s.fault || !s.queued r
        pc := put s.pc w .snap }
    | .fetch who r => some { s with
        cnt := put s.cnt (C.level r) (put (s.cnt (C.level r)) (C.hash r % s.nw (C.level r))
          (s.cnt (C.level r) (C.hash r % s.nw (C.level r)) + 1))
        fault := s.fault || decide (s.nw (C.level r) = 0) || decide (s.cnt (C.level r) (C.hash r % s.nw (C.level r)) < 0) ||
          !(decide (s.cur < C.level r) || decide (s.cur = 0)) || decide (C.maxLevel < C.level r)
        pc := put s.pc w (.store who r (C.hash r % s.nw (C.level r))
          (s.cnt (C.level r) (C.hash r % s.nw (C.level r))).toNat) }
    | .store who r v i => some { s with
        arr := put s.arr (C.level r) (put (s.arr (C.level r)) v (put (s.arr (C.level r) v) i (some r)))
        fault := s.fault || decide (C.cap (C.level r) ≤ i) || decide (C.maxw (C.level r) ≤ v)
        pc := put s.pc w (back who) }
    | .adv =>
      if s.cur = C.maxLevel then some (s.goto w .close)
      else if s.total = 0 then some { s with
        cur := s.cur + 1
        num := s.nw (s.cur + 1)
        fault := s.fault || decide (C.maxLevel < s.cur + 1)
        pc := put s.pc w .total }
      else some (s.goto w .total)
    | .total => some (s.goto w (if s.total ≠ 0 then .awaken (toAwaken s.total s.num) else .adv))
    | .events => some (s.goto w .total)
    | .signal => some { s with stop := true, pc := put s.pc w (.awaken C.n) }
    | .awaken k =>
      let s := { s with fault := s.fault || decide (C.n < k) || decide (k = 0) }
      if w = 0 ∧ k ≤ 1 then some { s with loose := 1, pc := put s.pc w .unlockB }
      else some (s.goto w (if s.held w then .wake k else .lockB k))
    | .lockB k => if s.mutex = none then
        some { s with mutex := some w, held := put s.held w true, pc := put s.pc w (.wake k) } else none
    | .wake k => some { s with
        loose := (group C k : Int) + (if group C k ≤ w then 1 else 0)
        awak := group C k + (if group C k ≤ w then 1 else 0)
        lc := s.lc + 1
        sig := fun x => match s.pc x with
          | .asleep _ => s.sig x || decide (x < C.n ∧ condOf x ≤ condOf (k - 1))
          | _ => s.sig x
        pc := put s.pc w .unlockB }
    | .unlockB => if s.held w then
        some { s with mutex := none, held := put s.held w false, pc := put s.pc w .leave }
        else some (s.goto w .leave)
    | .sleep sn =>
      let s := { s with fault := s.fault || decide (C.n ≤ w) || decide ((C.n : Int) < s.loose) }
      if s.held w then some (s.goto w (.doze sn))
      else if s.mutex = none then some { s with mutex := some w, pc := put s.pc w (.doze sn) } else none
    | .doze sn => some { s with
        held := put s.held w false
        mutex := none
        pc := put s.pc w (if s.waits w sn then .asleep sn else .leave) }
    | .asleep sn => if s.mutex = none ∧ s.sig w = true then some { s with
        sig := put s.sig w false
        fault := s.fault || (!s.waits w sn && s.held w)
        pc := put s.pc w (if s.waits w sn then .asleep sn else .leave) } else none
    | .leave => some (s.goto w (if s.stop then .exited else .snap))
    | _ => none
  | .spurious w =>
    match s.pc w with
    | .asleep sn => if s.mutex = none then some { s with
        sig := put s.sig w false
        fault := s.fault || (!s.waits w sn && s.held w)
        pc := put s.pc w (if s.waits w sn then .asleep sn else .leave) } else none
    | _ => none
  | .trigger w r =>
    match s.pc w with
    | .boot => some (trigger s w .boot r)
    | .run r' => some (trigger s w (.running r') r)
    | .events => some (trigger s w .events r)
    | _ => none
  | .finish w =>
    match s.pc w with
    | .run r => some { s with pc := put s.pc w (.done r), hist := .finish w r :: s.hist }
    | _ => none
  | .close w f =>
    match s.pc w with
    | .close => some { s with
        nw := fun l => restrict 1 (C.maxw l) (f l)
        cur := 0
        num := restrict 1 (C.maxw 0) (f 0)
        aborted := s.aborted || (List.range (C.maxLevel + 1)).any fun l => decide (C.maxw l < 1)
        pc := put s.pc w .tag }
    | _ => none
  | .advance w =>
    match s.pc w with
    | .tag => some { s with pc := put s.pc w .events, hist := .advance :: s.hist }
    | _ => none
  | .retry w =>
    match s.pc w with
    | .tag => some (s.goto w .total)
    | _ => none
  | .stop w =>
    match s.pc w with
    | .tag => some { s with pc := put s.pc w .signal, hist := .stop :: s.hist }
    | _ => none
  | .outsideLock => if s.mutex = none then some { s with mutex := some (C.n + 1) } else none
  | .outsideUnlock => if s.mutex = some (C.n + 1) then some { s with mutex := none } else none

/-- The rules: the workers act once the main thread has started them; only reactions of the program are triggered, and a
reaction triggers only reactions of higher levels, as the compiler makes sure.  Threads may be woken up without a cause, but,
unless `spurious` is set, not the worker whose number is the last one below `num_awakened` when nobody has woken it up. -/
def Act.allowed (C : Config) (s : State) : Act → Prop
  | .go w | .finish w | .close w _ | .advance w | .retry w | .stop w =>
    if s.started then w < C.n else w = C.n
  | .trigger w r => (if s.started then w < C.n else w = C.n) ∧ r ∈ C.reactions ∧
      ∀ r', s.pc w = .run r' → C.level r' < C.level r
  | .spurious w => (if s.started then w < C.n else w = C.n) ∧ s.sig w = false ∧ (C.spurious = true ∨ w + 1 ≠ s.awak)
  | .outsideLock | .outsideUnlock => True

/-- The states in which the scheduler can be. -/
inductive Reach (C : Config) : State → Prop
  | init : Reach C (init C)
  | step {s s' : State} (a : Act) : Reach C s → a.allowed C s → exec C s a = some s' → Reach C s'

end ReactorC.Adaptive
