import Mathlib.Data.List.Perm.Subperm

/-!
# Threads, their identifiers, and the number of trace buffers

Models `determine_number_of_workers` (core/threaded/reactor_threaded.c:952-972), the creation and the joining of the workers
in `lf_reactor_c_main` (reactor_threaded.c:1057-1136) and the numbers that the workers take in `worker` (875-925); the
identifiers of threads (`initialize_lf_thread_id`, low_level_platform/impl/src/lf_platform_util.c:17-24) and who takes one;
and the number of trace buffers that is asked for by `initialize_global` (core/reactor_common.c:1090-1107) and by the RTI
(core/federated/RTI/main.c:302-311).

Simplifications: creating a thread does not fail; what a thread does between taking an identifier and its end is left out.
-/

namespace ReactorC.Threads

/-! ## Identifiers -/

/-- `_lf_worker_thread_count` and, for every thread, `lf_thread_id_var` (lf_platform_util.c:18-20), where -1 is `none`. -/
structure Ids (α : Type) where
  count : Nat
  id : α → Option Nat

/-- The beginning of a program. -/
def Ids.start {α : Type} : Ids α := ⟨0, fun _ => none⟩

/-- `initialize_lf_thread_id` called by thread `t`, lf_platform_util.c:24; `lf_atomic_fetch_add` is one step. -/
def Ids.initialize {α : Type} [DecidableEq α] (s : Ids α) (t : α) : Ids α :=
  ⟨s.count + 1, fun u => if u = t then some s.count else s.id u⟩

/-- After the calls of `initialize_lf_thread_id` by the given threads, in this order. -/
def after {α : Type} [DecidableEq α] (calls : List α) : Ids α := calls.foldl Ids.initialize .start

/-! ## Programs -/

/-- The threads of a program; user threads are those that the runtime has not created. -/
inductive Thread
  | main
  | worker (environment number : Nat)
  | watchdog (environment number : Nat)
  | peer (number : Nat)
  | rti
  | clockSync
  | staa (environment : Nat)
  | user (number : Nat)
deriving DecidableEq, Repr

/-- What is federated about a program: `NUMBER_OF_FEDERATES`, the number of federates that connect to it, whether clocks are
synchronized during the execution (`LF_CLOCK_SYNC_ON`), and the coordination. -/
structure Federate where
  federates : Nat
  inbound : Nat
  clockSync : Bool
  decentralized : Bool
deriving DecidableEq, Repr

/-- `num_workers` and `watchdogs_size` of every environment, and what is federated. -/
structure Program where
  environments : List (Nat × Nat)
  federate : Option Federate
deriving DecidableEq, Repr

/-- The calls of `initialize_lf_thread_id` for one environment: by the thread of each watchdog (core/threaded/watchdog.c:37,
90), then by each worker (reactor_threaded.c:1084-1097, 876). The first worker of the first environment is the main
thread (1085-1092, 1104-1107). -/
def environmentCalls (i : Nat) (e : Nat × Nat) : List Thread :=
  (List.range e.2).map (Thread.watchdog i) ++
    (List.range e.1).map fun j => if i = 0 ∧ j = 0 then Thread.main else Thread.worker i j

/-- The calls of a federate: by a thread for each federate that connects to it (federate.c:2241, 748), by the thread that
listens to the RTI (2708, 1535), by that for clock synchronization (clock-sync.c:555-563, 443), and by that for STAA offsets
(reactor_threaded.c:631, federate.c:2677, 1133), which is created for each environment. -/
def federateCalls (environments : Nat) (f : Federate) : List Thread :=
  (List.range f.inbound).map Thread.peer ++ [Thread.rti] ++ (if f.clockSync then [Thread.clockSync] else []) ++
    (if f.decentralized then (List.range environments).map Thread.staa else [])

/-- All calls of `initialize_lf_thread_id` in an execution, of which the first is that of `lf_reactor_c_main`
(reactor_threaded.c:987). In what order the others are made depends on the schedule. -/
def calls (p : Program) : List Thread :=
  Thread.main :: (p.environments.zipIdx.flatMap (fun e => environmentCalls e.2 e.1) ++
    (match p.federate with | none => [] | some f => federateCalls p.environments.length f))

/-- `max_threads_tracing`, core/reactor_common.c:1095, 1102. -/
def buffers (p : Program) : Nat :=
  (match p.environments with | [] => 0 | e :: _ => e.1) * p.environments.length + 1 +
    (match p.federate with | none => 0 | some f => f.federates + 2)

/-- The test of `lf_tracing_tracepoint`, trace/impl/src/trace_impl.c:232: the program exits. -/
def refused (id : Option Nat) (number : Nat) : Bool :=
  match id with | none => false | some k => decide (k > number)

/-! ## The RTI -/

/-- The threads of an RTI. -/
inductive RtiThread
  | main
  | federate (id : Nat)
  | clock
  | responder
  | timeout
deriving DecidableEq, Repr

/-- The calls of `initialize_lf_thread_id` in an RTI for `n` federates: RTI/main.c:278, rti_remote.c:1586 and 1073 for each
federate, 1608 and 887 if clocks are synchronized (`sync`), 1680 and 1614, and 666 and 591 if a federate requests to stop
(`stop`), only once because of `stop_in_progress` (658-663). -/
def rtiCalls (n : Nat) (sync stop : Bool) : List RtiThread :=
  [RtiThread.main] ++ (List.range n).map RtiThread.federate ++ (if sync && decide (0 < n) then [RtiThread.clock] else []) ++
    [RtiThread.responder] ++ (if stop && decide (0 < n) then [RtiThread.timeout] else [])

/-- The number of buffers of the RTI, main.c:310. -/
def rtiBuffers (n : Nat) : Nat := n * 2 + 3

/-! ## Workers -/

/-- `determine_number_of_workers`, reactor_threaded.c:952-972: `given` on the command line, `property` is
`NUMBER_OF_WORKERS` (0 if it is not defined), `cores` is what `lf_available_cores` returns, `breadth` is
`LF_REACTION_GRAPH_BREADTH`. The variable is an `unsigned int`. -/
def determineNumberOfWorkers (given property : Nat) (cores : Int) (breadth : Option Nat) : Nat :=
  if given = 0 then
    if property = 0 then
      let c := (cores % 4294967296).toNat
      match breadth with
      | none => c
      | some b => if b < c then b else c
    else property
  else given

/-- What happens to the worker `j` of environment `i`. -/
inductive Event
  | created (i j : Nat)
  | runsOnMain
  | joined (i j : Nat)
deriving DecidableEq, Repr

/-- The loop that creates workers for environment `i`, reactor_threaded.c:1084-1097. -/
def createWorkers (i n : Nat) : List Event :=
  (List.range n).flatMap fun j => if i = 0 ∧ j = 0 then [] else [.created i j]

/-- The loop that joins the workers of environment `i`, reactor_threaded.c:1114-1131. -/
def joinWorkers (i n : Nat) : List Event :=
  (List.range n).flatMap fun j => if i = 0 ∧ j = 0 then [] else [.joined i j]

/-- The first worker of the first environment runs on the main thread, reactor_threaded.c:1102-1107. -/
def mainWorker : List Nat → List Event
  | [] => []
  | n :: _ => if 0 < n then [.runsOnMain] else []

/-- `lf_reactor_c_main` from reactor_threaded.c:1057 on; `ns` are the numbers of workers of the environments. -/
def mainLoop (ns : List Nat) : List Event :=
  ns.zipIdx.flatMap (fun n => createWorkers n.2 n.1) ++
    mainWorker ns ++
    ns.zipIdx.flatMap (fun n => joinWorkers n.2 n.1)

/-- The workers of an environment: `worker_thread_count`; the numbers of those that work; how many have begun and how many
have ended; how often the end of the execution has been reported. -/
structure Workers where
  count : Nat
  working : List Nat
  begun : Nat
  ended : Nat
  reports : Nat
deriving DecidableEq, Repr

/-- The steps of `worker`, reactor_threaded.c:875-925, with `n` workers, each of which begins once. With `orderly`, no worker
ends before all have begun: a worker ends when the scheduler says so, which is decided by the last of `number_of_workers`
workers to become idle (for instance core/threaded/scheduler_NP.c:204-212). -/
inductive Workers.Step (n : Nat) (orderly : Prop) : Workers → Workers → Prop
  /-- 880 -/
  | begins (s : Workers) (h : s.begun < n) :
      Step n orderly s { s with count := s.count + 1, working := s.count :: s.working, begun := s.begun + 1 }
  /-- 900-917 -/
  | ends (s : Workers) (k : Nat) (hk : k ∈ s.working) (ho : orderly → s.begun = n) :
      Step n orderly s
        { s with
          count := s.count - 1
          working := s.working.erase k
          ended := s.ended + 1
          reports := s.reports + (if s.count - 1 = 0 then 1 else 0) }

/-- What can be reached from the beginning. -/
inductive Workers.Reach (n : Nat) (orderly : Prop) : Workers → Prop
  | start : Reach n orderly ⟨0, [], 0, 0, 0⟩
  | step {s t : Workers} (h : Reach n orderly s) (st : Step n orderly s t) : Reach n orderly t

end ReactorC.Threads
