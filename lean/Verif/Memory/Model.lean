import Mathlib.Data.List.Basic
import Mathlib.Data.List.Nodup
import Mathlib.Logic.Function.Basic

/-! # Memory of reactors and environments

The memory that the runtime and the generated code allocate with `calloc` and free at the end of the program:
`lf_allocate`, `lf_new_reactor`, `lf_free`, `lf_free_reactor`, `lf_free_all_reactors`
(core/reactor_common.c:90-143), `environment_init`, `environment_free` (core/environment.c), the events of the event
queue and of the queue of recycled events, the mutexes of reactors with watchdogs, and `termination`
(core/reactor_common.c:1132-1222).

An address is a number, and the heap says which addresses are allocated.  Freeing or reading memory that is not
allocated, or reading through a null pointer, is undefined behaviour (`none`).

Left out: tokens (modelled in `Verif.Token`), the scheduler of an environment, memory of the code for federations and
enclaves, and tracing. -/

namespace Verif.Memory

/-- What the code does with memory it has a pointer to; `none` is the null pointer. -/
inductive Act
  | read (p : Option Nat)
  | free (p : Option Nat)
  deriving DecidableEq

/-- The heap: which addresses are allocated. -/
abbrev Heap := Nat → Bool

/-- One access: `free(NULL)` does nothing; every other access needs allocated memory. -/
def Act.exec (h : Heap) : Act → Option Heap
  | .read none => none
  | .read (some a) => if h a then some h else none
  | .free none => some h
  | .free (some a) => if h a then some (Function.update h a false) else none

/-- A sequence of accesses. -/
def exec : List Act → Heap → Option Heap
  | [], h => some h
  | x :: l, h => (x.exec h).bind (exec l)

/-- The pointers of `environment_t` (include/core/environment.h) to memory that `environment_init` allocates.  A
priority queue is a structure and an array (core/utils/pqueue_base.c:128-155). -/
inductive Field
  | name | timers | startup | shutdown | reset | present | presentAbbreviated | watchdogs
  | eventQ | eventD | recycleQ | recycleD | threadIds | reactionQ | reactionD
  | modes | modeStates | modeResets | intended
  deriving DecidableEq

/-- All pointers. -/
def Field.all : List Field :=
  [.name, .timers, .startup, .shutdown, .reset, .present, .presentAbbreviated, .watchdogs,
    .eventQ, .eventD, .recycleQ, .recycleD, .threadIds, .reactionQ, .reactionD,
    .modes, .modeStates, .modeResets, .intended]

/-- The arguments of `environment_init` (core/environment.c:207-210) and the way the program was compiled. -/
structure Cfg where
  named : Bool
  timers : Nat
  startup : Nat
  shutdown : Nat
  reset : Nat
  present : Nat
  numModes : Nat
  resets : Nat
  watchdogs : Nat
  singleThreaded : Bool
  modal : Bool
  decentralized : Bool

/-- Which memory `environment_init` allocates (core/environment.c:48-136 and 207-292). -/
def Cfg.allocates (c : Cfg) : Field → Bool
  | .name => c.named
  | .timers => c.timers > 0
  | .startup => c.startup > 0
  | .shutdown => c.shutdown > 0
  | .reset => c.reset > 0
  | .present => c.present > 0
  | .presentAbbreviated => c.present > 0
  | .watchdogs => c.watchdogs > 0
  | .eventQ => true
  | .eventD => true
  | .recycleQ => true
  | .recycleD => true
  | .threadIds => !c.singleThreaded
  | .reactionQ => c.singleThreaded
  | .reactionD => c.singleThreaded
  | .modes => c.modal && c.numModes > 0
  | .modeStates => c.modal && c.numModes > 0
  | .modeResets => c.modal && c.numModes > 0 && c.resets > 0
  | .intended => c.decentralized && c.present > 0

/-- An environment: its pointers, the events in the event queue and in the queue of recycled events, and the reactors of
its watchdogs (`env->watchdogs[i]->base`), in order. -/
structure Env where
  cfg : Cfg
  ptr : Field → Option Nat
  events : List Nat
  recycled : List Nat
  bases : List Nat

/-- The state of the program as far as its memory goes. -/
structure St where
  /-- the next unused address -/
  next : Nat
  heap : Heap
  /-- `_lf_reactors_to_free` (core/reactor_common.c:111): records and the reactors they hold -/
  toFree : List (Nat × Nat)
  /-- reactors allocated with `lf_allocate` and a null record, as include/core/reactor.h:104-113 advises for reactors
  that are freed early -/
  own : List Nat
  /-- `self->allocations`: records and the memory they hold -/
  allocs : Nat → List (Nat × Nat)
  /-- `self->reactor_mutex` -/
  mutex : Nat → Option Nat
  envs : List Env
  /-- memory allocated with `lf_allocate` and a null record -/
  loose : List Nat
  /-- `_lf_termination_executed` -/
  executed : Bool

/-- The program starts. -/
def St.init : St :=
  { next := 0
    heap := fun _ => false
    toFree := []
    own := []
    allocs := fun _ => []
    mutex := fun _ => none
    envs := []
    loose := []
    executed := false }

/-- `calloc`: an address that was never used.  (That addresses are not used again makes every access to freed memory
visible.) -/
def allocated (h : Heap) (l : List Nat) : Heap := fun a => h a || l.contains a

/-- `lf_free` of a list of records (core/reactor_common.c:115-128): for every record its memory is freed, the next
record is read, and the record is freed. -/
def lfFree (l : List (Nat × Nat)) : List Act :=
  l.flatMap fun q => [.read (some q.1), .free (some q.2), .read (some q.1), .free (some q.1)]

/-- `lf_free_reactor` (core/reactor_common.c:130-133). -/
def freeReactor (s : St) (self : Nat) : List Act :=
  .read (some self) :: lfFree (s.allocs self) ++ [.free (some self)]

/-- `lf_free_all_reactors` (core/reactor_common.c:135-143). -/
def freeAllReactors (s : St) : List Act :=
  s.toFree.flatMap fun q =>
    .read (some q.1) :: freeReactor s q.2 ++ [.read (some q.1), .free (some q.1)]

/-- `pqueue_tag_free` (core/utils/pqueue_tag.c:88-95): elements with `is_dynamic` set are freed.  Events come from
`calloc` in `lf_get_new_event` (core/reactor_common.c:339-352), where `is_dynamic` is zero and stays so, hence they are
looked at only. -/
def pqueueTagFree (q d : Option Nat) (l : List Nat) : List Act :=
  .read q :: (l.map fun e => .read (some e)) ++ [.read q, .free d, .free q]

/-- `environment_free` (core/environment.c:178-193) and the functions it calls (core/environment.c:138-173). -/
def environmentFree (e : Env) : List Act :=
  ([.name, .timers, .startup, .shutdown, .reset, .present, .presentAbbreviated].map fun f => .free (e.ptr f)) ++
  pqueueTagFree (e.ptr .eventQ) (e.ptr .eventD) e.events ++
  pqueueTagFree (e.ptr .recycleQ) (e.ptr .recycleD) e.recycled ++
  (if e.cfg.singleThreaded then [.read (e.ptr .reactionQ), .free (e.ptr .reactionD), .free (e.ptr .reactionQ)]
    else [.free (e.ptr .threadIds)]) ++
  (if e.cfg.modal && (e.ptr .modes).isSome then
      [.read (e.ptr .modes), .free (e.ptr .modeStates), .read (e.ptr .modes), .free (e.ptr .modeResets),
        .free (e.ptr .modes)]
    else []) ++
  (if e.cfg.decentralized then [.free (e.ptr .intended)] else [])

/-- The mutexes of the reactors with watchdogs, in `termination` (core/reactor_common.c:1204-1210): `env` points to the
first environment there. -/
def freeMutexes (s : St) : List Act :=
  match s.envs with
  | [] => []
  | e :: _ =>
      if e.cfg.singleThreaded then []
      else e.bases.flatMap fun b =>
        .read (e.ptr .watchdogs) :: .read (some b) :: (if (s.mutex b).isSome then [.free (s.mutex b)] else [])

/-- What `termination` (core/reactor_common.c:1132-1222) does with memory when the program ends normally, in order. -/
def terminationActs (s : St) : List Act :=
  freeMutexes s ++ freeAllReactors s ++ s.envs.flatMap environmentFree

/-- `termination`: only its first call does anything, and nothing is freed when the program ends abnormally. -/
def termination (normal : Bool) (s : St) : Option St :=
  if s.executed then some s
  else if normal then (exec (terminationActs s) s.heap).map fun h => { s with heap := h, executed := true }
  else some { s with executed := true }

/-- What happens before the end. -/
inductive Op
  /-- `lf_new_reactor`: a record and a reactor -/
  | newReactor
  /-- `lf_allocate(1, size, NULL)` for a reactor that will be freed early -/
  | ownReactor
  /-- `lf_allocate(n, size, &self->allocations)` -/
  | allocate (self : Nat)
  /-- `lf_allocate(n, size, NULL)` -/
  | allocateLoose
  /-- `free` of such memory -/
  | freeLoose (a : Nat)
  /-- `lf_free_reactor(self)` -/
  | freeReactor (self : Nat)
  /-- the constructor of a reactor with watchdogs allocates the mutex of the reactor (core/threaded/watchdog.c:23-24) -/
  | newMutex (self : Nat)
  /-- `environment_init` -/
  | initEnv (c : Cfg)
  /-- the generated code puts a watchdog of a reactor into the array of an environment -/
  | addWatchdog (i self : Nat)
  /-- `lf_get_new_event`, and the event is put into the event queue -/
  | newEvent (i : Nat)
  /-- the earliest event is taken out of the event queue and recycled with `lf_recycle_event` -/
  | recycle (i : Nat)

/-- `lf_get_new_event` (core/reactor_common.c:339-352). -/
def newEvent (s : St) (i : Nat) : St :=
  match s.envs[i]? with
  | none => s
  | some e =>
      match e.recycled with
      | x :: l => { s with envs := s.envs.set i { e with events := e.events ++ [x], recycled := l } }
      | [] =>
          { s with
            next := s.next + 1
            heap := allocated s.heap [s.next]
            envs := s.envs.set i { e with events := e.events ++ [s.next] } }

/-- `lf_recycle_event` (core/reactor_common.c:454-463) of the first event. -/
def recycle (s : St) (i : Nat) : St :=
  match s.envs[i]? with
  | none => s
  | some e =>
      match e.events with
      | [] => s
      | x :: l => { s with envs := s.envs.set i { e with events := l, recycled := e.recycled ++ [x] } }

/-- `environment_init` (core/environment.c:207-292).  Simplification: a pointer that stays null uses up an address. -/
def initEnv (s : St) (c : Cfg) : St :=
  let ptr := fun f => if c.allocates f then some (s.next + Field.all.idxOf f) else none
  { s with
    next := s.next + Field.all.length
    heap := allocated s.heap (Field.all.filterMap ptr)
    envs := s.envs ++ [⟨c, ptr, [], [], []⟩] }

/-- One operation; `none` when it is undefined behaviour. -/
def apply (s : St) : Op → Option St
  | .newReactor =>
      some { s with
        next := s.next + 2
        heap := allocated s.heap [s.next, s.next + 1]
        toFree := (s.next, s.next + 1) :: s.toFree }
  | .ownReactor =>
      some { s with
        next := s.next + 1
        heap := allocated s.heap [s.next]
        own := s.next :: s.own }
  | .allocate self =>
      (exec [.read (some self)] s.heap).map fun _ =>
        { s with
          next := s.next + 2
          heap := allocated s.heap [s.next, s.next + 1]
          allocs := Function.update s.allocs self ((s.next, s.next + 1) :: s.allocs self) }
  | .allocateLoose =>
      some { s with
        next := s.next + 1
        heap := allocated s.heap [s.next]
        loose := s.next :: s.loose }
  | .freeLoose a =>
      (exec [.free (some a)] s.heap).map fun h => { s with heap := h, loose := s.loose.erase a }
  | .freeReactor self =>
      (exec (freeReactor s self) s.heap).map fun h =>
        { s with
          heap := h
          own := s.own.erase self }
  | .newMutex self =>
      (exec [.read (some self)] s.heap).map fun _ =>
        { s with
          next := s.next + 1
          heap := allocated s.heap [s.next]
          mutex := Function.update s.mutex self (some s.next) }
  | .initEnv c => some (initEnv s c)
  | .addWatchdog i self =>
      match s.envs[i]? with
      | none => some s
      | some e => some { s with envs := s.envs.set i { e with bases := e.bases ++ [self] } }
  | .newEvent i => some (newEvent s i)
  | .recycle i => some (recycle s i)

/-- A history. -/
def run : St → List Op → Option St
  | s, [] => some s
  | s, o :: l => (apply s o).bind fun s => run s l

end Verif.Memory
