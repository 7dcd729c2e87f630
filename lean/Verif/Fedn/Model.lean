import Verif.Rti.System

/-!
# A federation of the federates that exist, under centralized coordination

Verif.Rti.System puts the RTI together with federates that may do anything the protocol allows.  Here the federates are
those of the code: the thread that advances the tag (`_lf_initialize_start_tag` and `_lf_next_locked` of
core/threaded/reactor_threaded.c, `_lf_sched_advance_tag_locked` of core/threaded/scheduler_sync_tag_advance.c,
`lf_send_next_event_tag` of core/federated/federate.c), the thread that reads what the RTI sends (`handle_tagged_message`,
`handle_tag_advance_grant`, `handle_provisional_tag_advance_grant` of core/federated/federate.c), the reactions that send
messages (`lf_send_tagged_message`) and schedule events, and physical actions.  Each step of a federate is one critical
section of the mutex of its environment.

Simplifications:
* The model begins when all federates have their start time and ends, for a federate, when it resigns or exits.
* What a reaction does is not known.  Everything that is triggered, an event or a reaction, has a distance `d`: at least `d`
  nanoseconds of delays of actions lie between it and any output to another federate that it causes (`none`: it never causes
  an output).  A reaction may send if something with distance 0 was triggered at the current tag; what it schedules with the
  delay `δ` has at least the distance `d - δ`.  The code generator computes `min_delay_from_physical_action_to_federate_output`
  along these distances.
* Whether `need_to_send_LTC` is set when a tag is complete and whether a message for the current tag finds its port waiting
  (`handle_message_now`) are left open: both may happen.  (The latter is the subject of Verif.Level.)
* Mutexes of sockets, tracing, port absent messages, clock synchronization and the transient states of the stop protocol
  (Verif.Stop) are left out: the RTI broadcasts a stop tag in one step, and a federate learns one in one step.
* Sums of times are sums of integers.
-/

namespace ReactorC.Fedn
open ReactorC
open ReactorC.Rti (Topology Down Up Sys Sane put)

/-- An event on the event queue: its tag and the distance of its trigger from the outputs.  Dummy events have the distance
`none`. -/
structure Ev where
  tag : Tag
  rem : Option Int
deriving DecidableEq

/-- Where the thread that advances the tag is. -/
inductive Pc
  /-- in `_lf_initialize_start_tag`, before core/threaded/reactor_threaded.c:636 -/
  | starting
  /-- at the top of the loop of `lf_send_next_event_tag`, core/federated/federate.c:2376, with the parameter `tag`; `orig` is
  the tag the call was made for, `none` for the call in `_lf_initialize_start_tag`, which ignores the result -/
  | asking (orig : Option Tag) (tag : Tag)
  /-- in the wait for a grant, core/federated/federate.c:2447 -/
  | waiting (orig : Option Tag) (tag : Tag)
  /-- in the wait for physical time, core/federated/federate.c:2495 -/
  | pausing (orig : Option Tag)
  /-- in the wait for physical time, core/threaded/reactor_threaded.c:389, with a grant -/
  | resting
  /-- the reactions of the current tag are executed -/
  | executing
  /-- the stop tag is complete -/
  | ended
  /-- the federate has resigned or the process has exited -/
  | gone
deriving DecidableEq

/-- What should not happen to a federate. -/
inductive Fault
  /-- a message comes in for a tag that the federate has reached already: "Received a message at tag ... that has violated
  the STP offset", core/federated/federate.c:372-381, or, at the stop tag, "Received message too late", 656-665 -/
  | tardy
  /-- "Received a PTAG ... that is equal or earlier than an already received TAG", core/federated/federate.c:1292-1299 -/
  | badGrant
  /-- a message for a later tag comes in at the stop tag: `close_inbound_socket(fed_id, 1)`, core/federated/federate.c:667,
  with `fed_id == -1` for the RTI (1575) uses -1 as an index in `sockets_for_inbound_p2p_connections`, 417 -/
  | badIndex
deriving DecidableEq

/-- A federate: the fields of `_fed` and of its environment that the threads use.  `causes` are the distances of what has been
triggered at the current tag, `now` is the physical clock, `taken` counts what has been read from the socket of the RTI. -/
structure Fed where
  cur : Tag
  stop : Tag
  lastTAG : Tag
  prov : Bool
  lastLTC : Tag
  q : List Ev
  causes : List Int
  pc : Pc
  started : Bool
  now : Int
  taken : Nat
  fault : Option Fault
deriving DecidableEq

/-- A federated program and the conditions under which it runs.  `minDelay` is
`min_delay_from_physical_action_to_federate_output` (negative: none), `timeout` the stop tag set at the start
(`FOREVER_TAG` without a timeout), `interval` is `ADVANCE_MESSAGE_INTERVAL`, `q0` and `c0` are the events and the distances of
the reactions that `_lf_trigger_startup_reactions` and `_lf_initialize_timers` leave behind, `now0` the physical clocks.

The last four say what may occur during a run: `early`, that the wait for the first grant is woken before it has come, by
an event that is not at the start tag; `ties`, that a next event tag with a microstep is reported at the very nanosecond up to
which physical actions allow it; `stops`, that a stop is requested; `shut`, that reactions to a requested shutdown send. -/
structure Config where
  T : Topology
  start : Int
  minDelay : Nat → Int
  timeout : Nat → Tag
  interval : Int
  fast : Bool
  q0 : Nat → List Ev
  c0 : Nat → List Int
  now0 : Nat → Int
  early : Bool
  ties : Bool
  stops : Bool
  shut : Bool

/-- `MIN_SLEEP_DURATION`, include/core/reactor_common.h:45: a wait for physical time may end this much early,
core/threaded/reactor_threaded.c:202-206. -/
def minSleep : Int := 10000

/-- The federation: the RTI and the channels to it, with the record of what the federates have promised (`net`, `done`), and
the federates. -/
structure State where
  sys : Sys
  fed : Nat → Fed

section
variable (C : Config)

/-- `_fed.has_upstream`. -/
def hasUp (i : Nat) : Bool := !(C.T.up i).isEmpty

/-- `_fed.has_downstream`. -/
def hasDown (i : Nat) : Bool := (List.range C.T.n).any fun d => (C.T.up d).any fun e => e.1 == i

/-- The physical actions of `i` bound what it can promise, core/federated/federate.c:1646. -/
def physical (i : Nat) : Bool := decide (0 ≤ C.minDelay i) && hasDown C i

/-- `get_next_event_tag`, core/threaded/reactor_threaded.c:236-263. -/
def Fed.next (f : Fed) : Tag := f.q.foldl (fun t e => if lf_tag_compare e.tag t < 0 then e.tag else t) f.stop

/-- `_lf_pop_events`, core/reactor_common.c:214-340, as far as the distances are concerned. -/
def Fed.pop (f : Fed) : Fed :=
  { f with
    causes := f.causes ++ (f.q.filter fun e => decide (e.tag = f.cur)).filterMap (·.rem)
    q := f.q.filter fun e => decide (e.tag ≠ f.cur) }

/-- `lf_send_next_event_tag` returns `g`: the start tag is executed, core/threaded/reactor_threaded.c:636-655; or the result is
compared with the tag asked for and the call repeated, 349-353. -/
def Fed.ret (f : Fed) (orig : Option Tag) (g : Tag) : Fed :=
  match orig with
  | none => { f.pop with pc := .executing, started := true }
  | some o =>
    if lf_tag_compare g o < 0 then { f with pc := .asking (some f.next) f.next } else { f with pc := .resting }

/-- The condition of `bounded_NET`, core/federated/federate.c:1646-1651. -/
def bounded (i : Nat) (f : Fed) (tag : Tag) : Bool :=
  physical C i && decide (f.now + C.minDelay i < tag.time)

/-- One iteration of the loop of `lf_send_next_event_tag` up to a wait or the return, core/federated/federate.c:2376-2440 and
2466-2472; the second component is the next event tag sent, if any. -/
def ask (i : Nat) (f : Fed) : Fed × Option Tag :=
  match f.pc with
  | .asking orig tag =>
    if hasDown C i = false ∧ hasUp C i = false then (f.ret orig tag, none)
    else if lf_tag_compare f.lastTAG tag ≥ 0 then (f.ret orig f.lastTAG, none)
    else if bounded C i f tag = true then
      ({ f with q := ⟨⟨f.now + C.minDelay i - 1 + C.interval, 0⟩, none⟩ :: f.q, pc := .pausing orig }, none)
    else if hasUp C i = true then ({ f with pc := .waiting orig tag }, some tag)
    else (f.ret orig tag, some tag)
  | _ => (f, none)

/-- The wait for physical time is over, core/federated/federate.c:2503. -/
def resume (f : Fed) : Fed :=
  match f.pc with
  | .pausing orig => { f with pc := .asking orig f.next }
  | _ => f

/-- The wait for a grant is interrupted, core/federated/federate.c:2450-2460. -/
def wake (f : Fed) : Fed × Option Tag :=
  match f.pc with
  | .waiting orig tag =>
    if lf_tag_compare f.lastTAG f.next ≥ 0 ∨ lf_tag_compare f.lastTAG tag ≥ 0 then (f.ret orig f.lastTAG, none)
    else if lf_tag_compare f.next tag ≠ 0 then (f, some f.next)
    else (f, none)
  | _ => (f, none)

/-- `_lf_next_locked` after the wait for physical time, core/threaded/reactor_threaded.c:408-460, and the return to
`_lf_sched_advance_tag_locked`, which ends the execution at the stop tag,
core/threaded/scheduler_sync_tag_advance.c:29-42.  The reactions to shutdown have distance 0, unless a stop was requested and
they are known not to send. -/
def advance (i : Nat) (f : Fed) : Fed :=
  if lf_tag_compare f.next f.stop ≥ 0 ∧ lf_tag_compare f.cur f.stop ≥ 0 then { f with pc := .ended }
  else
    { Fed.pop { f with
        cur := f.next
        causes := if lf_tag_compare f.next f.stop ≥ 0 ∧ (f.stop = C.timeout i ∨ C.shut = true) then [0] else [] } with
      pc := .executing }

/-- `lf_latest_tag_confirmed`, core/federated/federate.c:2261-2277, where `need` is `need_to_send_LTC`. -/
def confirm (need : Bool) (t : Tag) (f : Fed) : Fed × Option Tag :=
  if lf_tag_compare f.lastLTC t ≥ 0 then (f, none)
  else if need then ({ f with lastLTC := t }, some t) else (f, none)

/-- All reactions of the current tag are executed: `_lf_sched_advance_tag_locked`,
core/threaded/scheduler_sync_tag_advance.c:47-66, with `logical_tag_complete`, and the beginning of `_lf_next_locked`. -/
def complete (need : Bool) (f : Fed) : Fed × Option Tag :=
  ({ (confirm need f.cur f).1 with causes := [], pc := .asking (some f.next) f.next }, (confirm need f.cur f).2)

/-- `handle_tag_advance_grant`, core/federated/federate.c:1055-1070. -/
def takeTag (g : Tag) (f : Fed) : Fed :=
  if lf_tag_compare g f.lastTAG ≥ 0 then { f with lastTAG := g, prov := false } else f

/-- `handle_provisional_tag_advance_grant`, core/federated/federate.c:1291-1352. -/
def takePtag (need : Bool) (g : Tag) (f : Fed) : Fed × Option Tag :=
  if lf_tag_compare g f.lastTAG < 0 ∨ (lf_tag_compare g f.lastTAG = 0 ∧ f.prov = false) then
    ({ f with fault := some .badGrant, pc := .gone }, none)
  else if lf_tag_compare f.cur g = 0 then ({ f with lastTAG := g, prov := true }, none)
  else if lf_tag_compare f.cur g > 0 then confirm need g { f with lastTAG := g, prov := true }
  else if g.time ≠ FOREVER then ({ f with lastTAG := g, prov := true, q := ⟨g, none⟩ :: f.q }, none)
  else ({ f with lastTAG := g, prov := true }, none)

/-- `handle_tagged_message` from the point where it takes the mutex, core/federated/federate.c:606-673, with
`schedule_message_received_from_network_locked`, 352-402; `direct` says whether the port of the message is waiting for it.  The
second component says whether the message is accepted. -/
def takeMsg (direct : Bool) (m : Tag) (f : Fed) : Fed × Bool :=
  if direct = true ∧ f.started = true ∧ f.pc = .executing ∧ lf_tag_compare m f.cur = 0 then
    ({ f with causes := f.causes ++ [0] }, true)
  else if lf_tag_compare f.cur f.stop ≥ 0 ∧ f.started = true then
    ({ f with fault := some (if lf_tag_compare m f.cur ≤ 0 then .tardy else .badIndex), pc := .gone }, false)
  else if lf_tag_compare m f.cur ≤ 0 ∧ f.started = true then ({ f with fault := some .tardy, pc := .gone }, false)
  else ({ f with q := ⟨m, some 0⟩ :: f.q }, true)

/-! ## Steps -/

/-- The later of two tags. -/
def later (a b : Tag) : Tag := if a < b then b else a

/-- A next event tag is sent; what the federate promises from then on is recorded. -/
def sendNet (i : Nat) (n : Option Tag) (σ : Sys) : Sys :=
  match n with
  | none => σ
  | some n => { σ.send i (.net n (later n (σ.net i))) with net := put σ.net i (later n (σ.net i)) }

/-- A latest tag confirmed is sent. -/
def sendLtc (i : Nat) (c : Option Tag) (σ : Sys) : Sys :=
  match c with
  | none => σ
  | some c => { σ.send i (.ltc c) with done := put σ.done i c }

/-- A message is accepted; the federate may act at its tag from then on. -/
def receive (i : Nat) (m : Tag) (σ : Sys) : Sys := if m < σ.net i then { σ with net := put σ.net i m } else σ

/-- The thread of the RTI for `i` handles the next message from `i`, core/federated/RTI/rti_remote.c:1078-1135. -/
def handle (i : Nat) (σ : Sys) : Option Sys :=
  match σ.up i with
  | .clean c :: q => some { σ with rti := Rti.removeInTransit i c σ.rti, up := put σ.up i q }
  | .msg d _ _ m :: q =>
    if (σ.rti.node i).connected then
      match Rti.handleTimedMessage C.T C.start d m σ.rti with
      | some r => some { σ with rti := r, up := put σ.up i q }
      | none => none
    else none
  | .net n _ :: q =>
    if (σ.rti.node i).connected then
      some { σ with rti := Rti.handleNextEventTag C.T C.start i n σ.rti, up := put σ.up i q }
    else none
  | .ltc c :: q =>
    if (σ.rti.node i).connected then
      some { σ with rti := Rti.logicalTagComplete C.T C.start i c σ.rti, up := put σ.up i (.clean c :: q) }
    else none
  | .resign :: q =>
    if (σ.rti.node i).connected then some { σ with rti := Rti.handleResign C.T C.start i σ.rti, up := put σ.up i q }
    else none
  | [] => none

/-- What can happen in a federation. -/
inductive Act
  /-- the RTI handles a message of a federate -/
  | handle (i : Nat)
  /-- the RTI finds the socket of a federate closed -/
  | closed (i : Nat)
  /-- from now on, writing to the socket of a federate fails -/
  | breaks (i : Nat)
  /-- physical time passes at a federate -/
  | tick (i : Nat) (t : Int)
  /-- a federate calls `lf_send_next_event_tag` for the start tag -/
  | begin (i : Nat)
  | ask (i : Nat)
  | resume (i : Nat)
  | wake (i : Nat)
  | advance (i : Nat)
  /-- a reaction sends a message to `d` over a connection with delay `w` -/
  | send (i d : Nat) (w : Int)
  /-- a reaction schedules an action with delay `δ` -/
  | schedule (i : Nat) (δ : Int) (e : Ev)
  /-- a physical action is scheduled -/
  | physical (i : Nat) (e : Ev)
  | complete (i : Nat) (need : Bool)
  /-- a federate reads what the RTI has sent -/
  | take (i : Nat) (direct need : Bool)
  /-- the last worker of a federate exits -/
  | exit (i : Nat)
  /-- a federate resigns or crashes -/
  | leave (i : Nat)
  /-- the RTI broadcasts the stop tag `t` -/
  | stop (t : Tag)
  /-- a federate learns the stop tag `t` -/
  | learn (i : Nat) (t : Tag)

/-- A next event tag may be sent in this run: it leaves room for microsteps, and see `Config`. -/
def NetOk (i : Nat) (f : Fed) : Option Tag → Prop
  | none => True
  | some n => Sane C.T n ∧ (C.early = true ∨ f.started = true ∨ n = f.cur) ∧
      (C.ties = true ∨ physical C i = false ∨ n.microstep = 0 ∨ n.time < f.now + C.minDelay i)

/-- What may be scheduled: after the current tag, with a distance that accounts for the distance of the cause. -/
def SchedOk (f : Fed) (δ : Int) (e : Ev) : Prop :=
  f.cur < e.tag ∧
    match e.rem with
    | none => True
    | some d' => 0 ≤ δ ∧ 0 ≤ d' ∧ f.cur.time + δ ≤ e.tag.time ∧ ∃ d ∈ f.causes, d ≤ δ + d'

/-- When a physical action may be scheduled: after the current tag, not before the physical time, and with a distance from the
outputs that `minDelay` accounts for. -/
def PhysOk (i : Nat) (f : Fed) (e : Ev) : Prop :=
  f.cur < e.tag ∧
    match e.rem with
    | none => True
    | some d => 0 ≤ d ∧ 0 ≤ C.minDelay i ∧ f.now + C.minDelay i ≤ e.tag.time + d

/-- The thread that advances the tag holds the mutex of the environment from one wait to the next: what other threads do in
critical sections has to wait. -/
def Fed.free (f : Fed) : Bool :=
  match f.pc with
  | .asking _ _ => false
  | .gone => false
  | _ => true

/-- When a step can be taken. -/
def pre (s : State) : Act → Prop
  | .handle i => (handle C i s.sys).isSome = true
  | .closed _ => True
  | .breaks _ => True
  | .tick i t => (s.fed i).now ≤ t
  | .begin i => i < C.T.n ∧ (s.fed i).pc = .starting ∧ (C.fast = true ∨ C.start - (s.fed i).now < minSleep)
  | .ask i => i < C.T.n ∧ NetOk C i (s.fed i) (ask C i (s.fed i)).2
  | .resume i => i < C.T.n
  | .wake i => i < C.T.n ∧ NetOk C i (s.fed i) (wake (s.fed i)).2
  -- the end of time does not come
  | .advance i => i < C.T.n ∧ (s.fed i).pc = .resting ∧ Sane C.T (s.fed i).next ∧ (s.fed i).next ≠ FOREVER_TAG ∧
      (C.fast = true ∨ (s.fed i).next.time - (s.fed i).now < minSleep)
  -- core/federated/federate.c:2625-2630
  | .send i d w => i < C.T.n ∧ d < C.T.n ∧ (i, w) ∈ C.T.up d ∧ (s.fed i).pc = .executing ∧ 0 ∈ (s.fed i).causes ∧
      lf_tag_compare (lf_delay_tag (s.fed i).cur w) (s.fed i).stop ≤ 0 ∧ Sane C.T (lf_delay_tag (s.fed i).cur w)
  | .schedule i δ e => i < C.T.n ∧ (s.fed i).pc = .executing ∧ SchedOk (s.fed i) δ e
  | .physical i e => i < C.T.n ∧ (s.fed i).free = true ∧ PhysOk C i (s.fed i) e
  | .complete i _ => i < C.T.n ∧ (s.fed i).pc = .executing
  | .take i _ need => i < C.T.n ∧ (s.fed i).free = true ∧
      match (s.sys.rti.out i)[(s.fed i).taken]? with
      | some (.ptag g) => need = true → Sane C.T g
      | some _ => True
      | none => False
  | .exit i => i < C.T.n ∧ (s.fed i).pc = .ended
  | .leave i => i < C.T.n
  | .stop t => Sane C.T t ∧ (⟨C.start, 0⟩ : Tag) ≤ t
  -- core/federated/federate.c:1385-1394
  | .learn i t => i < C.T.n ∧ C.stops = true ∧ (s.fed i).free = true ∧ (s.fed i).cur < t

/-- The thread that reads from the RTI has read one more message. -/
def Fed.read (f : Fed) : Fed := { f with taken := f.taken + 1 }

/-- `lf_set_stop_tag`, core/reactor_common.c:145-150. -/
def Fed.learn (t : Tag) (f : Fed) : Fed := { f with stop := if lf_tag_compare t f.stop < 0 then t else f.stop }

/-- What reading a message does. -/
def take (i : Nat) (direct need : Bool) (s : State) : State :=
  match (s.sys.rti.out i)[(s.fed i).taken]? with
  | some (.tag g) => { s with fed := put s.fed i (takeTag g (s.fed i).read) }
  | some (.ptag g) =>
    { sys := sendLtc i (takePtag need g (s.fed i).read).2 s.sys
      fed := put s.fed i (takePtag need g (s.fed i).read).1 }
  | some (.msg m) =>
    { sys := if (takeMsg direct m (s.fed i).read).2 then receive i m s.sys else s.sys
      fed := put s.fed i (takeMsg direct m (s.fed i).read).1 }
  | none => s

/-- The last next event tag, core/threaded/reactor_threaded.c:915, is sent unless the end of time is granted, or the federate
is not connected. -/
def lastNet (i : Nat) (f : Fed) : Option Tag :=
  if hasDown C i = false ∧ hasUp C i = false then none
  else if lf_tag_compare f.lastTAG FOREVER_TAG ≥ 0 then none else some FOREVER_TAG

/-- What a step does. -/
def post (s : State) : Act → State
  | .handle i => match handle C i s.sys with
    | some σ => { s with sys := σ }
    | none => s
  | .closed i => { s with sys := { s.sys with rti := Rti.socketClosed i s.sys.rti } }
  | .breaks i => { s with sys := { s.sys with rti := { s.sys.rti with broken := put s.sys.rti.broken i true } } }
  | .tick i t => { s with fed := put s.fed i { s.fed i with now := t } }
  | .begin i => { s with fed := put s.fed i { s.fed i with pc := .asking none (s.fed i).cur } }
  | .ask i => { sys := sendNet i (ask C i (s.fed i)).2 s.sys, fed := put s.fed i (ask C i (s.fed i)).1 }
  | .resume i => { s with fed := put s.fed i (resume (s.fed i)) }
  | .wake i => { sys := sendNet i (wake (s.fed i)).2 s.sys, fed := put s.fed i (wake (s.fed i)).1 }
  | .advance i => { s with fed := put s.fed i (advance C i (s.fed i)) }
  | .send i d w => { s with sys := s.sys.send i (.msg d (s.fed i).cur w (lf_delay_tag (s.fed i).cur w)) }
  | .schedule i _ e => { s with fed := put s.fed i { s.fed i with q := e :: (s.fed i).q } }
  | .physical i e => { s with fed := put s.fed i { s.fed i with q := e :: (s.fed i).q } }
  | .complete i need =>
    { sys := sendLtc i (complete need (s.fed i)).2 s.sys, fed := put s.fed i (complete need (s.fed i)).1 }
  | .take i direct need => take i direct need s
  | .exit i => { sys := sendNet i (lastNet C i (s.fed i)) s.sys, fed := put s.fed i { s.fed i with pc := .gone } }
  | .leave i => { sys := s.sys.send i .resign, fed := put s.fed i { s.fed i with pc := .gone } }
  | .stop t =>
    { s with sys := { s.sys with rti := { s.sys.rti with node := fun j => Rti.stopNode t (s.sys.rti.node j) } } }
  | .learn i t => { s with fed := put s.fed i ((s.fed i).learn t) }

/-- A federate at the start. -/
def initFed (i : Nat) : Fed :=
  { cur := ⟨C.start, 0⟩
    stop := C.timeout i
    lastTAG := NEVER_TAG
    prov := false
    lastLTC := NEVER_TAG
    q := C.q0 i
    causes := C.c0 i
    pc := .starting
    started := false
    now := C.now0 i
    taken := 0
    fault := none }

/-- The federation at the start. -/
def init : State := { sys := Rti.initSys C.start, fed := initFed C }

/-- The states a federation can be in. -/
inductive Reach : State → Prop
  | init : Reach (init C)
  | step {s : State} (a : Act) : Reach s → pre C s a → Reach (post C s a)

/-- A well-formed program: every federate number is in range, nothing is triggered before the start tag, distances are not
negative; and the physical clock matters only without the option `-fast`. -/
structure Config.Ok : Prop where
  topology : C.T.Ok
  down : ∀ i, ∀ j ∈ C.T.down i, j < C.T.n
  start : 0 ≤ C.start
  finite : C.start < FOREVER
  timeout : ∀ i, (⟨C.start, 0⟩ : Tag) ≤ C.timeout i
  events : ∀ i, ∀ e ∈ C.q0 i, (⟨C.start, 0⟩ : Tag) ≤ e.tag ∧ ∀ d, e.rem = some d → 0 ≤ d
  causes : ∀ i, ∀ d ∈ C.c0 i, 0 ≤ d
  interval : minSleep < C.interval
  slow : C.fast = true → ∀ i, C.minDelay i < 0

end

end ReactorC.Fedn
