import Verif.Level.Props

/-!
# Model of decentralized coordination: messages, the safe-to-advance offset and tardiness

`core/federated/federate.c:330-395, 460-475, 530-690, 1106-1120, 1130-1254, 2771-2794`,
`core/threaded/reactor_threaded.c:50-170, 198-232, 237-262, 311-466, 557-660`, `core/reactor_common.c:215-345, 482-560,
562-640` and `lib/schedule.c:110-330`, for one federate compiled with `FEDERATED_DECENTRALIZED`.

What the ports are known about, the levels and the thread that assumes ports absent are those of `Verif.Level.Model`; here
the event queue, the barrier, the wait of `_lf_next_locked` and the reactions that receive messages are added. Each step is
one critical section under the mutex of the environment; the steps of all threads interleave arbitrarily. Local events appear
at any time and any later tag. The execution of reactions is not part of the model: the federate may try to advance at any
time (it does so after the reactions of the tag have finished, hence not more often).
-/

namespace ReactorC.Decentral

open ReactorC.Level (Config Port Phase MIN_SLEEP_DURATION Small bump upd exempt waitOver)

/-- An event on the event queue: the network input port it belongs to (none for a local event), its tag, `intended_tag`, and
the payload. -/
structure Ev where
  port : Option Nat
  tag : Tag
  intended : Tag
  val : Nat
deriving DecidableEq, Repr

/-- What the reaction that receives a message gets to see: the port, `trigger->intended_tag`, the payload, the tag at which it
is triggered, and `is_STP_violated`. -/
structure Delivery where
  port : Nat
  intended : Tag
  val : Nat
  at_ : Tag
  late : Bool
deriving DecidableEq, Repr

/-- A message: port, tag and payload. -/
abbrev Msg := Nat × Tag × Nat

/-- The state: the ports, levels, clock and current tag; the event queue; per port `trigger->last_tag`; the messages whose
header has been read; the barrier; the stop tag; whether the wait in `_lf_next_locked` is over, and for which tag. For the
properties only: the latest tag announced on each port by a header or a notice, whether the sender is gone, the messages
handled so far, what has been delivered, and the messages that were discarded because of the stop tag. -/
structure State where
  lv : Level.State
  q : List Ev
  last : Nat → Tag
  reading : List Msg
  horizon : Tag
  requestors : Nat
  stop : Tag
  waited : Option Tag
  said : Nat → Tag
  gone : Nat → Bool
  got : List Msg
  out : List Delivery
  dropped : List Msg

/-- `_lf_increment_tag_barrier_locked`, reactor_threaded.c:50-88. -/
def raise (s : State) (future : Tag) : State :=
  let f := if lf_tag_compare future s.stop > 0 then s.stop else future
  let h := if lf_tag_compare f s.lv.cur > 0 then (if lf_tag_compare f s.horizon < 0 then f else s.horizon) else bump s.lv.cur
  { s with horizon := h, requestors := s.requestors + 1 }

/-- `_lf_decrement_tag_barrier_locked`, reactor_threaded.c:97-113. -/
def release (s : State) : State :=
  if s.requestors = 1 then { s with requestors := 0, horizon := FOREVER_TAG }
  else { s with requestors := s.requestors - 1 }

/-- `_lf_wait_on_tag_barrier` does not wait (any more), reactor_threaded.c:137-170. The proposed tag is not after the stop
tag. -/
def open_ (s : State) (proposed : Tag) : Prop :=
  s.requestors = 0 ∨ lf_tag_compare proposed s.horizon < 0

/-- `pqueue_tag_find_equal_same_tag`: is there an event of the port at the tag? -/
def found (q : List Ev) (i : Nat) (t : Tag) : Bool := q.any fun e => e.port = some i && e.tag = t

/-- The loop `while (found != NULL)`, lib/schedule.c:206-210; at most as many rounds as there are events. The microstep does
not overflow. -/
def freeTag (q : List Ev) (i : Nat) : Nat → Tag → Tag
  | 0, t => t
  | n + 1, t => if found q i t then freeTag q i n ⟨t.time, t.microstep + 1⟩ else t

/-- `_lf_schedule_at_tag` for a network input port, reactor_common.c:482-560, with the default policy `defer`; the tag is
later than the current one, or the execution has not started. -/
def scheduleAt (s : State) (i : Nat) (g : Tag) (v : Nat) : State :=
  if lf_tag_compare g s.stop > 0 then { s with dropped := (i, g, v) :: s.dropped }
  else if found s.q i g then
    if lf_tag_compare (bump g) s.stop > 0 then { s with dropped := (i, g, v) :: s.dropped }
    else { s with q := s.q ++ [⟨some i, bump g, g, v⟩] }
  else { s with q := s.q ++ [⟨some i, g, g, v⟩] }

/-- `lf_schedule_trigger` for a network input port, without additional delay, lib/schedule.c:110-330: the action has no
minimum delay and no minimum spacing (`offset` and `period` are 0), the tag of the event is the next microstep that has no
event of the port. -/
def scheduleNow (s : State) (i : Nat) (g : Tag) (v : Nat) : State :=
  let t := freeTag s.q i s.q.length (lf_delay_tag s.lv.cur 0)
  if lf_tag_compare t s.stop > 0 then { s with dropped := (i, g, v) :: s.dropped }
  else { s with q := s.q ++ [⟨some i, t, g, v⟩], last := upd s.last i t }

/-- `schedule_message_received_from_network_locked`, federate.c:353-400. -/
def schedule (s : State) (i : Nat) (g : Tag) (v : Nat) : State :=
  if lf_tag_compare g s.lv.cur ≤ 0 ∧ s.lv.phase = .running then scheduleNow s i g v else scheduleAt s i g v

/-- `handle_message_now`, federate.c:468-474. -/
def now_ (c : Config) (s : State) (i : Nat) (g : Tag) : Bool :=
  Level.handleMessageNow c s.lv i g (decide (lf_tag_compare g (s.last i) > 0))

/-- `handle_tagged_message` after the payload has been read, federate.c:604-690, up to the release of the barrier. -/
def handle (c : Config) (s : State) (i : Nat) (g : Tag) (v : Nat) : State :=
  let n := now_ c s i g
  let s' := { s with
    lv := { Level.handleMessage c s.lv i g (decide (lf_tag_compare g (s.last i) > 0)) with hist := .message i g :: s.lv.hist },
    got := (i, g, v) :: s.got }
  if n then
    { s' with out := s.out ++ [⟨i, g, v, s.lv.cur, decide (lf_tag_compare g s.lv.cur < 0)⟩] }
  else if lf_tag_compare s.lv.cur s.stop ≥ 0 ∧ s.lv.phase = .running then
    { s' with dropped := (i, g, v) :: s.dropped }
  else schedule s' i g v

/-- One event in the loop of `_lf_pop_events`, reactor_common.c:221-338: the first event of a port triggers the receiving
reaction and sets `intended_tag` and `is_STP_violated`; the payload of every event replaces the one before. -/
def pop1 (cur : Tag) (ds : List Delivery) (e : Ev) : List Delivery :=
  match e.port with
  | none => ds
  | some i =>
    if ds.any fun d => d.port = i then ds.map fun d => if d.port = i then { d with val := e.val } else d
    else ds ++ [⟨i, e.intended, e.val, cur, decide (lf_tag_compare e.intended cur < 0)⟩]

/-- `_lf_pop_events`, reactor_common.c:214-345: what the popped events, in the order in which the queue returns them, deliver. -/
def pops (cur : Tag) (l : List Ev) : List Delivery := l.foldl (pop1 cur) []

/-- The events at a tag, and the others. -/
def due (q : List Ev) (t : Tag) : List Ev := q.filter fun e => e.tag = t
def rest (q : List Ev) (t : Tag) : List Ev := q.filter fun e => !(e.tag = t)

/-- `get_next_event_tag`, reactor_threaded.c:237-262: the earliest tag on the queue, but not after the stop tag. -/
def nextTag (s : State) : Tag := s.q.foldl (fun t e => if e.tag < t then e.tag else t) s.stop

/-- The tag one microstep earlier, federate.c:2779-2786. -/
def predTag (t : Tag) : Tag := if t.microstep > 0 then ⟨t.time, t.microstep - 1⟩ else ⟨t.time - 1, UINT_MAX⟩

/-- `inputs_known_to`, federate.c:1106-1118. -/
def inputsKnownTo (c : Config) (s : State) (t : Tag) : Bool :=
  (List.range c.n).all fun i => decide (lf_tag_compare (s.lv.known i) t ≥ 0)

/-- `lf_wait_until_time`, federate.c:2771-2794. -/
def waitUntilTime (c : Config) (s : State) (t : Tag) : Int :=
  if t.time ≠ c.startTime ∨ t.microstep ≠ 0 then
    if inputsKnownTo c s (predTag t) then t.time else lf_time_add t.time c.sta
  else t.time

/-- `_lf_next_locked` after the waits, reactor_threaded.c:446-465: `_lf_advance_tag`, `_lf_start_time_step`,
`_lf_pop_events`. -/
def advance (c : Config) (s : State) (t : Tag) (l : List Ev) : State :=
  let ds := pops t l
  { s with
    lv := Level.nextTag c s.lv t (fun i => ds.any fun d => d.port = i && d.late) (fun i => ds.any fun d => d.port = i)
    q := rest s.q t
    waited := none
    out := s.out ++ ds }

/-- The release of the workers at the start tag, reactor_threaded.c:629-655: `_lf_pop_events`, `execution_started`. The events
at the start tag are not late. -/
def start_ (c : Config) (s : State) (l : List Ev) : State :=
  let ds := pops c.start l
  { s with
    lv := { s.lv with phase := .running
                      status := fun i => if ds.any fun d => d.port = i then .present else s.lv.status i }
    q := rest s.q c.start
    out := s.out ++ ds }

/-- Assumptions about the environment: the messages and notices on a port come in the order of their tags (`ordered`), in
time (`timely`), no message for the start tag is handled in the moment between the end of the wait for the start time and the
start (`calm`), and no message moves on to the tag of another one (`spaced`). -/
structure Assume where
  ordered : Bool
  timely : Bool
  calm : Bool
  spaced : Bool

/-- The time by which a message or notice has to come in, up to 10 microseconds: the tag plus the STA offset (if the STAA is
negative, plus STA and STAA). -/
def dueBy (c : Config) (i : Nat) (g : Tag) : Int := g.time + c.sta + min 0 (c.port i).staa

/-- A header or notice for a tag is in order: later than all before on the port, and the sender is not gone. -/
def InOrder (s : State) (i : Nat) (g : Tag) : Prop := s.said i < g ∧ s.gone i = false

/-- A header or notice is in time. -/
def InTime (c : Config) (s : State) (i : Nat) (g : Tag) : Prop := s.lv.now + MIN_SLEEP_DURATION ≤ dueBy c i g

/-- The steps. -/
inductive Step (c : Config) (a : Assume) : State → State → Prop
  /-- The header of a message has been read, federate.c:530-590. One thread reads the messages of a sender one after the
  other. The connection does not rule out messages at this tag by its delay. -/
  | header {s} {i : Nat} {g : Tag} {v : Nat} : i < c.n → (c.port i).physical = false → c.start ≤ g → g.time < FOREVER →
      g.microstep < UINT_MAX → exempt c g i = false → (∀ r ∈ s.reading, r.1 ≠ i) → (a.ordered = true → InOrder s i g) →
      (a.timely = true → InTime c s i g) →
      Step c a s { raise s g with reading := (i, g, v) :: s.reading, said := upd s.said i g }
  /-- The payload has been read, federate.c:604-690. -/
  | complete {s} {i : Nat} {g : Tag} {v : Nat} : (i, g, v) ∈ s.reading → Small (s.lv.known i) →
      (a.timely = true → s.lv.cur < g ∨ s.lv.now + MIN_SLEEP_DURATION ≤ g.time + c.sta + (c.port i).staa) →
      (a.calm = true → ¬ (s.lv.phase = .atStart ∧ g = c.start)) →
      (a.spaced = true → found s.q i g = true → found s.q i (bump g) = false) →
      Step c a s (release { handle c s i g v with reading := s.reading.erase (i, g, v) })
  /-- The payload could not be read, federate.c:597-601. -/
  | abort {s} {r : Msg} : r ∈ s.reading → Step c a s (release { s with reading := s.reading.erase r })
  /-- `handle_port_absent_message`, federate.c:700-735. -/
  | absent {s} {i : Nat} {g : Tag} : i < c.n → c.start ≤ g → g.microstep < UINT_MAX → (∀ r ∈ s.reading, r.1 ≠ i) →
      Small (s.lv.known i) → (a.ordered = true → InOrder s i g) → (a.timely = true → InTime c s i g) →
      Step c a s { s with lv := { Level.updatePort c s.lv i g with hist := .absent i g :: s.lv.hist }
                          said := upd s.said i g }
  /-- `mark_inputs_known_absent`, federate.c:301-320, one port. -/
  | gone {s} {i : Nat} : i < c.n → (∀ r ∈ s.reading, r.1 ≠ i) → Small (s.lv.known i) →
      Step c a s { s with lv := { Level.updatePort c s.lv i FOREVER_TAG with hist := .gone i :: s.lv.hist }
                          gone := upd s.gone i true }
  /-- A local event, lib/schedule.c. -/
  | local_ {s} {t : Tag} {v : Nat} : s.lv.cur < t → c.start ≤ t →
      Step c a s { s with q := s.q ++ [⟨none, t, NEVER_TAG, v⟩] }
  /-- `lf_set_stop_tag`: the stop tag is only set to an earlier tag. -/
  | setStop {s} {t : Tag} : s.lv.cur < t → c.start ≤ t → t ≤ s.stop → Step c a s { s with stop := t }
  | clock {s} {t : Int} : s.lv.now ≤ t → t + MIN_SLEEP_DURATION ≤ FOREVER → Step c a s { s with lv := { s.lv with now := t } }
  /-- The wait for the start time is over, reactor_threaded.c:610-618. -/
  | begin {s} : s.lv.phase = .waiting → waitOver c s.lv.now c.startTime →
      Step c a s { s with lv := { s.lv with phase := .atStart, cur := c.start } }
  | start {s} {l : List Ev} : s.lv.phase = .atStart → open_ s c.start → l.Perm (due s.q c.start) →
      Step c a s (start_ c s l)
  /-- `wait_until` returns true in `_lf_next_locked`, reactor_threaded.c:383-391. -/
  | wait {s} : s.lv.phase = .running → s.waited = none → waitOver c s.lv.now (waitUntilTime c s (nextTag s)) →
      Step c a s { s with waited := some (nextTag s) }
  /-- The next tag is looked up again, the barrier is open, the current tag advances, reactor_threaded.c:405-465. -/
  | advance {s} {p : Tag} {l : List Ev} : s.waited = some p → s.lv.cur < nextTag s → (nextTag s).time < FOREVER →
      (nextTag s).microstep < UINT_MAX → open_ s (nextTag s) → s.lv.phase = .running → l.Perm (due s.q (nextTag s)) →
      Step c a s (advance c s (nextTag s) l)
  /-- `lf_stall_advance_level_federation_locked`, federate.c:2680-2686. -/
  | stall {s} {level : Nat} : s.lv.phase = .running → Step c a s { s with lv := Level.stall s.lv level }
  /-- The thread `update_ports_from_staa_offsets` starts to wait, federate.c:1141-1167. -/
  | arm {s} {v : Int} : s.lv.phase = .running →
      Step c a s { s with lv := { s.lv with staaWait := some (s.lv.cur, v, Level.staaUntil c s.lv.cur v) } }
  /-- A port is assumed absent, federate.c:1170-1192. -/
  | timeout {s} {i : Nat} {t : Tag} {u : Int} : i < c.n → s.lv.staaWait = some (t, (c.port i).staa, u) →
      waitOver c s.lv.now u → s.lv.cur = t → s.lv.status i = .unknown → Small (s.lv.known i) →
      Step c a s { s with
        lv := { Level.updatePort c { s.lv with status := upd s.lv.status i .absent } i s.lv.cur with
          hist := .timeout i s.lv.cur s.lv.now :: s.lv.hist } }

/-- The state in which the mutex is first released, reactor_threaded.c:568-610. -/
def init (c : Config) (now : Int) (stop : Tag) : State where
  lv := Level.init c now
  q := []
  last := fun _ => NEVER_TAG
  reading := []
  horizon := FOREVER_TAG
  requestors := 0
  stop := stop
  waited := none
  said := fun _ => NEVER_TAG
  gone := fun _ => false
  got := []
  out := []
  dropped := []

/-- The reachable states. -/
inductive Reach (c : Config) (a : Assume) : State → Prop
  | init (now : Int) (stop : Tag) : now + MIN_SLEEP_DURATION ≤ FOREVER → c.start ≤ stop → stop.time ≤ FOREVER →
      Reach c a (init c now stop)
  | step {s s'} : Reach c a s → Step c a s s' → Reach c a s'

/-- The program: compiled for decentralized coordination, not with the option `-fast`; the numbers are in range. -/
structure WF (c : Config) : Prop where
  lv : Level.WF c
  dec : c.dec = true
  fast : c.fast = false
  sta : c.sta < FOREVER
  staa : ∀ i < c.n, NEVER < (c.port i).staa ∧ (c.port i).staa < FOREVER

end ReactorC.Decentral
