import Verif.Tag.Spec

/-!
# Model of the wait for network input ports, level by level

`core/federated/federate.c:185-320, 469-475, 560-690, 700-735, 1028-1077, 1106-1250, 1268-1318, 2313-2327, 2680-2770`,
`core/threaded/reactor_threaded.c:415-466, 557-650, 200-232` and the calls of `lf_stall_advance_level_federation` in the
schedulers.

One federate, its top-level environment. Each step of the model is one critical section under the mutex of the environment,
so the steps of workers, of the threads that listen to the RTI and to other federates, and of the thread that declares inputs
absent interleave arbitrarily. Network messages are reduced to their port and tag. The event and reaction queues are not part
of this model (see C10-C12, C41-C43): the federate advances to any later tag, and calls the wait for any level at any time.
-/

namespace ReactorC.Level

/-- `MIN_SLEEP_DURATION`, 10 microseconds. core/include: include/core/reactor_common.h:45. -/
def MIN_SLEEP_DURATION : Int := 10000

/-- `INT_MAX`, no port blocks. -/
def INT_MAX : Nat := 2147483647

/-- `port_status_t`, include/core/lf_types.h. -/
inductive Status | absent | present | unknown
deriving DecidableEq, Repr

/-- One entry of the generated tables of network input ports, federate.c:165-177: the index of the first reaction, whether
the connection is physical, its delay (`_lf_action_delay_table`; negative: no delay), whether the port is part of a
zero-delay cycle (`_lf_zero_delay_cycle_action_table`), the federate it comes from and its STAA (`staa_lst`). -/
structure Port where
  index : Nat
  physical : Bool := false
  delay : Int := -1
  cycle : Bool := false
  source : Nat := 0
  staa : Int := 0
deriving Repr

/-- `LF_LEVEL`, include/core/utils/util.h:71. -/
def Port.level (p : Port) : Nat := p.index % 65536

/-- The program: `FEDERATED_DECENTRALIZED` or not, the option `-fast`, the ports, the start time (as agreed with the RTI) and
the STA offset (0 if not decentralized). -/
structure Config where
  dec : Bool
  fast : Bool := false
  n : Nat
  port : Nat → Port
  startTime : Int
  sta : Int := 0

/-- The start tag. -/
def Config.start (c : Config) : Tag := ⟨c.startTime, 0⟩

/-- Before the start time (the start procedure waits for it, reactor_threaded.c:610), between the start time and the release
of the workers, and after. -/
inductive Phase | waiting | atStart | running
deriving DecidableEq, Repr

/-- What has come in; for the properties only. -/
inductive Heard
  | message (port : Nat) (tag : Tag)
  | absent (port : Nat) (tag : Tag)
  | grant (tag : Tag)
  | provisional (tag : Tag)
  | gone (port : Nat)
  | timeout (port : Nat) (tag : Tag) (now : Int)
deriving DecidableEq, Repr

/-- The state: `env->current_tag`, `max_level_allowed_to_advance`, per port `trigger->last_known_status_tag` and
`trigger->status`, `_fed.last_TAG`, `_fed.is_last_TAG_provisional`, physical time, what the thread
`update_ports_from_staa_offsets` waits for (the tag when it started, the STAA, the time), and per level whether a worker is
asleep in `lf_stall_advance_level_federation` for it, and whether one has got past it at the current tag. -/
structure State where
  phase : Phase
  cur : Tag
  mlaa : Nat
  known : Nat → Tag
  status : Nat → Status
  lastTAG : Tag
  prov : Bool
  now : Int
  staaWait : Option (Tag × Int × Int)
  asleep : Nat → Bool
  admitted : Nat → Bool
  hist : List Heard

def upd {α : Type} (f : Nat → α) (i : Nat) (v : α) : Nat → α := fun j => if j = i then v else f j

/-- Ports in the table that `lf_update_max_level` goes through, federate.c:2721-2739. -/
def inTable (c : Config) (i : Nat) : Bool := c.dec || (c.port i).cycle

/-- The start tag and the delay of the connection rule out messages at the current tag, federate.c:2748-2753. -/
def exempt (c : Config) (cur : Tag) (i : Nat) : Bool :=
  c.dec && (((c.port i).delay = 0 && cur.time = c.startTime && cur.microstep = 0) ||
    ((c.port i).delay > 0 && decide (lf_tag_compare cur (lf_delay_strict c.start (c.port i).delay) ≤ 0)))

/-- The condition for blocking on a port, federate.c:2741-2761. -/
def blocks (c : Config) (cur : Tag) (known : Nat → Tag) (i : Nat) : Bool :=
  inTable c i && !exempt c cur i && decide (lf_tag_compare cur (known i) > 0) && !(c.port i).physical

/-- The test for a grant, federate.c:2728 (centralized coordination only). -/
def granted (c : Config) (cur tag : Tag) (prov : Bool) : Bool :=
  !c.dec && (decide (lf_tag_compare cur tag < 0) || (decide (lf_tag_compare cur tag = 0) && !prov))

/-- The loop over the ports, federate.c:2740-2765. -/
def minLevel (c : Config) (cur : Tag) (known : Nat → Tag) (l : List Nat) (m : Nat) : Nat :=
  l.foldl (fun m i => if blocks c cur known i then min m (c.port i).level else m) m

/-- `lf_update_max_level`, federate.c:2715-2769: the new value of `max_level_allowed_to_advance`. -/
def maxLevel (c : Config) (cur : Tag) (known : Nat → Tag) (tag : Tag) (prov : Bool) : Nat :=
  if granted c cur tag prov then INT_MAX else minLevel c cur known (List.range c.n) INT_MAX

/-- `microstep++` on a `uint32_t`. -/
def bump (t : Tag) : Tag := ⟨t.time, wrapU32 (t.microstep + 1)⟩

/-- `lf_cond_broadcast(&lf_port_status_changed)`: nobody is asleep any more (each one tests the condition again). -/
def broadcast (s : State) : State := { s with asleep := fun _ => false }

/-- The new `last_known_status_tag` in `update_last_known_status_on_input_port`, federate.c:264-274. -/
def newKnown (cur known tag : Tag) : Tag :=
  let tag := if lf_tag_compare tag cur < 0 then cur else tag
  let comparison := lf_tag_compare tag known
  let tag := if comparison = 0 then bump tag else tag
  if comparison ≥ 0 then tag else known

/-- `update_last_known_status_on_input_port`, federate.c:263-292. -/
def updatePort (c : Config) (s : State) (i : Nat) (tag : Tag) : State :=
  let tag' := if lf_tag_compare tag s.cur < 0 then s.cur else tag
  if lf_tag_compare tag' (s.known i) ≥ 0 then
    let known := upd s.known i (newKnown s.cur (s.known i) tag)
    broadcast { s with known := known, mlaa := maxLevel c s.cur known s.lastTAG s.prov }
  else s

/-- `handle_message_now`, federate.c:468-474. The comparison of the tag with `trigger->last_tag` is left open (`recent`). -/
def handleMessageNow (c : Config) (s : State) (i : Nat) (tag : Tag) (recent : Bool) : Bool :=
  decide ((c.port i).index ≥ s.mlaa) && decide (lf_tag_compare tag s.cur = 0) && recent &&
    decide (lf_tag_compare tag (s.known i) > 0) && decide (s.phase = .running) && !(c.port i).physical

/-- The tag that a message that is not handled at once is accounted for with, federate.c:638-653. -/
def actualTag (c : Config) (s : State) (i : Nat) (tag : Tag) : Tag :=
  if c.dec && decide (lf_tag_compare tag s.cur ≤ 0) then
    if lf_tag_compare (bump s.cur) (s.known i) ≤ 0 then bump (s.known i) else bump s.cur
  else tag

/-- `handle_tagged_message`, federate.c:604-657: the critical section, without the queues. -/
def handleMessage (c : Config) (s : State) (i : Nat) (tag : Tag) (recent : Bool) : State :=
  if handleMessageNow c s i tag recent then
    let s := updatePort c s i tag
    { s with status := upd s.status i .present }
  else updatePort c s i (actualTag c s i tag)

/-- `update_last_known_status_on_input_ports`, federate.c:205-234: the new `last_known_status_tag` of the ports. -/
def knownAfterGrant (s : State) (tag : Tag) : Nat → Tag :=
  fun i => if lf_tag_compare tag (s.known i) ≥ 0 then tag else s.known i

/-- Whether a port changed, federate.c:207-223. -/
def notify (c : Config) (s : State) (tag : Tag) : Bool :=
  (List.range c.n).any fun i => decide (lf_tag_compare tag (s.known i) ≥ 0)

/-- `update_last_known_status_on_input_ports`, federate.c:205-234. -/
def updatePorts (c : Config) (s : State) (tag : Tag) : State :=
  let known := knownAfterGrant s tag
  if notify c s tag then
    let m := maxLevel c s.cur known tag false
    let s' := { s with known := known, mlaa := m }
    if m ≠ s.mlaa then broadcast s' else s'
  else { s with known := known }

/-- `handle_tag_advance_grant`, federate.c:1044-1067. -/
def handleTag (c : Config) (s : State) (tag : Tag) : State :=
  let s := updatePorts c s tag
  if lf_tag_compare tag s.lastTAG ≥ 0 then { s with lastTAG := tag, prov := false } else s

/-- `handle_provisional_tag_advance_grant`, federate.c:1291-1311, after the test for an earlier grant, for which the federate
exits. -/
def handlePtag (c : Config) (s : State) (tag : Tag) : State :=
  broadcast { s with lastTAG := tag, prov := true, mlaa := maxLevel c s.cur s.known tag true }

/-- `lf_next_locked` after the decision for the next tag, reactor_threaded.c:446-465, with
`lf_reset_status_fields_on_input_port_triggers`, federate.c:2313-2327, and the effect of `_lf_pop_events` on the ports,
reactor_common.c:279-287, 303: `tardy` are the ports with an event whose intended tag is earlier (decentralized only),
`present` those with an event. -/
def nextTag (c : Config) (s : State) (tag : Tag) (tardy present : Nat → Bool) : State :=
  let status := fun i => if lf_tag_compare (s.known i) tag ≥ 0 then Status.absent else .unknown
  let s := broadcast { s with cur := tag, status := status, mlaa := maxLevel c tag s.known s.lastTAG s.prov,
                              admitted := fun _ => false }
  let known := fun i => if tardy i && decide (lf_tag_compare tag (s.known i) > 0) then tag else s.known i
  { s with known := known, status := fun i => if present i then .present else s.status i,
           mlaa := maxLevel c tag known s.lastTAG s.prov }

/-- `lf_stall_advance_level_federation_locked`, federate.c:2680-2686: the worker goes to sleep or past the wait. -/
def stall (s : State) (level : Nat) : State :=
  if level ≥ s.mlaa then { s with asleep := upd s.asleep level true }
  else { s with admitted := upd s.admitted level true }

/-- The time the thread waits for, federate.c:1148-1167. -/
def staaUntil (c : Config) (cur : Tag) (staa : Int) : Int :=
  let wait_time := lf_time_add staa c.sta
  let wait_until_time := lf_time_add cur.time wait_time
  if wait_time < 5 * MIN_SLEEP_DURATION then wait_until_time + 5 * MIN_SLEEP_DURATION else wait_until_time

/-- `wait_until` returns true, reactor_threaded.c:198-232: in fast mode, if less than `MIN_SLEEP_DURATION` remains, or when
the time has come. -/
def waitOver (c : Config) (now until_ : Int) : Prop := c.fast = true ∨ until_ - now < MIN_SLEEP_DURATION

/-- The state in which the mutex is first released, reactor_threaded.c:568-610: the ports have been reset before the start
time was known (at `start_time` as it was, which is the current tag then, as it is in `maxLevel` here), the current tag has
been set back by the STA offset. -/
def init (c : Config) (now : Int) : State where
  phase := .waiting
  cur := ⟨c.startTime - c.sta, 0⟩
  mlaa := maxLevel c c.start (fun _ => NEVER_TAG) NEVER_TAG false
  known := fun _ => NEVER_TAG
  status := fun _ => .unknown
  lastTAG := NEVER_TAG
  prov := false
  now := now
  staaWait := none
  asleep := fun _ => false
  admitted := fun _ => false
  hist := []

/-- What is known about an input port at a tag: a message on the port, or the notice that there is none, with this tag or a
later one; a grant of the RTI for this tag or a later one, or a provisional one for a later tag; the sender is gone; or the
time for waiting has run out at this tag or a later one. -/
def Evidence (hist : List Heard) (i : Nat) (t : Tag) : Prop :=
  ∃ h ∈ hist, match h with
    | .message j g => j = i ∧ t ≤ g
    | .absent j g => j = i ∧ t ≤ g
    | .grant g => t ≤ g
    | .provisional g => t < g
    | .gone j => j = i
    | .timeout j g _ => j = i ∧ t ≤ g

/-- The microstep can be incremented (a time of `FOREVER` is later than any current tag in any case). -/
def Small (t : Tag) : Prop := t.time < FOREVER → t.microstep < UINT_MAX

/-- With decentralized coordination, a message comes in before its tag is reached or, during the execution, at its tag, the
first one of its port at this tag, and not at a tag at which the delay of the connection rules out messages. -/
def InTime (c : Config) (s : State) (i : Nat) (g : Tag) (recent : Bool) : Prop :=
  c.dec = true → s.cur < g ∨ (s.phase = .running ∧ recent = true ∧ exempt c s.cur i = false)

/-- The steps. If `orderly` is set, what comes in is in order: on each port, messages and notices come in time, and only
about tags about which nothing was known before; the RTI does not take grants back; and the time for waiting does not run out
for a port that something is known about. The tags of messages are not earlier than the start tag. -/
inductive Step (c : Config) (orderly : Bool) : State → State → Prop
  | message {s} {i : Nat} {g : Tag} {recent : Bool} : i < c.n → (c.port i).physical = false → c.start ≤ g →
      Small (s.known i) → (orderly = true → s.cur ≤ g ∧ ¬ Evidence s.hist i g ∧ InTime c s i g recent) →
      Step c orderly s { handleMessage c s i g recent with hist := .message i g :: s.hist }
  | absent {s} {i : Nat} {g : Tag} : i < c.n → c.start ≤ g → Small (s.known i) →
      (orderly = true → s.cur ≤ g ∧ ¬ Evidence s.hist i g) →
      Step c orderly s { updatePort c s i g with hist := .absent i g :: s.hist }
  | grant {s} {g : Tag} : c.dec = false → (orderly = true → s.lastTAG ≤ g) →
      Step c orderly s { handleTag c s g with hist := .grant g :: s.hist }
  | provisional {s} {g : Tag} : c.dec = false → ¬ g < s.lastTAG → ¬ (g = s.lastTAG ∧ s.prov = false) →
      Step c orderly s { handlePtag c s g with hist := .provisional g :: s.hist }
  /-- `mark_inputs_known_absent`, federate.c:301-320, one port (the loop over the ports does not release the mutex). -/
  | gone {s} {i : Nat} : c.dec = true → i < c.n → Small (s.known i) →
      Step c orderly s { updatePort c s i FOREVER_TAG with hist := .gone i :: s.hist }
  /-- The start time has come, reactor_threaded.c:618. -/
  | begin {s} : s.phase = .waiting → Step c orderly s { s with phase := .atStart, cur := c.start }
  /-- `env->execution_started = true`, reactor_threaded.c:655. -/
  | run {s} : s.phase = .atStart → Step c orderly s { s with phase := .running }
  | next {s} {g : Tag} {tardy present : Nat → Bool} : s.phase = .running → s.cur < g → g.time < FOREVER →
      g.microstep < UINT_MAX → (c.dec = false ∨ orderly = true → ∀ i, tardy i = false) →
      Step c orderly s (nextTag c s g tardy present)
  | stall {s} {level : Nat} : s.phase = .running → Step c orderly s (stall s level)
  | clock {s} {t : Int} : s.now ≤ t → Step c orderly s { s with now := t }
  /-- The thread `update_ports_from_staa_offsets` starts to wait for the ports with the given STAA, federate.c:1141-1167. -/
  | arm {s} {v : Int} : c.dec = true → s.phase = .running →
      Step c orderly s { s with staaWait := some (s.cur, v, staaUntil c s.cur v) }
  /-- The wait is over and the tag is the same: a port is assumed absent, federate.c:1170-1192, one port (the loop over the
  ports does not release the mutex). -/
  | timeout {s} {i : Nat} {t : Tag} {u : Int} : i < c.n → s.staaWait = some (t, (c.port i).staa, u) → waitOver c s.now u →
      s.cur = t → s.status i = .unknown → Small (s.known i) → (orderly = true → ¬ Evidence s.hist i s.cur) →
      Step c orderly s { updatePort c { s with status := upd s.status i .absent } i s.cur with
        hist := .timeout i s.cur s.now :: s.hist }

/-- What can happen in a federate of the given kind. -/
inductive Reach (c : Config) (orderly : Bool) : State → Prop
  | init (now : Int) : Reach c orderly (init c now)
  | step {s s'} : Reach c orderly s → Step c orderly s s' → Reach c orderly s'

end ReactorC.Level
