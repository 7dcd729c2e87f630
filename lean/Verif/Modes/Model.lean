import Verif.Sched.Model

/-!
# Modal reactors

Models core/modal_models/modes.c: which modes are active, the mode transitions made at the end of a tag, the suspension
and reactivation of events, and the startup, reset and shutdown reactions inside modes.  Scheduling is done by the model
of lib/schedule.c and `_lf_schedule_at_tag` in Verif.Sched.Model.

The modal reactors of an environment are numbered by their position in the array `states` (`modal_reactor_states`, which
the code generator orders so that an enclosing reactor comes first); modes, triggers and reactions are numbers, too.

Simplifications: no entry of `states` is NULL; the bits of `reactor_mode_t.flags` are separate Booleans, and so are those
of `triggered_reactions_request`; the linked list of suspended events is a list (head first), and the free list of its
elements is left out; a state variable that is reset automatically is an integer.  Each suspended event is recorded
with the time at which it was suspended, which the code does not store and the functions below do not use.
-/

namespace ReactorC.Modes
open ReactorC ReactorC.Sched

/-- `lf_mode_change_type_t`, include/core/modal_models/modes.h:75. -/
inductive Change
  | no_transition
  | reset_transition
  | history_transition
deriving DecidableEq, Repr

/-- What the code generator sets up and what never changes. -/
structure Prog where
  /-- the number of modal reactors -/
  n : Nat
  /-- `reactor_mode_state_t.parent_mode`: the mode around the modal reactor -/
  parent : Nat → Option Nat
  /-- `reactor_mode_t.state`: the modal reactor a mode belongs to -/
  owner : Nat → Nat
  /-- `reactor_mode_state_t.initial_mode` -/
  initial : Nat → Nat
  /-- the triggers -/
  trigs : Nat → Trigger
  /-- `trigger_t.mode`: the mode around a trigger -/
  tmode : Nat → Option Nat
  /-- `env->timer_triggers` -/
  timers : List Nat
  /-- `state_resets`: mode, variable, initial value -/
  resets : List (Nat × Nat × Int)
  /-- `startup_reactions`, `reset_reactions` and `shutdown_reactions` of the environment, with their modes -/
  startup : List (Nat × Option Nat)
  reset : List (Nat × Option Nat)
  shutdown : List (Nat × Option Nat)
  /-- `!defined(NDEBUG)` -/
  debug : Bool

/-- The mutable fields of all `reactor_mode_state_t` (`current_mode`, `next_mode`, `mode_change`) and `reactor_mode_t`
(`flags`, `deactivation_time`), include/core/modal_models/modes.h:78-93, and `triggered_reactions_request`. -/
structure Modes where
  current : Nat → Nat
  next : Nat → Option Nat
  change : Nat → Change
  active : Nat → Bool
  needsStartup : Nat → Bool
  hadStartup : Nat → Bool
  needsReset : Nat → Bool
  deact : Nat → Int
  reqStartup : Bool
  reqReset : Bool

/-- A suspended event and when it was suspended. -/
structure Susp where
  ev : Event
  at_ : Int
deriving DecidableEq, Repr

/-- The environment, the suspended events, the state variables that are reset automatically, and a counter for the
identities of event objects. -/
structure Events where
  env : Env
  suspended : List Susp
  vars : Nat → Int
  nextId : Nat

/-- Everything; `start` is the start time. -/
structure St where
  start : Int
  m : Modes
  e : Events

/-- Update of a function at one argument: a store to a field. -/
def upd {α : Type} (f : Nat → α) (i : Nat) (v : α) : Nat → α := fun j => if j = i then v else f j

/-- `_lf_mode_is_active`, core/modal_models/modes.c:136-142. -/
def isActive (m : Modes) : Option Nat → Bool
  | none => true
  | some md => m.active md

/-- The loop of `_lf_mode_is_active_fallback`, core/modal_models/modes.c:151-172; `fuel` bounds the depth of nesting. -/
def isActiveFallback (P : Prog) (m : Modes) : Nat → Nat → Bool
  | 0, _ => false
  | fuel + 1, md =>
    if m.current (P.owner md) ≠ md then false
    else
      match P.parent (P.owner md) with
      | none => true
      | some p => isActiveFallback P m fuel p

/-- Before `_lf_initialize_mode_states`: all fields are zero except that `current_mode` is the initial mode. -/
def blank (P : Prog) : Modes :=
  { current := P.initial, next := fun _ => none, change := fun _ => .no_transition, active := fun _ => false,
    needsStartup := fun _ => false, hadStartup := fun _ => false, needsReset := fun _ => false, deact := fun _ => 0,
    reqStartup := false, reqReset := false }

/-- The loop of `_lf_initialize_mode_states` over the first `k` modal reactors, core/modal_models/modes.c:185-194. -/
def initLoop (P : Prog) : Nat → Modes
  | 0 => blank P
  | k + 1 =>
    let m := initLoop P k
    if isActive m (P.parent k) then
      { m with active := upd m.active (m.current k) true, needsStartup := upd m.needsStartup (m.current k) true }
    else m

/-- `_lf_initialize_mode_states`, core/modal_models/modes.c:182-197. -/
def initModes (P : Prog) : Modes := { initLoop P P.n with reqStartup := true }

/-- `lf_set_mode` in a reaction, include/core/modal_models/modes.h:59-63. -/
def setMode (P : Prog) (m : Modes) (md : Nat) (ch : Change) : Modes :=
  { m with next := upd m.next (P.owner md) (some md), change := upd m.change (P.owner md) ch }

/-- The hierarchical reset, core/modal_models/modes.c:342-351: if the mode around the modal reactor is about to be entered
with a reset, the modal reactor goes to its initial mode with a reset. -/
def hier (P : Prog) (m : Modes) (i : Nat) : Modes :=
  match P.parent i with
  | none => m
  | some p =>
    if m.next (P.owner p) = some p ∧ m.change (P.owner p) = .reset_transition then
      { m with next := upd m.next i (some (P.initial i)), change := upd m.change i .reset_transition }
    else m

/-- `lf_schedule_trigger(env, timer, timer->offset, NULL)`, core/modal_models/modes.c:379, 396. A timer is not a physical
action, so the physical time does not matter. -/
def startTimer (P : Prog) (e : Events) (t : Nat) : Events :=
  { e with
    env := (lf_schedule_trigger P.debug P.trigs e.env (some t) (P.trigs t).offset none 0 e.nextId).1
    nextId := e.nextId + 1 }

/-- The reset of state variables, core/modal_models/modes.c:362-368. -/
def resetVars (md : Nat) : List (Nat × Nat × Int) → (Nat → Int) → Nat → Int
  | [], vars => vars
  | (mode, var, value) :: rest, vars => resetVars md rest (if mode = md then upd vars var value else vars)

/-- The loop over the timers, core/modal_models/modes.c:375-381: timers without period are started again. -/
def resetTimers (P : Prog) (md : Nat) : List Nat → Events → Events
  | [], e => e
  | t :: rest, e =>
    resetTimers P md rest (if (P.trigs t).period = 0 ∧ P.tmode t = some md then startTimer P e t else e)

/-- The tag at which a suspended event is scheduled again, core/modal_models/modes.c:405-418. -/
def resumeTag (start : Int) (m : Modes) (md : Nat) (cur : Tag) (ev : Event) : Tag :=
  let remaining := ev.tag.time - (if m.deact md ≠ 0 then m.deact md else start)
  ⟨cur.time + remaining, if remaining = 0 then wrapU32 (cur.microstep + 1) else 0⟩

/-- The mode of the trigger of an event, if any. -/
def evMode (P : Prog) (ev : Event) : Option Nat :=
  match ev.trigger with
  | none => none
  | some t => P.tmode t

/-- What is done with one suspended event of the mode `md` that modal reactor `i` is about to enter,
core/modal_models/modes.c:389-421. -/
def reactivate (P : Prog) (start : Int) (m : Modes) (i md : Nat) (ev : Event) (e : Events) : Events :=
  match ev.trigger with
  | none => e
  | some t =>
    if m.change i = .reset_transition then
      if (P.trigs t).isTimer then startTimer P e t else e
    else if md ≠ m.current i then
      { e with
        env := (lf_schedule_at_tag P.trigs true e.env t (resumeTag start m md e.env.cur ev) ev.token e.nextId).1
        nextId := e.nextId + 1 }
    else e

/-- The loop over the suspended events, core/modal_models/modes.c:385-429: those of the mode to be entered are reset or
reactivated and leave the list. -/
def resumeLoop (P : Prog) (start : Int) (m : Modes) (i md : Nat) : List Susp → Events → Events × List Susp
  | [], e => (e, [])
  | x :: rest, e =>
    if evMode P x.ev = some md then resumeLoop P start m i md rest (reactivate P start m i md x.ev e)
    else
      let r := resumeLoop P start m i md rest e
      (r.1, x :: r.2)

/-- The effect of entering the next mode, if there is one, core/modal_models/modes.c:354-430. -/
def enter (P : Prog) (start : Int) (m : Modes) (i : Nat) (e : Events) : Events :=
  match m.next i with
  | none => e
  | some md =>
    let e :=
      if m.change i = .reset_transition then
        resetTimers P md P.timers { e with vars := resetVars md P.resets e.vars }
      else e
    let r := resumeLoop P start m i md e.suspended e
    { r.1 with suspended := r.2 }

/-- The first loop of `_lf_process_mode_changes` over the first `k` modal reactors, core/modal_models/modes.c:338-432:
the modes, the events, and `transition`. -/
def loop1 (P : Prog) (s : St) : Nat → Modes × Events × Bool
  | 0 => (s.m, s.e, false)
  | k + 1 =>
    let r := loop1 P s k
    let m := hier P r.1 k
    (m, enter P s.start m k r.2.1, r.2.2 || (m.next k).isSome)

/-- The second loop for modal reactor `i`, core/modal_models/modes.c:441-483; `now` is the current logical time. -/
def apply (P : Prog) (now : Int) (m : Modes) (i : Nat) : Modes :=
  let m := { m with active := upd m.active (m.current i) false }
  let m :=
    match m.next i with
    | none => m
    | some md =>
      { m with
        deact := upd m.deact (m.current i) now
        current := upd m.current i md
        needsStartup := if m.hadStartup md then m.needsStartup else upd m.needsStartup md true
        needsReset := upd m.needsReset md (decide (m.change i = .reset_transition))
        next := upd m.next i none
        change := upd m.change i .no_transition }
  if isActive m (P.parent i) then
    { m with
      active := upd m.active (m.current i) true
      reqStartup := m.reqStartup || m.needsStartup (m.current i)
      reqReset := m.reqReset || m.needsReset (m.current i) }
  else m

/-- The second loop over the first `k` modal reactors. -/
def loop2 (P : Prog) (now : Int) (m : Modes) : Nat → Modes
  | 0 => m
  | k + 1 => apply P now (loop2 P now m k) k

/-- The events of modes that are not active leave the event queue and are suspended, core/modal_models/modes.c:486-511.
`_lf_add_suspended_event` prepends. -/
def retract (P : Prog) (m : Modes) (e : Events) : Events :=
  let gone := e.env.q.filter (fun ev => isActive m (evMode P ev) = false)
  { e with
    suspended := (gone.map (fun ev => ⟨ev, e.env.cur.time⟩)).reverse ++ e.suspended
    env := { e.env with q := e.env.q.filter (fun ev => isActive m (evMode P ev)) } }

/-- The dummy event at the next microstep, core/modal_models/modes.c:513-518. -/
def addDummy (m : Modes) (e : Events) : Events :=
  if m.reqStartup ∨ m.reqReset then
    { e with
      env := { e.env with
        q := ⟨e.nextId, ⟨e.env.cur.time, wrapU32 (e.env.cur.microstep + 1)⟩, none, none⟩ :: e.env.q }
      nextId := e.nextId + 1 }
  else e

/-- `_lf_process_mode_changes`, core/modal_models/modes.c:332-520. -/
def process (P : Prog) (s : St) : St :=
  let r := loop1 P s P.n
  if r.2.2 then
    let m := loop2 P s.e.env.cur.time r.1 P.n
    { s with m := m, e := addDummy m (retract P m r.2.1) }
  else { s with m := r.1, e := r.2.1 }

/-- The part of `_lf_handle_mode_startup_reset_reactions` that clears flags, for modal reactor `i`,
core/modal_models/modes.c:262-275. -/
def clear (m : Modes) (i : Nat) : Modes :=
  if m.active (m.current i) then
    let md := m.current i
    { m with
      hadStartup := if m.needsStartup md then upd m.hadStartup md true else m.hadStartup
      needsStartup := upd m.needsStartup md false
      needsReset := upd m.needsReset md false }
  else m

/-- The same over the first `k` modal reactors. -/
def clearLoop (m : Modes) : Nat → Modes
  | 0 => m
  | k + 1 => clear (clearLoop m k) k

/-- The reactions of a list that are in an active mode with the given flag, if the request is set,
core/modal_models/modes.c:229-242 for startup reactions and 246-259 for reset reactions.  (A reaction that is queued
already is not queued again, which makes no difference to whether it is executed.) -/
def pick (m : Modes) (request : Bool) (flag : Nat → Bool) (l : List (Nat × Option Nat)) : List Nat :=
  if request then
    l.filterMap (fun r =>
      match r.2 with
      | none => none
      | some md => if m.active md ∧ flag md then some r.1 else none)
  else []

/-- `_lf_handle_mode_startup_reset_reactions`, core/modal_models/modes.c:222-280: the startup reactions and the reset
reactions that are triggered, and the modes afterwards. -/
def startupReset (P : Prog) (m : Modes) : (List Nat × List Nat) × Modes :=
  ((pick m m.reqStartup m.needsStartup P.startup, pick m m.reqReset m.needsReset P.reset),
    { clearLoop m P.n with reqStartup := false, reqReset := false })

/-- `_lf_handle_mode_shutdown_reactions`, core/modal_models/modes.c:297-318. -/
def shutdown (P : Prog) (m : Modes) : List Nat :=
  P.shutdown.filterMap (fun r =>
    match r.2 with
    | none => none
    | some md => if m.hadStartup md then some r.1 else none)

/-- The test in `_lf_trigger_reaction`, core/threaded/reactor_threaded.c:532-545 and core/reactor.c:104-111: a reaction in
a mode that is not active is not queued. -/
def triggers (m : Modes) (mode : Option Nat) : Bool := isActive m mode

/-- `_lf_initialize_timer` for a timer in a mode that is not active at the start, core/reactor_common.c:358-369. -/
def suspendTimer (P : Prog) (e : Events) (t : Nat) : Events :=
  { e with
    suspended := ⟨⟨e.nextId, ⟨e.env.cur.time + (P.trigs t).offset, 0⟩, some t, none⟩, e.env.cur.time⟩ :: e.suspended
    nextId := e.nextId + 1 }

/-- `_lf_initialize_timer` for a timer in an active mode or in none, core/reactor_common.c:371-399.  (The reactions that
are triggered at once are not part of the model.) -/
def startFirst (P : Prog) (e : Events) (t : Nat) : Events :=
  let T := P.trigs t
  if T.offset = 0 ∧ T.period = 0 then e
  else
    let tag : Tag := ⟨e.env.cur.time + (if T.offset = 0 then T.period else T.offset), 0⟩
    if afterStop e.env tag then e
    else { e with env := { e.env with q := ⟨e.nextId, tag, some t, none⟩ :: e.env.q }, nextId := e.nextId + 1 }

/-- `_lf_initialize_timers`, core/reactor_common.c:401-410. -/
def initTimers (P : Prog) (m : Modes) : List Nat → Events → Events
  | [], e => e
  | t :: rest, e =>
    initTimers P m rest (if isActive m (P.tmode t) = false then suspendTimer P e t else startFirst P e t)

/-- The start of an execution, core/reactor.c:339-346, before startup reactions are triggered. -/
def init (P : Prog) (start : Int) (stop : Tag) (vars : Nat → Int) : St :=
  { start := start
    m := initModes P
    e := initTimers P (initModes P) P.timers
      { env := { cur := ⟨start, 0⟩, stop := stop, q := [], last := fun _ => NEVER_TAG, handle := 1, rc := fun _ => 0 }
        suspended := [], vars := vars, nextId := 0 } }

/-!
## Executions
-/

/-- A state, whether the transitions of the current tag have been made, the startup and reset reactions in modes triggered
so far (latest first), and the modes that have been active at some tag. -/
structure Sys where
  st : St
  done : Bool
  starts : List Nat
  resets : List Nat
  seen : Nat → Bool

/-- `_lf_trigger_startup_reactions` at the start tag, core/reactor_common.c:428-433, with no reset reactions, or
`_lf_pop_events`, 231-233: the reactions triggered inside modes. -/
def handleModes (P : Prog) (y : Sys) : Sys :=
  let r := startupReset P y.st.m
  { st := { y.st with m := r.2 }
    done := false
    starts := r.1.1 ++ y.starts
    resets := r.1.2 ++ y.resets
    seen := fun md => y.seen md || y.st.m.active md }

/-- The first tag. -/
def boot (P : Prog) (start : Int) (stop : Tag) (vars : Nat → Int) : Sys :=
  handleModes P ⟨init P start stop vars, false, [], [], fun _ => false⟩

/-- `_lf_pop_events`, core/reactor_common.c:307-311, for an event of the current tag: a periodic timer is scheduled
again. -/
def again (P : Prog) (ev : Event) (e : Events) : Events :=
  match ev.trigger with
  | none => e
  | some t =>
    if (P.trigs t).isTimer ∧ (P.trigs t).period > 0 then
      { e with
        env := (lf_schedule_trigger P.debug P.trigs e.env (some t) (P.trigs t).period none 0 e.nextId).1
        nextId := e.nextId + 1 }
    else e

/-- The loop of `_lf_pop_events`, core/reactor_common.c:235-336.  (Here the events are taken in the order of the list, in
the code in the order of the event queue.) -/
def repop (P : Prog) : List Event → Events → Events
  | [], e => e
  | ev :: rest, e => repop P rest (again P ev e)

/-- The tag becomes `g`, and its events are taken from the queue. -/
def pop (P : Prog) (g : Tag) (e : Events) : Events :=
  repop P (e.env.q.filter (fun ev => ev.tag = g))
    { e with env := { e.env with cur := g, q := e.env.q.filter (fun ev => ev.tag ≠ g) } }

/-- What may happen, in any order: during a tag reactions ask for modes; an event of an action in an active mode (or in
none) is scheduled at any time; the transitions are made (core/reactor.c:192-195 and core/threaded/reactor_threaded.c:
313-316); then the tag advances to the earliest event (or to an earlier tag, such as the stop tag), and its events are
taken from the queue.  Executions that reach the end of time or that run out of microsteps are left out. -/
inductive Step (P : Prog) : Sys → Sys → Prop
  | setMode (y : Sys) (md : Nat) (ch : Change) : y.done = false → P.owner md < P.n → ch ≠ .no_transition →
      isActive y.st.m (P.parent (P.owner md)) = true →
      Step P y { y with st := { y.st with m := setMode P y.st.m md ch } }
  | schedule (y : Sys) (t : Nat) (tag : Tag) (tok : Option Nat) : (P.trigs t).isTimer = false →
      isActive y.st.m (P.tmode t) = true → 0 < lf_tag_compare tag y.st.e.env.cur →
      Step P y { y with st := { y.st with e := { y.st.e with
        env := { y.st.e.env with q := ⟨y.st.e.nextId, tag, some t, tok⟩ :: y.st.e.env.q }
        nextId := y.st.e.nextId + 1 } } }
  | process (y : Sys) : y.done = false → Step P y { y with st := process P y.st, done := true }
  | advance (y : Sys) (g : Tag) : y.done = true → 0 < lf_tag_compare g y.st.e.env.cur →
      (∀ ev ∈ y.st.e.env.q, lf_tag_compare g ev.tag ≤ 0) → g.time < FOREVER → g.microstep + 1 < UINT_MAX →
      Step P y (handleModes P { y with st := { y.st with e := pop P g y.st.e } })

/-- Any execution of any length. -/
inductive Reach (P : Prog) : Sys → Prop
  | boot (start : Int) (stop : Tag) (vars : Nat → Int) : 0 < start → start < FOREVER → stop.time ≤ FOREVER →
      Reach P (boot P start stop vars)
  | step {y z : Sys} : Reach P y → Step P y z → Reach P z

end ReactorC.Modes
