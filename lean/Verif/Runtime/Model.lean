import Verif.Sched.Model

/-!
# Model of the single-threaded main loop: `core/reactor.c` and `core/reactor_common.c`

A labelled transition system. A label resolves what the code leaves open: which of
several least elements a priority queue returns, what a reaction body does (calls of
`lf_schedule`, of `lf_request_stop`, outputs produced), readings of the physical clock and
interruptions of the wait.  `step` is a function, so each labelled step is deterministic.

Not modelled here: modes, federation, the payload bookkeeping at event pop (see
`Verif.Token`), tracing. The event and reaction queues are lists of their elements
(see `Verif.PQueue.Props`).
-/

namespace ReactorC.Runtime
open ReactorC ReactorC.Sched

/-- A program: the static data the code generator provides. -/
structure Prog where
  /-- static trigger data -/
  trigs : Nat → Trigger
  /-- `trigger->reactions` -/
  reactions : Nat → List Nat
  /-- `reaction->index` -/
  index : Nat → Nat
  /-- `reaction->deadline`, negative if there is none -/
  deadline : Nat → Int
  /-- whether `reaction->deadline_violation_handler` is not NULL -/
  hasHandler : Nat → Bool
  /-- reactions that outputs of the reaction may trigger -/
  down : Nat → List Nat
  /-- `reaction->last_enabling_reaction` -/
  lastEnabling : Nat → Option Nat
  timers : List Nat
  startup : List Nat
  shutdown : List Nat
  keepalive : Bool
  /-- `!defined(NDEBUG)` -/
  debug : Bool

/-- Where the main loop is. -/
inductive Phase where
  /-- in `_lf_pop_events` -/
  | popping
  /-- in `_lf_do_step` -/
  | reacting
  /-- in `next`, before advancing the tag -/
  | waiting
  /-- `lf_reactor_c_main` has returned -/
  | stopped
  /-- `lf_print_error_and_exit` -/
  | aborted
deriving DecidableEq, Repr

/-- How a reaction was invoked: its body, its deadline handler, or neither (violation without
handler). -/
inductive Kind where
  | body | handler | skipped
deriving DecidableEq, Repr

/-- Ghost record of observable actions. -/
inductive Entry where
  | tag (g : Tag)
  | inserted (e : Event)
  | popped (at_ : Tag) (e : Event)
  | timerAtStart (at_ : Tag) (t : Nat)
  | run (at_ : Tag) (r : Nat) (k : Kind) (phys : Int)
  /-- reaction `r` produced an output that triggers `d` -/
  | output (at_ : Tag) (r d : Nat)
  /-- the startup reactions were triggered -/
  | startup (at_ : Tag)
  /-- the shutdown reactions were triggered -/
  | shutdown (at_ : Tag)
deriving DecidableEq, Repr

/-- State of the runtime. `active` is the reaction with status `running`, `exec` the reaction
being executed (different from `active` only when a downstream reaction is executed
immediately) with how it was invoked. `ran` (ghost) lists the reactions executed at the current tag,
latest first, and `log` (ghost) everything observable, latest first. -/
structure St where
  env : Env
  rq : List Nat
  active : Option Nat
  exec : Option (Nat × Kind)
  phase : Phase
  nextId : Nat
  ran : List Nat
  log : List Entry

/-- `_lf_trigger_reaction` (core/reactor.c:100-120): enqueue if the status is inactive. -/
def trigger (active : Option Nat) (rq : List Nat) (r : Nat) : List Nat :=
  if r ∈ rq ∨ active = some r then rq else r :: rq

/-- A call of `lf_schedule_trigger` with a new event object, recording an inserted event. -/
def doSchedule (P : Prog) (s : St) (t : Nat) (extra : Int) (tok : Option Nat) (phys : Int) : St :=
  let env' := (lf_schedule_trigger P.debug P.trigs s.env (some t) extra tok phys s.nextId).1
  { s with
    env := env'
    nextId := s.nextId + 1
    log := (env'.q.filter (fun e => decide (e.id = s.nextId))).map Entry.inserted ++ s.log }

/-- Deadline check (core/reactor.c:157-180, core/reactor_common.c:828-848) and the resulting kind of
invocation. The signed sum wraps (undefined in C). -/
def invocation (P : Prog) (cur : Tag) (r : Nat) (phys : Int) : Kind :=
  if P.deadline r ≥ 0 ∧ (P.deadline r = 0 ∨ phys > wrap64 (cur.time + P.deadline r)) then
    if P.hasHandler r then .handler else .skipped
  else .body

/-- The loop of `schedule_output_reactions` (core/reactor_common.c:731-780) over the downstream
reactions of the outputs produced: returns the candidate to execute now and the queue. -/
def outLoop (P : Prog) (active : Option Nat) (r : Nat) :
    List Nat → Option Nat → Nat → List Nat → Option Nat × List Nat
  | [], cand, _, rq => (cand, rq)
  | d :: ds, cand, num, rq =>
    if cand = some d then outLoop P active r ds cand num rq
    else if num = 0 ∧ P.lastEnabling d = some r then outLoop P active r ds (some d) 1 rq
    else
      let rq := match cand with
        | some c => trigger active rq c
        | none => rq
      outLoop P active r ds none (num + 1) (trigger active rq d)

/-- Least tag in the event queue: `pqueue_tag_peek` (core/utils/pqueue_tag.c). -/
def minTag : List Event → Option Tag
  | [] => none
  | e :: q =>
    match minTag q with
    | none => some e.tag
    | some g => if lf_tag_compare e.tag g ≤ 0 then some e.tag else some g

/-- `{.time = current.time, .microstep = current.microstep + 1}` (core/reactor.c:236, 286-287). -/
def stopSoon (env : Env) : Tag := ⟨env.cur.time, wrapU32 (env.cur.microstep + 1)⟩

/-- The part of `next` before the wait (core/reactor.c:225-246): the environment with a possibly
lowered stop tag, and the tag to advance to. -/
def planNext (P : Prog) (env : Env) : Env × Tag :=
  match minTag env.q with
  | none =>
    let env := if P.keepalive then env else setStopTag env (stopSoon env)
    (env, if afterStop env FOREVER_TAG then env.stop else FOREVER_TAG)
  | some g => (env, if afterStop env g then env.stop else g)

/-- The check in `_lf_advance_tag` (core/reactor_common.c:642-676): true when it exits with an
error. -/
def advanceFails (P : Prog) (env : Env) (g : Tag) : Bool :=
  (P.debug && (match minTag env.q with
    | some m => decide (lf_tag_compare g m > 0)
    | none => false)) || decide (¬ lf_tag_compare env.cur g < 0)

/-- Labels. -/
inductive Label where
  /-- the event queue yields this event at the current tag -/
  | popEvent (e : Event)
  /-- no further event at the current tag -/
  | donePop
  /-- the reaction queue yields this reaction; `phys` is the clock reading of its deadline check -/
  | start (r : Nat) (phys : Int)
  /-- `lf_schedule` on action `t` -/
  | call (t : Nat) (extra : Int) (tok : Option Nat) (phys : Int)
  /-- `lf_request_stop` -/
  | requestStop
  /-- the executing reaction returns; `outs` are the downstream reactions of the outputs it
  produced, in order; `phys` a clock reading for an immediately executed one -/
  | finish (outs : List Nat) (phys : Int)
  /-- `_lf_do_step` returns -/
  | endStep
  /-- `next` with a completed wait -/
  | next
  /-- `next` with an interrupted wait -/
  | interrupted

/-- One step; `none` when the label is not possible. -/
def step (P : Prog) (s : St) : Label → Option St
  | .popEvent e =>
    -- body of the loop in `_lf_pop_events` (core/reactor_common.c:235-336)
    if s.phase = .popping ∧ e ∈ s.env.q ∧ minTag s.env.q = some e.tag ∧
        lf_tag_compare e.tag s.env.cur = 0 then
      let s1 := { s with env := { s.env with q := s.env.q.erase e }
                         log := .popped s.env.cur e :: s.log }
      match e.trigger with
      | none => some s1
      | some t =>
        let s2 := { s1 with rq := (P.reactions t).foldl (trigger s1.active) s1.rq }
        if (P.trigs t).isTimer ∧ (P.trigs t).period > 0 then
          some (doSchedule P s2 t (P.trigs t).period none 0)
        else some s2
    else none
  | .donePop =>
    if s.phase = .popping ∧ (∀ g, minTag s.env.q = some g → lf_tag_compare g s.env.cur ≠ 0) then
      some { s with phase := .reacting }
    else none
  | .start r phys =>
    -- core/reactor.c:134-141: pop from the reaction queue, whose order is by index
    if s.phase = .reacting ∧ s.active = none ∧ s.exec = none ∧ r ∈ s.rq ∧
        (∀ x ∈ s.rq, P.index r ≤ P.index x) then
      let k := invocation P s.env.cur r phys
      some { s with rq := s.rq.erase r, active := some r, exec := some (r, k),
                    ran := r :: s.ran, log := .run s.env.cur r k phys :: s.log }
    else none
  | .call t extra tok phys =>
    -- from a reaction, or asynchronously outside critical sections
    if (s.phase = .reacting ∨ s.phase = .waiting) ∧ (P.trigs t).isTimer = false then
      some (doSchedule P s t extra tok phys)
    else none
  | .requestStop =>
    -- core/reactor.c:280-289
    if s.phase = .reacting ∨ s.phase = .waiting then
      some { s with env := setStopTag s.env (stopSoon s.env) }
    else none
  | .finish outs phys =>
    -- core/reactor.c:171-191 and `schedule_output_reactions` (core/reactor_common.c:715-867)
    match s.exec with
    | none => none
    | some (r, k) =>
      if s.phase = .reacting ∧ (∀ d ∈ outs, d ∈ P.down r) ∧ (k = .skipped → outs = []) then
        let log := outs.map (Entry.output s.env.cur r) ++ s.log
        match outLoop P s.active r outs none 0 s.rq with
        | (some d, rq) =>
          let k' := invocation P s.env.cur d phys
          some { s with rq := rq, exec := some (d, k'), ran := d :: s.ran,
                        log := .run s.env.cur d k' phys :: log }
        | (none, rq) => some { s with rq := rq, exec := none, active := none, log := log }
      else none
  | .endStep =>
    -- core/reactor.c:134, 196-200
    if s.phase = .reacting ∧ s.rq = [] ∧ s.exec = none then
      if lf_tag_compare s.env.cur s.env.stop ≥ 0 then some { s with phase := .stopped }
      else some { s with phase := .waiting }
    else none
  | .next =>
    -- core/reactor.c:219-277 up to the call of `_lf_pop_events`
    if s.phase = .waiting then
      let (env, g) := planNext P s.env
      if advanceFails P env g then some { s with env := env, phase := .aborted }
      else
        let env := { env with cur := g }
        if lf_tag_compare g env.stop ≥ 0 then
          some { s with env := env, rq := P.shutdown.foldl (trigger s.active) s.rq, ran := [],
                        phase := .popping, log := .shutdown g :: .tag g :: s.log }
        else some { s with env := env, ran := [], phase := .popping, log := .tag g :: s.log }
    else none
  | .interrupted =>
    if s.phase = .waiting then some { s with env := (planNext P s.env).1 } else none

/-- `_lf_initialize_timer` (core/reactor_common.c:354-399) without modes. The sum wraps
(undefined in C). -/
def initTimer (P : Prog) (s : St) (t : Nat) : St :=
  let T := P.trigs t
  let s1 := if T.offset = 0 then
      { s with rq := (P.reactions t).foldl (trigger s.active) s.rq
               log := .timerAtStart s.env.cur t :: s.log }
    else s
  if T.offset = 0 ∧ T.period = 0 then s1
  else
    let delay := if T.offset = 0 then T.period else T.offset
    let g : Tag := ⟨wrap64 (s.env.cur.time + delay), 0⟩
    if afterStop s.env g then s1
    else
      let e : Event := ⟨s1.nextId, g, some t, none⟩
      { s1 with env := { s1.env with q := e :: s1.env.q }, nextId := s1.nextId + 1
                log := .inserted e :: s1.log }

/-- `environment_init_tags` (core/environment.c:195-205). -/
def initEnv (start duration : Int) : Env where
  cur := ⟨start, 0⟩
  stop := if duration ≥ 0 then ⟨wrap64 (start + duration), 0⟩ else FOREVER_TAG
  q := []
  last := fun _ => NEVER_TAG
  handle := 1
  rc := fun _ => 0

/-- Initialization in `lf_reactor_c_main` (core/reactor.c:335-353). -/
def init (P : Prog) (start duration : Int) : St :=
  let s0 : St := { env := initEnv start duration, rq := [], active := none, exec := none,
                   phase := .reacting, nextId := 0, ran := [], log := [.startup ⟨start, 0⟩, .tag ⟨start, 0⟩] }
  let s1 := { s0 with rq := P.startup.foldl (trigger none) [] }
  let s2 := P.timers.foldl (initTimer P) s1
  if lf_tag_compare s2.env.cur s2.env.stop ≥ 0 then
    { s2 with rq := P.shutdown.foldl (trigger none) s2.rq, log := .shutdown s2.env.cur :: s2.log }
  else s2

/-- States reachable by the labels in the list (in order of occurrence, latest first). -/
inductive Exec (P : Prog) (start duration : Int) : List Label → St → Prop
  | init : Exec P start duration [] (init P start duration)
  | step {ls s l s'} : Exec P start duration ls s → step P s l = some s' →
      Exec P start duration (l :: ls) s'

end ReactorC.Runtime
