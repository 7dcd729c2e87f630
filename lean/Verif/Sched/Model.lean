import Verif.Tag.Model

/-!
# Model of event scheduling: `lib/schedule.c` and parts of `core/reactor_common.c`

The event queue is represented by the list of its elements (in no particular
order). This is justified by `Verif.PQueue.Props`: searches return a matching
element iff one exists and insertion adds exactly the element.
Event objects get a fresh identity `id`; their recycling is modelled separately.
Tokens (payloads) are numbers with a reference count; `none` is the NULL token.
-/

namespace ReactorC.Sched
open ReactorC

/-- `lf_spacing_policy_t` (include/core/lf_types.h:81): `{ defer, drop, replace }`. Any
value other than drop/replace takes the default branch (defer). -/
inductive Policy where
  | defer | drop | replace
deriving DecidableEq, Repr

/-- The static part of `trigger_t` used here (include/core/lf_types.h:208-218). -/
structure Trigger where
  isTimer : Bool
  isPhysical : Bool
  offset : Int
  period : Int
  policy : Policy
deriving DecidableEq, Repr

/-- `event_t` (include/core/lf_types.h:196-203). `trigger = none` is a dummy event. -/
structure Event where
  id : Nat
  tag : Tag
  trigger : Option Nat
  token : Option Nat
deriving DecidableEq, Repr

/-- The fields of `environment_t` used here (include/core/environment.h:54-63), plus the
mutable `last_tag` field of each trigger and the token reference counts. -/
structure Env where
  cur : Tag
  stop : Tag
  q : List Event
  last : Nat → Tag
  handle : Int
  rc : Nat → Nat

/-- `lf_is_tag_after_stop_tag` (core/reactor_common.c:224-227). -/
def afterStop (env : Env) (t : Tag) : Bool := decide (lf_tag_compare t env.stop > 0)

/-- `lf_set_stop_tag` (core/reactor_common.c:145-150). -/
def setStopTag (env : Env) (t : Tag) : Env :=
  if lf_tag_compare t env.stop < 0 then { env with stop := t } else env

/-- `_lf_done_using` (core/lf_token.c:353-364): NULL is ignored; a zero count only warns. -/
def doneUsing (env : Env) (tok : Option Nat) : Env :=
  match tok with
  | none => env
  | some k => { env with rc := fun j => if j = k then env.rc k - 1 else env.rc j }

/-- `token->ref_count++` (lib/schedule.c:129-133). -/
def incRef (env : Env) (tok : Option Nat) : Env :=
  match tok with
  | none => env
  | some k => { env with rc := fun j => if j = k then env.rc k + 1 else env.rc j }

/-- `pqueue_tag_find_equal_same_tag` on the event queue with `event_matches`
(core/environment.c:30-32): an event with this trigger and tag. -/
def findEv (q : List Event) (tr : Nat) (tag : Tag) : Option Event :=
  q.find? (fun e => decide (e.trigger = some tr ∧ e.tag = tag))

/-- The conflict loop (lib/schedule.c:206-210): increment the microstep (mod 2^32) until no
queued event has this trigger and tag. The fuel (queue length plus one) suffices whenever
the queue has fewer than 2^32 events (`nextFree_free`); for larger queues the C loop need
not terminate, which is not modelled. -/
def nextFree (q : List Event) (tr : Nat) (tag : Tag) : Nat → Tag
  | 0 => tag
  | n + 1 =>
    if (findEv q tr tag).isSome then nextFree q tr ⟨tag.time, wrapU32 (tag.microstep + 1)⟩ n
    else tag

/-- `lf_replace_token` (core/reactor_common.c:473-480) on the queued event `found`. -/
def replaceToken (env : Env) (found : Event) (tok : Option Nat) : Env :=
  let env := if found.token ≠ tok then doneUsing env found.token else env
  { env with q := env.q.map (fun e => if e.id = found.id then { e with token := tok } else e) }

/-- `env->_lf_handle++` with reset of negative values (lib/schedule.c:321-328);
`trigger_handle_t` is `int`. -/
def bumpHandle (h : Int) : Int :=
  let n := if h = 2147483647 then -2147483648 else h + 1
  if n < 0 then 1 else n

/-- The tail of `lf_schedule_trigger` (lib/schedule.c:279-329). `debug` is `!defined(NDEBUG)`. -/
def finishSchedule (debug : Bool) (env : Env) (t : Nat) (intended : Tag) (tok : Option Nat)
    (id : Nat) : Env × Int :=
  let i1 := if debug ∧ intended.time < env.cur.time then ⟨env.cur.time, intended.microstep⟩
    else intended
  let i2 := if lf_tag_compare i1 env.cur = 0 then ⟨i1.time, wrapU32 (i1.microstep + 1)⟩ else i1
  if afterStop env i2 then (doneUsing env tok, 0)
  else
    ({ env with
        last := fun j => if j = t then i2 else env.last j
        q := ⟨id, i2, some t, tok⟩ :: env.q
        handle := bumpHandle env.handle }, env.handle)

/-- The intended tag before conflict and spacing checks (lib/schedule.c:143-191). The signed
sums wrap (undefined in C). -/
def intendedTag (debug : Bool) (env : Env) (T : Trigger) (extra phys : Int) : Tag :=
  let delay := if T.isTimer then extra else wrap64 (extra + T.offset)
  if T.isPhysical then ⟨wrap64 (phys + delay), 0⟩
  else
    let it := lf_delay_tag env.cur delay
    if debug ∧ it.time < env.cur.time then ⟨env.cur.time, it.microstep⟩ else it

/-- `lf_schedule_trigger` (lib/schedule.c:110-330). `tr = none` is the NULL trigger, `phys` the
value `lf_time_physical()` returns, `id` the identity of the new event object. -/
def lf_schedule_trigger (debug : Bool) (trigs : Nat → Trigger) (env : Env) (tr : Option Nat)
    (extra : Int) (tok : Option Nat) (phys : Int) (id : Nat) : Env × Int :=
  if afterStop env env.cur then (doneUsing env tok, 0)
  else
    let extra := if extra < 0 then 0 else extra
    let env1 := incRef env tok
    match tr with
    | none => (doneUsing env1 tok, 0)
    | some t =>
      let T := trigs t
      let intended := intendedTag debug env1 T extra phys
      if T.period ≤ 0 then
        if (findEv env1.q t intended).isSome then
          let free := nextFree env1.q t intended (env1.q.length + 1)
          if afterStop env1 free then (env1, 0)
          else
            ({ env1 with
                last := fun j => if j = t then free else env1.last j
                q := ⟨id, free, some t, tok⟩ :: env1.q }, 0)
        else finishSchedule debug env1 t intended tok id
      else if T.isTimer = false ∧ (env1.last t).time ≠ NEVER then
        let earliest := wrap64 ((env1.last t).time + T.period)
        if earliest > intended.time then
          match T.policy with
          | .drop => (doneUsing env1 tok, 0)
          | .replace =>
            match findEv env1.q t (env1.last t) with
            | some found => (replaceToken env1 found tok, 0)
            | none => finishSchedule debug env1 t ⟨earliest, 0⟩ tok id
          | .defer => finishSchedule debug env1 t ⟨earliest, 0⟩ tok id
        else finishSchedule debug env1 t intended tok id
      else finishSchedule debug env1 t intended tok id

/-- `_lf_schedule_at_tag` (core/reactor_common.c:482-560); `started` is
`env->execution_started`. -/
def lf_schedule_at_tag (trigs : Nat → Trigger) (started : Bool) (env : Env) (t : Nat) (tag : Tag)
    (tok : Option Nat) (id : Nat) : Env × Int :=
  if lf_tag_compare tag env.cur ≤ 0 ∧ started then (env, -1)
  else
    let env1 := incRef env tok
    if afterStop env1 tag then (doneUsing env1 tok, -1)
    else
      match findEv env1.q t tag with
      | some found =>
        match (trigs t).policy with
        | .drop => (if found.token ≠ tok then doneUsing env1 tok else env1, 0)
        | .replace => (replaceToken env1 found tok, 0)
        | .defer =>
          let tag' : Tag := ⟨tag.time, wrapU32 (tag.microstep + 1)⟩
          if afterStop env1 tag' then (env1, 0)
          else ({ env1 with q := ⟨id, tag', some t, tok⟩ :: env1.q,
                            handle := bumpHandle env1.handle }, env1.handle)
      | none => ({ env1 with q := ⟨id, tag, some t, tok⟩ :: env1.q,
                             handle := bumpHandle env1.handle }, env1.handle)

end ReactorC.Sched
