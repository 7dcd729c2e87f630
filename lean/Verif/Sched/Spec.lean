import Verif.Sched.Model
import Verif.Tag.Spec

/-!
# Specification vocabulary for scheduling

* `requested`: the tag a call asks for, in exact integer arithmetic;
* `CallOk`: when a call is inside the documented domain (no 64-bit overflow, a
  physical clock ahead of logical time, microsteps left);
* histories: arbitrary interleavings of schedule calls and tag advances.
-/

namespace ReactorC.Sched
open ReactorC

/-- The tag a call of `lf_schedule` asks for. A logical action: the current time plus minimum
delay plus extra delay (or the next microstep if that is zero). A physical action: the physical time plus minimum delay plus extra delay. -/
def requested (cur : Tag) (T : Trigger) (extra phys : Int) : Tag :=
  let d := T.offset + max 0 extra
  if T.isPhysical then ⟨phys + d, 0⟩
  else if d = 0 then ⟨cur.time, cur.microstep + 1⟩
  else ⟨cur.time + d, 0⟩

/-- `g` is the first tag at or after `req`, at the same time, at which the trigger has no pending
event. -/
def FirstFree (q : List Event) (t : Nat) (req g : Tag) : Prop :=
  g.time = req.time ∧ req.microstep ≤ g.microstep ∧
  (∀ e ∈ q, e.trigger = some t → e.tag ≠ g) ∧
  ∀ m, req.microstep ≤ m → m < g.microstep → ∃ e ∈ q, e.trigger = some t ∧ e.tag = ⟨req.time, m⟩

/-- Domain of a call on an action: time arithmetic does not overflow, microsteps are left for
every queued event, and (for a physical action) the requested time is past the current one. -/
structure CallOk (trigs : Nat → Trigger) (env : Env) (t : Nat) (extra phys : Int) : Prop where
  action : (trigs t).isTimer = false
  cur_time : 0 ≤ env.cur.time ∧ env.cur.time < FOREVER
  microsteps : env.cur.microstep + env.q.length + 2 ≤ UINT_MAX
  offset : 0 ≤ (trigs t).offset
  delay : env.cur.time + ((trigs t).offset + max 0 extra) < FOREVER
  physical : (trigs t).isPhysical = true →
    env.cur.time < phys + ((trigs t).offset + max 0 extra) ∧
      phys + ((trigs t).offset + max 0 extra) < FOREVER
  spacing : 0 < (trigs t).period → (env.last t).time = NEVER ∨
    (0 ≤ (env.last t).time ∧ (env.last t).time + (trigs t).period ≤ FOREVER)

/-- A step of a history: a call to schedule an action (creating, if at all, an event with the
fresh identity `id`), or the advance of logical time to `g`, consuming all events up to `g`. -/
inductive Op where
  | schedule (t : Nat) (extra : Int) (tok : Option Nat) (phys : Int) (id : Nat)
  | advance (g : Tag)

/-- Effect of a step. -/
def Op.apply (debug : Bool) (trigs : Nat → Trigger) (env : Env) : Op → Env
  | .schedule t extra tok phys id => (lf_schedule_trigger debug trigs env (some t) extra tok phys id).1
  | .advance g => { env with cur := g, q := env.q.filter (fun e => decide (g < e.tag)) }

/-- Steps allowed in a history. -/
def Op.Legal (trigs : Nat → Trigger) (env : Env) : Op → Prop
  | .schedule t extra _ phys id => CallOk trigs env t extra phys ∧ ∀ e ∈ env.q, e.id ≠ id
  | .advance g => env.cur < g

/-- Tags of the events for trigger `t` that a step puts on the queue. -/
def Op.inserted (debug : Bool) (trigs : Nat → Trigger) (env : Env) (t : Nat) : Op → List Tag
  | .schedule t' extra tok phys id =>
    if t' = t then
      (((Op.schedule t' extra tok phys id).apply debug trigs env).q.filter
        (fun e => decide (e.id = id))).map Event.tag
    else []
  | .advance _ => []

/-- `Hist debug trigs t env env' log`: some legal history leads from `env` to `env'`, and `log`
lists, latest first, the tags of the events for `t` queued on the way. -/
inductive Hist (debug : Bool) (trigs : Nat → Trigger) (t : Nat) (env₀ : Env) : Env → List Tag → Prop
  | nil : Hist debug trigs t env₀ env₀ []
  | snoc {env log} (op : Op) : Hist debug trigs t env₀ env log → op.Legal trigs env →
      Hist debug trigs t env₀ (op.apply debug trigs env) (op.inserted debug trigs env t ++ log)

end ReactorC.Sched
