import Verif.Runtime.Model
import Verif.Sched.Spec

/-!
# Specification vocabulary for the main loop
-/

namespace ReactorC.Runtime
open ReactorC ReactorC.Sched

/-- Well-formed programs and start parameters. -/
structure WF (P : Prog) (start duration : Int) : Prop where
  start_time : 0 ≤ start ∧ start < FOREVER
  duration : duration < 0 ∨ start + duration < FOREVER
  timer : ∀ t, (P.trigs t).isTimer = true ↔ t ∈ P.timers
  timers_nodup : P.timers.Nodup
  timer_logical : ∀ t ∈ P.timers, (P.trigs t).isPhysical = false
  timer_offset : ∀ t ∈ P.timers, 0 ≤ (P.trigs t).offset ∧ start + (P.trigs t).offset < FOREVER
  timer_period : ∀ t ∈ P.timers, 0 ≤ (P.trigs t).period ∧ start + (P.trigs t).period < FOREVER

/-- A label used within the documented domain: schedule calls as in `CallOk`, and a microstep left
when a stop is requested. -/
def InDomain (P : Prog) (s : St) : Label → Prop
  | .call t extra _ phys => CallOk P.trigs s.env t extra phys
  | .requestStop | .next | .interrupted => s.env.cur.microstep < UINT_MAX
  | _ => True

/-- Executions within the documented domain whose time stays below the end of time. -/
inductive Good (P : Prog) (start duration : Int) : List Label → St → Prop
  | init : Good P start duration [] (init P start duration)
  | step {ls s l s'} : Good P start duration ls s → step P s l = some s' → InDomain P s l →
      s'.env.cur.time < FOREVER → Good P start duration (l :: ls) s'

/-- Tags visited, latest first. -/
def tagsOf (log : List Entry) : List Tag :=
  log.filterMap (fun x => match x with | .tag g => some g | _ => none)

/-- Events processed, latest first. -/
def poppedOf (log : List Entry) : List Event :=
  log.filterMap (fun x => match x with | .popped _ e => some e | _ => none)

/-- Events queued, latest first. -/
def insertedOf (log : List Entry) : List Event :=
  log.filterMap (fun x => match x with | .inserted e => some e | _ => none)

/-- Tags at which the shutdown reactions were triggered, latest first. -/
def shutdownsOf (log : List Entry) : List Tag :=
  log.filterMap (fun x => match x with | .shutdown g => some g | _ => none)

/-- Tags at which timer `t` fired, latest first. -/
def firesOf (t : Nat) (log : List Entry) : List Tag :=
  log.filterMap (fun x => match x with
    | .timerAtStart g t' => if t' = t then some g else none
    | .popped g e => if e.trigger = some t then some g else none
    | _ => none)

/-- Reactions run at tag `g`, latest first. -/
def runsAt (g : Tag) (log : List Entry) : List Nat :=
  log.filterMap (fun x => match x with | .run g' r _ _ => if g' = g then some r else none | _ => none)

/-- `Causes P x g r`: the recorded action `x` obliges the runtime to run reaction `r` at tag `g`:
an event or timer that triggers it, or it is a startup or shutdown reaction. -/
inductive Causes (P : Prog) : Entry → Tag → Nat → Prop
  | event {g e t r} : e.trigger = some t → r ∈ P.reactions t → Causes P (.popped g e) g r
  | timer {g t r} : r ∈ P.reactions t → Causes P (.timerAtStart g t) g r
  | startup {g r} : r ∈ P.startup → Causes P (.startup g) g r
  | shutdown {g r} : r ∈ P.shutdown → Causes P (.shutdown g) g r

/-- The log contains a reason to run `r` at tag `g`: one of `Causes`, or an output produced at `g`. -/
def Caused (P : Prog) (log : List Entry) (g : Tag) (r : Nat) : Prop :=
  (∃ x ∈ log, Causes P x g r) ∨ ∃ r', Entry.output g r' r ∈ log

/-- `r` precedes `d`: `d` is reachable from `r` through outputs. -/
inductive Precedes (P : Prog) : Nat → Nat → Prop
  | single {r d} : d ∈ P.down r → Precedes P r d
  | tail {r m d} : Precedes P r m → d ∈ P.down m → Precedes P r d

/-- Outputs trigger only reactions of greater index (the code generator assigns indices by
topological sort). -/
def Topological (P : Prog) : Prop := ∀ r d, d ∈ P.down r → P.index r < P.index d

/-- Contract of the code generator for `last_enabling_reaction`: such a reaction is triggered by
outputs of that one reaction only. -/
def SoleEnabler (P : Prog) : Prop :=
  ∀ d r, P.lastEnabling d = some r →
    (∀ r', d ∈ P.down r' → r' = r) ∧ (∀ t, d ∉ P.reactions t) ∧ d ∉ P.startup ∧ d ∉ P.shutdown

end ReactorC.Runtime
