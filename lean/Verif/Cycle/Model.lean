import Verif.Level.Model

/-!
# One tag in a federation with cycles of connections without delay

With centralized coordination, federates that are in a cycle of connections without delay get a provisional grant for a tag
(PTAG) before their inputs at this tag are known.  They execute the tag level by level, wait for the status of an input port
before the level of its reaction (core/federated/federate.c:2680-2694), and tell each other, by messages
(core/federated/federate.c:2597-2672) and notices that an output is absent (core/federated/federate.c:2507-2560).

This is the model of several federates that execute one tag.  The waiting, the handling of messages, notices and grants is
that of `Verif.Level.Model` (C45), for each of the federates; each step is one critical section of a federate, so that all
interleavings of threads and federates are included.

Simplified: the reactions of a level are executed in one step, as a function of the state of the reactors and of the inputs (that
the reactions of a level do not interfere, whichever order and worker, is C41-C43 and C61); messages are delivered in order
on each connection, by the RTI or otherwise, after any time; the federates have been started, and nothing is known
about the tag before; what else there is at the tag (timers, actions, inputs of connections with a delay) is part of the initial
state of the reactors.
-/

namespace ReactorC.Cycle
open ReactorC.Level (Status Phase)

/-- A connection without delay.  `port` is the network input port of the destination.  The reaction that sends is at
`sendLevel`, the reaction that tells that the output is absent, if there is one (`tells`), at `absLevel`; both are generated. -/
structure Conn where
  src : Nat
  dst : Nat
  port : Nat
  sendLevel : Nat
  absLevel : Nat
  tells : Bool
deriving Repr

/-- The program: `n` federates with their tables of ports, whether a federate is in a cycle without delay
(`is_in_zero_delay_cycle`, core/federated/RTI/rti_common.c:380-383: only those get provisional grants), `nc` connections, the number of levels, and what the reactions of a level do with the state of the reactors,
given the inputs.  `out k` is the value at the output of connection `k`, if it is present. -/
structure Prog (S V : Type) where
  n : Nat
  cfg : Nat → Level.Config
  zdc : Nat → Bool
  nc : Nat
  conn : Nat → Conn
  levels : Nat → Nat
  exec : Nat → Nat → S → (Nat → Option V) → S
  out : Nat → S → Option V

/-- Where a federate is: before the tag; about to wait for a level, in `lf_stall_advance_level_federation`; past this wait and about to
execute the reactions of the level; or past the tag. -/
inductive Pc
  | before
  | level (L : Nat)
  | passed (L : Nat)
  | done
deriving DecidableEq, Repr

structure Fed (S V : Type) where
  lv : Level.State
  pc : Pc
  /-- the state of the reactors -/
  st : S
  /-- the messages for the tag, in the event queue or in the reaction queue -/
  inp : Nat → Option V
  /-- not in the code: the state of the reactors before each level -/
  tr : Nat → S

structure State (S V : Type) where
  fed : Nat → Fed S V
  /-- what is on the way on each connection: messages (`some`) and notices of absence (`none`) -/
  chan : Nat → List (Tag × Option V)
  /-- a federate has ended with an error, or a message came in after its level had been executed -/
  fault : Bool

def upd {α : Type} (f : Nat → α) (i : Nat) (x : α) : Nat → α := fun j => if j = i then x else f j

variable {S V : Type}

/-- The number of levels that have been executed. -/
def pos (P : Prog S V) (j : Nat) : Pc → Nat
  | .before => 0
  | .level L => L
  | .passed L => L
  | .done => P.levels j

/-- The number of levels that may be executed. -/
def adm (P : Prog S V) (j : Nat) : Pc → Nat
  | .before => 0
  | .level L => L
  | .passed L => L + 1
  | .done => P.levels j

/-- What is sent on connection `k` while level `L` is executed: the generated reaction that sends calls `lf_send_tagged_message`,
core/federated/federate.c:2597-2672, if the output is present, and the one for absence calls `lf_send_port_absent_to_federate`,
core/federated/federate.c:2507-2560, if it is not. -/
def sendNow (P : Prog S V) (g : Tag) (k L : Nat) (x : S) : List (Tag × Option V) :=
  (if L = (P.conn k).sendLevel ∧ (P.out k x).isSome = true then [(g, P.out k x)] else []) ++
  (if L = (P.conn k).absLevel ∧ (P.conn k).tells = true ∧ P.out k x = none then [(g, none)] else [])

/-- What arrives on connection `k` is handled, under the mutex of the environment: `handle_port_absent_message`,
core/federated/federate.c:699-731, and `handle_tagged_message`, core/federated/federate.c:604-690.  A message that is neither
handled at once nor in the future ends the federate with an error, core/federated/federate.c:367-378. -/
def deliver (P : Prog S V) (g : Tag) (s : State S V) (k : Nat) (t : Tag) (o : Option V) (rest : List (Tag × Option V)) : State S V :=
  let j := (P.conn k).dst
  let p := (P.conn k).port
  let f := s.fed j
  match o with
  | none => { s with
      chan := upd s.chan k rest
      fed := upd s.fed j { f with lv := Level.updatePort (P.cfg j) f.lv p t } }
  | some v =>
    let now := Level.handleMessageNow (P.cfg j) f.lv p t true
    { chan := upd s.chan k rest
      fed := upd s.fed j { f with
        lv := Level.handleMessage (P.cfg j) f.lv p t true
        inp := if t = g then upd f.inp p (some v) else f.inp }
      fault := s.fault || (!now && decide (t ≤ f.lv.cur)) || (now && decide (((P.cfg j).port p).level < adm P j f.pc)) }

/-- Both ends of connection `k` are in cycles without delay; such ports are waited for level by level,
core/federated/federate.c:2755-2758. -/
def inCycle (P : Prog S V) (k : Nat) : Bool := P.zdc (P.conn k).src && P.zdc (P.conn k).dst

/-- The source of connection `k` has completed the tag, and all that it has sent for the tag has arrived. -/
def Settled (P : Prog S V) (g : Tag) (s : State S V) (k : Nat) : Prop :=
  (s.fed (P.conn k).src).pc = .done ∧ ∀ e ∈ s.chan k, e.1 ≠ g

/-- All federates upstream of federate `j` have completed the tag: the condition for a grant, core/federated/RTI/rti_common.c:160-228;
what they have sent is forwarded before (C26, C60). -/
def AllIn (P : Prog S V) (g : Tag) (s : State S V) (j : Nat) : Prop :=
  ∀ k < P.nc, (P.conn k).dst = j → Settled P g s k

/-- The federates upstream that are not in cycles have completed the tag: the condition `t_d_strict` for a provisional grant,
core/federated/RTI/rti_common.c:122-153, 220-226. -/
def StrictIn (P : Prog S V) (g : Tag) (s : State S V) (j : Nat) : Prop :=
  ∀ k < P.nc, (P.conn k).dst = j → P.zdc (P.conn k).src = false → Settled P g s k

/-- The reactions of level `L` are executed in federate `j`. -/
def execLevel (P : Prog S V) (g : Tag) (s : State S V) (j L : Nat) : State S V :=
  let f := s.fed j
  let x := P.exec j L f.st f.inp
  { s with
    fed := upd s.fed j { f with pc := .level (L + 1), st := x, tr := upd f.tr (L + 1) x }
    chan := fun k => if k < P.nc ∧ (P.conn k).src = j then s.chan k ++ sendNow P g k L f.st else s.chan k }

/-- What happens at the tag `g`, apart from later messages and further grants. -/
inductive Work (P : Prog S V) (g : Tag) : State S V → State S V → Prop
  /-- `handle_provisional_tag_advance_grant`, core/federated/federate.c:1268-1355: the RTI grants the tag provisionally, once -/
  | ptag {s} {j : Nat} : j < P.n → P.zdc j = true → (s.fed j).lv.lastTAG < g → StrictIn P g s j →
      Work P g s { s with fed := upd s.fed j { s.fed j with lv := Level.handlePtag (P.cfg j) (s.fed j).lv g } }
  /-- `handle_tag_advance_grant`, core/federated/federate.c:1030-1072: the RTI grants the tag, when all upstream federates have
  completed it; what they have sent arrives before (C60, C26) -/
  | tag {s} {j : Nat} : j < P.n → (s.fed j).lv.lastTAG < g → AllIn P g s j →
      Work P g s { s with fed := upd s.fed j { s.fed j with lv := Level.handleTag (P.cfg j) (s.fed j).lv g } }
  /-- the federate advances to the tag, core/threaded/reactor_threaded.c:446-465; events for it are popped -/
  | start {s} {j : Nat} : j < P.n → (s.fed j).pc = .before → g ≤ (s.fed j).lv.lastTAG →
      Work P g s { s with fed := upd s.fed j { s.fed j with
        pc := .level 0
        lv := Level.nextTag (P.cfg j) (s.fed j).lv g (fun _ => false) (fun p => ((s.fed j).inp p).isSome) } }
  /-- `lf_stall_advance_level_federation`, core/federated/federate.c:2680-2694: past the wait, or asleep -/
  | stall {s} {j L : Nat} : j < P.n → (s.fed j).pc = .level L → L < P.levels j → (s.fed j).lv.asleep L = false →
      Work P g s { s with fed := upd s.fed j { s.fed j with
        pc := if L ≥ (s.fed j).lv.mlaa then .level L else .passed L
        lv := Level.stall (s.fed j).lv L } }
  /-- the reactions of a level are executed -/
  | exec {s} {j L : Nat} : j < P.n → (s.fed j).pc = .passed L → Work P g s (execLevel P g s j L)
  /-- the tag is complete -/
  | finish {s} {j : Nat} : j < P.n → (s.fed j).pc = .level (P.levels j) →
      Work P g s { s with fed := upd s.fed j { s.fed j with pc := .done } }
  /-- a message or notice arrives -/
  | deliver {s} {k : Nat} {t : Tag} {o : Option V} {rest : List (Tag × Option V)} : k < P.nc → s.chan k = (t, o) :: rest →
      Work P g s (deliver P g s k t o rest)

inductive Step (P : Prog S V) (g : Tag) : State S V → State S V → Prop
  | work {s s'} : Work P g s s' → Step P g s s'
  /-- a federate that has completed the tag sends messages and notices for later tags -/
  | later {s} {k : Nat} {t : Tag} {o : Option V} : k < P.nc → (s.fed (P.conn k).src).pc = .done → g < t → t.microstep < UINT_MAX →
      Step P g s { s with chan := upd s.chan k (s.chan k ++ [(t, o)]) }
  /-- further grants, also while the tag is executed -/
  | grant {s} {j : Nat} {t : Tag} : j < P.n → g ≤ t → (s.fed j).lv.lastTAG ≤ t → AllIn P g s j →
      Step P g s { s with fed := upd s.fed j { s.fed j with lv := Level.handleTag (P.cfg j) (s.fed j).lv t } }

/-- Before the tag: all federates are at earlier tags, have not got a grant for this tag and know nothing about it. -/
structure Initial (P : Prog S V) (g : Tag) (x : Nat → S) (s : State S V) : Prop where
  chan : ∀ k, s.chan k = []
  ok : s.fault = false
  pc : ∀ j, (s.fed j).pc = .before
  st : ∀ j, (s.fed j).st = x j
  tr : ∀ j, (s.fed j).tr 0 = x j
  inp : ∀ j p, (s.fed j).inp p = none
  running : ∀ j, (s.fed j).lv.phase = .running
  cur : ∀ j, (s.fed j).lv.cur < g
  grant : ∀ j, (s.fed j).lv.lastTAG < g
  known : ∀ j p, (s.fed j).lv.known p < g
  awake : ∀ j L, (s.fed j).lv.asleep L = false

inductive Reach (P : Prog S V) (g : Tag) (x : Nat → S) : State S V → Prop
  | init {s} : Initial P g x s → Reach P g x s
  | step {s s'} : Reach P g x s → Step P g s s' → Reach P g x s'

end ReactorC.Cycle
