import Verif.Rti.System

/-!
# What a federated program means

A federated program without the federation: what each federate does at a tag is a function of the tags and inputs that it has
seen; the federates are executed one after the other, in the order of tags, and at one tag in the order of the connections
without delay.  There is no RTI, no network, no clock and no thread here.
-/

namespace ReactorC.FedDet
open ReactorC
open ReactorC.Rti (Topology Sane put)

/-- What is present at a tag: a value for some of the triggers (input ports from other federates, actions, timers). -/
abbrev Inputs (V : Type) := Nat → Option V

/-- A tag that a federate executes, and what is present. -/
abbrev Entry (V : Type) := Tag × Inputs V

/-- An event: its tag, its trigger and its value. -/
abbrev Event (V : Type) := Tag × Nat × V

/-- A message: the federate and the input port it is for, the delay of the connection, and the value. -/
structure Out (V : Type) where
  dest : Nat
  delay : Int
  port : Nat
  val : V
deriving DecidableEq

/-- A federated program.  `init`: the events at the beginning, of timers.  `outs`, `scheds`: the messages and the local events
that a federate produces at a tag, when it has executed these tags with these inputs, the latest one first.  `start`, `stop`: the start
time and the stop tag. -/
structure Program (V : Type) where
  T : Topology
  start : Int
  stop : Tag
  init : Nat → List (Event V)
  outs : Nat → List (Entry V) → List (Out V)
  scheds : Nat → List (Entry V) → List (Event V)

variable {V : Type}

/-- The start tag. -/
abbrev Program.first (P : Program V) : Tag := ⟨P.start, 0⟩

/-- A tag that is not near the end of time or the greatest microstep. -/
def Fit (T : Topology) (t : Tag) : Prop := Sane T t ∧ t ≠ FOREVER_TAG

/-- A program is well-formed: connections are those of the topology, events are scheduled for later tags, and `rank` orders
federates along connections without delay, of which there is hence no cycle. -/
structure Program.Ok (P : Program V) (rank : Nat → Nat) : Prop where
  topology : P.T.Ok
  down : ∀ i, ∀ j ∈ P.T.down i, j < P.T.n
  start : Fit P.T P.first
  stop : P.first ≤ P.stop
  dest : ∀ i, ∀ h, ∀ o ∈ P.outs i h, o.dest < P.T.n ∧ (i, o.delay) ∈ P.T.up o.dest
  later : ∀ i, ∀ x h, ∀ e ∈ P.scheds i (x :: h), x.1 < e.1
  after : ∀ i, ∀ e ∈ P.init i, P.first ≤ e.1
  rank : ∀ d i w, (i, w) ∈ P.T.up d → w < 0 → rank i < rank d

/-! ## The sequential execution -/

/-- What has been executed, and the events to come. -/
structure Seq (V : Type) where
  log : Nat → List (Entry V)
  pend : Nat → List (Event V)

/-- What is present at a tag. -/
def present (t : Tag) (l : List (Event V)) : Inputs V :=
  fun k => (l.find? fun e => decide (e.1 = t ∧ e.2.1 = k)).map (·.2.2)

/-- Federate `i` has something to do at `t`: an event, or the start or the stop of the program. -/
def Seq.Due (P : Program V) (s : Seq V) (i : Nat) (t : Tag) : Prop :=
  i < P.T.n ∧ t ≤ P.stop ∧
    ((∃ e ∈ s.pend i, e.1 = t) ∨ (t = P.first ∧ s.log i = []) ∨ (t = P.stop ∧ ∀ x ∈ s.log i, x.1 ≠ t))

/-- The messages of `j` at `t` that are for `d`; a message for a tag after the stop tag is not sent. -/
def mail (P : Program V) (j d : Nat) (t : Tag) (h : List (Entry V)) : List (Event V) :=
  (P.outs j h).filterMap fun o =>
    if o.dest = d ∧ lf_delay_tag t o.delay ≤ P.stop then some (lf_delay_tag t o.delay, o.port, o.val) else none

/-- Federate `i` executes the tag `t`. -/
def Seq.exec (P : Program V) (s : Seq V) (i : Nat) (t : Tag) : Seq V :=
  let h := (t, present t (s.pend i)) :: s.log i
  { log := put s.log i h
    pend := fun d =>
      (if d = i then ((s.pend i).filter fun e => decide (e.1 ≠ t)) ++ P.scheds i h else s.pend d) ++ mail P i d t h }

/-- No trigger has two events at a tag. -/
def Single (l : List (Event V)) : Prop := (l.map fun e => (e.1, e.2.1)).Nodup

/-- The states of the sequential execution: what is due first is executed first.  Programs in which a trigger gets two events
at one tag, and tags near the greatest microstep, are left out. -/
inductive Seq.Reach (P : Program V) (rank : Nat → Nat) : Seq V → Prop
  | init : (∀ i, Single (P.init i)) → Seq.Reach P rank ⟨fun _ => [], P.init⟩
  | step {s : Seq V} {i : Nat} {t : Tag} : Seq.Reach P rank s → s.Due P i t →
      (∀ j u, s.Due P j u → t < u ∨ (t = u ∧ rank i ≤ rank j)) → Fit P.T t →
      (∀ d, Single ((s.exec P i t).pend d)) → Seq.Reach P rank (s.exec P i t)

end ReactorC.FedDet
