import Verif.FedDet.Spec
import Verif.Fedn.Model

/-!
# A federated program that is executed by the federation of the code

The federation is that of Verif.Fedn.Model: the RTI, the sockets, the thread of each federate that advances the tag, asks for
grants and waits for physical time, and the thread that reads what the RTI sends.  Here the federates execute a program of
Verif.FedDet.Spec: what is sent and scheduled at a tag is what the program says for the tags and inputs that the federate has
executed so far, and values travel with the messages and events.

A federate that has come to its end resigns.  What is left out: physical actions, requests to stop, federates that crash or resign
before their end, and connections that break, none of which is up to the program alone; and executions in which a trigger gets two events with one tag (the code defers the second to the next
microstep: for messages see C12).  The events of a program that come from its reactions have the distance 0 of Verif.Fedn.Model
from the outputs: nothing is assumed about which reactions send.
-/

namespace ReactorC.FedDet
open ReactorC
open ReactorC.Rti (Topology Down Up Sys Sane put)
open ReactorC.Fedn (Config Fed State Ev Act Pc)

/-- What the result must not depend on: the interval of `ADVANCE_MESSAGE_INTERVAL`, the option `-fast`, and the physical clocks at
the start. -/
structure Timing where
  interval : Int
  fast : Bool
  now0 : Nat → Int

variable {V : Type}

/-- The federation that executes a program. -/
def conf (P : Program V) (M : Timing) : Config :=
  { T := P.T
    start := P.start
    minDelay := fun _ => -1
    timeout := fun _ => P.stop
    interval := M.interval
    fast := M.fast
    q0 := fun i => (P.init i).map fun e => ⟨e.1, some 0⟩
    c0 := fun _ => [0]
    now0 := M.now0
    early := false
    ties := false
    stops := false
    shut := false }

/-- The state of an execution: that of the federation; the tags and inputs that each federate has executed, the latest one first; the
events on its event queue, with their triggers and values; what its reactions have yet to send and to schedule at the current
tag; the messages that are on the way to the RTI; and those that the RTI has forwarded and that are yet to be read. -/
structure St (V : Type) where
  s : State
  log : Nat → List (Entry V)
  pend : Nat → List (Event V)
  outs : Nat → List (Out V)
  scheds : Nat → List (Event V)
  up : Nat → List (Nat × Event V)
  down : Nat → List (Event V)

/-- The beginning. -/
def St.init (P : Program V) (M : Timing) : St V :=
  { s := Fedn.init (conf P M)
    log := fun _ => []
    pend := P.init
    outs := fun _ => []
    scheds := fun _ => []
    up := fun _ => []
    down := fun _ => [] }

/-- Federate `i` begins to execute a tag, its current one in `s`: `_lf_pop_events` makes the triggers present that have an event
with this tag, core/reactor_common.c:214-340, and the reactions are executed. -/
def St.enter (P : Program V) (x : St V) (i : Nat) (s : State) : St V :=
  let t := (s.fed i).cur
  let h := (t, present t (x.pend i)) :: x.log i
  { x with
    s := s
    log := put x.log i h
    pend := put x.pend i ((x.pend i).filter fun e => decide (e.1 ≠ t))
    outs := put x.outs i (P.outs i h)
    scheds := put x.scheds i (P.scheds i h) }

/-- No event of the trigger is there with this tag. -/
def Fresh (l : List (Event V)) (e : Event V) : Prop := ∀ e' ∈ l, (e'.1, e'.2.1) ≠ (e.1, e.2.1)

/-- The thread of `i` that advances the tag takes a step in which it may get to the next tag. -/
def Mover (i : Nat) : Act → Prop
  | .ask j => j = i
  | .wake j => j = i
  | .advance j => j = i
  | _ => False

/-- Steps of the thread that advances the tag, and of the clock, that have nothing to do with events. -/
def Idle : Act → Prop
  | .tick _ _ => True
  | .begin _ => True
  | .resume _ => True
  | .exit _ => True
  | _ => False

/-- The first message from `i` that the RTI has yet to read is one for a federate. -/
def NextUp (s : State) (i : Nat) : Prop := ∃ d t w m q, s.sys.up i = Up.msg d t w m :: q

/-- The next thing that `i` reads from the RTI is a message with tag `m`. -/
def NextDown (s : State) (i : Nat) (m : Tag) : Prop := (s.sys.rti.out i)[(s.fed i).taken]? = some (.msg m)

/-- The steps of the execution of a program: every one, except `drops`, is a step of the federation. -/
inductive Step (P : Program V) (M : Timing) : St V → St V → Prop
  | idle {x : St V} (a : Act) : Idle a → Fedn.pre (conf P M) x.s a → Step P M x { x with s := Fedn.post (conf P M) x.s a }
  /-- the thread that advances the tag does not get to a tag -/
  | moves {x : St V} (i : Nat) (a : Act) : Mover i a → Fedn.pre (conf P M) x.s a →
      ((Fedn.post (conf P M) x.s a).fed i).pc ≠ .executing → Step P M x { x with s := Fedn.post (conf P M) x.s a }
  /-- it does -/
  | enters {x : St V} (i : Nat) (a : Act) : Mover i a → Fedn.pre (conf P M) x.s a → (x.s.fed i).pc ≠ .executing →
      ((Fedn.post (conf P M) x.s a).fed i).pc = .executing → Step P M x (x.enter P i (Fedn.post (conf P M) x.s a))
  /-- a reaction sends a message -/
  | sends {x : St V} (i : Nat) (o : Out V) (r : List (Out V)) : x.outs i = o :: r → Fedn.pre (conf P M) x.s (.send i o.dest o.delay) →
      Step P M x { x with
        s := Fedn.post (conf P M) x.s (.send i o.dest o.delay)
        outs := put x.outs i r
        up := put x.up i (x.up i ++ [(o.dest, lf_delay_tag (x.s.fed i).cur o.delay, o.port, o.val)]) }
  /-- a message for a tag after the stop tag is not sent, core/federated/federate.c:2625-2630 -/
  | drops {x : St V} (i : Nat) (o : Out V) (r : List (Out V)) : x.outs i = o :: r → (x.s.fed i).pc = .executing →
      (x.s.fed i).stop < lf_delay_tag (x.s.fed i).cur o.delay → Step P M x { x with outs := put x.outs i r }
  /-- a reaction schedules an event -/
  | schedules {x : St V} (i : Nat) (e : Event V) (r : List (Event V)) : x.scheds i = e :: r →
      Fedn.pre (conf P M) x.s (.schedule i 0 ⟨e.1, some 0⟩) → Fresh (x.pend i) e →
      Step P M x { x with
        s := Fedn.post (conf P M) x.s (.schedule i 0 ⟨e.1, some 0⟩)
        scheds := put x.scheds i r
        pend := put x.pend i (e :: x.pend i) }
  /-- all reactions have been executed; if a message had come for the tag, then also one that is triggered by a network input, and
  `need_to_send_LTC` is set, core/threaded/reactor_threaded.c:844-850 -/
  | completes {x : St V} (i : Nat) (need : Bool) : x.outs i = [] → x.scheds i = [] → Fedn.pre (conf P M) x.s (.complete i need) →
      (Down.msg (x.s.fed i).cur ∈ (x.s.sys.rti.out i).take (x.s.fed i).taken → need = true) →
      Step P M x { x with s := Fedn.post (conf P M) x.s (.complete i need) }
  /-- the RTI handles something else than a message -/
  | handles {x : St V} (i : Nat) : ¬ NextUp x.s i → Fedn.pre (conf P M) x.s (.handle i) →
      Step P M x { x with s := Fedn.post (conf P M) x.s (.handle i) }
  /-- the RTI forwards a message -/
  | forwards {x : St V} (i d : Nat) (e : Event V) (r : List (Nat × Event V)) : NextUp x.s i → x.up i = (d, e) :: r →
      Fedn.pre (conf P M) x.s (.handle i) →
      Step P M x { x with
        s := Fedn.post (conf P M) x.s (.handle i)
        up := put x.up i r
        down := put x.down d (x.down d ++ [e]) }
  /-- a federate reads something else than a message -/
  | takes {x : St V} (i : Nat) (direct need : Bool) : (∀ m, ¬ NextDown x.s i m) → Fedn.pre (conf P M) x.s (.take i direct need) →
      Step P M x { x with s := Fedn.post (conf P M) x.s (.take i direct need) }
  /-- a federate reads a message -/
  | receives {x : St V} (i : Nat) (direct need : Bool) (m : Tag) (e : Event V) (r : List (Event V)) : NextDown x.s i m →
      x.down i = e :: r → Fedn.pre (conf P M) x.s (.take i direct need) → Fresh (x.pend i) e →
      Step P M x { x with
        s := Fedn.post (conf P M) x.s (.take i direct need)
        down := put x.down i r
        pend := put x.pend i (e :: x.pend i) }

  /-- a federate that has come to its end resigns, core/federated/federate.c:2029-2044 and 2507-2540 -/
  | resigns {x : St V} (i : Nat) : (x.s.fed i).pc = .gone → (x.s.sys.rti.node i).connected = true → Up.resign ∉ x.s.sys.up i →
      Fedn.pre (conf P M) x.s (.leave i) → Step P M x { x with s := Fedn.post (conf P M) x.s (.leave i) }

/-- The states of the executions of a program. -/
inductive Reach (P : Program V) (M : Timing) : St V → Prop
  | init : (∀ i, Single (P.init i)) → Reach P M (St.init P M)
  | step {x y : St V} : Reach P M x → Step P M x y → Reach P M y

end ReactorC.FedDet
