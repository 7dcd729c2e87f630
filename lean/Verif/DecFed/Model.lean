import Verif.DecFed.Agree
import Verif.Decentral.Props

/-!
# Model of a federation with decentralized coordination

The federates of `Verif.Decentral.Model` (`core/federated/federate.c` and `core/threaded/reactor_threaded.c`, compiled with
`FEDERATED_DECENTRALIZED`), each with its own clock, execute a federated program (`Verif.FedDet.Spec`).  They send messages to each other
over direct connections, `lf_send_tagged_message`, federate.c:2597-2675, and notices that there is no message,
`lf_send_port_absent_to_federate`, federate.c:2507-2554.  There is no RTI: it does not take part after the start time is agreed.

Simplifications.  The reactions of a federate at a tag are one step, at the end of which what they produce is sent; this step is taken when
`lf_stall_advance_level_federation` would not stop any level any more.  No socket fails, nobody requests to stop, and connections are logical.
Notices are sent on connections without delay or with delay 0 only.  The network, the clocks and the processors keep to the bounds of the setup.
-/

namespace ReactorC.DecFed
open ReactorC
open ReactorC.Rti (Topology Sane put)
open ReactorC.FedDet (Program Entry Event Inputs Out Fit Single present upTo)
open ReactorC.Level (Config MIN_SLEEP_DURATION Small exempt blocks waitOver)
open ReactorC.Decentral (Ev Delivery due nextTag open_ raise release handle)

/-- What is on its way on a connection: a message, or the notice that there is none (`val = none`); its tag, and when it was sent. -/
structure Item where
  tag : Tag
  val : Option Nat
  sent : Int
deriving DecidableEq, Repr

/-- The program; the federates (`_lf_action_table` and so on, federate.c:165-177); and the bounds that the federation is deployed with.  `lag`: by this time, after the
time of the tag, a federate has executed it.  `error`: clocks differ at most by this.  `latency d p`: what takes the way to port `p` of
federate `d` is processed there after at most this time. -/
structure Setup where
  P : Program Nat
  c : Nat → Config
  lag : Nat → Int
  error : Int
  latency : Nat → Nat → Int

/-- The state: the federates; what each has executed, its local events, and whether it has executed the reactions of its current tag; what is on
the way to a port, and the latest tag that has been sent on the connection. -/
structure State where
  fed : Nat → Decentral.State
  log : Nat → List (Entry Nat)
  loc : Nat → List (Event Nat)
  fin : Nat → Bool
  chan : Nat → Nat → List Item
  sent : Nat → Nat → Tag

/-! ## One federate -/

/-- `lf_schedule_at_tag`, lib/schedule.c, for events at later tags. -/
def addLocals (s : Decentral.State) (l : List (Event Nat)) : Decentral.State :=
  { s with q := s.q ++ l.map fun e => ⟨none, e.1, NEVER_TAG, e.2.2⟩ }

/-- The value on a port at a tag: what has been delivered there. -/
def arrived (out : List Delivery) (t : Tag) (k : Nat) : Option Nat :=
  (out.find? fun d => decide (d.port = k ∧ d.at_ = t)).map (·.val)

/-- What is present at a tag. -/
def inputs (c : Config) (out : List Delivery) (loc : List (Event Nat)) (t : Tag) : Inputs Nat :=
  fun k => if k < c.n then arrived out t k else present t loc k

/-- The federate has executed what there is up to the tag. -/
def Passed (s : Decentral.State) (fin : Bool) (u : Tag) : Prop :=
  s.lv.phase = .running ∧ (u < s.lv.cur ∨ (u = s.lv.cur ∧ fin = true))

/-- There is something to execute at the tag. -/
def Duty (S : Setup) (s : Decentral.State) (fin : Bool) (u : Tag) : Prop :=
  u ≤ S.P.stop ∧ ¬ Passed s fin u ∧
    ((∃ e ∈ s.q, e.tag = u) ∨ u = S.P.first ∨ u = S.P.stop ∨ (s.lv.phase = .running ∧ u = s.lv.cur))

/-- The steps of `Verif.Decentral.Model` that neither execute nor communicate. -/
inductive Own (c : Config) : Decentral.State → Decentral.State → Prop
  | begin {s} : s.lv.phase = .waiting → waitOver c s.lv.now c.startTime →
      Own c s { s with lv := { s.lv with phase := .atStart, cur := c.start } }
  | wait {s} : s.lv.phase = .running → s.waited = none → waitOver c s.lv.now (Decentral.waitUntilTime c s (nextTag s)) →
      Own c s { s with waited := some (nextTag s) }
  | stall {s} {level : Nat} : s.lv.phase = .running → Own c s { s with lv := Level.stall s.lv level }
  | arm {s} {v : Int} : s.lv.phase = .running →
      Own c s { s with lv := { s.lv with staaWait := some (s.lv.cur, v, Level.staaUntil c s.lv.cur v) } }
  | timeout {s} {i : Nat} {t : Tag} {u : Int} : i < c.n → s.lv.staaWait = some (t, (c.port i).staa, u) →
      waitOver c s.lv.now u → s.lv.cur = t → s.lv.status i = .unknown → Small (s.lv.known i) →
      Own c s { s with
        lv := { Level.updatePort c { s.lv with status := Level.upd s.lv.status i .absent } i s.lv.cur with
          hist := .timeout i s.lv.cur s.lv.now :: s.lv.hist } }

/-! ## Sending -/

/-- The messages of federate `i` at `t` for a port, `lf_send_tagged_message`, federate.c:2597-2675: none with a tag after the stop tag. -/
def letters (P : Program Nat) (i d p : Nat) (t : Tag) (h : List (Entry Nat)) (now : Int) : List Item :=
  (P.outs i h).filterMap fun o =>
    if o.dest = d ∧ o.port = p ∧ lf_delay_tag t o.delay ≤ P.stop then some ⟨lf_delay_tag t o.delay, some o.val, now⟩ else none

/-- The connections on which a notice may be sent: without delay, or with delay 0 (also see `lf_delay_strict`). -/
def noticeable (S : Setup) (i d p : Nat) : Bool :=
  decide (d < S.P.T.n) && decide (p < (S.c d).n) && decide (((S.c d).port p).source = i) &&
    (decide (((S.c d).port p).delay = 0) || decide (((S.c d).port p).delay = NEVER))

/-- What federate `i` sends to a port at `t`: a message, or if there is none possibly a notice, federate.c:2507-2554. -/
def posts (S : Setup) (i d p : Nat) (t : Tag) (h : List (Entry Nat)) (now : Int) (silent : Bool) : List Item :=
  let l := letters S.P i d p t h now
  if l = [] ∧ silent = true ∧ noticeable S i d p = true then [⟨lf_delay_strict t ((S.c d).port p).delay, none, now⟩] else l

/-- The latest tag sent. -/
def latest (t : Tag) (l : List Item) : Tag := l.foldl (fun _ it => it.tag) t

/-- Federate `i` executes the reactions of its current tag: what is present, what is scheduled and what is sent. -/
def finish (S : Setup) (g : State) (i : Nat) (silent : Nat → Nat → Bool) : State :=
  let s := g.fed i
  let h := (s.lv.cur, inputs (S.c i) s.out (g.loc i) s.lv.cur) :: g.log i
  { fed := put g.fed i (addLocals s (S.P.scheds i h))
    log := put g.log i h
    loc := put g.loc i (g.loc i ++ S.P.scheds i h)
    fin := put g.fin i true
    chan := fun d p => g.chan d p ++ posts S i d p s.lv.cur h s.lv.now (silent d p)
    sent := fun d p => latest (g.sent d p) (posts S i d p s.lv.cur h s.lv.now (silent d p)) }

/-- The clock of `i` may show `t`: the bounds are kept. -/
def Prompt (S : Setup) (g : State) (i : Nat) (t : Int) : Prop :=
  (∀ j < S.P.T.n, t ≤ (g.fed j).lv.now + S.error) ∧
  (∀ u, Duty S (g.fed i) (g.fin i) u → t ≤ u.time + S.lag i) ∧
  (∀ p < (S.c i).n, ∀ it ∈ g.chan i p, t ≤ it.sent + S.error + S.latency i p)

/-- The tag at which a federate executes, and those of what it sends, fit; no trigger has two events at a tag, and no port two messages. -/
def Fine (S : Setup) (g : State) (i : Nat) (silent : Nat → Nat → Bool) : Prop :=
  let s := g.fed i
  let h := (s.lv.cur, inputs (S.c i) s.out (g.loc i) s.lv.cur) :: g.log i
  Fit S.P.T s.lv.cur ∧ Single (g.loc i ++ S.P.scheds i h) ∧
    ∀ d p, (posts S i d p s.lv.cur h s.lv.now (silent d p)).length ≤ 1 ∧
      ∀ it ∈ posts S i d p s.lv.cur h s.lv.now (silent d p), g.sent d p < it.tag ∧ Fit S.P.T it.tag

/-! ## The federation -/

inductive Step (S : Setup) : State → State → Prop
  | own {g} {i : Nat} {s : Decentral.State} : i < S.P.T.n → Own (S.c i) (g.fed i) s → Step S g { g with fed := put g.fed i s }
  | clock {g} {i : Nat} {t : Int} : i < S.P.T.n → (g.fed i).lv.now ≤ t → t + MIN_SLEEP_DURATION ≤ FOREVER → Prompt S g i t →
      Step S g { g with fed := put g.fed i { g.fed i with lv := { (g.fed i).lv with now := t } } }
  /-- The reactions of the start tag begin, reactor_threaded.c:629-655. -/
  | start {g} {i : Nat} {l : List Ev} : i < S.P.T.n → (g.fed i).lv.phase = .atStart → open_ (g.fed i) (S.c i).start →
      l.Perm (due (g.fed i).q (S.c i).start) →
      Step S g { g with fed := put g.fed i (Decentral.start_ (S.c i) (g.fed i) l) }
  /-- The reactions of the tag are done, and no level is stopped, federate.c:2680-2769. -/
  | finish {g} {i : Nat} (silent : Nat → Nat → Bool) : i < S.P.T.n → (g.fed i).lv.phase = .running → g.fin i = false →
      (∀ p < (S.c i).n, blocks (S.c i) (g.fed i).lv.cur (g.fed i).lv.known p = false) → Fine S g i silent →
      Step S g (finish S g i silent)
  /-- The next tag, reactor_threaded.c:405-465, when the reactions of the current one are done. -/
  | advance {g} {i : Nat} {p : Tag} {l : List Ev} : i < S.P.T.n → g.fin i = true → (g.fed i).waited = some p →
      (g.fed i).lv.cur < nextTag (g.fed i) → (nextTag (g.fed i)).time < FOREVER → (nextTag (g.fed i)).microstep < UINT_MAX →
      open_ (g.fed i) (nextTag (g.fed i)) → (g.fed i).lv.phase = .running → l.Perm (due (g.fed i).q (nextTag (g.fed i))) →
      Step S g { g with fed := put g.fed i (Decentral.advance (S.c i) (g.fed i) (nextTag (g.fed i)) l), fin := put g.fin i false }
  /-- The header of the next message is read, federate.c:530-590. -/
  | header {g} {d p : Nat} {t : Tag} {v : Nat} {at_ : Int} {rest : List Item} : d < S.P.T.n → p < (S.c d).n →
      g.chan d p = ⟨t, some v, at_⟩ :: rest → (∀ r ∈ (g.fed d).reading, r.1 ≠ p) →
      Step S g { g with fed := put g.fed d { raise (g.fed d) t with
        reading := (p, t, v) :: (g.fed d).reading, said := Level.upd (g.fed d).said p t } }
  /-- The message is complete, federate.c:604-690; but not in the moment between the start time and the start. -/
  | complete {g} {d p : Nat} {t : Tag} {v : Nat} : d < S.P.T.n → (p, t, v) ∈ (g.fed d).reading → Small ((g.fed d).lv.known p) →
      ¬ ((g.fed d).lv.phase = .atStart ∧ t = (S.c d).start) →
      Step S g { g with
        fed := put g.fed d (release { handle (S.c d) (g.fed d) p t v with reading := (g.fed d).reading.erase (p, t, v) })
        chan := put g.chan d (put (g.chan d) p (g.chan d p).tail) }
  /-- `handle_port_absent_message`, federate.c:700-735. -/
  | absent {g} {d p : Nat} {t : Tag} {at_ : Int} {rest : List Item} : d < S.P.T.n → p < (S.c d).n →
      g.chan d p = ⟨t, none, at_⟩ :: rest → (∀ r ∈ (g.fed d).reading, r.1 ≠ p) → Small ((g.fed d).lv.known p) →
      Step S g { g with
        fed := put g.fed d { g.fed d with
          lv := { Level.updatePort (S.c d) (g.fed d).lv p t with hist := .absent p t :: (g.fed d).lv.hist }
          said := Level.upd (g.fed d).said p t }
        chan := put g.chan d (put (g.chan d) p rest) }
  /-- The sender has come to its end, and everything has been read; the connection is closed: `mark_inputs_known_absent`, federate.c:301-320. -/
  | gone {g} {d p : Nat} : d < S.P.T.n → p < (S.c d).n → g.chan d p = [] → Small ((g.fed d).lv.known p) →
      (g.fed ((S.c d).port p).source).lv.phase = .running → g.fin ((S.c d).port p).source = true →
      (g.fed ((S.c d).port p).source).lv.cur = S.P.stop →
      Step S g { g with fed := put g.fed d { g.fed d with
        lv := { Level.updatePort (S.c d) (g.fed d).lv p FOREVER_TAG with hist := .gone p :: (g.fed d).lv.hist }
        gone := Level.upd (g.fed d).gone p true } }

/-- At first: the timers are on the event queue, except those at the start tag, which are not put there
(`_lf_initialize_timer`, reactor_common.c:350-395); clocks show `now`. -/
def init (S : Setup) (now : Nat → Int) : State where
  fed i := addLocals (Decentral.init (S.c i) (now i) S.P.stop) ((S.P.init i).filter fun e => decide (S.P.first < e.1))
  log := fun _ => []
  loc := S.P.init
  fin := fun _ => false
  chan := fun _ _ => []
  sent := fun _ _ => NEVER_TAG

/-- The reachable states. -/
inductive Reach (S : Setup) : State → Prop
  | init (now : Nat → Int) : (∀ i, Single (S.P.init i)) →
      (∀ i < S.P.T.n, now i + MIN_SLEEP_DURATION ≤ FOREVER ∧ now i ≤ S.P.start + S.lag i ∧ ∀ j < S.P.T.n, now i ≤ now j + S.error) →
      Reach S (init S now)
  | step {g g'} : Reach S g → Step S g g' → Reach S g'

/-- The federates belong to the program, and **the offsets cover what can delay a message**: when it was sent at the latest, the error of the clocks
and the latency, up to 10 microseconds, are no more than the delay of the connection and the STA offset of the receiver (with a negative STAA). -/
structure Setup.Ok (S : Setup) (rank : Nat → Nat) : Prop where
  prog : S.P.Ok rank
  stop : S.P.stop.time ≤ FOREVER
  wf : ∀ i < S.P.T.n, Decentral.WF (S.c i)
  start : ∀ i < S.P.T.n, (S.c i).startTime = S.P.start
  outs : ∀ i, ∀ h, ∀ o ∈ S.P.outs i h, o.port < (S.c o.dest).n ∧ ((S.c o.dest).port o.port).source = i ∧
    o.delay = ((S.c o.dest).port o.port).delay
  source : ∀ d < S.P.T.n, ∀ p < (S.c d).n, ((S.c d).port p).source < S.P.T.n ∧ ((S.c d).port p).physical = false
  inits : ∀ i, ∀ e ∈ S.P.init i, (S.c i).n ≤ e.2.1
  scheds : ∀ i, ∀ h, ∀ e ∈ S.P.scheds i h, (S.c i).n ≤ e.2.1
  lag : ∀ i < S.P.T.n, (S.c i).sta ≤ S.lag i
  latency : ∀ d < S.P.T.n, ∀ p < (S.c d).n, 0 ≤ S.latency d p
  covered : ∀ d < S.P.T.n, ∀ p < (S.c d).n,
    S.lag ((S.c d).port p).source + S.error + S.latency d p + MIN_SLEEP_DURATION ≤
      max 0 ((S.c d).port p).delay + (S.c d).sta + min 0 ((S.c d).port p).staa

end ReactorC.DecFed
