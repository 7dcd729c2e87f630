import Verif.Rti.Model
import Verif.Tag.Lemmas

/-!
# A federation under centralized coordination

The RTI of Verif.Rti.Model together with federates that may do anything the protocol allows, connected by channels that
keep the order of messages but delay them arbitrarily.

What the RTI relies on a federate for (documented in include/core/federated/network/net_common.h:385-442 and implemented in
core/federated/federate.c, `lf_send_tagged_message` 2597-2672, `lf_latest_tag_confirmed` 2261-2277,
`lf_send_next_event_tag` 2374-2505):
* It does not act before the start tag.
* After it has reported that a tag is complete (LTC) it acts only at later tags.
* After it has reported its next event tag (NET) it acts before that tag only because of a message it received since.
* A message it sends over a connection while acting at `s` has the tag `s` delayed by the delay of the connection, or a
  later one.
* The next event tags it reports need not be exact: it may report an earlier tag than the one before which it will not
  act (it does so when a provisional grant made it insert a dummy event, core/federated/federate.c:1343-1352, or when it
  only reports that time passes).

A federate is not required to wait for grants here.  Grants and messages travel to a federate with any delay: a federate
may react to a message from the moment on at which the RTI has forwarded it, or later, or never.
-/

namespace ReactorC.Rti
open ReactorC

/-- A message on the way from a federate to the RTI: a tagged message for the federate `d`, sent at tag `s` over a
connection with delay `w`, with intended tag `m`; a next event tag `n`, where `p` is the tag before which the federate will
not act; a latest tag confirmed; a resignation (or the notice of a failure).  `s`, `w` and `p` are not transmitted: they
record why the federate sends what it sends.  `clean c` is not a message: it stands for the second critical section of
`handle_latest_tag_confirmed`, which the same thread enters before it reads the next message. -/
inductive Up
  | msg (d : Nat) (s : Tag) (w : Int) (m : Tag)
  | net (n p : Tag)
  | ltc (c : Tag)
  | clean (c : Tag)
  | resign
deriving DecidableEq

/-- The federation: the RTI, the messages on the way to it, and for each federate the tag before which it will not act
unless it receives a message (`net`) and the completed tag it has reported last (`done`). -/
structure Sys where
  rti : Rti
  up : Nat → List Up
  net : Nat → Tag
  done : Nat → Tag

/-- A tag that leaves room for the microsteps added on the way through the federation. -/
def Sane (T : Topology) (t : Tag) : Prop :=
  t = FOREVER_TAG ∨ (0 ≤ t.time ∧ t.time < FOREVER ∧ t.microstep + T.n + 2 ≤ UINT_MAX)

instance (T : Topology) (t : Tag) : Decidable (Sane T t) := by unfold Sane; infer_instance

/-- A message is added to those on the way from `i` to the RTI. -/
def Sys.send (σ : Sys) (i : Nat) (x : Up) : Sys := { σ with up := put σ.up i (σ.up i ++ [x]) }

/-- The initial state. -/
def initSys (start : Int) : Sys :=
  { rti := initRti
    up := fun _ => []
    net := fun _ => ⟨start, 0⟩
    done := fun _ => NEVER_TAG }

/-- What the broadcast of the stop tag does to a node: its next event is not later than the stop tag,
core/federated/RTI/rti_remote.c:546-554. -/
def stopNode (t : Tag) (nd : Node) : Node :=
  if nd.connected then
    if lf_tag_compare nd.nextEvent t ≥ 0 then { nd with nextEvent := t } else nd
  else nd

/-- One step of the federation. -/
inductive Step (T : Topology) (start : Int) : Sys → Sys → Prop
  /-- a federate sends a message -/
  | sendMsg (σ : Sys) (i d : Nat) (s : Tag) (w : Int) (m : Tag) : i < T.n → d < T.n → (i, w) ∈ T.up d →
      Sane T s → s ≠ FOREVER_TAG → Sane T m → ⟨start, 0⟩ ≤ s → σ.done i < s → σ.net i ≤ s → lf_delay_tag s w ≤ m →
      Step T start σ (σ.send i (.msg d s w m))
  /-- a federate receives a message that the RTI has forwarded to it, and may now act at the tag of the message -/
  | receive (σ : Sys) (i : Nat) (p : Tag) : Down.msg p ∈ σ.rti.out i → σ.done i < p → p < σ.net i →
      Step T start σ { σ with net := put σ.net i p }
  /-- a federate reports its next event tag -/
  | sendNet (σ : Sys) (i : Nat) (n p : Tag) : i < T.n → Sane T n → Sane T p → ⟨start, 0⟩ ≤ n → n ≤ p → σ.net i ≤ p →
      Step T start σ { σ.send i (.net n p) with net := put σ.net i p }
  /-- a federate reports a completed tag -/
  | sendLtc (σ : Sys) (i : Nat) (c : Tag) : i < T.n → Sane T c → σ.done i ≤ c →
      Step T start σ { σ.send i (.ltc c) with done := put σ.done i c }
  /-- a federate resigns or fails -/
  | sendResign (σ : Sys) (i : Nat) : i < T.n → Step T start σ (σ.send i .resign)
  /-- the RTI handles a tagged message, core/federated/RTI/rti_remote.c:1104-1106 -/
  | msg (σ : Sys) (i d : Nat) (s : Tag) (w : Int) (m : Tag) (q : List Up) (r : Rti) : (σ.rti.node i).connected = true →
      σ.up i = .msg d s w m :: q → handleTimedMessage T start d m σ.rti = some r →
      Step T start σ { σ with rti := r, up := put σ.up i q }
  /-- the RTI handles a next event tag, core/federated/RTI/rti_remote.c:1110-1112 -/
  | net (σ : Sys) (i : Nat) (n p : Tag) (q : List Up) : (σ.rti.node i).connected = true → σ.up i = .net n p :: q →
      Step T start σ { σ with rti := handleNextEventTag T start i n σ.rti, up := put σ.up i q }
  /-- the RTI handles a completed tag, core/federated/RTI/rti_remote.c:1113-1115: the first critical section -/
  | ltc (σ : Sys) (i : Nat) (c : Tag) (q : List Up) : (σ.rti.node i).connected = true → σ.up i = .ltc c :: q →
      Step T start σ { σ with rti := logicalTagComplete T start i c σ.rti, up := put σ.up i (.clean c :: q) }
  /-- and the second; the thread does not look at `state` in between -/
  | clean (σ : Sys) (i : Nat) (c : Tag) (q : List Up) : σ.up i = .clean c :: q →
      Step T start σ { σ with rti := removeInTransit i c σ.rti, up := put σ.up i q }
  /-- the RTI handles a resignation or a failure, core/federated/RTI/rti_remote.c:1107-1109 and 1128-1130 -/
  | resign (σ : Sys) (i : Nat) (q : List Up) : (σ.rti.node i).connected = true → σ.up i = .resign :: q →
      Step T start σ { σ with rti := handleResign T start i σ.rti, up := put σ.up i q }
  /-- the RTI sets the stop tag -/
  | stop (σ : Sys) (t : Tag) : Sane T t → ⟨start, 0⟩ ≤ t →
      Step T start σ { σ with rti := { σ.rti with node := fun j => stopNode t (σ.rti.node j) } }
  /-- the RTI finds the socket of a federate closed -/
  | closed (σ : Sys) (i : Nat) : Step T start σ { σ with rti := socketClosed i σ.rti }
  /-- from now on, writing to the socket of a federate fails -/
  | breaks (σ : Sys) (i : Nat) : Step T start σ { σ with rti := { σ.rti with broken := put σ.rti.broken i true } }

/-- The states a federation can be in. -/
inductive Reach (T : Topology) (start : Int) : Sys → Prop
  | init : Reach T start (initSys start)
  | step {σ σ' : Sys} : Reach T start σ → Step T start σ σ' → Reach T start σ'

end ReactorC.Rti
