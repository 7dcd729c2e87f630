import Verif.Tag.Model

/-!
# The start of a federation

Models handle_timestamp in the RTI (core/federated/RTI/rti_remote.c:780-837), executed by one thread per federate, and the
places where other threads wait until a federate has been told the start time (rti_remote.c:188-191, 221-224, 326-329,
423-426) or where the clock synchronization thread waits for the proposals (rti_remote.c:886-901).

Simplifications: what is done with the mutex held, up to the next wait or release, is one step; a write to a socket is one
step and does not fail; the content of other messages is left out; a federate sends its timestamp once (federate.c:984-986
is called once, from federate.c:2701) and its timestamp is such that the sum with the delay does not overflow.
-/

namespace ReactorC.Start
open ReactorC

/-- `DELAY_START`, include/core/federated/network/net_common.h:259: one second. -/
def DELAY_START : Int := 1000000000

/-- Messages from the RTI to a federate: `MSG_TYPE_TIMESTAMP` with the start time; a message of one of the types
`MSG_TYPE_TAG_ADVANCE_GRANT`, `MSG_TYPE_PROVISIONAL_TAG_ADVANCE_GRANT`, `MSG_TYPE_TAGGED_MESSAGE`, `MSG_TYPE_PORT_ABSENT`;
`MSG_TYPE_STOP_REQUEST`. -/
inductive Msg
  | timestamp (time : Int)
  | other
  | stopRequest
deriving DecidableEq, Repr

/-- `enclave.state` of a federate: `NOT_CONNECTED`, `PENDING` or `GRANTED`. -/
inductive Node
  | notConnected
  | pending
  | granted
deriving DecidableEq, Repr

/-- Where the thread of a federate is: not created; listening, before the timestamp; in `lf_cond_wait` at line 806; returned
from there, about to get the mutex and look again; after line 810; after line 817; after line 825; listening, after the start;
ended. -/
inductive Pc
  | absent
  | listening
  | waiting
  | woken
  | unlocked
  | computed
  | written
  | started
  | ended
deriving DecidableEq, Repr

/-- Where the clock synchronization thread is: waiting at line 892; about to look again; after line 894; it has read the
start time at line 898. -/
inductive Clock
  | waiting
  | woken
  | unlocked
  | read (start_time : Int)
deriving DecidableEq, Repr

/-- `num_feds_proposed_start`, `max_start_time` (rti_remote.h:94-97), the global variable `start_time` (core/tag.c:33), the
state and the thread of each federate, all messages sent to each federate, oldest first, what each federate has proposed (a
record), and the clock synchronization thread. -/
structure State where
  num : Nat
  max : Int
  start : Int
  node : Nat → Node
  pc : Nat → Pc
  out : Nat → List Msg
  proposed : Nat → Option Int
  clock : Clock

/-- `initialize_RTI`, rti_remote.c:1715-1743; core/tag.c:33. -/
def init : State :=
  { num := 0, max := 0, start := NEVER, node := fun _ => .notConnected, pc := fun _ => .absent, out := fun _ => []
    proposed := fun _ => none, clock := .woken }

/-- Update of a function at one argument: a store to a field. -/
def upd {α : Type} (f : Nat → α) (i : Nat) (v : α) : Nat → α := fun j => if j = i then v else f j

/-- A federate has been accepted: the state is set (rti_remote.c:1286) and its thread is created (rti_remote.c:1586). -/
def join (s : State) (i : Nat) : State := { s with node := upd s.node i .pending, pc := upd s.pc i .listening }

/-- `lf_cond_broadcast(&received_start_times)`: all that wait return. -/
def wakeAll (s : State) : State :=
  { s with
    pc := fun j => if s.pc j = .waiting then .woken else s.pc j
    clock := if s.clock = .waiting then .woken else s.clock }

/-- `handle_timestamp`, rti_remote.c:793-810, up to the first wait or the release of the mutex; `n` is the number of
federates. -/
def propose (n : Nat) (s : State) (i : Nat) (timestamp : Int) : State :=
  let s := { s with num := s.num + 1, proposed := upd s.proposed i (some timestamp) }
  let s := if timestamp > s.max then { s with max := timestamp } else s
  if s.num = n then
    let s := wakeAll s
    { s with pc := upd s.pc i .unlocked }
  else { s with pc := upd s.pc i (if s.num < n then .waiting else .unlocked) }

/-- The loop test after `lf_cond_wait`, rti_remote.c:804-810. -/
def recheck (n : Nat) (s : State) (i : Nat) : State :=
  { s with pc := upd s.pc i (if s.num < n then .waiting else .unlocked) }

/-- rti_remote.c:817: the global variable is written without the mutex. -/
def compute (s : State) (i : Nat) : State := { s with start := s.max + DELAY_START, pc := upd s.pc i .computed }

/-- rti_remote.c:819-827: the global variable is read without the mutex. -/
def write (s : State) (i : Nat) : State :=
  { s with out := upd s.out i (s.out i ++ [.timestamp s.start]), pc := upd s.pc i .written }

/-- rti_remote.c:829-836 (the threads waiting at line 328 and so on are the steps `forward`, which become possible). -/
def grant (s : State) (i : Nat) : State := { s with node := upd s.node i .granted, pc := upd s.pc i .started }

/-- A message is sent to federate `i`. -/
def send (s : State) (i : Nat) (m : Msg) : State := { s with out := upd s.out i (s.out i ++ [m]) }

/-- The thread of federate `i` ends: the federate resigns or fails, or the socket is closed, rti_remote.c:978-1089. -/
def leave (s : State) (i : Nat) : State := { s with node := upd s.node i .notConnected, pc := upd s.pc i .ended }

/-- The clock synchronization thread, rti_remote.c:891-894. -/
def clockCheck (n : Nat) (s : State) : State := { s with clock := if s.num < n then .waiting else .unlocked }

/-- One step of any thread of the RTI.  `lf_cond_wait` may return at any time. -/
inductive Step (n : Nat) : State → State → Prop
  | join (s : State) (i : Nat) : i < n → s.pc i = .absent → Step n s (join s i)
  | propose (s : State) (i : Nat) (timestamp : Int) : i < n → s.pc i = .listening → timestamp + DELAY_START ≤ FOREVER →
      Step n s (propose n s i timestamp)
  | spurious (s : State) (i : Nat) : i < n → s.pc i = .waiting → Step n s { s with pc := upd s.pc i .woken }
  | recheck (s : State) (i : Nat) : i < n → s.pc i = .woken → Step n s (recheck n s i)
  | compute (s : State) (i : Nat) : i < n → s.pc i = .unlocked → Step n s (compute s i)
  | write (s : State) (i : Nat) : i < n → s.pc i = .computed → Step n s (write s i)
  | grant (s : State) (i : Nat) : i < n → s.pc i = .written → Step n s (grant s i)
  /-- a grant or a message for federate `i`, sent with the mutex after the wait for `state` to differ from `PENDING` -/
  | forward (s : State) (i : Nat) : i < n → s.node i = .granted → Step n s (send s i .other)
  /-- `handle_stop_request_message`, rti_remote.c:666-681: federate `j`, which has started, asks everyone to stop -/
  | stop (s : State) (i j : Nat) (v : Int) : i < n → j < n → s.node i ≠ .notConnected → .timestamp v ∈ s.out j →
      Step n s (send s i .stopRequest)
  | leave (s : State) (i : Nat) : i < n → s.pc i = .listening ∨ s.pc i = .started → Step n s (leave s i)
  | clockCheck (s : State) : s.clock = .woken → Step n s (clockCheck n s)
  | clockRead (s : State) : s.clock = .unlocked → Step n s { s with clock := .read s.start }

/-- Any execution of any length of an RTI for `n` federates. -/
inductive Reach (n : Nat) : State → Prop
  | init : Reach n init
  | step {s t : State} : Reach n s → Step n s t → Reach n t

end ReactorC.Start
