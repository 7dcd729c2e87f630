import Verif.Net.Wire

/-!
# Federates that leave or crash, and the end of the RTI

Models what the two ends of a connection between a federate and the RTI read, byte by byte, until the other side has gone:
`federate_info_thread_TCP` of core/federated/RTI/rti_remote.c and `listen_to_rti_TCP` of core/federated/federate.c, and the
end of the RTI: `wait_for_federates` (rti_remote.c), `termination` and the end of `main` (core/federated/RTI/main.c).

A process that ends or crashes closes its connections, whatever it was doing; the other side then reads what was sent
before, and after that `read` says that there is nothing more (`read_from_socket` returns a value different from 0, net_util.c:
91-117).  So what one side gets is a list of bytes that may end anywhere.

Simplifications: what a message does at the RTI is the subject of the other models and left out here, except that some have
to be passed on; the threads of the RTI are not blocked for ever in the handling of a message (they may be, before the start:
`C29_all_wait_for_everyone`); the payload of a tagged message is read in one piece (it is read and passed on in pieces that
fit in a buffer, rti_remote.c:361-455, see C33).
-/

namespace ReactorC.Leave
open ReactorC.Net

/-! ## The types of messages, include/core/federated/network/net_common.h -/

def MSG_TYPE_TIMESTAMP : Byte := 2#8
/-- net_common.h:383 -/
def MSG_TYPE_RESIGN : Byte := 4#8
/-- net_common.h:398 -/
def MSG_TYPE_TAGGED_MESSAGE : Byte := 5#8
def MSG_TYPE_NEXT_EVENT_TAG : Byte := 6#8
def MSG_TYPE_TAG_ADVANCE_GRANT : Byte := 7#8
def MSG_TYPE_PROVISIONAL_TAG_ADVANCE_GRANT : Byte := 8#8
def MSG_TYPE_LATEST_TAG_CONFIRMED : Byte := 9#8
def MSG_TYPE_STOP_REQUEST : Byte := 10#8
def MSG_TYPE_STOP_REQUEST_REPLY : Byte := 11#8
def MSG_TYPE_STOP_GRANTED : Byte := 12#8
def MSG_TYPE_ADDRESS_QUERY : Byte := 13#8
def MSG_TYPE_ADDRESS_ADVERTISEMENT : Byte := 15#8
def MSG_TYPE_CLOCK_SYNC_T1 : Byte := 19#8
def MSG_TYPE_CLOCK_SYNC_T4 : Byte := 21#8
def MSG_TYPE_PORT_ABSENT : Byte := 23#8
/-- net_common.h:671 -/
def MSG_TYPE_FAILED : Byte := 25#8

/-- The number of bytes that the RTI reads after the type of a message, for all types but tagged messages: rti_remote.c:285
(port absent), 482 (latest tag confirmed), 500 (next event tag), 611 (stop request), 691 (reply to it), 721 (address query),
763 (address), 783 (timestamp); nothing for the types it does not know, rti_remote.c:1135-1141. -/
def rtiReads (ty : Byte) : Nat :=
  if ty = MSG_TYPE_TIMESTAMP then 8
  else if ty = MSG_TYPE_ADDRESS_QUERY then 2
  else if ty = MSG_TYPE_ADDRESS_ADVERTISEMENT then 4
  else if ty = MSG_TYPE_NEXT_EVENT_TAG then 12
  else if ty = MSG_TYPE_LATEST_TAG_CONFIRMED then 12
  else if ty = MSG_TYPE_STOP_REQUEST then 12
  else if ty = MSG_TYPE_STOP_REQUEST_REPLY then 12
  else if ty = MSG_TYPE_PORT_ABSENT then 16
  else 0

/-- The number of bytes that a federate reads after the type of a message from the RTI: core/federated/federate.c:1035 (tag
advance grant), 1276 (provisional), 1366 (stop granted), 1410 (stop request), 702 (port absent); nothing for the messages of
clock synchronization, which it does not expect here (1601-1604). -/
def fedReads (ty : Byte) : Nat :=
  if ty = MSG_TYPE_TAG_ADVANCE_GRANT then 12
  else if ty = MSG_TYPE_PROVISIONAL_TAG_ADVANCE_GRANT then 12
  else if ty = MSG_TYPE_STOP_REQUEST then 12
  else if ty = MSG_TYPE_STOP_GRANTED then 12
  else if ty = MSG_TYPE_PORT_ABSENT then 16
  else 0

/-- What a thread that reads a connection does when it has read the first byte of what comes next, or the end of the
connection: it reads a message, the rest of which remains to be read; the connection has ended, before a message; it has
ended within a message. -/
inductive Next
  | message (bytes rest : List Byte)
  | atEnd
  | broken
deriving DecidableEq, Repr

/-- Reads the type of a message and the rest of it: for a tagged message 20 bytes of header and the number of bytes that the
header says (rti_remote.c:343-376 with 406-413 or 437-455; federate.c:543-547, 595-599).  `big` is the byte order of the
host. -/
def next (reads : Byte → Nat) (big : Bool) : List Byte → Next
  | [] => .atEnd
  | ty :: s =>
    if ty = MSG_TYPE_TAGGED_MESSAGE then
      if s.length < 20 then .broken
      else if s.length < 20 + (extract_timed_header big s).length.toNat then .broken
      else .message (ty :: s.take (20 + (extract_timed_header big s).length.toNat))
        (s.drop (20 + (extract_timed_header big s).length.toNat))
    else if s.length < reads ty then .broken
    else .message (ty :: s.take (reads ty)) (s.drop (reads ty))

/-! ## A thread of the RTI -/

/-- How the thread of a federate at the RTI ends: the federate has resigned (`handle_federate_resign`, rti_remote.c:
1031-1069), it has said that it failed (`handle_federate_failed`, 983-1017), the connection was closed (1085-1092); or the
thread ends the RTI, because the connection was closed within a message (`read_from_socket_fail_on_error`, net_util.c:135-155
and `lf_print_error_system_failure`, core/utils/util.c:204-213). -/
inductive End
  | resigned
  | failed
  | closed
  | fatal
deriving DecidableEq, Repr

/-- One iteration of the loop of `federate_info_thread_TCP`, rti_remote.c:1082-1142: a message that is handled and what remains
to be read, or the end of the thread. -/
def rtiNext (big : Bool) (s : List Byte) : (List Byte × List Byte) ⊕ End :=
  match next rtiReads big s with
  | .atEnd => .inr .closed
  | .broken => .inr .fatal
  | .message m rest =>
    if m.head? = some MSG_TYPE_RESIGN then .inr .resigned
    else if m.head? = some MSG_TYPE_FAILED then .inr .failed
    else .inl (m, rest)

/-- The loop: the messages it handles and how it ends; `fuel` bounds the number of iterations. -/
def rtiListen (big : Bool) : Nat → List Byte → List (List Byte) × End
  | 0, _ => ([], .closed)
  | fuel + 1, s =>
    match rtiNext big s with
    | .inr e => ([], e)
    | .inl (m, rest) => ((m :: (rtiListen big fuel rest).1), (rtiListen big fuel rest).2)

/-- `federate_info_thread_TCP`, rti_remote.c:1072-1150, for what comes from a federate until the connection ends: each
iteration reads at least one byte. -/
def federate_info_thread_TCP (big : Bool) (s : List Byte) : List (List Byte) × End := rtiListen big (s.length + 1) s

/-! ## A thread of a federate -/

/-- How the thread of a federate that listens to the RTI ends: it ends the program with an error; or it just returns and the
program goes on without a connection to the RTI. -/
inductive FedEnd
  | exits
  | returns
deriving DecidableEq, Repr

/-- The types of messages that a federate knows, federate.c:1572-1604. -/
def fedKnows (ty : Byte) : Bool :=
  ty == MSG_TYPE_TAGGED_MESSAGE || ty == MSG_TYPE_TAG_ADVANCE_GRANT || ty == MSG_TYPE_PROVISIONAL_TAG_ADVANCE_GRANT ||
  ty == MSG_TYPE_STOP_REQUEST || ty == MSG_TYPE_STOP_GRANTED || ty == MSG_TYPE_PORT_ABSENT || ty == MSG_TYPE_FAILED ||
  ty == MSG_TYPE_CLOCK_SYNC_T1 || ty == MSG_TYPE_CLOCK_SYNC_T4

/-- One iteration of the loop of `listen_to_rti_TCP`, federate.c:1543-1609.  The end of the connection between messages is
considered "a soft error" (1552-1570); within a message it is fatal (1575, 1593, 1037, 1278, 1368, 1412); so are a message
`MSG_TYPE_FAILED` (1526, 1599) and one of an unknown type (1606). -/
def fedNext (big : Bool) (s : List Byte) : (List Byte × List Byte) ⊕ FedEnd :=
  match next fedReads big s with
  | .atEnd => .inr .returns
  | .broken => .inr .exits
  | .message m rest =>
    if m.head? = some MSG_TYPE_FAILED then .inr .exits
    else if (m.head?.map fedKnows) = some true then .inl (m, rest)
    else .inr .exits

/-- The loop: the messages it handles and how it ends; `fuel` bounds the number of iterations. -/
def fedListen (big : Bool) : Nat → List Byte → List (List Byte) × FedEnd
  | 0, _ => ([], .returns)
  | fuel + 1, s =>
    match fedNext big s with
    | .inr e => ([], e)
    | .inl (m, rest) => ((m :: (fedListen big fuel rest).1), (fedListen big fuel rest).2)

/-- `listen_to_rti_TCP`, federate.c:1533-1612. -/
def listen_to_rti_TCP (big : Bool) (s : List Byte) : List (List Byte) × FedEnd := fedListen big (s.length + 1) s

/-! ## The end of the RTI -/

/-- The main thread of the RTI: it waits for the thread of federate `i` (rti_remote.c:1684-1692), or the program has ended with
an exit code. -/
inductive Main
  | joining (i : Nat)
  | exited (code : Nat)
deriving DecidableEq, Repr

/-- The RTI after all federates have connected: what each federate sends until its connection ends and the RTI has not read;
how the thread of each federate has ended; `_lf_federate_reports_error` (rti_remote.c:41); the main thread; the federates to
which `MSG_TYPE_FAILED` is sent. -/
structure State where
  todo : Nat → List Byte
  ended : Nat → Option End
  error : Bool
  main : Main
  told : Nat → Bool

/-- A federation: the number of federates, what each of them sends until its connection ends, and which of them go away
without having resigned, so that writing to their connection fails. -/
structure Federation where
  n : Nat
  big : Bool
  stream : Nat → List Byte
  crashes : Nat → Bool

/-- rti_remote.c:1668-1684; core/federated/RTI/rti_remote.c:41. -/
def init (F : Federation) : State :=
  { todo := F.stream, ended := fun _ => none, error := false, main := .joining 0, told := fun _ => false }

/-- Update at one argument: a store to a field. -/
def upd {α : Type} (f : Nat → α) (i : Nat) (v : α) : Nat → α := fun j => if j = i then v else f j

/-- `exit(EXIT_FAILURE)` in a thread (util.c:212) and `termination`, core/federated/RTI/main.c:102-116: the RTI sends
`MSG_TYPE_FAILED` to the federates that it considers to be connected. -/
def die (F : Federation) (s : State) : State :=
  { s with main := .exited 1, told := fun j => decide (j < F.n) && (s.ended j).isNone }

/-- The connection to which the handling of a message writes with `write_to_socket_fail_on_error`: the destination of a tagged
message or of a port absent message, if it is connected (rti_remote.c:387-435, 305-337), and the sender of an address query
(rti_remote.c:743-755). -/
def writesTo (F : Federation) (s : State) (i : Nat) (m : List Byte) : Option Nat :=
  if m.head? = some MSG_TYPE_TAGGED_MESSAGE ∨ m.head? = some MSG_TYPE_PORT_ABSENT then
    let d := (extract_uint16 F.big (m.drop 3)).toNat
    if s.ended d = none then some d else none
  else if m.head? = some MSG_TYPE_ADDRESS_QUERY then some i
  else none

/-- A step of a thread of the RTI. -/
inductive Step (F : Federation) : State → State → Prop
  /-- a message of federate `i` is handled -/
  | handle (s : State) (k i : Nat) (m rest : List Byte) : s.main = .joining k → i < F.n → s.ended i = none →
      rtiNext F.big (s.todo i) = .inl (m, rest) → Step F s { s with todo := upd s.todo i rest }
  /-- a message of federate `i` has to be passed on to a federate that has crashed, and this has not been noticed yet:
  rti_remote.c:432-433, 332-333 -/
  | undeliverable (s : State) (k i d : Nat) (m rest : List Byte) : s.main = .joining k → i < F.n → s.ended i = none →
      rtiNext F.big (s.todo i) = .inl (m, rest) → writesTo F s i m = some d → F.crashes d = true → Step F s (die F s)
  /-- the thread of federate `i` returns: rti_remote.c:1104-1105, 1132-1133, 1085-1092; `_lf_federate_reports_error` is set by
  `handle_federate_failed`, rti_remote.c:992 -/
  | left (s : State) (k i : Nat) (e : End) : s.main = .joining k → i < F.n → s.ended i = none →
      rtiNext F.big (s.todo i) = .inr e → e ≠ .fatal →
      Step F s { s with ended := upd s.ended i (some e), error := s.error || decide (e = .failed) }
  /-- the thread of federate `i` ends the RTI -/
  | fatal (s : State) (k i : Nat) : s.main = .joining k → i < F.n → s.ended i = none →
      rtiNext F.big (s.todo i) = .inr .fatal → Step F s (die F s)
  /-- `lf_thread_join` returns: rti_remote.c:1688 -/
  | join (s : State) (k : Nat) : s.main = .joining k → k < F.n → (s.ended k).isSome = true →
      Step F s { s with main := .joining (k + 1) }
  /-- the end of `main`, core/federated/RTI/main.c:330-343 -/
  | finish (s : State) : s.main = .joining F.n → Step F s { s with main := .exited (if s.error then 1 else 0) }

/-- Any execution of any length; the number of its steps. -/
inductive Reach (F : Federation) : Nat → State → Prop
  | init : Reach F 0 (init F)
  | step {k : Nat} {s t : State} : Reach F k s → Step F s t → Reach F (k + 1) t

end ReactorC.Leave
