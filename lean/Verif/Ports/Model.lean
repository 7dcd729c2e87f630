import Verif.Join.Model

/-!
# How the RTI chooses its ports and how a federate finds it

Models `create_rti_server` and `start_rti_server` (core/federated/RTI/rti_remote.c:70-180, 1655-1666) and the search for the
RTI in `lf_connect_to_rti` (core/federated/federate.c:1893-2036) with the constants of
include/core/federated/network/net_common.h:204-248.

Simplifications: whether a port can be bound, and what comes of an attempt to join on a port at some time, are given by the
environment; creating sockets, setting their options and looking up the host do not fail; authentication is left out; the
flag `_lf_termination_executed`, which also ends the search, is not set; times are in nanoseconds from the first reading of
the clock in `lf_connect_to_rti`.
-/

namespace ReactorC.Ports
open ReactorC.Join

/-- net_common.h:248. -/
def DEFAULT_PORT : Nat := 15045
/-- net_common.h:218. -/
def MAX_NUM_PORT_ADDRESSES : Nat := 16
/-- net_common.h:240. -/
def PORT_BIND_RETRY_LIMIT : Nat := 60
/-- net_common.h:211, `MINUTES(1)`. -/
def CONNECT_TIMEOUT : Nat := 60000000000
/-- net_common.h:204, `MSEC(500)`. -/
def CONNECT_RETRY_INTERVAL : Nat := 500000000

/-- `port++` of a `uint16_t` and the test after it, rti_remote.c:143-145 and federate.c:1937-1939. -/
def nextPort (port : Nat) : Nat :=
  let p := (port + 1) % 65536
  if p ≥ DEFAULT_PORT + MAX_NUM_PORT_ADDRESSES then DEFAULT_PORT else p

/-! ## The RTI -/

/-- What comes of the calls of `bind`: the port that was bound, if any, the ports that were tried, in order, and the number
of times that the function has slept for `PORT_BIND_RETRY_INTERVAL` (one second). -/
structure Bound where
  port : Option Nat
  tried : List Nat
  slept : Nat
deriving DecidableEq, Repr

/-- The loop of `create_rti_server`, rti_remote.c:134-154. `free k p` tells whether call `k` of `bind`, with port `p`,
succeeds; `left` is `PORT_BIND_RETRY_LIMIT - count`; `port` has been tried in call `k`. -/
def bindLoop (free : Nat → Nat → Bool) (specified : Nat) : (left k port : Nat) → Bound
  | left, k, port =>
    if free k port then ⟨some port, [port], 0⟩
    else match left with
      | 0 => ⟨none, [port], 0⟩
      | left + 1 =>
        if specified = 0 then
          let r := bindLoop free specified left (k + 1) (nextPort port)
          { r with tried := port :: r.tried }
        else
          let r := bindLoop free specified left (k + 1) port
          { r with tried := port :: r.tried, slept := r.slept + 1 }

/-- `create_rti_server`, rti_remote.c:70-180; without a port the program exits. -/
def createRtiServer (free : Nat → Nat → Bool) (port : Nat) : Bound :=
  bindLoop free port (PORT_BIND_RETRY_LIMIT - 1) 0 (if port = 0 then DEFAULT_PORT else port)

/-- What `start_rti_server` (rti_remote.c:1655-1666) ends with: the RTI listens, with its port for TCP and, if clocks are
synchronized, its port for UDP; or it has exited. -/
inductive Started
  | listening (tcp : Nat) (udp : Option Nat)
  | exited
deriving DecidableEq, Repr

/-- `start_rti_server`, rti_remote.c:1655-1666. The argument of the second call is converted to `uint16_t`. `port` is 0 if
the user has not given any; the ports that a user can give are those below `UINT16_MAX` (main.c:241-248). -/
def startRtiServer (freeTcp freeUdp : Nat → Nat → Bool) (clockSyncOn : Bool) (port : Nat) : Started :=
  match (createRtiServer freeTcp port).port with
  | none => .exited
  | some tcp =>
    if clockSyncOn then
      match (createRtiServer freeUdp ((tcp + 1) % 65536)).port with
      | none => .exited
      | some udp => .listening tcp (some udp)
    else .listening tcp none

/-! ## The federate -/

/-- The surroundings of a federate: what comes of an attempt to join on a port at some time, how long attempt `k` takes, and
by how much the sleep before attempt `k` is too long. -/
structure World where
  answer : (time port : Nat) → Attempt
  cost : Nat → Nat
  over : Nat → Nat

/-- How the search ends: an RTI has acknowledged the federate on a port; the time was up after a connection on a port, and
the function goes on; the time was up, and the program exits. `fuel` is for the definition only, see
`C97_search_ends`. -/
inductive Found
  | joined (port : Nat)
  | goesOn (port : Nat)
  | exits
  | fuel
deriving DecidableEq, Repr

/-- The adjustment of the port, federate.c:1901-1913: the value of `port` after it, which tells whether ports are
searched, and `uport`. -/
def adjust (port : Int) : Int × Nat :=
  let (port, uport) := if port < 0 ∨ port > 32767 then (0, DEFAULT_PORT) else (port, port.toNat)
  (port, if uport = 0 then DEFAULT_PORT else uport)

/-- The loop of `lf_connect_to_rti`, federate.c:1922-2036: `k` attempts have been made, the time is `t`, `result` is that of
the last `connect`. -/
def search (w : World) (port : Int) : (fuel k t uport : Nat) → (result : Int) → Found
  | 0, _, _, _, _ => .fuel
  | fuel + 1, k, t, uport, result =>
    if t > CONNECT_TIMEOUT then
      if result < 0 then .exits else .goesOn uport
    else
      let t' := if k = 0 then t else t + CONNECT_RETRY_INTERVAL + w.over k
      let u' := if k = 0 then uport else if port = 0 then nextPort uport else uport
      match w.answer t' u' with
      | .reply .ack => .joined u'
      | .refused => search w port fuel (k + 1) (t' + w.cost k) u' (-1)
      | _ => search w port fuel (k + 1) (t' + w.cost k) u' 0

/-- `lf_connect_to_rti` up to federate.c:2036 for the port that is compiled in or given on the command line. -/
def connect (w : World) (fuel : Nat) (port : Int) : Found :=
  search w (adjust port).1 fuel 0 0 (adjust port).2 (-1)

end ReactorC.Ports
