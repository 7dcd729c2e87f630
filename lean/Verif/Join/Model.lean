import Verif.Net.Wire

/-!
# Joining a federation

Models how the RTI accepts federates: receive_and_check_fed_id_message, receive_connection_information,
receive_udp_message_and_set_up_clock_sync and lf_connect_to_federates (core/federated/RTI/rti_remote.c:1174-1467, 1539-1592),
and how a federate connects: lf_connect_to_rti (core/federated/federate.c:1893-2055).

Simplifications: what a peer sends on a connection is a list of bytes, after which it closes the connection; authentication
(`__RTI_AUTH__`) and the initial clock synchronization are left out (the RTI runs with `-c off`); addresses are left out.
-/

namespace ReactorC.Join
open ReactorC.Net

/-- include/core/federated/network/net_common.h:275-309, 322, 562, 590, 665. -/
def MSG_TYPE_FED_IDS : Byte := 1
def MSG_TYPE_FED_NONCE : Byte := 100
def MSG_TYPE_P2P_SENDING_FED_ID : Byte := 16
def MSG_TYPE_P2P_TAGGED_MESSAGE : Byte := 18
def MSG_TYPE_NEIGHBOR_STRUCTURE : Byte := 24
def MSG_TYPE_UDP_PORT : Byte := 254

/-- The causes of rejection, net_common.h:682-700. -/
inductive Cause
  | federationIdDoesNotMatch
  | federateIdInUse
  | federateIdOutOfRange
  | unexpectedMessage
  | wrongServer
  | rtiNotExecutedWithAuth
deriving DecidableEq, Repr

/-- What the RTI writes on the connection: `MSG_TYPE_ACK`, or `MSG_TYPE_REJECT` with a cause, after which it closes it. -/
inductive Reply
  | ack
  | reject (cause : Cause)
deriving DecidableEq, Repr

/-- `read_from_socket` of `k` bytes: the bytes and what remains, or nothing if the connection is closed before. -/
def readN (k : Nat) (input : List Byte) : Option (List Byte × List Byte) :=
  if k ≤ input.length then some (input.take k, input.drop k) else none

/-- `strncmp(a, b, n) != 0` for arrays that contain a null character among what is looked at. -/
def strncmpDiffers : List Byte → List Byte → Nat → Bool
  | _, _, 0 => false
  | a :: as, b :: bs, n + 1 => if a ≠ b then true else if a = 0 then false else strncmpDiffers as bs n
  | _, _, _ + 1 => true

/-- The tests at rti_remote.c:1232-1261 on the federate ID and the federation ID received; `n` is the number of federates,
`mine` the federation ID of the RTI, without its null character, and `connected` tells which federates are not
`NOT_CONNECTED`. -/
def verdict (n : Nat) (mine : List Byte) (connected : Nat → Bool) (fed_id : Nat) (federation_id : List Byte) : Reply :=
  if strncmpDiffers (mine ++ [0]) (federation_id ++ [0]) federation_id.length = true then .reject .federationIdDoesNotMatch
  else if fed_id ≥ n then .reject .federateIdOutOfRange
  else if connected fed_id = true then .reject .federateIdInUse
  else .ack

/-- The cause of rejection if the first byte is not `MSG_TYPE_FED_IDS`, rti_remote.c:1188-1208. -/
def wrongType (type : Byte) : Cause :=
  if type = MSG_TYPE_P2P_SENDING_FED_ID ∨ type = MSG_TYPE_P2P_TAGGED_MESSAGE then .wrongServer
  else if type = MSG_TYPE_FED_NONCE then .rtiNotExecutedWithAuth
  else .unexpectedMessage

/-- What `receive_and_check_fed_id_message` did: what it wrote, the federate accepted, if any, and what remains to be
read. -/
structure First where
  replies : List Reply
  fed : Option Nat
  rest : List Byte
deriving DecidableEq, Repr

/-- `receive_and_check_fed_id_message`, rti_remote.c:1174-1305. -/
def receiveAndCheck (big : Bool) (n : Nat) (mine : List Byte) (connected : Nat → Bool) (input : List Byte) : First :=
  match readN 4 input with
  | none => ⟨[], none, input⟩
  | some (buffer, rest) =>
    let type := buffer.getD 0 0
    if type ≠ MSG_TYPE_FED_IDS then ⟨[.reject (wrongType type)], none, rest⟩
    else
      let fed_id := (extract_uint16 big (buffer.drop 1)).toNat
      match readN (buffer.getD 3 0).toNat rest with
      | none => ⟨[], none, rest⟩
      | some (federation_id, rest) =>
        match verdict n mine connected fed_id federation_id with
        | .ack => ⟨[.ack], some fed_id, rest⟩
        | r => ⟨[r], none, rest⟩

/-- How the rest of the handshake ends: the federate has joined; it is rejected; the RTI exits with an error. -/
inductive Second
  | joined
  | rejected
  | exit
deriving DecidableEq, Repr

/-- The size of the body of the `MSG_TYPE_NEIGHBOR_STRUCTURE` message, rti_remote.c:1351-1352. -/
def bodySize (up down : Nat) : Nat := 10 * up + 2 * down

/-- `receive_udp_message_and_set_up_clock_sync`, rti_remote.c:1395-1467, without initial clock synchronization. -/
def receiveUdp (input : List Byte) : Second :=
  match readN 3 input with
  | none => .exit
  | some (response, _) => if response.getD 0 0 ≠ MSG_TYPE_UDP_PORT then .rejected else .joined

/-- `receive_connection_information`, rti_remote.c:1312-1381, and then `receive_udp_message_and_set_up_clock_sync`.
Negative numbers of connections, for which the size of the body wraps around, are left out. -/
def receiveRest (big : Bool) (input : List Byte) : Second :=
  match readN 9 input with
  | none => .exit
  | some (header, rest) =>
    if header.getD 0 0 ≠ MSG_TYPE_NEIGHBOR_STRUCTURE then .rejected
    else
      let up := (extract_uint32 big (header.drop 1)).toInt
      let down := (extract_uint32 big (header.drop 5)).toInt
      if up < 0 ∨ down < 0 then .exit
      else
        match readN (bodySize up.toNat down.toNat) rest with
        | none => .exit
        | some (_, rest) => receiveUdp rest

/-- What `receive_connection_information` stores: the upstream federates with the delays, and the downstream federates,
rti_remote.c:1361-1374. -/
def parseUp (big : Bool) : Nat → List Byte → List (BitVec 16 × BitVec 64)
  | 0, _ => []
  | k + 1, body => (extract_uint16 big body, extract_int64 big (body.drop 2)) :: parseUp big k (body.drop 10)

def parseDown (big : Bool) : Nat → List Byte → List (BitVec 16)
  | 0, _ => []
  | k + 1, body => extract_uint16 big body :: parseDown big k (body.drop 2)

/-- The RTI while federates join: which federates are not `NOT_CONNECTED`, the federates for which a thread has been
created, latest first, whether the RTI has exited with an error. -/
structure Rti where
  connected : Nat → Bool
  threads : List Nat
  exited : Bool

/-- `initialize_RTI`, rti_remote.c:1715-1743. -/
def Rti.init : Rti := ⟨fun _ => false, [], false⟩

/-- The body of the loop of `lf_connect_to_federates`, rti_remote.c:1540-1591, for a connection on which `input` is sent;
`ackFails` tells whether writing `MSG_TYPE_ACK` fails (rti_remote.c:1294-1300).  The state of the federate is set before the
rest of the handshake (rti_remote.c:1286) and is not reset when that fails. -/
def serve (big : Bool) (n : Nat) (mine : List Byte) (s : Rti) (input : List Byte) (ackFails : Bool) : Rti :=
  let r := receiveAndCheck big n mine s.connected input
  match r.fed with
  | none => s
  | some id =>
    let s := { s with connected := fun j => if j = id then true else s.connected j }
    if ackFails = true then s
    else
      match receiveRest big r.rest with
      | .joined => { s with threads := id :: s.threads }
      | .rejected => s
      | .exit => { s with exited := true }

/-- `lf_connect_to_federates`, rti_remote.c:1539-1592: connections are served until `n` federates have joined. The result is the state
of the RTI and the connections that it has not served. -/
def acceptLoop (big : Bool) (n : Nat) (mine : List Byte) : List (List Byte × Bool) → Rti → Rti × List (List Byte × Bool)
  | [], s => (s, [])
  | (input, ackFails) :: more, s =>
    if s.threads.length ≥ n ∨ s.exited = true then (s, (input, ackFails) :: more)
    else acceptLoop big n mine more (serve big n mine s input ackFails)

/-- The state of the RTI after `lf_connect_to_federates`, rti_remote.c:1539-1592. -/
def connectAll (big : Bool) (n : Nat) (mine : List Byte) (conns : List (List Byte × Bool)) (s : Rti) : Rti :=
  (acceptLoop big n mine conns s).1

/-! ## The federate -/

/-- The message of a federate, federate.c:1974-1997: `strnlen` of the federation ID is at most 255. -/
def idMessage (fed_id : BitVec 16) (federation_id : List Byte) : List Byte :=
  let length := min federation_id.length 255
  MSG_TYPE_FED_IDS :: encode_uint16 fed_id ++ [BitVec.ofNat 8 length] ++ federation_id.take length

/-- What happens in one round of the loop of `lf_connect_to_rti`: `connect` fails; it succeeds and writing or reading fails;
the RTI replies; something else is received. -/
inductive Attempt
  | refused
  | broken
  | reply (r : Reply)
  | other
deriving DecidableEq, Repr

/-- The loop of `lf_connect_to_rti`, federate.c:1922-2036, and the test after it: `result` is that of the last `connect`,
`attempts` are the rounds before the time is up.  The outcome tells whether the function goes on (with
`lf_send_neighbor_structure_to_RTI`) or exits with an error. -/
def connectLoop (result : Int) : List Attempt → Bool
  | [] => decide (¬ result < 0)
  | .refused :: more => connectLoop (-1) more
  | .broken :: more => connectLoop 0 more
  | .reply .ack :: _ => true
  | .reply (.reject _) :: more => connectLoop 0 more
  | .other :: more => connectLoop 0 more

/-- `lf_connect_to_rti`: `result` is initialized at federate.c:1918. -/
def connectToRti (attempts : List Attempt) : Bool := connectLoop (-1) attempts

end ReactorC.Join
