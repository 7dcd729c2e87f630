import Verif.Join.Model

/-!
# Direct connections between federates

Models how federates connect to each other: `lf_create_server`, `lf_connect_to_federate` and
`lf_handle_p2p_connections_from_federates` (core/federated/federate.c:1738-1891, 2125-2258), and the part of the RTI in it,
`handle_address_ad` and `handle_address_query` (core/federated/RTI/rti_remote.c:716-778).

Simplifications: what a peer sends on a connection is a list of bytes, after which it closes the connection; IP addresses, failures
of `accept`, of writing and of creating threads are left out.
-/

namespace ReactorC.Join.P2p
open ReactorC.Net ReactorC.Join

/-- `strncmp(a, b, n) != 0` where `b` is an array of these bytes, which need not contain a null character; `none` if it is read
beyond its end. -/
def strncmpArray : List Byte → List Byte → Nat → Option Bool
  | _, _, 0 => some false
  | [], _, _ + 1 => none
  | _ :: _, [], _ + 1 => none
  | a :: as, b :: bs, n + 1 => if a ≠ b then some true else if a = 0 then some false else strncmpArray as bs n

/-- What becomes of a connection. -/
inductive Outcome
  /-- it is closed without a reply -/
  | closed
  /-- `MSG_TYPE_REJECT`, and it is closed -/
  | rejected (cause : Cause)
  /-- `MSG_TYPE_ACK`: it is recorded as that of federate `id` -/
  | accepted (id : Nat)
  /-- `remote_federation_id` is read beyond its end, core/federated/federate.c:2200-2201 -/
  | beyond
  /-- `sockets_for_inbound_p2p_connections` is written beyond its end, core/federated/federate.c:2224 -/
  | outOfRange (id : Nat)
deriving DecidableEq, Repr

/-- The body of the loop of `lf_handle_p2p_connections_from_federates`, core/federated/federate.c:2174-2236; `n` is
`NUMBER_OF_FEDERATES`, `mine` the federation ID, without its null character. -/
def receive (big : Bool) (n : Nat) (mine input : List Byte) : Outcome :=
  match readN 4 input with
  | none => .closed
  | some (buffer, rest) =>
    if buffer.getD 0 0 ≠ MSG_TYPE_P2P_SENDING_FED_ID then .rejected .wrongServer
    else
      match readN (buffer.getD 3 0).toNat rest with
      | none => .closed
      | some (remote_federation_id, _) =>
        match strncmpArray (mine ++ [0]) remote_federation_id (min mine.length 255) with
        | none => .beyond
        | some true => .rejected .federationIdDoesNotMatch
        | some false =>
          let id := (extract_uint16 big (buffer.drop 1)).toNat
          if id < n then .accepted id else .outOfRange id

/-- What the federate has recorded: the connection of each federate, by its number; the federates for which a thread has been
created, latest first; whether memory was accessed out of bounds. -/
structure Server where
  sockets : Nat → Option Nat
  listeners : List Nat
  fault : Bool

/-- Nothing yet, core/federated/federate.c:1693-1696. -/
def Server.init : Server := ⟨fun _ => none, [], false⟩

/-- The record of connection `k`. -/
def Server.add (s : Server) (k : Nat) : Outcome → Server
  | .closed => s
  | .rejected _ => s
  | .accepted id => { s with sockets := fun j => if j = id then some k else s.sockets j, listeners := id :: s.listeners }
  | .beyond => { s with fault := true }
  | .outOfRange _ => { s with fault := true }

/-- `lf_handle_p2p_connections_from_federates`, core/federated/federate.c:2151-2258: connections are served, the first one with
number `k`, until `expected` ones are recorded (`number_of_inbound_p2p_connections`). -/
def serveAll (big : Bool) (n : Nat) (mine : List Byte) (expected : Nat) : Nat → List (List Byte) → Server → Server
  | _, [], s => s
  | k, input :: more, s =>
    if s.listeners.length ≥ expected ∨ s.fault = true then s
    else serveAll big n mine expected (k + 1) more (s.add k (receive big n mine input))

/-- What a federate sends when it has connected, core/federated/federate.c:1833-1855. -/
def message (fed_id : BitVec 16) (federation_id : List Byte) : List Byte :=
  let length := min federation_id.length 255
  MSG_TYPE_P2P_SENDING_FED_ID :: encode_uint16 fed_id ++ [BitVec.ofNat 8 length] ++ federation_id.take length

/-! ## Addresses -/

/-- What the RTI is asked: a federate advertises its port, or a federate asks for that of another one. -/
inductive Ask
  | ad (i : Nat) (port : Int)
  | query (asker i : Nat)
deriving DecidableEq, Repr

/-- `server_port` of the federates at the RTI: `handle_address_ad`, rti_remote.c:757-778; -1 in the beginning,
rti_remote.c:1652.  The latest event comes first. -/
def ports : List Ask → Nat → Int
  | [], _ => -1
  | .ad i p :: before, j => if j = i then p else ports before j
  | .query _ _ :: before, j => ports before j

/-- The replies that federate `asker` gets to its queries about `i`, latest first: `handle_address_query`, rti_remote.c:716-755. -/
def replies (asker i : Nat) : List Ask → List Int
  | [] => []
  | .ad _ _ :: before => replies asker i before
  | .query a j :: before => if a = asker ∧ j = i then ports before i :: replies asker i before else replies asker i before

/-- The first loop of `lf_connect_to_federate`, core/federated/federate.c:1748-1788: it ends with the first reply that is not -1. -/
def resolve : List Int → Option Int
  | [] => none
  | p :: more => if p = -1 then resolve more else some p

/-! ## The second loop of `lf_connect_to_federate` -/

/-- What happens in one round. -/
inductive Round
  /-- `connect` fails; is the time up, has the RTI failed? -/
  | refused (timeUp rtiFailed : Bool)
  | ack
  | reject
  /-- the connection is closed by the other side: `read_from_socket_fail_on_error` -/
  | broken
deriving DecidableEq, Repr

/-- How the loop ends. -/
inductive Result
  /-- it has not ended -/
  | trying
  | connected
  /-- the function returns, and no connection is recorded -/
  | gaveUp
  /-- the socket is recorded as that of the connection, although there is none -/
  | notConnected
  /-- the federate exits with an error -/
  | exit
deriving DecidableEq, Repr

/-- The loop, core/federated/federate.c:1808-1890: how it ends and how many sockets are open; no path closes one. -/
def connect : List Round → Result × Nat
  | [] => (.trying, 0)
  | .refused true _ :: _ => (.gaveUp, 1)
  | .refused false true :: _ => (.notConnected, 1)
  | .refused false false :: more => ((connect more).1, (connect more).2 + 1)
  | .ack :: _ => (.connected, 1)
  | .reject :: more => ((connect more).1, (connect more).2 + 1)
  | .broken :: _ => (.exit, 1)

end ReactorC.Join.P2p
