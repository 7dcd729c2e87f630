import Verif.Join.Model

/-!
# Authentication of federates

Models `authenticate_federate` of core/federated/RTI/rti_remote.c:1470-1537 and `perform_hmac_authentication` of
core/federated/federate.c:860-937, compiled with `-DAUTH=ON`, with their callers `lf_connect_to_federates`
(rti_remote.c:1539-1592) and `lf_connect_to_rti` (federate.c:1893-2055), in a network that is controlled by somebody who does
not know the federation ID: who reads and withholds what is sent, and sends everything that can be made from what is known.

Simplifications: HMAC is ideal, that is, a code can be made only with the key, and different keys or contents have different
codes; random numbers are new, that is, different from all that were sent or received before; a federation ID contains no null
character.  The RTI serves one connection at a time, as in the code.  Errors when writing are left out, and so is the rest of the
handshake (C30).
-/

namespace ReactorC.Auth
open ReactorC.Net ReactorC.Join

abbrev Bytes := List Byte

/-- include/core/federated/network/net_common.h:336, 348. -/
def MSG_TYPE_RTI_RESPONSE : Byte := 101
def MSG_TYPE_FED_RESPONSE : Byte := 102

/-- 32 bytes: the result of `HMAC(EVP_sha256(), key, ..., buf, ...)`, or something else. -/
inductive Mac
  | hmac (key buf : Bytes)
  | other (n : Nat)
deriving DecidableEq, Repr

/-- The key made of a federation ID: `strnlen(..., 255)`, rti_remote.c:1486, federate.c:882. -/
def key (federation_id : Bytes) : Bytes := federation_id.take 255

/-- What the RTI puts into its code: the first byte of what it received, `buffer`, is exchanged, rti_remote.c:1488-1491. -/
def rtiBuf (buffer : Bytes) : Bytes := MSG_TYPE_RTI_RESPONSE :: buffer.drop 1

/-- The first message of a federate, federate.c:869-876. -/
def helloBuf (fed_id : BitVec 16) (nonce : Bytes) : Bytes := MSG_TYPE_FED_NONCE :: (encode_uint16 fed_id ++ nonce)

/-- What the federate expects in the code of the RTI, federate.c:902-905. -/
def checkBuf (fed_id : BitVec 16) (nonce : Bytes) : Bytes := MSG_TYPE_RTI_RESPONSE :: (encode_uint16 fed_id ++ nonce)

/-- What the code of a federate is about, federate.c:924-926, rti_remote.c:1517-1519. -/
def fedBuf (nonce : Bytes) : Bytes := MSG_TYPE_FED_RESPONSE :: nonce

/-- Where the RTI is. -/
inductive RtiPc
  /-- it waits for a connection and the first message on it -/
  | accepting
  /-- it has received `buffer` and sent `nonce`, and waits for the code of the federate -/
  | challenged (buffer nonce : Bytes)
  /-- the code was right; it waits for `MSG_TYPE_FED_IDS` -/
  | authenticated (buffer nonce : Bytes)
  /-- it has exited with an error -/
  | exited
deriving DecidableEq, Repr

/-- Where a federate is. -/
inductive FedPc
  | idle
  /-- it has sent its random number -/
  | sent (nonce : Bytes)
  /-- it has found the code of the RTI right and sent its own -/
  | verified
  /-- it has sent `MSG_TYPE_FED_IDS` -/
  | joining
  /-- authentication has failed: it tries another port, or exits -/
  | failed
deriving DecidableEq, Repr

/-- What happened. -/
inductive Event
  /-- federate `i` sent the random number `m` -/
  | hello (i : Nat) (m : Bytes)
  /-- the RTI received `b` and sent the random number `n` -/
  | challenge (b n : Bytes)
  /-- federate `i`, which had sent `m`, found the code of the RTI right and sent its own for `n` -/
  | verified (i : Nat) (m n : Bytes)
  /-- the RTI found the code right on the connection on which it had received `b` and sent `n` -/
  | accepted (b n : Bytes)
  /-- the RTI took the other end of the connection for federate `id` -/
  | joined (id : Nat)
deriving DecidableEq, Repr

/-- Several federates with IDs and federation IDs, not all of one federation, and an RTI; `secret` are the strings that are
unknown to the one who controls the network in the beginning. -/
structure Config where
  id : Nat → BitVec 16
  federation : Nat → Bytes
  rti : Bytes
  number : Nat
  big : Bool
  secret : Bytes → Prop

/-- The state; `seen` are the codes and `leaked` the strings that have been sent where they can be read. The log has the latest event
first. -/
structure State where
  rti : RtiPc
  fed : Nat → FedPc
  connected : Nat → Bool
  seen : List Mac
  leaked : List Bytes
  log : List Event

/-- The random numbers in an event. -/
def Event.nonces : Event → List Bytes
  | .hello _ m => [m]
  | .challenge b n => [b.drop 3, n]
  | .verified _ m n => [m, n]
  | .accepted _ n => [n]
  | .joined _ => []

/-- 8 random bytes, `RAND_bytes`. -/
def Fresh (s : State) (n : Bytes) : Prop := n.length = 8 ∧ ∀ e ∈ s.log, n ∉ e.nonces

section
variable (C : Config)

/-- A string is known to the one who controls the network. -/
def Known (s : State) (b : Bytes) : Prop := ¬ C.secret b ∨ b ∈ s.leaked

/-- A code can be sent by the one who controls the network. -/
def Makes (s : State) (m : Mac) : Prop :=
  m ∈ s.seen ∨ match m with
    | .hmac k _ => Known C s k
    | .other _ => True

/-- What can happen. -/
inductive Act
  /-- federate `i` connects and sends the random number `m` -/
  | start (i : Nat) (m : Bytes)
  /-- federate `i` receives a message: type, random number, code -/
  | response (i : Nat) (type : Byte) (n : Bytes) (mac : Mac)
  /-- federate `i` sends `MSG_TYPE_FED_IDS`, where it can be read or not -/
  | join (i : Nat) (visible : Bool)
  /-- the RTI receives the first message on a connection, `b`, and makes the random number `n` -/
  | hello (b n : Bytes)
  /-- the RTI receives the second message: type and code -/
  | reply (type : Byte) (mac : Mac)
  /-- the RTI receives `MSG_TYPE_FED_IDS` -/
  | ids (id : BitVec 16) (federation_id : Bytes)
  /-- the connection is closed while the RTI waits for a message -/
  | close

/-- When it can happen. -/
def Pre (s : State) : Act → Prop
  | .start i m => (s.fed i = .idle ∨ s.fed i = .failed) ∧ Fresh s m
  | .response i _ n mac => (∃ m, s.fed i = .sent m) ∧ n.length = 8 ∧ Makes C s mac
  | .join i _ => s.fed i = .verified
  | .hello b n => s.rti = .accepting ∧ b.length = 11 ∧ Fresh s n
  | .reply _ mac => (∃ b n, s.rti = .challenged b n) ∧ Makes C s mac
  | .ids id f => (∃ b n, s.rti = .authenticated b n) ∧
      (Known C s f ∨ ∃ i, s.fed i = .joining ∧ C.id i = id ∧ key (C.federation i) = f)
  | .close => s.rti ≠ .exited

/-- `perform_hmac_authentication` from the read on, federate.c:884-936. -/
def response (s : State) (i : Nat) (m : Bytes) (type : Byte) (n : Bytes) (mac : Mac) : State :=
  if type ≠ MSG_TYPE_RTI_RESPONSE then { s with fed := fun j => if j = i then .failed else s.fed j }
  else if mac ≠ .hmac (key (C.federation i)) (checkBuf (C.id i) m) then
    { s with fed := fun j => if j = i then .failed else s.fed j }
  else
    { s with
      fed := fun j => if j = i then .verified else s.fed j
      seen := .hmac (key (C.federation i)) (fedBuf n) :: s.seen
      log := .verified i m n :: s.log }

/-- `authenticate_federate` up to the write, rti_remote.c:1477-1508. -/
def hello (s : State) (b n : Bytes) : State :=
  if b.head? ≠ some MSG_TYPE_FED_NONCE then { s with rti := .exited }
  else
    { s with
      rti := .challenged b n
      seen := .hmac (key C.rti) (rtiBuf b) :: s.seen
      log := .challenge b n :: s.log }

/-- `authenticate_federate` from the second read on, rti_remote.c:1511-1536; a federate that is rejected does not count,
`lf_connect_to_federates`, 1563-1572. -/
def reply (s : State) (b n : Bytes) (type : Byte) (mac : Mac) : State :=
  if type ≠ MSG_TYPE_FED_RESPONSE then { s with rti := .exited }
  else if mac ≠ .hmac (key C.rti) (fedBuf n) then { s with rti := .accepting }
  else { s with rti := .authenticated b n, log := .accepted b n :: s.log }

/-- `receive_and_check_fed_id_message`, rti_remote.c:1577: neither the ID nor anything else of the authentication is used. -/
def ids (s : State) (id : BitVec 16) (f : Bytes) : State :=
  match (receiveAndCheck C.big C.number C.rti s.connected (idMessage id f)).fed with
  | none => { s with rti := .accepting }
  | some j =>
    { s with
      rti := .accepting
      connected := fun i => if i = j then true else s.connected i
      log := .joined j :: s.log }

/-- What happens. `lf_connect_to_rti` sends the federation ID, federate.c:1974-2002, without having heard from the RTI whether its
code was right.  The reads of `authenticate_federate` end the RTI when the connection is closed
(`read_from_socket_fail_on_error`); that of `receive_and_check_fed_id_message` does not. -/
def post (s : State) : Act → State
  | .start i m =>
    { s with fed := fun j => if j = i then .sent m else s.fed j, log := .hello i m :: s.log }
  | .response i type n mac =>
    match s.fed i with
    | .sent m => response C s i m type n mac
    | _ => s
  | .join i visible =>
    { s with
      fed := fun j => if j = i then .joining else s.fed j
      leaked := if visible then key (C.federation i) :: s.leaked else s.leaked }
  | .hello b n => hello C s b n
  | .reply type mac =>
    match s.rti with
    | .challenged b n => reply C s b n type mac
    | _ => s
  | .ids id f => ids C s id f
  | .close =>
    match s.rti with
    | .authenticated _ _ => { s with rti := .accepting }
    | _ => { s with rti := .exited }

/-- The beginning. -/
def init : State := ⟨.accepting, fun _ => .idle, fun _ => false, [], [], []⟩

/-- The states that can be reached. -/
inductive Reach : State → Prop
  | init : Reach init
  | step {s : State} (a : Act) : Reach s → Pre C s a → Reach (post C s a)

end

end ReactorC.Auth
