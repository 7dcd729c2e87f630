import Verif.Net.Wire

/-!
# Reading from and writing to sockets

Models `read_from_socket` and `write_to_socket` of core/federated/network/net_util.c, and the forwarding of messages
by `handle_timed_message` of core/federated/RTI/rti_remote.c.

The behaviour of the operating system is a script: the list of results of the successive system calls.  A
connection is a stream of bytes that arrive in order.
-/

namespace ReactorC.Net

/-- What one `read` or `write` system call does. -/
inductive Sys
  /-- transfers `k` bytes, at most as many as requested -/
  | some (k : Nat)
  /-- returns -1 with errno EAGAIN, EWOULDBLOCK or EINTR -/
  | again
  /-- returns -1 with another errno -/
  | error
  /-- `read` returns 0 at the end of the stream -/
  | eof
deriving DecidableEq, Repr

/-- The outcome of `read_from_socket`: the return value, the contents of the buffer and what is left of the
stream. -/
structure ReadResult where
  ret : Int
  buffer : List Byte
  stream : List Byte
deriving DecidableEq

/-- The loop of `read_from_socket`, net_util.c:98-117.  `bytes_read` counts what has been stored.  A call that
transfers data takes the next bytes of the stream, at least one and at most the number requested.  `none`: the
script ended, that is, the call is still in progress. -/
def readLoop (num_bytes : Nat) (script : List Sys) (bytes_read : Nat) (buffer stream : List Byte) : Option ReadResult :=
  if bytes_read < num_bytes then
    match script with
    | [] => none
    | .again :: script => readLoop num_bytes script bytes_read buffer stream
    | .error :: _ => some { ret := -1, buffer := buffer, stream := stream }
    | .eof :: _ => some { ret := 1, buffer := buffer, stream := stream }
    | .some k :: script =>
      let more := min (min k (num_bytes - bytes_read)) stream.length
      if more = 0 then some { ret := 1, buffer := buffer, stream := stream }
      else readLoop num_bytes script (bytes_read + more) (put buffer bytes_read (stream.take more)) (stream.drop more)
  else some { ret := 0, buffer := buffer, stream := stream }

/-- `read_from_socket`, net_util.c:91-118.  A negative socket is not open. -/
def read_from_socket (socket : Int) (num_bytes : Nat) (script : List Sys) (buffer stream : List Byte) : Option ReadResult :=
  if socket < 0 then some { ret := -1, buffer := buffer, stream := stream }
  else readLoop num_bytes script 0 buffer stream

/-- The outcome of `write_to_socket`: the return value and what has been sent on the connection. -/
structure WriteResult where
  ret : Int
  sent : List Byte
deriving DecidableEq

/-- The loop of `write_to_socket`, net_util.c:172-189.  A call that transfers nothing is repeated. -/
def writeLoop (buffer : List Byte) (num_bytes : Nat) (script : List Sys) (bytes_written : Nat) (sent : List Byte) :
    Option WriteResult :=
  if bytes_written < num_bytes then
    match script with
    | [] => none
    | .again :: script => writeLoop buffer num_bytes script bytes_written sent
    | .error :: _ => some { ret := -1, sent := sent }
    | .eof :: script => writeLoop buffer num_bytes script bytes_written sent
    | .some k :: script =>
      let more := min k (num_bytes - bytes_written)
      writeLoop buffer num_bytes script (bytes_written + more) (sent ++ (buffer.drop bytes_written).take more)
  else some { ret := 0, sent := sent }

/-- `write_to_socket`, net_util.c:165-190. -/
def write_to_socket (socket : Int) (num_bytes : Nat) (script : List Sys) (buffer sent : List Byte) : Option WriteResult :=
  if socket < 0 then some { ret := -1, sent := sent }
  else writeLoop buffer num_bytes script 0 sent

/-! ## Forwarding

Here reads and writes succeed (when one fails, the RTI exits or drops the connection): by C32 they then transfer
exactly the number of bytes requested. -/

/-- The state of the forwarding thread: its buffer, what is still to be read from the sender and what has been
written to the receiver.  `fault` is set if a read goes past the end of the buffer. -/
structure Fwd where
  buffer : List Byte
  input : List Byte
  output : List Byte
  fault : Bool
deriving DecidableEq

/-- A successful `read_from_socket` of `n` bytes to `buffer + off`. -/
def Fwd.read (s : Fwd) (off n : Nat) : Fwd :=
  { s with
    buffer := put s.buffer off (s.input.take n)
    input := s.input.drop n
    fault := s.fault || decide (s.buffer.length < off + n) || decide (s.input.length < n) }

/-- A successful `write_to_socket` of the first `n` bytes of the buffer. -/
def Fwd.write (s : Fwd) (n : Nat) : Fwd := { s with output := s.output ++ s.buffer.take n }

/-- The loop that forwards the remainder of a long message, rti_remote.c:437-454; `size` is FED_COM_BUFFER_SIZE. -/
def forwardRest (size : Nat) (total_bytes_to_read : Nat) (total_bytes_read : Nat) (s : Fwd) : Fwd :=
  if h : 0 < size ∧ total_bytes_read < total_bytes_to_read then
    let bytes_to_read := total_bytes_to_read - total_bytes_read
    let bytes_to_read := if bytes_to_read > size then size else bytes_to_read
    forwardRest size total_bytes_to_read (total_bytes_read + bytes_to_read) ((s.read 0 bytes_to_read).write bytes_to_read)
  else s
termination_by total_bytes_to_read - total_bytes_read
decreasing_by
  split <;> omega

/-- The loop that empties the remainder of a message to a federate that has gone, rti_remote.c:404-413. -/
def discardRest (size : Nat) (total_bytes_to_read : Nat) (total_bytes_read : Nat) (s : Fwd) : Fwd :=
  if h : 0 < size ∧ total_bytes_read < total_bytes_to_read then
    let bytes_to_read := total_bytes_to_read - total_bytes_read
    let bytes_to_read := if bytes_to_read > size then size else bytes_to_read
    discardRest size total_bytes_to_read (total_bytes_read + bytes_to_read) (s.read 0 bytes_to_read)
  else s
termination_by total_bytes_to_read - total_bytes_read
decreasing_by
  split <;> omega

/-- `handle_timed_message`, rti_remote.c:342-454, from the point where the first byte (the message type) is in the
buffer.  `connected` says whether the destination is connected.  `none` when the buffer is too small.  The tracing,
the wait for the start time and the record of the message in transit (:456 and after) are not part of this
function. -/
def handle_timed_message (size : Nat) (big connected : Bool) (s : Fwd) : Option Fwd :=
  let header_size := 21
  let s := s.read 1 (header_size - 1)
  let length := (extract_timed_header big (s.buffer.drop 1)).length.toNat
  let total_bytes_to_read := length + header_size
  if size < header_size + 1 then none
  else
    let bytes_to_read := if length > size - header_size then size - header_size else length
    let s := s.read header_size bytes_to_read
    let bytes_read := bytes_to_read + header_size
    if connected then some (forwardRest size total_bytes_to_read bytes_read (s.write bytes_read))
    else some (discardRest size total_bytes_to_read bytes_read s)

end ReactorC.Net
