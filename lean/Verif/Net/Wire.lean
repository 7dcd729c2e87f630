import Mathlib.Data.List.Basic

/-!
# Wire encoding

Models the encoding and decoding functions of core/federated/network/net_util.c and the message header that
core/federated/federate.c writes.  Integers of the C program are bit vectors.  The byte order of the host is a
parameter `big`.
-/

namespace ReactorC.Net

abbrev Byte := BitVec 8

/-- The loop body of `encode_int64`: `(unsigned char)((data & (0xffLL << shift)) >> shift)`; the right shift is
arithmetic. -/
def byte64 (data : BitVec 64) (shift : Nat) : Byte := ((data &&& (0xff#64 <<< shift)).sshiftRight shift).setWidth 8

/-- `encode_int64`, core/federated/network/net_util.c:234-242. -/
def encode_int64 (data : BitVec 64) : List Byte := (List.range 8).map fun i => byte64 data (8 * i)

/-- `encode_int32`, net_util.c:244-251. -/
def encode_int32 (data : BitVec 32) : List Byte :=
  [(data &&& 0xff#32).setWidth 8,
   ((data &&& 0xff00#32).sshiftRight 8).setWidth 8,
   ((data &&& 0xff0000#32).sshiftRight 16).setWidth 8,
   ((data &&& 0xff000000#32).sshiftRight 24).setWidth 8]

/-- `encode_uint32`, net_util.c:253-260. -/
def encode_uint32 (data : BitVec 32) : List Byte :=
  [(data &&& 0xff#32).setWidth 8,
   ((data &&& 0xff00#32) >>> 8).setWidth 8,
   ((data &&& 0xff0000#32) >>> 16).setWidth 8,
   ((data &&& 0xff000000#32) >>> 24).setWidth 8]

/-- `encode_uint16`, net_util.c:262-267.  (C promotes to `int` first; the result is the same.) -/
def encode_uint16 (data : BitVec 16) : List Byte :=
  [(data &&& 0xff#16).setWidth 8,
   ((data &&& 0xff00#16) >>> 8).setWidth 8]

/-! ## The memory of the host -/

/-- The number with the given bytes, least significant first. -/
def fromLE : List Byte → Nat
  | [] => 0
  | b :: bs => b.toNat + 256 * fromLE bs

/-- The lowest `n` bytes of a number, least significant first. -/
def toLE : Nat → Nat → List Byte
  | 0, _ => []
  | n + 1, x => BitVec.ofNat 8 x :: toLE n (x / 256)

/-- Reading an integer of `w` bits from memory (a `union`, or `memcpy`): the byte order is that of the host. -/
def load (big : Bool) (w : Nat) (bytes : List Byte) : BitVec w :=
  BitVec.ofNat w (fromLE (if big then bytes.reverse else bytes))

/-- The bytes of an integer of `n` bytes in memory. -/
def store (big : Bool) (n : Nat) {w : Nat} (x : BitVec w) : List Byte :=
  if big then (toLE n x.toNat).reverse else toLE n x.toNat

/-- `host_is_big_endian`, net_util.c:269-281: stores 1 and looks at the byte with the highest address. -/
def host_is_big_endian (big : Bool) : Bool := (store big 4 (1#32))[3]? == some 1#8

/-- The byte swaps of net_util.c:283-361. -/
def swap8 : List Byte → List Byte
  | [c0, c1, c2, c3, c4, c5, c6, c7] => [c7, c6, c5, c4, c3, c2, c1, c0]
  | l => l

def swap4 : List Byte → List Byte
  | [c0, c1, c2, c3] => [c3, c2, c1, c0]
  | l => l

def swap2 : List Byte → List Byte
  | [c0, c1] => [c1, c0]
  | l => l

/-- `swap_bytes_if_big_endian_int64`, net_util.c:322-346. -/
def swap_bytes_if_big_endian_int64 (big : Bool) (src : BitVec 64) : BitVec 64 :=
  if ¬ host_is_big_endian big then src else load big 64 (swap8 (store big 8 src))

/-- `swap_bytes_if_big_endian_int32` and `_uint32`, net_util.c:283-320. -/
def swap_bytes_if_big_endian_uint32 (big : Bool) (src : BitVec 32) : BitVec 32 :=
  if ¬ host_is_big_endian big then src else load big 32 (swap4 (store big 4 src))

/-- `swap_bytes_if_big_endian_uint16`, net_util.c:348-364. -/
def swap_bytes_if_big_endian_uint16 (big : Bool) (src : BitVec 16) : BitVec 16 :=
  if ¬ host_is_big_endian big then src else load big 16 (swap2 (store big 2 src))

/-- `extract_int64`, net_util.c:386-394: the bytes at the given address. -/
def extract_int64 (big : Bool) (bytes : List Byte) : BitVec 64 :=
  swap_bytes_if_big_endian_int64 big (load big 64 (bytes.take 8))

/-- `extract_uint32` and `extract_int32`, net_util.c:366-384. -/
def extract_uint32 (big : Bool) (bytes : List Byte) : BitVec 32 :=
  swap_bytes_if_big_endian_uint32 big (load big 32 (bytes.take 4))

/-- `extract_uint16`, net_util.c:396-404. -/
def extract_uint16 (big : Bool) (bytes : List Byte) : BitVec 16 :=
  swap_bytes_if_big_endian_uint16 big (load big 16 (bytes.take 2))

/-- A tag as the C program holds it. -/
structure WTag where
  time : BitVec 64
  microstep : BitVec 32
deriving DecidableEq

/-- Writing bytes into a buffer at an offset. -/
def put (buffer : List Byte) (off : Nat) (bytes : List Byte) : List Byte :=
  buffer.take off ++ bytes ++ buffer.drop (off + bytes.length)

/-- `encode_tag`, net_util.c:440-443, into a buffer at an offset. -/
def encode_tag (buffer : List Byte) (off : Nat) (tag : WTag) : List Byte :=
  put (put buffer off (encode_int64 tag.time)) (off + 8) (encode_uint32 tag.microstep)

/-- `extract_tag`, net_util.c:432-438. -/
def extract_tag (big : Bool) (buffer : List Byte) : WTag :=
  { time := extract_int64 big buffer
    microstep := extract_uint32 big (buffer.drop 8) }

/-- What a message header says. -/
structure Header where
  port : BitVec 16
  federate : BitVec 16
  length : BitVec 32
  tag : WTag
deriving DecidableEq

/-- `extract_header`, net_util.c:408-422: port, federate and length. -/
def extract_header (big : Bool) (buffer : List Byte) : BitVec 16 × BitVec 16 × BitVec 32 :=
  (extract_uint16 big buffer, extract_uint16 big (buffer.drop 2), extract_uint32 big (buffer.drop 4))

/-- `extract_timed_header`, net_util.c:424-430. -/
def extract_timed_header (big : Bool) (buffer : List Byte) : Header :=
  { port := (extract_header big buffer).1
    federate := (extract_header big buffer).2.1
    length := (extract_header big buffer).2.2
    tag := extract_tag big (buffer.drop 8) }

/-- The header that `lf_send_tagged_message` writes into its uninitialised buffer of 21 bytes,
core/federated/federate.c:2602-2639.  `length` is a `size_t`, and is cut to 32 bits. -/
def tagged_header (buffer : List Byte) (message_type : Byte) (port federate : BitVec 16) (length : BitVec 64) (tag : WTag) :
    List Byte :=
  let buffer := put buffer 0 [message_type]
  let buffer := put buffer 1 (encode_uint16 port)
  let buffer := put buffer 3 (encode_uint16 federate)
  let buffer := put buffer 5 (encode_uint32 (length.setWidth 32))
  encode_tag buffer 9 tag

/-- The start time message of the RTI, core/federated/RTI/rti_remote.c:816-819: the start time is byte swapped
on a big-endian host before it is encoded. -/
def start_time_message (big : Bool) (start_time : BitVec 64) : List Byte :=
  encode_int64 (swap_bytes_if_big_endian_int64 big start_time)

end ReactorC.Net
