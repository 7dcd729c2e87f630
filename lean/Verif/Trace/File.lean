import Mathlib.Data.List.Basic

/-!
# The trace file

Models what trace/impl/src/trace_impl.c writes to the trace file and how util/tracing/trace_util.c reads it, byte by byte.
Structs are written as they lie in memory, so the model has the layout of structs in memory: sizes and alignments of
their fields, padding, and the order of the bytes of numbers.  The tools run on the same kind of machine as the program.

Numbers are the values of their bits: an `int` is a natural number below 2^32.  Failures of `fwrite`, and `printf` to the
terminal, are not modelled.
-/

namespace ReactorC.Trace.File

/-- What depends on the machine: the size of pointers and of `size_t`, the alignment of 64-bit numbers in structs, and the
order of bytes. -/
structure Abi where
  ptr : Nat
  wide : Nat
  big : Bool
deriving DecidableEq, Repr

/-- The bytes of a number, the least significant one first. -/
def little : Nat → Nat → List UInt8
  | 0, _ => []
  | n + 1, v => UInt8.ofNat v :: little n (v / 256)

/-- The number with these bytes, the least significant one first. -/
def fromLittle : List UInt8 → Nat
  | [] => 0
  | b :: l => b.toNat + 256 * fromLittle l

/-- A number of `n` bytes in memory. -/
def Abi.bytes (A : Abi) (n v : Nat) : List UInt8 := if A.big then (little n v).reverse else little n v

/-- The number that lies in memory as these bytes. -/
def Abi.value (A : Abi) (l : List UInt8) : Nat := if A.big then fromLittle l.reverse else fromLittle l

/-- A field of a struct. -/
structure Field where
  size : Nat
  align : Nat
deriving DecidableEq, Repr

/-- `int`, `uint32_t` and enumerations. -/
def int : Field := ⟨4, 4⟩

/-- `int64_t`. -/
def Abi.int64 (A : Abi) : Field := ⟨8, A.wide⟩

/-- `void*`. -/
def Abi.pointer (A : Abi) : Field := ⟨A.ptr, A.ptr⟩

/-- The number of bytes between the offset and the next offset with the alignment. -/
def pad (offset align : Nat) : Nat := (align - offset % align) % align

/-- The offset after fields that begin at the offset. -/
def after : Nat → List Field → Nat
  | o, [] => o
  | o, f :: l => after (o + pad o f.align + f.size) l

/-- The greatest alignment. -/
def alignment (l : List Field) : Nat := (l.map Field.align).foldl max 1

/-- `sizeof` of a struct. -/
def sizeOf (l : List Field) : Nat := after 0 l + pad (after 0 l) (alignment l)

/-- The fields of `trace_record_t`, include/core/tracepoint.h:49-59. -/
def Abi.record (A : Abi) : List Field :=
  [int, A.pointer, int, int, A.int64, int, A.int64, A.pointer, A.int64]

/-- The fields of `trace_record_nodeps_t`, trace/api/trace.h:42-52. -/
def Abi.recordNodeps (A : Abi) : List Field :=
  [int, A.pointer, int, int, A.int64, A.int64, A.int64, A.pointer, A.int64]

/-- The values of a record: event type, pointer, source, destination, logical time, microstep, physical time, trigger, extra
delay. -/
structure Record where
  event : Nat
  pointer : Nat
  src : Nat
  dst : Nat
  logical : Nat
  microstep : Nat
  physical : Nat
  trigger : Nat
  extra : Nat
deriving DecidableEq, Repr

def Record.values (r : Record) : List Nat :=
  [r.event, r.pointer, r.src, r.dst, r.logical, r.microstep, r.physical, r.trigger, r.extra]

/-- Bytes with arbitrary contents. -/
def noise (junk : Nat → UInt8) (o n : Nat) : List UInt8 := (List.range n).map fun i => junk (o + i)

/-- The fields in memory from the offset on; `junk` is what lies between them. -/
def Abi.fields (A : Abi) (junk : Nat → UInt8) : Nat → List (Field × Nat) → List UInt8
  | _, [] => []
  | o, (f, v) :: l =>
    noise junk o (pad o f.align) ++ A.bytes f.size v ++ A.fields junk (o + pad o f.align + f.size) l

/-- A struct in memory. -/
def Abi.image (A : Abi) (junk : Nat → UInt8) (l : List (Field × Nat)) : List UInt8 :=
  A.fields junk 0 l ++
    noise junk (after 0 (l.map Prod.fst)) (pad (after 0 (l.map Prod.fst)) (alignment (l.map Prod.fst)))

/-- The values of fields that lie in memory from the offset on. -/
def Abi.parse (A : Abi) : Nat → List Field → List UInt8 → List Nat
  | _, [], _ => []
  | o, f :: l, b =>
    A.value ((b.drop (pad o f.align)).take f.size) ::
      A.parse (o + pad o f.align + f.size) l (b.drop (pad o f.align + f.size))

/-- `call_tracepoint`, core/tracepoint.c:63-82, and the copy in `lf_tracing_tracepoint`, trace/impl/src/trace_impl.c:247: the
record is a `trace_record_t` on the stack and is copied as a `trace_record_nodeps_t`.  What lies behind it is part of
`junk`. -/
def Abi.copied (A : Abi) (junk : Nat → UInt8) (r : Record) : List UInt8 :=
  let b := A.image junk (A.record.zip r.values)
  b.take (sizeOf A.recordNodeps) ++ noise junk b.length (sizeOf A.recordNodeps - b.length)

/-- An entry of the table of objects, `object_description_t`, trace/api/trace.h:35-40. -/
structure Object where
  pointer : Nat
  trigger : Nat
  type : Nat
  description : List UInt8
deriving DecidableEq, Repr

/-- `write_trace_header`, trace/impl/src/trace_impl.c:46-89.  The number of objects is a `size_t` of which the first four bytes
are written. -/
def Abi.header (A : Abi) (start : Nat) (table : List Object) : List UInt8 :=
  A.bytes 8 start ++ (A.bytes A.ptr table.length).take 4 ++
    (table.map fun x => A.bytes A.ptr x.pointer ++ A.bytes A.ptr x.trigger ++ A.bytes 4 x.type ++ x.description ++ [0]).flatten

/-- What a flush writes, `flush_trace_locked`, trace/impl/src/trace_impl.c:108-120: the first four bytes of the number of
records, a `size_t`, and the records, each with what is between its fields. -/
def Abi.chunk (A : Abi) (l : List ((Nat → UInt8) × Record)) : List UInt8 :=
  (A.bytes A.ptr l.length).take 4 ++ (l.map fun x => A.copied x.1 x.2).flatten

/-- The whole file. -/
def Abi.file (A : Abi) (start : Nat) (table : List Object) (chunks : List (List ((Nat → UInt8) × Record))) : List UInt8 :=
  A.header start table ++ (chunks.map A.chunk).flatten

/-- What the program does with the file: objects are registered, and buffers are flushed. -/
inductive Act
  | register (x : Object)
  | flush (l : List ((Nat → UInt8) × Record))

/-- The part of `trace_t` (trace/impl/include/trace_impl.h:20-49) that the file depends on. -/
structure Writer where
  table : List Object
  headerWritten : Bool
  bytes : List UInt8

/-- `lf_tracing_register_trace_event`, trace/impl/src/trace_impl.c:211-220, with `TRACE_OBJECT_TABLE_SIZE` 1024, and
`flush_trace_locked`, 96-124: nothing is written if there are no records, and the first flush writes the header. -/
def Writer.step (A : Abi) (start : Nat) (w : Writer) : Act → Writer
  | .register x => if 1024 ≤ w.table.length then w else { w with table := w.table ++ [x] }
  | .flush l =>
    if l = [] then w
    else if w.headerWritten then { w with bytes := w.bytes ++ A.chunk l }
    else { w with headerWritten := true, bytes := w.bytes ++ A.header start w.table ++ A.chunk l }

/-- The file after a program did all this. -/
def Writer.run (A : Abi) (start : Nat) (l : List Act) : Writer := l.foldl (Writer.step A start) ⟨[], false, []⟩

/-! ## Reading -/

/-- `fread` of `n` bytes; `none` if there are less. -/
def fread (n : Nat) (b : List UInt8) : Option (List UInt8 × List UInt8) :=
  if n ≤ b.length then some (b.take n, b.drop n) else none

/-- The loop that reads a description, util/tracing/trace_util.c:247-258, with `room` for so many characters: it stops at the
end of the string, or when the buffer is full, with the character it has read already being lost. -/
def readString : Nat → List UInt8 → Option (List UInt8 × List UInt8)
  | _, [] => none
  | 0, _ :: b => some ([], b)
  | room + 1, c :: b => if c = 0 then some ([], b) else (readString room b).map fun x => (c :: x.1, x.2)

/-- `BUFFER_SIZE`, util/tracing/trace_util.h:51. -/
def bufferSize : Nat := 1024

/-- An entry of the table, util/tracing/trace_util.c:225-262. -/
def Abi.readObject (A : Abi) (b : List UInt8) : Option (Object × List UInt8) := do
  let (p, b) ← fread A.ptr b
  let (t, b) ← fread A.ptr b
  let (y, b) ← fread 4 b
  let (d, b) ← readString (bufferSize - 1) b
  some (⟨A.value p, A.value t, A.value y, d⟩, b)

def Abi.readObjects (A : Abi) : Nat → List UInt8 → Option (List Object × List UInt8)
  | 0, b => some ([], b)
  | n + 1, b => do
    let (x, b) ← A.readObject b
    let (l, b) ← A.readObjects n b
    some (x :: l, b)

/-- `read_header`, util/tracing/trace_util.c:201-271; `none` if it ends the program.  A negative number of objects makes the
allocation fail (`calloc` of more than half of the memory), after which the tools go on, because -1 as `size_t` is not
negative (util/tracing/trace_to_csv.c:486): modelled as failure. -/
def Abi.readHeader (A : Abi) (b : List UInt8) : Option (Nat × List Object × List UInt8) := do
  let (s, b) ← fread 8 b
  let (n, b) ← fread 4 b
  if 2 ^ 31 ≤ A.value n then none
  let (l, b) ← A.readObjects (A.value n) b
  some (A.value s, l, b)

/-- The record that lies in memory as these bytes. -/
def Abi.readRecord (A : Abi) (b : List UInt8) : Record :=
  match A.parse 0 A.record b with
  | [e, p, s, d, l, m, y, t, x] => ⟨e, p, s, d, l, m, y, t, x⟩
  | _ => ⟨0, 0, 0, 0, 0, 0, 0, 0, 0⟩

/-- An array of records. -/
def Abi.readRecords (A : Abi) : Nat → List UInt8 → List Record
  | 0, _ => []
  | n + 1, b => A.readRecord (b.take (sizeOf A.record)) :: A.readRecords n (b.drop (sizeOf A.record))

/-- How the reading of a file ends. -/
inductive End
  /-- the whole file has been read -/
  | done
  /-- the tool says that the file is garbled -/
  | failure
  /-- a negative length: `fread` writes outside of the buffer -/
  | overrun
deriving DecidableEq, Repr

/-- `TRACE_BUFFER_CAPACITY`, trace/impl/include/trace_impl.h:4. -/
def capacity : Nat := 2048

/-- `read_trace`, util/tracing/trace_util.c:273-294, called until it returns 0 (util/tracing/trace_to_csv.c:494).  `n` bounds the number of
calls. -/
def Abi.readTraces (A : Abi) : Nat → List UInt8 → List Record × End
  | 0, _ => ([], .done)
  | n + 1, b =>
    match fread 4 b with
    | none => ([], .done)
    | some (h, b) =>
      if 2 ^ 31 ≤ A.value h then ([], .overrun)
      else if capacity < A.value h then ([], .failure)
      else if A.value h = 0 then ([], .done)
      else match fread (A.value h * sizeOf A.record) b with
        | none => ([], .failure)
        | some (d, b) => (A.readRecords (A.value h) d ++ (A.readTraces n b).1, (A.readTraces n b).2)

/-- Reads a whole file: the start time, the table, the records, and how it ends. -/
def Abi.read (A : Abi) (b : List UInt8) : Option (Nat × List Object × List Record × End) := do
  let (s, t, b) ← A.readHeader b
  some (s, t, A.readTraces b.length b)

/-- `get_object_description`, util/tracing/trace_util.c:139-153: the description and the index. -/
def getObjectDescription (table : List Object) (pointer : Nat) : Option (List UInt8) × Nat :=
  match table.findIdx? fun x => x.pointer = pointer with
  | some i => (table[i]?.map Object.description, i)
  | none => (none, 0)

/-- `get_trigger_name`, util/tracing/trace_util.c:164-178; `trace_trigger` is 1 (trace/api/trace.h:26-30). -/
def getTriggerName (table : List Object) (trigger : Nat) : Option (List UInt8) × Nat :=
  match table.findIdx? fun x => x.trigger = trigger && x.type = 1 with
  | some i => (table[i]?.map Object.description, i)
  | none => (none, 0)

end ReactorC.Trace.File
