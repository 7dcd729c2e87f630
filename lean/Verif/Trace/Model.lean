import Mathlib.Data.List.Basic

/-!
# The tracing plugin

Models trace/impl/src/trace_impl.c: tracepoints of any number of threads, the flushing of their buffers to the trace file
and the end of tracing.

A thread with identifier `tid` uses the buffer with index `tid`, and all threads not managed by the runtime use the one
with index -1, holding `trace_mutex` during the whole call; here the slot `tid + 1` is used, so that slot 0 is
that of the user threads, of which, thanks to the mutex, one at a time is in a call.  A flush happens with `trace_mutex`
held and is one step.  The exclusion of flushes by a user thread in a call is left out: all interleavings are allowed, and
so in particular the ones the mutex allows.

Simplifications: the trace file is the sequence of the chunks written, each marked with the slot it comes from; the
header is left out; when writing fails the file is closed (109-111, 117-119).
-/

namespace ReactorC.Trace

variable {Rec : Type}

/-- Where a thread is in `lf_tracing_tracepoint`, trace/impl/src/trace_impl.c:222-252. -/
inductive Pc (Rec : Type)
  | idle
  /-- before the test of the size (238) -/
  | called (r : Rec)
  /-- before writing to the buffer (243) -/
  | ready (r : Rec)

/-- What was written to the trace file by one flush. -/
structure Chunk (Rec : Type) where
  slot : Nat
  records : List Rec

/-- `trace_t`, trace/impl/include/trace_impl.h:20-49.  `number` is `_lf_number_of_trace_buffers`; `open_` is whether
`_lf_trace_file` is not null; `content` is what is in the file; `fault` is whether something has been written
outside a buffer; `written` is, for each slot, the records of all tracepoints so far, in order. -/
structure State (Rec : Type) where
  number : Nat
  buffer : Nat → List Rec
  open_ : Bool
  content : List (Chunk Rec)
  stopped : Bool
  pc : Nat → Pc Rec
  fault : Bool
  written : Nat → List Rec

/-- `trace_new` and `start_trace`, trace/impl/src/trace_impl.c:139-177: `opened` is whether the file could be opened. -/
def start (number : Nat) (opened : Bool) : State Rec :=
  { number := number
    buffer := fun _ => []
    open_ := opened
    content := []
    stopped := false
    pc := fun _ => .idle
    fault := false
    written := fun _ => [] }

/-- A function changed at one point. -/
def put {α : Type} (f : Nat → α) (k : Nat) (a : α) : Nat → α := fun j => if j = k then a else f j

/-- `flush_trace_locked`, trace/impl/src/trace_impl.c:93-124: `ok` is whether writing to the file succeeds. -/
def flush_trace_locked (k : Nat) (ok : Bool) (s : State Rec) : State Rec :=
  if s.stopped = false ∧ s.open_ = true ∧ 0 < (s.buffer k).length then
    if ok then { s with content := s.content ++ [⟨k, s.buffer k⟩], buffer := put s.buffer k [] }
    else { s with open_ := false, buffer := put s.buffer k [] }
  else s

/-- The call of `lf_tracing_tracepoint`, trace/impl/src/trace_impl.c:222-235: a thread identifier that is too large ends
the program (so that the thread does not go on); the test is `tid > number`. -/
def call (k : Nat) (r : Rec) (s : State Rec) : Option (State Rec) :=
  if s.number + 1 < k then none else some { s with pc := put s.pc k (.called r) }

/-- The flush of a full buffer, trace/impl/src/trace_impl.c:237-241; `cap` is `TRACE_BUFFER_CAPACITY`. -/
def flushIfFull (cap k : Nat) (r : Rec) (ok : Bool) (s : State Rec) : State Rec :=
  if cap ≤ (s.buffer k).length then { flush_trace_locked k ok s with pc := put s.pc k (.ready r) }
  else { s with pc := put s.pc k (.ready r) }

/-- Writing to the buffer, trace/impl/src/trace_impl.c:243-248.  The buffers have indices -1 to `number - 1` and
`cap` elements each. -/
def append (cap k : Nat) (r : Rec) (s : State Rec) : State Rec :=
  { s with
    fault := s.fault || decide (cap ≤ (s.buffer k).length) || decide (s.number < k)
    buffer := put s.buffer k (s.buffer k ++ [r])
    written := put s.written k (s.written k ++ [r])
    pc := put s.pc k .idle }

/-- The loop of `stop_trace_locked`, trace/impl/src/trace_impl.c:184-190, over the first `n` buffers; `ok` tells which
writes succeed. -/
def flushAll (ok : Nat → Bool) : Nat → State Rec → State Rec
  | 0, s => s
  | n + 1, s =>
    let s := flushAll ok n s
    if 0 < (s.buffer n).length then flush_trace_locked n (ok n) s else s

/-- `stop_trace_locked`, trace/impl/src/trace_impl.c:179-197. -/
def stop (ok : Nat → Bool) (s : State Rec) : State Rec :=
  if s.stopped then s
  else { flushAll ok (s.number + 1) s with stopped := true, open_ := false }

/-- A step of the program.  `reliable` is whether writing to the trace file always succeeds. -/
inductive Step (cap : Nat) (reliable : Prop) : State Rec → State Rec → Prop
  | call (s t : State Rec) (k : Nat) (r : Rec) : s.pc k = .idle → call k r s = some t → Step cap reliable s t
  | flush (s : State Rec) (k : Nat) (r : Rec) (ok : Bool) : s.pc k = .called r → (reliable → ok = true) →
      Step cap reliable s (flushIfFull cap k r ok s)
  | append (s : State Rec) (k : Nat) (r : Rec) : s.pc k = .ready r → Step cap reliable s (append cap k r s)
  /-- tracing is ended when no thread is in a tracepoint, core/reactor_common.c, `termination` -/
  | stop (s : State Rec) (ok : Nat → Bool) : (∀ k, s.pc k = .idle) → (reliable → ∀ k, ok k = true) →
      Step cap reliable s (stop ok s)

/-- Any interleaving of any length. -/
inductive Reach (cap : Nat) (reliable : Prop) (number : Nat) (opened : Bool) : State Rec → Prop
  | start : Reach cap reliable number opened (start number opened)
  | step {s t : State Rec} : Reach cap reliable number opened s → Step cap reliable s t →
      Reach cap reliable number opened t

/-! ## The table of object descriptions -/

/-- `lf_tracing_register_trace_event`, trace/impl/src/trace_impl.c:211-220; `size` is `TRACE_OBJECT_TABLE_SIZE`. -/
def register {α : Type} (size : Nat) (table : List α) (d : α) : List α :=
  if size ≤ table.length then table else table ++ [d]

end ReactorC.Trace
