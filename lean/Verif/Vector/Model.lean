import Mathlib.Data.List.Basic

/-!
# The growable array

Models core/utils/vector.c.  Pointers `start`, `next`, `end` are offsets from `start`; the memory they
point to is a list of cells.  `none` is a cell that was never written (`malloc` and `realloc` do not
initialize), `some v` a cell holding the pointer `v` (0 is NULL).  Accesses outside the allocated array,
failed assertions and endless loops set `fault`.  Memory exhaustion and overflow of `size_t`/`int` counters
are not modelled.
-/

namespace ReactorC.Vector

/-- `vector_t`, include/core/utils/vector.h. -/
structure Vec where
  /-- the allocated array; its length is `end - start` -/
  buf : List (Option Nat)
  /-- `next - start` -/
  next : Nat
  votesRequired : Nat
  votes : Nat
  fault : Bool
deriving DecidableEq, Repr

/-- `vector_new`, core/utils/vector.c:21-29. -/
def new (cap : Nat) : Vec :=
  { buf := List.replicate cap none
    next := 0
    votesRequired := 15
    votes := 0
    fault := false }

/-- `realloc`: keeps the common prefix. -/
def realloc (buf : List (Option Nat)) (n : Nat) : List (Option Nat) :=
  buf.take n ++ List.replicate (n - buf.length) none

/-- `vector_resize`, core/utils/vector.c:149-162. -/
def resize (v : Vec) (cap : Nat) : Vec :=
  if cap = 0 then v
  else
    { v with
      buf := realloc v.buf cap
      votes := 0
      fault := v.fault || decide (cap < v.next) }

/-- A store through a pointer at offset `i`. -/
def store (v : Vec) (i : Nat) (x : Option Nat) : Vec :=
  { v with
    buf := v.buf.set i x
    fault := v.fault || decide (v.buf.length ≤ i) }

/-- The growth test of `vector_push`, core/utils/vector.c:46-49. -/
def makeRoom (v : Vec) : Vec :=
  if v.next = v.buf.length then resize { v with votesRequired := v.votesRequired + 1 } (v.buf.length * 2) else v

/-- `vector_push`, core/utils/vector.c:45-51. -/
def push (v : Vec) (x : Nat) : Vec :=
  let v := makeRoom v
  { store v v.next (some x) with next := v.next + 1 }

/-- The copying loop of `vector_pushall`, core/utils/vector.c:65-68. -/
def storeAll (v : Vec) (i : Nat) : List Nat → Vec
  | [] => v
  | x :: xs => storeAll (store v i (some x)) (i + 1) xs

/-- `vector_pushall`, core/utils/vector.c:60-70. -/
def pushall (v : Vec) (xs : List Nat) : Vec :=
  let v := if v.next + xs.length > v.buf.length then resize v ((v.next + xs.length) * 2) else v
  { storeAll v v.next xs with next := v.next + xs.length }

/-- `vector_pop`, core/utils/vector.c:77-88.  The result is `none` for NULL of an empty vector, else the
content of the cell. -/
def pop (v : Vec) : Vec × Option (Option Nat) :=
  if v.next = 0 then
    (if v.votes ≥ v.votesRequired then (if v.buf.length / 2 > 0 then resize v (v.buf.length / 2) else v) else v, none)
  else
    ({ v with next := v.next - 1, fault := v.fault || decide (v.buf.length ≤ v.next - 1) },
      some ((v.buf[v.next - 1]?).join))

/-- The loop `while (new_size <= idx) new_size *= SCALE_FACTOR`, core/utils/vector.c:112-114; `none` when it
does not end. -/
def growTo (size idx : Nat) : Option Nat :=
  if size = 0 then none
  else if size ≤ idx then growTo (size * 2) idx else some size
termination_by idx + 1 - size

/-- `vector_at`, core/utils/vector.c:103-120, without the access through the returned pointer. -/
def «at» (v : Vec) (idx : Nat) : Vec :=
  let v := if idx + 1 > v.next then { v with next := idx + 1 } else v
  if v.next ≥ v.buf.length then
    match growTo (v.buf.length * 2) idx with
    | some n => resize { v with votesRequired := v.votesRequired + 1 } n
    | none => { v with fault := true }
  else v

/-- Reading through the pointer returned by `vector_at`. -/
def readAt (v : Vec) (idx : Nat) : Vec × Option Nat :=
  let v := «at» v idx
  ({ v with fault := v.fault || decide (v.buf.length ≤ idx) }, (v.buf[idx]?).join)

/-- Writing through the pointer returned by `vector_at`. -/
def writeAt (v : Vec) (idx x : Nat) : Vec := store («at» v idx) idx (some x)

/-- `vector_vote`, core/utils/vector.c:138-142. -/
def vote (v : Vec) : Vec :=
  { v with votes := if v.next * 4 ≤ v.buf.length then v.votes + 1 else 0 }

/-- `vector_size`, core/utils/vector.c:128. -/
def size (v : Vec) : Nat := v.next

inductive Op
  | push (x : Nat)
  | pushall (xs : List Nat)
  | pop
  | readAt (i : Nat)
  | writeAt (i x : Nat)
  | vote
deriving Repr, DecidableEq

/-- What the caller sees. -/
inductive Res
  | unit
  | empty
  /-- a value; `none` when the cell was never written -/
  | value (v : Option Nat)
deriving Repr, DecidableEq

def exec (v : Vec) : Op → Vec × Res
  | .push x => (push v x, .unit)
  | .pushall xs => (pushall v xs, .unit)
  | .pop => match pop v with
    | (v', some x) => (v', .value x)
    | (v', none) => (v', .empty)
  | .readAt i => ((readAt v i).1, .value (readAt v i).2)
  | .writeAt i x => (writeAt v i x, .unit)
  | .vote => (vote v, .unit)

/-- The results and final state of a history. -/
def run (v : Vec) : List Op → Vec × List Res
  | [] => (v, [])
  | o :: os =>
    let r := exec v o
    let q := run r.1 os
    (q.1, r.2 :: q.2)

end ReactorC.Vector
