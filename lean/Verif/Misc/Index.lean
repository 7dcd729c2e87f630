import Mathlib.Tactic.Common

/-! # Models for C52 and C53: reaction index and event recycling -/

namespace ReactorC.Index

/-- `lf_combine_deadline_and_level`, core/reactor_common.c:1224-1229.  The result is the 64-bit unsigned `index_t`.
`ULLONG_MAX >> 16` is 2^48 - 1.  The C code shifts a signed number; its bits beyond the 64th are dropped.  The
deadline and the level are taken non-negative (negative deadlines are not generated). -/
def lf_combine_deadline_and_level (deadline level : Nat) : Nat :=
  if deadline > (2 ^ 64 - 1) >>> 16 then (((2 ^ 64 - 1) >>> 16) <<< 16) ||| level
  else ((deadline <<< 16) % 2 ^ 64) ||| level

/-- `LF_LEVEL`, include/core/utils/util.h:71. -/
def LF_LEVEL (index : Nat) : Nat := index &&& 0xffff

end ReactorC.Index

namespace ReactorC.Recycle

/-- The fields of an event that `lf_recycle_event` clears, include/core/lf_types.h:196-203.  A `none` trigger or
token is a null pointer. -/
structure Event where
  time : Int
  microstep : Nat
  trigger : Option Nat
  token : Option Nat
deriving DecidableEq, Repr

/-- An event as `calloc` returns it: all bytes zero. -/
def zeroed : Event :=
  { time := 0
    microstep := 0
    trigger := none
    token := none }

/-- The memory, the two queues, and the events that some function has taken from `lf_get_new_event` or from the
event queue and not yet passed on.  Queues are lists of addresses; which element comes out first is not
important here, so that popping takes any element. -/
structure State where
  mem : Nat → Event
  fresh : Nat
  recycleQ : List Nat
  eventQ : List Nat
  held : List Nat

def init : State :=
  { mem := fun _ => zeroed
    fresh := 0
    recycleQ := []
    eventQ := []
    held := [] }

/-- `lf_get_new_event`, core/reactor_common.c:339-352: the event popped from the recycle queue (element `k` of it),
or a new one when the queue is empty. -/
def lf_get_new_event (s : State) (k : Nat) : Nat × State :=
  match s.recycleQ[k % s.recycleQ.length]? with
  | some e => (e, { s with recycleQ := s.recycleQ.erase e, held := e :: s.held })
  | none =>
    (s.fresh, { s with
      mem := fun x => if x = s.fresh then zeroed else s.mem x
      fresh := s.fresh + 1
      held := s.fresh :: s.held })

/-- `lf_recycle_event`, core/reactor_common.c:454-463. -/
def lf_recycle_event (s : State) (e : Nat) : State :=
  { s with
    mem := fun x => if x = e then { time := 0, microstep := 0, trigger := none, token := none } else s.mem x
    recycleQ := e :: s.recycleQ
    held := s.held.erase e }

/-- What the callers of the two functions do: core/reactor_common.c:241, 332, 364, 392, 412-413, 466, 506-549 and
core/modal_models/modes.c:415, 523.  An event is written, inserted or recycled only by a caller that holds it. -/
inductive Op
  | get (k : Nat)
  | write (e : Nat) (v : Event)
  | insert (e : Nat)
  /-- `pqueue_tag_pop` or `pqueue_tag_remove` on the event queue -/
  | remove (e : Nat)
  | recycle (e : Nat)
deriving DecidableEq, Repr

/-- One operation; `none` if the caller does not hold the event or it is not in the queue. -/
def step (s : State) : Op → Option State
  | .get k => some (lf_get_new_event s k).2
  | .write e v => if e ∈ s.held then some { s with mem := fun x => if x = e then v else s.mem x } else none
  | .insert e => if e ∈ s.held then some { s with held := s.held.erase e, eventQ := e :: s.eventQ } else none
  | .remove e => if e ∈ s.eventQ then some { s with eventQ := s.eventQ.erase e, held := e :: s.held } else none
  | .recycle e => if e ∈ s.held then some (lf_recycle_event s e) else none

/-- A history. -/
def run : State → List Op → Option State
  | s, [] => some s
  | s, op :: ops => (step s op).bind fun t => run t ops

end ReactorC.Recycle
