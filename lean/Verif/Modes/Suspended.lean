import Mathlib.Tactic.Ring

/-!
# Model of the list of suspended events

The events of inactive modes are kept in a linked list (core/modal_models/modes.c:61-126), whose elements are used again; `Modes/Model.lean` has a list in its place.  This
model has the elements and pointers.  Addresses of elements are natural numbers, and so are events.

Simplifications.  `malloc` does not fail and gives addresses in order.  What is done with an event that is taken off the list (rescheduling, recycling) does not
use the list, and is left out.
-/

namespace ReactorC.Modes.Suspended

/-- `next`, `event`: the fields of elements.  `head`, `free`, `num`: `_lf_suspended_events_head`, `_lf_unsused_suspended_events_head`, `_lf_suspended_events_num`.  `brk`: the number of
elements that have been allocated. -/
structure St where
  next : Nat → Option Nat
  event : Nat → Option Nat
  head : Option Nat
  free : Option Nat
  num : Int
  brk : Nat

def put {α : Type} (g : Nat → α) (p : Nat) (x : α) : Nat → α := fun q => if q = p then x else g q

def St.init : St := ⟨fun _ => none, fun _ => none, none, none, 0, 0⟩

/-- `_lf_add_suspended_event`, modes.c:76-91. -/
def add (s : St) (e : Nat) : St :=
  match s.free with
  | some a => { s with free := s.next a, event := put s.event a (some e), next := put s.next a s.head, num := s.num + 1, head := some a }
  | none => { s with brk := s.brk + 1, event := put s.event s.brk (some e), next := put s.next s.brk s.head, num := s.num + 1, head := some s.brk }

/-- The loop that looks for the predecessor, modes.c:116-119; `none` if it reads a field of NULL.  The first argument bounds the number of iterations. -/
def findPred (next : Nat → Option Nat) (t : Nat) : Nat → Nat → Option Nat
  | 0, _ => none
  | k + 1, p => if next p = some t then some p else match next p with
    | some q => findPred next t k q
    | none => none

/-- `_lf_remove_suspended_event`, modes.c:97-126, with its result; `none` if the program crashes.  In both branches of line 106 the field `next` becomes the old head of the free list (NULL in the
first of them). -/
def remove (s : St) (a : Nat) : Option (St × Option Nat) :=
  let s' := { s with event := put s.event a none, next := put s.next a s.free, num := s.num - 1, free := some a }
  if s.head = some a then some ({ s' with head := s.next a }, s.next a)
  else match s.head with
    | none => none
    | some h => match findPred s'.next a s.brk h with
      | none => none
      | some p => some ({ s' with next := put s'.next p (s.next a) }, s.next a)

/-- The loop that takes the events of the next mode (`P`) off the list, modes.c:383-422, from an element on: the state, and the events, in order.  The first argument bounds the number of iterations. -/
def sweep (P : Nat → Bool) : Nat → Option Nat → St → Option (St × List Nat)
  | _, none, s => some (s, [])
  | 0, some _, _ => none
  | k + 1, some a, s => match s.event a with
    | none => sweep P k (s.next a) s
    | some e =>
      if P e then match remove s a with
        | none => none
        | some (s', nx) => (sweep P k nx s').map fun r => (r.1, e :: r.2)
      else sweep P k (s.next a) s

/-- A loop over a list that frees its elements, modes.c:521-527 and 532-537: what is freed. -/
def collect (next : Nat → Option Nat) : Nat → Option Nat → List Nat
  | 0, _ => []
  | _, none => []
  | k + 1, some a => a :: collect next k (next a)

/-- `_lf_terminate_modal_reactors`, modes.c:520-538: the elements that are freed. -/
def freed (s : St) : List Nat := collect s.next s.brk s.head ++ collect s.next s.brk s.free

end ReactorC.Modes.Suspended
