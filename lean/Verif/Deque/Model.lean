import Mathlib.Data.List.Basic

/-!
# The double-ended queue

Models util/deque.c: a doubly linked list of heap nodes.  Addresses are natural numbers, never reused;
`mem a = none` when no node is allocated at `a`, and accessing such a node or freeing it sets `fault`.
`calloc` is taken to succeed.
-/

namespace ReactorC.Deque

/-- `deque_node_t`, util/deque.c:65-69. -/
structure Node where
  next : Option Nat
  prev : Option Nat
  value : Nat
deriving DecidableEq, Repr

/-- `deque_t`, util/deque.h, and the heap. -/
structure State where
  mem : Nat → Option Node
  fresh : Nat
  front : Option Nat
  back : Option Nat
  size : Nat
  fault : Bool

def upd {α : Type} (f : Nat → α) (i : Nat) (v : α) : Nat → α := fun j => if j = i then v else f j

/-- `deque_initialize`, util/deque.c:75-81. -/
def init (s : State) : State :=
  { s with
    front := none
    back := none
    size := 0 }

/-- A newly allocated heap with an initialized deque. -/
def empty : State :=
  { mem := fun _ => none
    fresh := 0
    front := none
    back := none
    size := 0
    fault := false }

/-- A store to a field of the node at `a`. -/
def modify (s : State) (a : Nat) (f : Node → Node) : State :=
  match s.mem a with
  | some n => { s with mem := upd s.mem a (some (f n)) }
  | none => { s with fault := true }

/-- `_deque_create_node`, util/deque.c:108-112. -/
def create (s : State) (v : Nat) : State :=
  { s with
    mem := upd s.mem s.fresh (some ⟨none, none, v⟩)
    fresh := s.fresh + 1 }

/-- `deque_push_front`, util/deque.c:119-130. -/
def pushFront (s : State) (v : Nat) : State :=
  let n := s.fresh
  let s := create s v
  match s.front with
  | none => { s with front := some n, back := some n, size := 1 }
  | some f =>
    let s := modify s f (fun x => { x with prev := some n })
    let s := modify s n (fun x => { x with next := some f })
    { s with front := some n, size := s.size + 1 }

/-- `deque_push_back`, util/deque.c:137-148. -/
def pushBack (s : State) (v : Nat) : State :=
  let n := s.fresh
  let s := create s v
  match s.back with
  | none => { s with front := some n, back := some n, size := s.size + 1 }
  | some b =>
    let s := modify s b (fun x => { x with next := some n })
    let s := modify s n (fun x => { x with prev := some b })
    { s with back := some n, size := s.size + 1 }

/-- Unlinking of the front node `f` with contents `n`, util/deque.c:162-170. -/
def unlinkFront (s : State) (f : Nat) (n : Node) : State :=
  { s with
    front := if s.front = s.back then none else n.next
    back := if s.front = s.back then none else s.back
    mem := upd s.mem f none
    size := s.size - 1 }

/-- Unlinking of the back node `b` with contents `n`, util/deque.c:185-193. -/
def unlinkBack (s : State) (b : Nat) (n : Node) : State :=
  { s with
    front := if s.front = s.back then none else s.front
    back := if s.front = s.back then none else n.prev
    mem := upd s.mem b none
    size := s.size - 1 }

/-- `deque_pop_front`, util/deque.c:155-172; NULL is 0. -/
def popFront (s : State) : State × Nat :=
  match s.front with
  | none => (s, 0)
  | some f =>
    match s.mem f with
    | none => ({ s with fault := true }, 0)
    | some n =>
      (unlinkFront s f n, n.value)

/-- `deque_pop_back`, util/deque.c:179-195. -/
def popBack (s : State) : State × Nat :=
  match s.back with
  | none => (s, 0)
  | some b =>
    match s.mem b with
    | none => ({ s with fault := true }, 0)
    | some n =>
      (unlinkBack s b n, n.value)

/-- Reading the value of a node, or NULL. -/
def peek (s : State) : Option Nat → State × Nat
  | none => (s, 0)
  | some a =>
    match s.mem a with
    | none => ({ s with fault := true }, 0)
    | some n => (s, n.value)

/-- `deque_peek_back`, util/deque.c:202-207. -/
def peekBack (s : State) : State × Nat := peek s s.back

/-- `deque_peek_front`, util/deque.c:214-219. -/
def peekFront (s : State) : State × Nat := peek s s.front

/-- `deque_is_empty`, util/deque.c:87-92. -/
def isEmpty (s : State) : Bool := s.front.isNone

inductive Op
  | pushFront (v : Nat) | pushBack (v : Nat) | popFront | popBack | peekFront | peekBack | size | isEmpty
deriving Repr, DecidableEq

/-- Result: the returned value; 1/0 for true/false; 0 for functions returning nothing. -/
def exec (s : State) : Op → State × Nat
  | .pushFront v => (pushFront s v, 0)
  | .pushBack v => (pushBack s v, 0)
  | .popFront => popFront s
  | .popBack => popBack s
  | .peekFront => peekFront s
  | .peekBack => peekBack s
  | .size => (s, s.size)
  | .isEmpty => (s, if isEmpty s then 1 else 0)

def run (s : State) : List Op → State × List Nat
  | [] => (s, [])
  | o :: os =>
    let r := exec s o
    let q := run r.1 os
    (q.1, r.2 :: q.2)

end ReactorC.Deque
