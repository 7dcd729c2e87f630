/-!
# Model of `core/utils/pqueue_base.c`: the binary-heap priority queue

Elements are pointers: values of an arbitrary type `α` (identity), whose priority
is given by `pri` and does not change while the element is queued.  The array
`q->d` is a function from slot numbers to elements (slot 0 unused, slots at or
beyond `size` hold arbitrary leftovers); the `pos` field stored in each element is
the map `pos`.
-/

namespace ReactorC.PQueue

/-- The callbacks of `pqueue_t` (include/core/utils/pqueue_base.h:73-86):
`cmppri`, `getpri`, `eqelem`. `getpos`/`setpos` access the map `PQ.pos`. -/
structure Ops (α : Type) (κ : Type) where
  cmp : κ → κ → Int
  pri : α → κ
  eqelem : α → α → Bool

/-- `pqueue_t` (include/core/utils/pqueue_base.h:73-86). `d` and `pos` are memory. -/
structure PQ (α : Type) where
  size : Nat
  avail : Nat
  step : Nat
  d : Nat → α
  pos : α → Nat

/-- Array store `d[i] = x`. -/
def setSlot {α} (d : Nat → α) (i : Nat) (x : α) : Nat → α := fun j => if j = i then x else d j

/-- `setpos(x, i)`. -/
def setPos {α} [DecidableEq α] (pos : α → Nat) (x : α) (i : Nat) : α → Nat :=
  fun y => if y = x then i else pos y

variable {α κ : Type} [DecidableEq α]

/-- `pqueue_init` (core/utils/pqueue_base.c:129-150). The fresh array and the `pos`
fields of elements not yet queued contain arbitrary values `d`, `pos`. -/
def init (n : Nat) (d : Nat → α) (pos : α → Nat) : PQ α :=
  { size := 1, avail := n + 1, step := n + 1, d := d, pos := pos }

omit [DecidableEq α] in
/-- `pqueue_size` (core/utils/pqueue_base.c:157-162). -/
def sizeOf (q : PQ α) : Nat := q.size - 1

omit [DecidableEq α] in
/-- `maxchild` (core/utils/pqueue_base.c:164-174); `LF_LEFT(i)` is `2*i`. -/
def maxchild (o : Ops α κ) (q : PQ α) (i : Nat) : Nat :=
  let child := 2 * i
  if child ≥ q.size then 0
  else if child + 1 < q.size ∧ o.cmp (o.pri (q.d child)) (o.pri (q.d (child + 1))) = 1
  then child + 1 else child

/-- The loop of `bubble_up` (core/utils/pqueue_base.c:181-188) for the node
`moving`, currently at `i`; returns the final state. -/
def bubbleLoop (o : Ops α κ) (moving : α) (q : PQ α) (i : Nat) : PQ α :=
  if _h : i > 1 ∧ o.cmp (o.pri (q.d (i / 2))) (o.pri moving) = 1 then
    bubbleLoop o moving
      { q with d := setSlot q.d i (q.d (i / 2)), pos := setPos q.pos (q.d (i / 2)) i } (i / 2)
  else
    { q with d := setSlot q.d i moving, pos := setPos q.pos moving i }
termination_by i
decreasing_by omega

/-- `bubble_up` (core/utils/pqueue_base.c:176-190). -/
def bubbleUp (o : Ops α κ) (q : PQ α) (i : Nat) : PQ α := bubbleLoop o (q.d i) q i

omit [DecidableEq α] in
theorem maxchild_gt (o : Ops α κ) (q : PQ α) (i : Nat) (h : maxchild o q i ≠ 0) :
    i < maxchild o q i ∧ maxchild o q i < q.size := by
  unfold maxchild at *
  simp only [ge_iff_le] at *
  split at h
  · simp at h
  · split at h <;> split <;> simp_all <;> omega

/-- The loop of `percolate_down` (core/utils/pqueue_base.c:197-206). -/
def percolateLoop (o : Ops α κ) (moving : α) (q : PQ α) (i : Nat) : PQ α :=
  let child := maxchild o q i
  if _h : child ≠ 0 ∧ o.cmp (o.pri moving) (o.pri (q.d child)) = 1 then
    percolateLoop o moving
      { q with d := setSlot q.d i (q.d child), pos := setPos q.pos (q.d child) i } child
  else
    { q with d := setSlot q.d i moving, pos := setPos q.pos moving i }
termination_by q.size - i
decreasing_by
  have := maxchild_gt o q i _h.1
  omega

/-- `percolate_down` (core/utils/pqueue_base.c:192-205). -/
def percolateDown (o : Ops α κ) (q : PQ α) (i : Nat) : PQ α := percolateLoop o (q.d i) q i

/-- `pqueue_insert` (core/utils/pqueue_base.c:211-233); `realloc` succeeds. -/
def insert (o : Ops α κ) (q : PQ α) (x : α) : PQ α :=
  let q := if q.size ≥ q.avail then { q with avail := q.size + q.step } else q
  let i := q.size
  bubbleUp o { q with size := q.size + 1, d := setSlot q.d i x } i

/-- `pqueue_remove` (core/utils/pqueue_base.c:235-246): the element is located by
its stored position only. -/
def remove (o : Ops α κ) (q : PQ α) (x : α) : PQ α :=
  if q.size = 1 then q
  else
    let posn := q.pos x
    let q := { q with size := q.size - 1, d := setSlot q.d posn (q.d (q.size - 1)) }
    if o.cmp (o.pri x) (o.pri (q.d posn)) = 1 then bubbleUp o q posn
    else percolateDown o q posn

/-- `pqueue_pop` (core/utils/pqueue_base.c:248-259). -/
def pop (o : Ops α κ) (q : PQ α) : Option α × PQ α :=
  if q.size = 1 then (none, q)
  else
    let head := q.d 1
    let q := { q with size := q.size - 1, d := setSlot q.d 1 (q.d (q.size - 1)) }
    (some head, percolateDown o q 1)

omit [DecidableEq α] in
/-- `pqueue_peek` (core/utils/pqueue_base.c:282-288). -/
def peek (q : PQ α) : Option α := if q.size = 1 then none else some (q.d 1)

omit [DecidableEq α] in
/-- `find_same_priority` (core/utils/pqueue_base.c:56-87) from slot `p`; the C code
starts at slot 1 (line 207). Slots hold non-NULL pointers; `int` overflow of `pos`
(queues with more than 2^30 elements) is not modelled. -/
def findSame (o : Ops α κ) (q : PQ α) (e : κ) (p : Nat) : Option α :=
  if _h : p = 0 ∨ p ≥ q.size then none
  else if o.cmp (o.pri (q.d p)) e = 1 then none
  else if o.cmp (o.pri (q.d p)) e = 0 then some (q.d p)
  else match findSame o q e (2 * p) with
    | some r => some r
    | none => findSame o q e (2 * p + 1)
termination_by q.size - p
decreasing_by all_goals omega

omit [DecidableEq α] in
/-- `find_equal_same_priority` (core/utils/pqueue_base.c:89-127) from slot `p`. -/
def findEqual (o : Ops α κ) (q : PQ α) (e : α) (p : Nat) : Option α :=
  if _h : p = 0 ∨ p ≥ q.size then none
  else if o.cmp (o.pri (q.d p)) (o.pri e) = 1 then none
  else if o.cmp (o.pri (q.d p)) (o.pri e) = 0 ∧ o.eqelem (q.d p) e = true then some (q.d p)
  else match findEqual o q e (2 * p) with
    | some r => some r
    | none => findEqual o q e (2 * p + 1)
termination_by q.size - p
decreasing_by all_goals omega

theorem percolateLoop_size (o : Ops α κ) (m : α) (q : PQ α) (i : Nat) :
    (percolateLoop o m q i).size = q.size := by
  fun_induction percolateLoop o m q i with
  | case1 q i child h ih => simpa using ih
  | case2 q i child h => rfl

theorem pop_size (o : Ops α κ) (q : PQ α) (h : q.size ≠ 1) :
    (pop o q).2.size = q.size - 1 := by
  simp [pop, h, percolateDown, percolateLoop_size]

/-- `while ((item = pqueue_pop(src))) pqueue_insert(dest, item);`
(core/utils/pqueue_base.c:268-270). Returns `(dest, src)`. The `pos` fields live in
the elements, so both queues see the same `pos` memory. -/
def moveAll (o : Ops α κ) (dest src : PQ α) : PQ α × PQ α :=
  if _h : src.size ≤ 1 then (dest, src)
  else
    match (pop o src).1 with
    | none => (dest, src)
    | some x =>
      let dest' := insert o { dest with pos := (pop o src).2.pos } x
      moveAll o dest' { (pop o src).2 with pos := dest'.pos }
termination_by src.size
decreasing_by
  have := pop_size o src (by omega)
  simp only [this]; omega

/-- `pqueue_empty_into` (core/utils/pqueue_base.c:261-280): move the elements of the
smaller queue and swap the queues if necessary. Returns `(dest, src)`. -/
def emptyInto (o : Ops α κ) (dest src : PQ α) : PQ α × PQ α :=
  if dest.size ≥ src.size then moveAll o dest src
  else
    let r := moveAll o src dest
    (r.1, r.2)

end ReactorC.PQueue
