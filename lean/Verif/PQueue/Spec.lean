import Verif.PQueue.Model
import Mathlib.Order.Interval.Finset.Nat
import Mathlib.Data.Multiset.AddSub
import Mathlib.Order.Defs.LinearOrder

/-!
# Specification vocabulary for the priority queue

Abstractly a priority queue is a multiset of elements. `SpecStep` says what each
operation may do to the multiset and what it returns.
-/

namespace ReactorC.PQueue

variable {α κ : Type} [DecidableEq α]

/-- The comparison callback computes a linear order on priorities (1 means the first
is larger, 0 equal), as `in_reverse_order` (core/utils/pqueue.c:20) and
`pqueue_tag_compare` (core/utils/pqueue_tag.c:71) do. -/
structure Lawful [LinearOrder κ] (o : Ops α κ) : Prop where
  gt : ∀ x y, o.cmp x y = 1 ↔ y < x
  eq : ∀ x y, o.cmp x y = 0 ↔ x = y

omit [DecidableEq α] in
/-- The elements stored in the queue (slots 1 to size-1). -/
def contents (q : PQ α) : Multiset α := (Finset.Ico 1 q.size).val.map q.d

/-- Operations of the queue API. -/
inductive Op (α : Type) where
  | insert (x : α)
  | pop
  | peek
  | remove (x : α)
  | size

/-- Observable results. -/
inductive Out (α : Type) where
  | unit
  | elem (r : Option α)
  | num (n : Nat)

/-- The abstract priority queue: `insert` adds, `remove` removes that element, `pop`
removes and returns a minimum element, `peek` returns a minimum element; both return
nothing exactly on the empty queue; `size` counts. -/
inductive SpecStep [LinearOrder κ] (pri : α → κ) :
    Multiset α → Op α → Multiset α → Out α → Prop where
  | insert (M x) : SpecStep pri M (.insert x) (x ::ₘ M) .unit
  | remove (M x) : x ∈ M → SpecStep pri M (.remove x) (M.erase x) .unit
  | popEmpty : SpecStep pri 0 .pop 0 (.elem none)
  | pop (M x) : x ∈ M → (∀ y ∈ M, pri x ≤ pri y) → SpecStep pri M .pop (M.erase x) (.elem (some x))
  | peekEmpty : SpecStep pri 0 .peek 0 (.elem none)
  | peek (M x) : x ∈ M → (∀ y ∈ M, pri x ≤ pri y) → SpecStep pri M .peek M (.elem (some x))
  | size (M) : SpecStep pri M .size M (.num M.card)

/-- Runs of the abstract queue with their outputs. -/
inductive SpecRun [LinearOrder κ] (pri : α → κ) :
    Multiset α → List (Op α) → Multiset α → List (Out α) → Prop where
  | nil (M) : SpecRun pri M [] M []
  | cons {M M' M'' op ops out outs} : SpecStep pri M op M' out → SpecRun pri M' ops M'' outs →
      SpecRun pri M (op :: ops) M'' (out :: outs)

/-- The implementation's step. -/
def step (o : Ops α κ) (q : PQ α) : Op α → PQ α × Out α
  | .insert x => (insert o q x, .unit)
  | .pop => ((pop o q).2, .elem (pop o q).1)
  | .peek => (q, .elem (peek q))
  | .remove x => (remove o q x, .unit)
  | .size => (q, .num (sizeOf q))

/-- The implementation's run. -/
def run (o : Ops α κ) (q : PQ α) : List (Op α) → PQ α × List (Out α)
  | [] => (q, [])
  | op :: ops =>
    let r := step o q op
    let r' := run o r.1 ops
    (r'.1, r.2 :: r'.2)

/-- Usage rule of the intrusive queue, stated on the *client's* view (the list of
elements it believes queued, given by the outputs): an element is inserted only if it
is not queued, and removed only if it is queued. -/
def legal (o : Ops α κ) (q : PQ α) : List (Op α) → Prop
  | [] => True
  | op :: ops =>
    (match op with
      | .insert x => x ∉ contents q
      | .remove x => x ∈ contents q
      | _ => True) ∧ legal o (step o q op).1 ops

end ReactorC.PQueue
