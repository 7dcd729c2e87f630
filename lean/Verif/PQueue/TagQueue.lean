import Verif.PQueue.Model
import Verif.Tag.Spec

/-!
# Model of `core/utils/pqueue_tag.c`: queues sorted by tag

The priority of an element is the tag stored in it (`pri`); the C code passes a
pointer to the element as its own priority and compares the tags
(core/utils/pqueue_tag.c:27-30,71-75).
-/

namespace ReactorC.PQueue

variable {α : Type} [DecidableEq α]

/-- `pqueue_tag_init` / `pqueue_tag_init_customize` callbacks
(core/utils/pqueue_tag.c:71-86): comparison is `lf_tag_compare` on tags. -/
def tagOps (tagOf : α → Tag) (eqelem : α → α → Bool) : Ops α Tag :=
  { cmp := lf_tag_compare, pri := tagOf, eqelem := eqelem }

/-- `pqueue_tag_find_with_tag` (core/utils/pqueue_tag.c:108-113). -/
def findWithTag (o : Ops α Tag) (q : PQ α) (t : Tag) : Option α := findSame o q t 1

/-- `pqueue_tag_find_equal_same_tag` (core/utils/pqueue_tag.c:115-117). -/
def findEqualSameTag (o : Ops α Tag) (q : PQ α) (e : α) : Option α := findEqual o q e 1

/-- `pqueue_tag_insert_if_no_match` (core/utils/pqueue_tag.c:119-127); `x` is the
element `pqueue_tag_insert_tag` allocates for tag `t` (lines 101-106). -/
def insertIfNoMatch (o : Ops α Tag) (q : PQ α) (x : α) (t : Tag) : Nat × PQ α :=
  match findWithTag o q t with
  | none => (0, insert o q x)
  | some _ => (1, q)

omit [DecidableEq α] in
/-- `pqueue_tag_peek_tag` (core/utils/pqueue_tag.c:131-137). -/
def peekTag (o : Ops α Tag) (q : PQ α) : Tag :=
  match peek q with
  | none => FOREVER_TAG
  | some x => o.pri x

/-- `pqueue_tag_pop_tag` (core/utils/pqueue_tag.c:141-151). -/
def popTag (o : Ops α Tag) (q : PQ α) : Tag × PQ α :=
  match pop o q with
  | (none, q') => (FOREVER_TAG, q')
  | (some x, q') => (o.pri x, q')

/-- `pqueue_tag_remove_up_to` (core/utils/pqueue_tag.c:155-161). An empty queue has
head tag `FOREVER_TAG`, which ends the loop. -/
def removeUpTo (o : Ops α Tag) (q : PQ α) (t : Tag) : PQ α :=
  if _h : q.size ≤ 1 then q
  else if lf_tag_compare (peekTag o q) FOREVER_TAG < 0 ∧ lf_tag_compare (peekTag o q) t ≤ 0 then
    removeUpTo o (pop o q).2 t
  else q
termination_by q.size
decreasing_by
  have := pop_size o q (by omega)
  omega

end ReactorC.PQueue
