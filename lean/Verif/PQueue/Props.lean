import Verif.PQueue.Lemmas
import Verif.PQueue.TagQueue
import Verif.Tag.Order
import Mathlib.Data.Multiset.Filter

/-!
# Property theorems about priority queues (C06 - C09)
-/

set_option linter.unusedSectionVars false
set_option linter.unusedSimpArgs false

namespace ReactorC.PQueue

variable {α κ : Type} [DecidableEq α]

/-! ## C06, C07: every history -/

theorem step_refines [LinearOrder κ] (o : Ops α κ) (lo : Lawful o) (q : PQ α) (h : Inv o q)
    (op : Op α)
    (hl : match op with
      | .insert x => x ∉ contents q
      | .remove x => x ∈ contents q
      | _ => True) :
    Inv o (step o q op).1 ∧
      SpecStep o.pri (contents q) op (contents (step o q op).1) (step o q op).2 := by
  cases op with
  | insert x =>
    simp only [step]
    exact ⟨insert_inv o lo q x h hl, by
      rw [insert_contents o q x h.size_pos]; exact .insert _ _⟩
  | remove x =>
    simp only [step]
    have := remove_inv o lo q x h hl
    exact ⟨this.1, by rw [this.2]; exact .remove _ _ hl⟩
  | pop =>
    simp only [step]
    by_cases hs : q.size = 1
    · have he := (contents_empty_iff h.size_pos).2 hs
      have hp : pop o q = (none, q) := by simp [pop, hs]
      rw [hp, he]; exact ⟨h, .popEmpty⟩
    · have hp := pop_inv o lo q h hs
      have hsp := h.size_pos
      refine ⟨hp.2.1, ?_⟩
      rw [hp.1, hp.2.2]
      refine .pop _ _ (mem_contents.2 ⟨1, le_refl 1, by omega, rfl⟩) ?_
      intro y hy
      obtain ⟨j, a, b, rfl⟩ := mem_contents.1 hy
      exact root_min o q h.heap j a b
  | peek =>
    simp only [step]
    refine ⟨h, ?_⟩
    by_cases hs : q.size = 1
    · have he := (contents_empty_iff h.size_pos).2 hs
      have hp : peek q = none := by simp [peek, hs]
      rw [hp, he]; exact .peekEmpty
    · have hp : peek q = some (q.d 1) := by simp [peek, hs]
      have hsp := h.size_pos
      rw [hp]
      refine .peek _ _ (mem_contents.2 ⟨1, le_refl 1, by omega, rfl⟩) ?_
      intro y hy
      obtain ⟨j, a, b, rfl⟩ := mem_contents.1 hy
      exact root_min o q h.heap j a b
  | size =>
    simp only [step]
    refine ⟨h, ?_⟩
    have : sizeOf q = (contents q).card := by rw [contents_card]; rfl
    rw [this]; exact .size _

/-- C06. Every legal history of the implementation, from a fresh queue of any initial
capacity and whatever the fresh memory contains, is a history of the abstract
priority queue with the same results, and the queue then holds exactly the abstract
queue's elements. -/
theorem C06_every_history_refines [LinearOrder κ] (o : Ops α κ) (lo : Lawful o) (n : Nat)
    (d : Nat → α) (p : α → Nat) (ops : List (Op α)) (hl : legal o (init n d p) ops) :
    SpecRun o.pri 0 ops (contents (run o (init n d p) ops).1) (run o (init n d p) ops).2 := by
  have key : ∀ (ops : List (Op α)) (q : PQ α), Inv o q → legal o q ops →
      SpecRun o.pri (contents q) ops (contents (run o q ops).1) (run o q ops).2 := by
    intro ops
    induction ops with
    | nil => intro q _ _; exact .nil _
    | cons op ops ih =>
      intro q hq hl
      have hs := step_refines o lo q hq op hl.1
      exact .cons hs.2 (ih _ hs.1 hl.2)
  have := key ops (init n d p) (init_inv o n d p) hl
  rwa [init_contents] at this

/-- C06, C07. The representation invariant (heap order, every queued element's stored
position is its slot, the used slots fit the allocated array) holds after every legal
history. -/
theorem C07_positions_always_correct [LinearOrder κ] (o : Ops α κ) (lo : Lawful o) (n : Nat)
    (d : Nat → α) (p : α → Nat) (ops : List (Op α)) (hl : legal o (init n d p) ops) :
    let q := (run o (init n d p) ops).1
    (∀ j, 1 ≤ j → j < q.size → q.pos (q.d j) = j) ∧ q.size ≤ q.avail := by
  have key : ∀ (ops : List (Op α)) (q : PQ α), Inv o q → legal o q ops →
      Inv o (run o q ops).1 := by
    intro ops
    induction ops with
    | nil => intro q h _; exact h
    | cons op ops ih =>
      intro q hq hl
      exact ih _ (step_refines o lo q hq op hl.1).1 hl.2
  have := key ops (init n d p) (init_inv o n d p) hl
  exact ⟨this.pos, this.size_le⟩

/-- Pop until empty. -/
def drain (o : Ops α κ) (q : PQ α) : List α :=
  if _h : q.size ≤ 1 then []
  else match (pop o q).1 with
    | none => []
    | some x => x :: drain o (pop o q).2
termination_by q.size
decreasing_by
  have := pop_size o q (by omega)
  omega

/-- C06. Draining a queue yields its elements, sorted by priority. -/
theorem C06_drain_sorted [LinearOrder κ] (o : Ops α κ) (lo : Lawful o) (q : PQ α) (h : Inv o q) :
    ((drain o q : List α) : Multiset α) = contents q ∧
    (drain o q).Pairwise (fun x y => o.pri x ≤ o.pri y) := by
  fun_induction drain o q with
  | case1 q hs =>
    have := h.size_pos
    have he := (contents_empty_iff h.size_pos).2 (by omega)
    simp [he]
  | case2 q hs hp =>
    have := pop_inv o lo q h (by omega)
    rw [this.1] at hp; simp at hp
  | case3 q hs x hp ih =>
    have hpi := pop_inv o lo q h (by omega)
    have := ih hpi.2.1
    rw [hpi.1, Option.some.injEq] at hp
    subst hp
    have hm : q.d 1 ∈ contents q := mem_contents.2 ⟨1, le_refl 1, by omega, rfl⟩
    constructor
    · rw [← Multiset.cons_coe, this.1, hpi.2.2, Multiset.cons_erase hm]
    · refine List.Pairwise.cons ?_ this.2
      intro y hy
      have : y ∈ contents q := by
        have h1 : y ∈ ((drain o (pop o q).2 : List α) : Multiset α) := hy
        rw [this.1, hpi.2.2] at h1
        exact Multiset.mem_of_mem_erase h1
      obtain ⟨j, a, b, rfl⟩ := mem_contents.1 this
      exact root_min o q h.heap j a b

/-- C06. `pqueue_empty_into` moves everything: the destination then holds the elements of
both queues and the source is empty (the `pos` fields of the elements are shared
memory; no element is in both queues). -/
theorem C06_empty_into [LinearOrder κ] (o : Ops α κ) (lo : Lawful o) (dest src : PQ α)
    (hd : Inv o dest) (hs : Inv o src) (hpos : dest.pos = src.pos)
    (hdis : ∀ x ∈ contents src, x ∉ contents dest) :
    contents (emptyInto o dest src).1 = contents src + contents dest ∧
    contents (emptyInto o dest src).2 = 0 ∧
    Inv o (emptyInto o dest src).1 ∧ Inv o (emptyInto o dest src).2 := by
  unfold emptyInto
  split
  · exact moveAll_spec o lo dest src hd hs hpos hdis
  · have := moveAll_spec o lo src dest hs hd hpos.symm (fun x hx hx' => hdis x hx' hx)
    simp only []
    rw [this.1, add_comm]
    exact ⟨rfl, this.2⟩

/-- `in_reverse_order` (core/utils/pqueue.c:20). -/
def in_reverse_order (thiz that : Nat) : Int :=
  if thiz > that then 1 else if thiz < that then -1 else 0

/-- The reaction queue's comparison is lawful. -/
theorem in_reverse_order_lawful (pri : α → Nat) (eq : α → α → Bool) :
    Lawful ({ cmp := in_reverse_order, pri := pri, eqelem := eq } : Ops α Nat) := by
  constructor <;> intro x y <;> simp only [in_reverse_order] <;> repeat' split
  all_goals (constructor <;> intro <;> omega)

/-- The tag queues' comparison is lawful. -/
theorem tagOps_lawful (tagOf : α → Tag) (eq : α → α → Bool) : Lawful (tagOps tagOf eq) :=
  ⟨fun x y => cmp_eq_one x y, fun x y => cmp_eq_zero x y⟩

/-- Non-vacuity for C06/C07: a concrete legal history with removals from the middle. -/
example :
    let o : Ops Nat Nat := { cmp := in_reverse_order, pri := fun x => x % 10, eqelem := fun a b => a == b }
    let q := (run o (init 1 (fun _ => 0) (fun _ => 0))
      [.insert 17, .insert 23, .insert 11, .insert 35, .remove 23, .pop, .size, .pop, .pop]).2
    q = [.unit, .unit, .unit, .unit, .unit, .elem (some 11), .num 2, .elem (some 35),
      .elem (some 17)] := by
  simp +decide [run, step, init, insert, remove, pop, bubbleUp, percolateDown, bubbleLoop,
    percolateLoop, maxchild, setSlot, setPos, in_reverse_order, sizeOf]

/-! ## C08: searches -/

/-- C08. `pqueue_find_same_priority` returns a queued element of the given priority if
there is one, and nothing otherwise. -/
theorem C08_find_same_priority_exact [LinearOrder κ] (o : Ops α κ) (lo : Lawful o) (q : PQ α)
    (h : Inv o q) (e : κ) :
    (∀ r, findSame o q e 1 = some r → r ∈ contents q ∧ o.pri r = e) ∧
    (findSame o q e 1 = none ↔ ∀ x ∈ contents q, o.pri x ≠ e) := by
  refine ⟨fun r hr => findSame_sound o lo q e 1 r hr, ?_, ?_⟩
  · intro hn x hx
    obtain ⟨j, a, b, rfl⟩ := mem_contents.1 hx
    exact findSame_complete o lo q h.heap e 1 (le_refl 1) hn j (desc_one j a) b
  · intro hall
    cases hf : findSame o q e 1 with
    | none => rfl
    | some r =>
      have := findSame_sound o lo q e 1 r hf
      exact absurd this.2 (hall r this.1)

/-- C08. `pqueue_find_equal_same_priority` returns a queued element that matches the
given one and has its priority if there is one, and nothing otherwise. -/
theorem C08_find_equal_exact [LinearOrder κ] (o : Ops α κ) (lo : Lawful o) (q : PQ α)
    (h : Inv o q) (e : α) :
    (∀ r, findEqual o q e 1 = some r →
      r ∈ contents q ∧ o.pri r = o.pri e ∧ o.eqelem r e = true) ∧
    (findEqual o q e 1 = none ↔ ∀ x ∈ contents q, ¬ (o.pri x = o.pri e ∧ o.eqelem x e = true)) := by
  refine ⟨fun r hr => findEqual_sound o lo q e 1 r hr, ?_, ?_⟩
  · intro hn x hx
    obtain ⟨j, a, b, rfl⟩ := mem_contents.1 hx
    exact findEqual_complete o lo q h.heap e 1 (le_refl 1) hn j (desc_one j a) b
  · intro hall
    cases hf : findEqual o q e 1 with
    | none => rfl
    | some r =>
      have := findEqual_sound o lo q e 1 r hf
      exact absurd this.2 (hall r this.1)

/-- C08. `pqueue_tag_find_with_tag` returns a queued element of the given tag, and `pqueue_tag_find_equal_same_tag` one that
also matches the given element; each returns nothing exactly if there is none. -/
theorem C08_find_by_tag_exact (tagOf : α → Tag) (eq : α → α → Bool) (q : PQ α) (h : Inv (tagOps tagOf eq) q) (t : Tag) (e : α) :
    (∀ r, findWithTag (tagOps tagOf eq) q t = some r → r ∈ contents q ∧ tagOf r = t) ∧
    (findWithTag (tagOps tagOf eq) q t = none ↔ ∀ x ∈ contents q, tagOf x ≠ t) ∧
    (∀ r, findEqualSameTag (tagOps tagOf eq) q e = some r → r ∈ contents q ∧ tagOf r = tagOf e ∧ eq r e = true) ∧
    (findEqualSameTag (tagOps tagOf eq) q e = none ↔ ∀ x ∈ contents q, ¬ (tagOf x = tagOf e ∧ eq x e = true)) := by
  have h1 := C08_find_same_priority_exact _ (tagOps_lawful tagOf eq) q h t
  have h2 := C08_find_equal_exact _ (tagOps_lawful tagOf eq) q h e
  exact ⟨h1.1, h1.2, h2.1, h2.2⟩

/-- Non-vacuity: a queue with three elements satisfying the invariant, and a search. -/
example :
    let o : Ops Nat Nat := { cmp := in_reverse_order, pri := fun x => x % 10, eqelem := fun a b => a == b }
    let q := (run o (init 1 (fun _ => 0) (fun _ => 0)) [.insert 17, .insert 23, .insert 27]).1
    Inv o q ∧ findEqual o q 27 1 = some 27 ∧ findSame o q 5 1 = none := by
  intro o q
  have lo : Lawful o := in_reverse_order_lawful _ _
  let q0 : PQ Nat := init 1 (fun _ => 0) (fun _ => 0)
  have i0 : Inv o q0 := init_inv o _ _ _
  have c0 : contents q0 = 0 := init_contents _ _ _
  have i1 : Inv o (insert o q0 17) := insert_inv o lo _ _ i0 (by rw [c0]; simp)
  have c1 := insert_contents o q0 17 i0.size_pos
  have i2 : Inv o (insert o (insert o q0 17) 23) :=
    insert_inv o lo _ _ i1 (by rw [c1, c0]; simp)
  have c2 := insert_contents o (insert o q0 17) 23 i1.size_pos
  have i3 : Inv o (insert o (insert o (insert o q0 17) 23) 27) :=
    insert_inv o lo _ 27 i2 (by rw [c2, c1, c0]; simp)
  refine ⟨i3, ?_, ?_⟩
  all_goals
    simp +decide [q, o, run, step, init, insert, bubbleUp, bubbleLoop, findEqual, findSame,
      setSlot, setPos, in_reverse_order]

/-- Non-vacuity: two elements with the same tag; the one that matches is found. -/
example :
    let o : Ops Nat Tag := tagOps (fun x => ⟨x % 10, 0⟩) (fun a b => a == b)
    let q := insert o (insert o (init 1 (fun _ => 0) (fun _ => 0)) 17) 27
    Inv o q ∧ findEqualSameTag o q 27 = some 27 ∧ findEqualSameTag o q 37 = none ∧ findWithTag o q ⟨7, 0⟩ = some 17 := by
  intro o q
  have lo : Lawful o := tagOps_lawful _ _
  let q0 : PQ Nat := init 1 (fun _ => 0) (fun _ => 0)
  have i0 : Inv o q0 := init_inv o _ _ _
  have c0 : contents q0 = 0 := init_contents _ _ _
  have i1 : Inv o (insert o q0 17) := insert_inv o lo _ _ i0 (by rw [c0]; simp)
  have c1 := insert_contents o q0 17 i0.size_pos
  have i2 : Inv o (insert o (insert o q0 17) 27) := insert_inv o lo _ _ i1 (by rw [c1, c0]; simp)
  refine ⟨i2, ?_, ?_, ?_⟩
  all_goals
    simp +decide [q, o, init, insert, bubbleUp, bubbleLoop, findEqualSameTag, findWithTag, findEqual, findSame, tagOps,
      setSlot, setPos, lf_tag_compare]

/-! ## C09: tag queues -/

/-- C09. Inserting with `pqueue_tag_insert_if_no_match` (for a fresh element `x` with tag
`t`) adds the tag exactly when it is not queued yet, so queued tags stay distinct; it
returns 0 exactly when it inserted. -/
theorem C09_insert_if_no_match (o : Ops α Tag) (lo : Lawful o) (q : PQ α) (h : Inv o q) (x : α)
    (hx : x ∉ contents q)
    (hd : ((contents q).map o.pri).Nodup) :
    let r := insertIfNoMatch o q x (o.pri x)
    Inv o r.2 ∧ ((contents r.2).map o.pri).Nodup ∧
    (o.pri x ∈ (contents q).map o.pri → r = (1, q)) ∧
    (o.pri x ∉ (contents q).map o.pri → r.1 = 0 ∧ contents r.2 = x ::ₘ contents q) := by
  have hf := C08_find_same_priority_exact o lo q h (o.pri x)
  simp only [insertIfNoMatch, findWithTag]
  cases hfs : findSame o q (o.pri x) 1 with
  | none =>
    have hn := hf.2.1 hfs
    have hnm : o.pri x ∉ (contents q).map o.pri := by
      intro hm
      obtain ⟨y, hy, hyx⟩ := Multiset.mem_map.1 hm
      exact hn y hy hyx
    have hc := insert_contents o q x h.size_pos
    refine ⟨insert_inv o lo q x h hx, ?_, fun hm => absurd hm hnm, fun _ => ⟨rfl, hc⟩⟩
    simp only [hc, Multiset.map_cons, Multiset.nodup_cons]
    exact ⟨hnm, hd⟩
  | some y =>
    have hs := hf.1 y hfs
    refine ⟨h, hd, fun _ => rfl, fun hnm => absurd ?_ hnm⟩
    exact Multiset.mem_map.2 ⟨y, hs.1, hs.2⟩

/-- C09. `pqueue_tag_peek_tag` is `FOREVER_TAG` on the empty queue and otherwise the least
queued tag. -/
theorem C09_peek_tag_min (o : Ops α Tag) (q : PQ α) (h : Inv o q) :
    (contents q = 0 → peekTag o q = FOREVER_TAG) ∧
    (contents q ≠ 0 → peekTag o q ∈ (contents q).map o.pri) ∧
    (∀ x ∈ contents q, peekTag o q ≤ o.pri x) := by
  have hsp := h.size_pos
  rw [contents_empty_iff h.size_pos, Ne, contents_empty_iff h.size_pos]
  refine ⟨fun hs => by simp [peekTag, peek, hs], ?_, ?_⟩
  · intro hs
    simp only [peekTag, peek, if_neg hs]
    exact Multiset.mem_map.2 ⟨_, mem_contents.2 ⟨1, le_refl 1, by omega, rfl⟩, rfl⟩
  · intro x hx
    obtain ⟨j, a, b, rfl⟩ := mem_contents.1 hx
    simp only [peekTag, peek, if_neg (show q.size ≠ 1 by omega)]
    exact root_min o q h.heap j a b

/-- C09. `pqueue_tag_pop_tag` returns what `peek_tag` shows and removes one element with
that tag. -/
theorem C09_pop_tag (o : Ops α Tag) (lo : Lawful o) (q : PQ α) (h : Inv o q) :
    (popTag o q).1 = peekTag o q ∧ Inv o (popTag o q).2 ∧
    (contents q = 0 → contents (popTag o q).2 = 0) ∧
    (contents q ≠ 0 → ∃ x ∈ contents q, o.pri x = peekTag o q ∧
      contents (popTag o q).2 = (contents q).erase x) := by
  have hsp := h.size_pos
  rw [Ne, contents_empty_iff h.size_pos]
  by_cases hs : q.size = 1
  · have he := (contents_empty_iff h.size_pos).2 hs
    simp [popTag, pop, hs, peekTag, peek, h, he]
  · have hp := pop_inv o lo q h hs
    have hpe : pop o q = (some (q.d 1), (pop o q).2) := by rw [← hp.1]
    have e1 : popTag o q = (o.pri (q.d 1), (pop o q).2) := by
      unfold popTag; rw [hpe]
    rw [e1]
    refine ⟨by simp [peekTag, peek, hs], hp.2.1, fun h => absurd h hs, fun _ => ?_⟩
    exact ⟨q.d 1, mem_contents.2 ⟨1, le_refl 1, by omega, rfl⟩, by simp [peekTag, peek, hs],
      hp.2.2⟩

/-- C09. `pqueue_tag_remove_up_to(t)` removes exactly the elements with tag `<= t`, except
that elements with tag `FOREVER_TAG` (or beyond) are never removed. -/
theorem C09_remove_up_to (o : Ops α Tag) (lo : Lawful o) (q : PQ α) (h : Inv o q) (t : Tag) :
    Inv o (removeUpTo o q t) ∧
    contents (removeUpTo o q t) =
      (contents q).filter (fun x => ¬ (o.pri x ≤ t ∧ o.pri x < FOREVER_TAG)) := by
  fun_induction removeUpTo o q t with
  | case1 q hs =>
    have hsp := h.size_pos
    have he := (contents_empty_iff h.size_pos).2 (by omega)
    simp [he, h]
  | case2 q hs hc ih =>
    have hp := pop_inv o lo q h (by omega)
    have := ih hp.2.1
    refine ⟨this.1, ?_⟩
    have hm : q.d 1 ∈ contents q := mem_contents.2 ⟨1, le_refl 1, by omega, rfl⟩
    have hpk : peekTag o q = o.pri (q.d 1) := by
      simp [peekTag, peek, show q.size ≠ 1 by omega]
    rw [cmp_lt_zero, cmp_le_zero, hpk] at hc
    rw [this.2, hp.2.2]
    conv_rhs => rw [← Multiset.cons_erase hm]
    rw [Multiset.filter_cons_of_neg]
    simp [hc.1, hc.2]
  | case3 q hs hc =>
    refine ⟨h, ?_⟩
    symm
    rw [Multiset.filter_eq_self]
    intro x hx
    have hpk := (C09_peek_tag_min o q h).2.2 x hx
    rw [cmp_lt_zero, cmp_le_zero] at hc
    intro hcon
    exact hc ⟨lt_of_le_of_lt hpk hcon.2, le_trans hpk hcon.1⟩

/-- C09 (finding). `pqueue_tag_remove_up_to(FOREVER_TAG)` does not remove an element whose
tag is `FOREVER_TAG`, although its tag is `<=` the given tag. -/
theorem C09_remove_up_to_keeps_forever :
    let o : Ops Nat Tag := tagOps (fun _ => FOREVER_TAG) (fun a b => a == b)
    let q := insert o (init 1 (fun _ => 0) (fun _ => 0)) 7
    7 ∈ contents (removeUpTo o q FOREVER_TAG) ∧ o.pri 7 ≤ FOREVER_TAG := by
  intro o q
  have lo : Lawful o := tagOps_lawful _ _
  have hi : Inv o q := insert_inv o lo _ _ (init_inv o _ _ _) (by rw [init_contents]; simp)
  refine ⟨?_, le_refl _⟩
  rw [(C09_remove_up_to o lo q hi FOREVER_TAG).2, Multiset.mem_filter]
  refine ⟨?_, ?_⟩
  · rw [insert_contents _ _ _ (by simp [init])]; simp
  · intro hcon; exact lt_irrefl _ hcon.2

/-- Non-vacuity for C09: a tag queue on which removal up to a tag is non-trivial. -/
example :
    let o : Ops Nat Tag := tagOps (fun x => ⟨x / 10, x % 10⟩) (fun a b => a == b)
    let q := (run o (init 1 (fun _ => 0) (fun _ => 0)) [.insert 53, .insert 20, .insert 21]).1
    peekTag o (removeUpTo o q ⟨2, 0⟩) = ⟨2, 1⟩ ∧ sizeOf (removeUpTo o q ⟨2, 0⟩) = 2 := by
  simp +decide [run, step, init, insert, bubbleUp, bubbleLoop, removeUpTo, pop, percolateDown,
    percolateLoop, maxchild, setSlot, setPos, tagOps, peekTag, peek, sizeOf, lf_tag_compare,
    FOREVER_TAG, FOREVER, UINT_MAX]

end ReactorC.PQueue
