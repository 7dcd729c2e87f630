import Verif.PQueue.Props

/-!
# C100: functions that print and check a queue

Models `pqueue_dump`, `pqueue_print`, `subtree_is_valid` and `pqueue_is_valid` of core/utils/pqueue_base.c.  What is printed of an element
is the element; overflow of `int` indices (queues with more than 2^30 elements) and failures of allocation are left out.
-/

namespace ReactorC.PQueue

variable {α κ : Type} [DecidableEq α]

/-! ## Model -/

omit [DecidableEq α] in
/-- `pqueue_dump` (core/utils/pqueue_base.c:290-298): for each slot its number, the numbers of the two slots below it, of the one above
it, the result of `maxchild`, and the element. -/
def dump (o : Ops α κ) (q : PQ α) : List (Nat × Nat × Nat × Nat × Nat × α) :=
  (List.range (q.size - 1)).map fun k => (k + 1, 2 * (k + 1), 2 * (k + 1) + 1, (k + 1) / 2, maxchild o q (k + 1), q.d (k + 1))

/-- The loop of `pqueue_print` (core/utils/pqueue_base.c:310-316): what is printed, and the copy in the end. -/
def printLoop (o : Ops α κ) (dup : PQ α) : List α × PQ α :=
  if _h : dup.size ≤ 1 then ([], dup)
  else match (pop o dup).1 with
    | none => ([], dup)
    | some e => (e :: (printLoop o (pop o dup).2).1, (printLoop o (pop o dup).2).2)
termination_by dup.size
decreasing_by
  all_goals
    have := pop_size o dup (by omega)
    omega

omit [DecidableEq α] in
/-- The copy that `pqueue_print` makes (core/utils/pqueue_base.c:304-309); `fresh` is what is in memory that has just been allocated. The
positions are in the elements, of which there is no copy. -/
def copy (q : PQ α) (fresh : Nat → α) : PQ α :=
  { q with d := fun j => if j < q.size then q.d j else fresh j }

/-- `pqueue_print` (core/utils/pqueue_base.c:300-318): what is printed, and the queue in the end. -/
def print (o : Ops α κ) (fresh : Nat → α) (q : PQ α) : List α × PQ α :=
  ((printLoop o (copy q fresh)).1, { q with pos := (printLoop o (copy q fresh)).2.pos })

omit [DecidableEq α] in
/-- `subtree_is_valid` (core/utils/pqueue_base.c:321-351) for a slot `p` that is not 0. -/
def subtreeIsValid (o : Ops α κ) (q : PQ α) (p : Nat) : Bool :=
  if _h : p = 0 then true
  else
    (if _hl : 2 * p < q.size then
      (if o.cmp (o.pri (q.d p)) (o.pri (q.d (2 * p))) = 1 then false else subtreeIsValid o q (2 * p))
    else true) &&
    (if _hr : 2 * p + 1 < q.size then
      (if o.cmp (o.pri (q.d p)) (o.pri (q.d (2 * p + 1))) = 1 then false else subtreeIsValid o q (2 * p + 1))
    else true)
termination_by q.size - p
decreasing_by all_goals omega

omit [DecidableEq α] in
/-- `pqueue_is_valid` (core/utils/pqueue_base.c:353). -/
def isValid (o : Ops α κ) (q : PQ α) : Bool := subtreeIsValid o q 1

/-! ## Checking -/

omit [DecidableEq α] in
theorem subtreeIsValid_iff [LinearOrder κ] (o : Ops α κ) (lo : Lawful o) (q : PQ α) (p : Nat) (hp : 1 ≤ p) :
    subtreeIsValid o q p = true ↔
      ∀ k, Desc p k → (2 * k < q.size → o.pri (q.d k) ≤ o.pri (q.d (2 * k))) ∧
        (2 * k + 1 < q.size → o.pri (q.d k) ≤ o.pri (q.d (2 * k + 1))) := by
  have far : ∀ p, 1 ≤ p → ¬ p < q.size → ∀ k, Desc p k → ¬ 2 * k < q.size ∧ ¬ 2 * k + 1 < q.size := by
    intro p hp hs k hk
    have := desc_ge hp hk
    exact ⟨by omega, by omega⟩
  have test : ∀ a b : α, o.cmp (o.pri a) (o.pri b) = 1 ↔ ¬ o.pri a ≤ o.pri b := fun a b => by rw [lo.gt, not_le]
  have split : ∀ (p : Nat) (P : Nat → Prop), (∀ k, Desc p k → P k) ↔
      P p ∧ (∀ k, Desc (2 * p) k → P k) ∧ (∀ k, Desc (2 * p + 1) k → P k) := by
    intro p P
    constructor
    · intro h
      exact ⟨h p .self, fun k hk => h k (.left hk), fun k hk => h k (.right hk)⟩
    · rintro ⟨h1, h2, h3⟩ k hk
      cases hk with
      | self => exact h1
      | left hk => exact h2 k hk
      | right hk => exact h3 k hk
  induction hn : q.size - p using Nat.strongRecOn generalizing p with
  | _ n ih =>
    subst hn
    rw [split, subtreeIsValid, dif_neg (by omega), Bool.and_eq_true]
    have child : ∀ c, p < c → ((if _h : c < q.size then
        (if o.cmp (o.pri (q.d p)) (o.pri (q.d c)) = 1 then false else subtreeIsValid o q c) else true) = true ↔
        (c < q.size → o.pri (q.d p) ≤ o.pri (q.d c)) ∧ ∀ k, Desc c k → (2 * k < q.size → o.pri (q.d k) ≤ o.pri (q.d (2 * k))) ∧
          (2 * k + 1 < q.size → o.pri (q.d k) ≤ o.pri (q.d (2 * k + 1)))) := by
      intro c hc
      by_cases hs : c < q.size
      · rw [dif_pos hs]
        by_cases ht : o.pri (q.d p) ≤ o.pri (q.d c)
        · have e := ih (q.size - c) (by omega) c (by omega) rfl
          rw [if_neg (fun h => (test _ _).1 h ht)]
          exact ⟨fun h => ⟨fun _ => ht, e.1 h⟩, fun h => e.2 h.2⟩
        · rw [if_pos ((test _ _).2 ht)]
          exact ⟨fun h => (by cases h), fun h => absurd (h.1 hs) ht⟩
      · rw [dif_neg hs]
        refine ⟨fun _ => ⟨fun h => absurd h hs, fun k hk => ?_⟩, fun _ => rfl⟩
        have := far c (by omega) hs k hk
        exact ⟨fun h => absurd h this.1, fun h => absurd h this.2⟩
    rw [child (2 * p) (by omega), child (2 * p + 1) (by omega)]
    tauto

omit [DecidableEq α] in
/-- C100.  The check accepts a queue exactly if no element comes before the one above it in the heap, whatever the queue contains. -/
theorem C100_check_is_exact [LinearOrder κ] (o : Ops α κ) (lo : Lawful o) (q : PQ α) :
    isValid o q = true ↔ ∀ j, 2 ≤ j → j < q.size → o.pri (q.d (j / 2)) ≤ o.pri (q.d j) := by
  unfold isValid
  rw [subtreeIsValid_iff o lo q 1 (le_refl 1)]
  constructor
  · intro h j h1 h2
    have := h (j / 2) (desc_one _ (by omega))
    rcases (by omega : j % 2 = 0 ∨ j % 2 = 1) with hc | hc
    · have e : 2 * (j / 2) = j := by omega
      rw [e] at this
      exact this.1 h2
    · have e : 2 * (j / 2) + 1 = j := by omega
      rw [e] at this
      exact this.2 h2
  · intro h k hk
    have := desc_ge (le_refl 1) hk
    constructor
    · intro hs
      have k1 := h (2 * k) (by omega) hs
      rwa [show 2 * k / 2 = k by omega] at k1
    · intro hs
      have k1 := h (2 * k + 1) (by omega) hs
      rwa [show (2 * k + 1) / 2 = k by omega] at k1

/-- C100.  After every history of operations that keeps to the rules, the check accepts the queue. -/
theorem C100_check_accepts_every_history [LinearOrder κ] (o : Ops α κ) (lo : Lawful o) (n : Nat)
    (d : Nat → α) (p : α → Nat) (ops : List (Op α)) (hl : legal o (init n d p) ops) :
    isValid o (run o (init n d p) ops).1 = true := by
  have key : ∀ (ops : List (Op α)) (q : PQ α), Inv o q → legal o q ops → Inv o (run o q ops).1 := by
    intro ops
    induction ops with
    | nil => intro q h _; exact h
    | cons op ops ih => intro q hq hl; exact ih _ (step_refines o lo q hq op hl.1).1 hl.2
  exact (C100_check_is_exact o lo _).2 (key ops _ (init_inv o n d p) hl).heap

/-! ## Printing -/

omit [DecidableEq α] in
theorem copy_contents (q : PQ α) (fresh : Nat → α) : contents (copy q fresh) = contents q := by
  unfold contents copy
  dsimp only
  apply Multiset.map_congr rfl
  intro j hj
  rw [if_pos (by simpa using (Finset.mem_Ico.1 hj).2)]

omit [DecidableEq α] in
theorem copy_inv [LinearOrder κ] (o : Ops α κ) (q : PQ α) (h : Inv o q) (fresh : Nat → α) : Inv o (copy q fresh) := by
  refine ⟨h.size_pos, h.size_le, h.step_pos, ?_, ?_⟩
  · intro j h1 h2
    have h2' : j < q.size := h2
    show o.pri (if j / 2 < q.size then _ else _) ≤ o.pri (if j < q.size then _ else _)
    rw [if_pos (by omega), if_pos h2']
    exact h.heap j h1 h2
  · intro j h1 h2
    have h2' : j < q.size := h2
    show q.pos (if j < q.size then _ else _) = j
    rw [if_pos h2']
    exact h.pos j h1 h2

theorem printLoop_drain (o : Ops α κ) (q : PQ α) : (printLoop o q).1 = drain o q := by
  fun_induction printLoop o q with
  | case1 q h => rw [drain, dif_pos h]
  | case2 q h hp => rw [drain, dif_neg h, hp]
  | case3 q h e hp ih => rw [drain, dif_neg h, hp]; dsimp only; rw [ih]

/-- C100.  Printing shows every element of the queue once, in the order of their priorities. -/
theorem C100_print_shows_all_in_order [LinearOrder κ] (o : Ops α κ) (lo : Lawful o) (fresh : Nat → α) (q : PQ α) (h : Inv o q) :
    ((print o fresh q).1 : Multiset α) = contents q ∧ (print o fresh q).1.Pairwise (fun x y => o.pri x ≤ o.pri y) := by
  have := C06_drain_sorted o lo _ (copy_inv o q h fresh)
  unfold print
  dsimp only
  rw [printLoop_drain, ← copy_contents q fresh]
  exact this

theorem pop_pos_head [LinearOrder κ] (o : Ops α κ) (q : PQ α) (h : Inv o q) (hs : 1 < q.size) :
    (pop o q).2.pos (q.d 1) = 1 := by
  unfold pop
  rw [if_neg (by omega)]
  dsimp only
  unfold percolateDown
  dsimp only
  rw [setSlot_same]
  by_cases h2 : q.size = 2
  · rw [percolateLoop_end _ _ _ _ (by show q.size - 1 ≤ 2 * 1; omega)]
    dsimp only
    rw [h2]
    exact setPos_same _ _ _
  · have hne : ∀ j, 1 ≤ j → j < q.size → j ≠ 1 → q.d j ≠ q.d 1 := fun j a b c e =>
      c (slots_distinct h.pos a b (le_refl 1) hs e)
    rw [percolateLoop_frame o _ _ _ _ (hne _ (by omega) (by omega) (by omega)).symm (le_refl 1)]
    · exact h.pos 1 (le_refl 1) hs
    · intro j a b c
      have b' : j < q.size - 1 := b
      show setSlot q.d 1 _ j ≠ _
      rw [setSlot_ne _ _ c]
      exact hne j a (by omega) c

theorem printLoop_pos [LinearOrder κ] (o : Ops α κ) (lo : Lawful o) (q : PQ α) (h : Inv o q) :
    (∀ x ∈ contents q, (printLoop o q).2.pos x = 1) ∧ (∀ x, x ∉ contents q → (printLoop o q).2.pos x = q.pos x) := by
  fun_induction printLoop o q with
  | case1 q hs =>
    have he := (contents_empty_iff h.size_pos).2 (by have := h.size_pos; omega)
    exact ⟨fun x hx => by rw [he] at hx; simp at hx, fun _ _ => rfl⟩
  | case2 q hs hp =>
    have := (pop_inv o lo q h (by omega)).1
    rw [hp] at this
    cases this
  | case3 q hs e hp ih =>
    have hpi := pop_inv o lo q h (by omega)
    obtain ⟨i1, i2⟩ := ih hpi.2.1
    have hn := contents_nodup o q h
    constructor
    · intro x hx
      dsimp only
      by_cases hd : x = q.d 1
      · subst hd
        rw [i2 _ (by rw [hpi.2.2]; exact hn.notMem_erase)]
        exact pop_pos_head o q h (by omega)
      · exact i1 x (by rw [hpi.2.2]; exact (Multiset.mem_erase_of_ne hd).2 hx)
    · intro x hx
      dsimp only
      rw [i2 x (fun c => hx (by rw [hpi.2.2] at c; exact Multiset.mem_of_mem_erase c))]
      exact pop_frame o q x (by omega) hx

/-- C100 does not hold for the positions that are stored in the elements: printing makes all of them 1, as it takes the elements from a
copy of the queue. -/
theorem C100_print_positions_not_kept [LinearOrder κ] (o : Ops α κ) (lo : Lawful o) (fresh : Nat → α) (q : PQ α) (h : Inv o q) (x : α)
    (hx : x ∈ contents q) : (print o fresh q).2.pos x = 1 :=
  (printLoop_pos o lo _ (copy_inv o q h fresh)).1 x (by rw [copy_contents]; exact hx)

/-- C100 does not hold for removing after printing: whatever element is removed, the first one is. -/
theorem C100_remove_after_print_not_safe [LinearOrder κ] (o : Ops α κ) (lo : Lawful o) (fresh : Nat → α) (q : PQ α) (h : Inv o q) (x : α)
    (hx : x ∈ contents q) : contents (remove o (print o fresh q).2 x) = (contents q).erase (q.d 1) := by
  have hp := C100_print_positions_not_kept o lo fresh q h x hx
  have hs : 1 < q.size := by
    obtain ⟨j, a, b, _⟩ := mem_contents.1 hx
    omega
  have hq : (print o fresh q).2.size = q.size ∧ (print o fresh q).2.d = q.d := ⟨rfl, rfl⟩
  generalize (print o fresh q).2 = r at hp hq
  obtain ⟨e1, e2⟩ := hq
  have all : ∀ r' : PQ α, r'.size = q.size - 1 → r'.d = setSlot q.d 1 (q.d (q.size - 1)) →
      contents (bubbleUp o r' 1) = (contents q).erase (q.d 1) ∧ contents (percolateDown o r' 1) = (contents q).erase (q.d 1) := by
    intro r' s1 s2
    have same : setSlot r'.d 1 (r'.d 1) = r'.d := by
      funext j
      unfold setSlot
      split
      · rename_i hj; rw [hj]
      · rfl
    unfold bubbleUp percolateDown
    by_cases h2 : q.size = 2
    · rw [bubbleLoop_stop _ _ _ _ (le_refl 1), percolateLoop_end _ _ _ _ (by omega)]
      have hc : (contents q).erase (q.d 1) = 0 := by
        rw [contents_last hs, h2]
        simp
      rw [hc]
      unfold contents
      dsimp only
      rw [s1, h2]
      exact ⟨rfl, rfl⟩
    · rw [bubbleLoop_contents _ _ _ _ (le_refl 1) (by omega), percolateLoop_contents _ _ _ _ (le_refl 1) (by omega), same, s1, s2]
      obtain ⟨R, h3, h4⟩ := contents_split (q := q) (i := 1) (le_refl 1) (by omega)
      rw [h4, h3, Multiset.erase_cons_head]
      exact ⟨rfl, rfl⟩
  unfold remove
  rw [if_neg (by omega)]
  dsimp only
  rw [hp, e1, e2]
  split
  · exact (all _ rfl rfl).1
  · exact (all _ rfl rfl).2

omit [DecidableEq α] in
/-- C100.  Dumping shows every element of the queue with the number of its slot, in the order of slots. -/
theorem C100_dump_shows_all (o : Ops α κ) (q : PQ α) :
    (((dump o q).map fun r => r.2.2.2.2.2 : List α) : Multiset α) = contents q ∧
    ∀ r ∈ dump o q, 1 ≤ r.1 ∧ r.1 < q.size ∧ r.2.2.2.2.2 = q.d r.1 := by
  constructor
  · unfold dump contents
    rw [List.map_map]
    have : (Finset.Ico 1 q.size).val = ((List.range' 1 (q.size - 1) : List Nat) : Multiset Nat) := rfl
    rw [this, Multiset.map_coe, List.range'_eq_map_range, List.map_map]
    congr 1
    apply List.map_congr_left
    intro k _
    show q.d (k + 1) = q.d (1 + k)
    rw [Nat.add_comm]
  · intro r hr
    unfold dump at hr
    obtain ⟨k, hk, rfl⟩ := List.mem_map.1 hr
    have := List.mem_range.1 hk
    exact ⟨by omega, by dsimp only; omega, rfl⟩

/-! ## A queue of three numbers -/

/-- Numbers, by their values. -/
def numbers : Ops Nat Nat := ⟨fun x y => if y < x then 1 else if x = y then 0 else -1, id, fun x y => x == y⟩

theorem numbers_lawful : Lawful numbers := by
  constructor
  · intro x y
    show (if y < x then (1 : Int) else if x = y then 0 else -1) = 1 ↔ _
    split
    · simp_all
    · split <;> simp_all
  · intro x y
    show (if y < x then (1 : Int) else if x = y then 0 else -1) = 0 ↔ _
    split
    · rename_i h
      simp
      omega
    · split <;> simp_all

def three : PQ Nat := ⟨4, 4, 4, fun j => 10 * j, fun x => x / 10⟩

example : Inv numbers three := by
  refine ⟨by decide, by decide, by decide, ?_, ?_⟩
  · intro j h1 h2
    show 10 * (j / 2) ≤ 10 * j
    omega
  · intro j h1 h2
    show 10 * j / 10 = j
    omega

example : 30 ∈ contents three := mem_contents.2 ⟨3, by decide, by decide, rfl⟩

end ReactorC.PQueue
