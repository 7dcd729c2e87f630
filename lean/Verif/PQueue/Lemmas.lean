import Verif.PQueue.Spec

/-! Helper lemmas: heap invariant, position bookkeeping, contents. -/

set_option linter.unusedSectionVars false

namespace ReactorC.PQueue

variable {α κ : Type} [DecidableEq α]

/-- Heap order with respect to priorities. -/
def HeapOK [LinearOrder κ] (o : Ops α κ) (q : PQ α) : Prop :=
  ∀ j, 2 ≤ j → j < q.size → o.pri (q.d (j / 2)) ≤ o.pri (q.d j)

/-- Every queued element knows its slot. -/
def PosOK (q : PQ α) : Prop := ∀ j, 1 ≤ j → j < q.size → q.pos (q.d j) = j

/-- Representation invariant. -/
structure Inv [LinearOrder κ] (o : Ops α κ) (q : PQ α) : Prop where
  size_pos : 1 ≤ q.size
  size_le : q.size ≤ q.avail
  step_pos : 1 ≤ q.step
  heap : HeapOK o q
  pos : PosOK q

omit [DecidableEq α] in
@[simp] theorem setSlot_same (d : Nat → α) (i : Nat) (x : α) : setSlot d i x i = x := by
  simp [setSlot]

omit [DecidableEq α] in
theorem setSlot_ne (d : Nat → α) {i j : Nat} (x : α) (h : j ≠ i) : setSlot d i x j = d j := by
  simp [setSlot, h]

@[simp] theorem setPos_same (p : α → Nat) (x : α) (i : Nat) : setPos p x i x = i := by
  simp [setPos]

theorem setPos_ne (p : α → Nat) {x y : α} (i : Nat) (h : y ≠ x) : setPos p x i y = p y := by
  simp [setPos, h]

omit [DecidableEq α] in
theorem map_split (f : Nat → α) (s : Finset Nat) {i : Nat} (h : i ∈ s) :
    s.val.map f = f i ::ₘ (s.erase i).val.map f := by
  conv_lhs => rw [← Finset.insert_erase h]
  rw [Finset.insert_val_of_notMem (Finset.notMem_erase i s), Multiset.map_cons]

omit [DecidableEq α] in
theorem map_setSlot_notMem (f : Nat → α) (s : Finset Nat) {i : Nat} (x : α) (h : i ∉ s) :
    s.val.map (setSlot f i x) = s.val.map f := by
  apply Multiset.map_congr rfl
  intro j hj
  apply setSlot_ne
  rintro rfl
  exact h hj

omit [DecidableEq α] in
theorem map_setSlot (f : Nat → α) (s : Finset Nat) {i : Nat} (x : α) (h : i ∈ s) :
    s.val.map (setSlot f i x) = x ::ₘ (s.erase i).val.map f := by
  rw [map_split _ s h, setSlot_same, map_setSlot_notMem _ _ _ (Finset.notMem_erase i s)]

omit [DecidableEq α] in
theorem fill_swap (f : Nat → α) (s : Finset Nat) {i p : Nat} (x : α) (hi : i ∈ s) (hp : p ∈ s)
    (hne : p ≠ i) :
    s.val.map (setSlot (setSlot f i (f p)) p x) = s.val.map (setSlot f i x) := by
  rw [map_setSlot _ s x hp, map_setSlot _ s x hi]
  have h1 : i ∈ s.erase p := Finset.mem_erase.2 ⟨hne.symm, hi⟩
  have h2 : p ∈ s.erase i := Finset.mem_erase.2 ⟨hne, hp⟩
  rw [map_setSlot _ _ _ h1, map_split f _ h2, Finset.erase_right_comm]

omit [DecidableEq α] in
theorem mem_contents {q : PQ α} {x : α} :
    x ∈ contents q ↔ ∃ j, 1 ≤ j ∧ j < q.size ∧ q.d j = x := by
  simp [contents, and_assoc]

/-! ### bubble_up -/

theorem bubbleLoop_meta (o : Ops α κ) (m : α) (q : PQ α) (i : Nat) :
    (bubbleLoop o m q i).size = q.size ∧ (bubbleLoop o m q i).avail = q.avail ∧
    (bubbleLoop o m q i).step = q.step := by
  fun_induction bubbleLoop o m q i with
  | case1 q i h ih => simpa using ih
  | case2 q i h => simp

theorem bubbleLoop_contents (o : Ops α κ) (m : α) (q : PQ α) (i : Nat) (h1 : 1 ≤ i)
    (h2 : i < q.size) :
    contents (bubbleLoop o m q i) = (Finset.Ico 1 q.size).val.map (setSlot q.d i m) := by
  fun_induction bubbleLoop o m q i with
  | case1 q i h ih =>
    rw [ih (by omega) (by simp only []; omega)]
    simp only []
    apply fill_swap <;> simp <;> omega
  | case2 q i h => simp [contents]

theorem bubbleLoop_pos (o : Ops α κ) (m : α) (q : PQ α) (i : Nat) (h1 : 1 ≤ i) (h2 : i < q.size)
    (hp : ∀ j, 1 ≤ j → j < q.size → j ≠ i → q.pos (q.d j) = j ∧ q.d j ≠ m) :
    PosOK (bubbleLoop o m q i) := by
  fun_induction bubbleLoop o m q i with
  | case1 q i h ih =>
    have hpi : i / 2 ≠ i := by omega
    have hpar := hp (i / 2) (by omega) (by omega) hpi
    apply ih (by omega) (by simp only []; omega)
    intro j hj1 hj2 hj3
    simp only [] at *
    by_cases hji : j = i
    · subst hji; simp [hpar.2]
    · rw [setSlot_ne _ _ hji]
      have := hp j hj1 hj2 hji
      refine ⟨?_, this.2⟩
      rw [setPos_ne, this.1]
      intro he
      rw [he, hpar.1] at this
      exact hj3 this.1.symm
  | case2 q i h =>
    intro j hj1 hj2
    simp only [] at *
    by_cases hji : j = i
    · subst hji; simp
    · have := hp j hj1 hj2 hji
      rw [setSlot_ne _ _ hji, setPos_ne _ _ this.2, this.1]

theorem bubbleLoop_heap [LinearOrder κ] (o : Ops α κ) (lo : Lawful o) (m : α) (q : PQ α) (i : Nat)
    (h1 : 1 ≤ i)
    (H1 : ∀ j, 2 ≤ j → j < q.size → j ≠ i → j / 2 ≠ i → o.pri (q.d (j / 2)) ≤ o.pri (q.d j))
    (H2 : ∀ j, 2 ≤ j → j < q.size → j / 2 = i → o.pri m ≤ o.pri (q.d j) ∧
      (1 < i → o.pri (q.d (i / 2)) ≤ o.pri (q.d j))) (h2 : i < q.size) :
    HeapOK o (bubbleLoop o m q i) := by
  fun_induction bubbleLoop o m q i with
  | case1 q i h ih =>
    have hlt : o.pri m < o.pri (q.d (i / 2)) := (lo.gt _ _).1 h.2
    apply ih (by omega)
    · intro j a b c e
      simp only [] at *
      have hji : j ≠ i := by rintro rfl; exact e rfl
      rw [setSlot_ne _ _ hji]
      by_cases hc : j / 2 = i
      · rw [hc, setSlot_same]; exact (H2 j a b hc).2 h.1
      · rw [setSlot_ne _ _ hc]; exact H1 j a b hji hc
    · intro j a b c
      simp only [] at *
      by_cases hji : j = i
      · subst hji
        rw [setSlot_same]
        refine ⟨hlt.le, fun hp => ?_⟩
        rw [setSlot_ne _ _ (by omega)]
        exact H1 _ (by omega) (by omega) (by omega) (by omega)
      · rw [setSlot_ne _ _ hji]
        have hs : o.pri (q.d (j / 2)) ≤ o.pri (q.d j) := H1 j a b hji (by omega)
        rw [c] at hs
        refine ⟨hlt.le.trans hs, fun hp => ?_⟩
        rw [setSlot_ne _ _ (by omega)]
        exact (H1 (i / 2) (by omega) (by omega) (by omega) (by omega)).trans hs
    · simp only []; omega
  | case2 q i h =>
    intro j a b
    simp only [] at *
    by_cases hji : j = i
    · subst hji
      rw [setSlot_same, setSlot_ne _ _ (by omega)]
      by_contra hcon
      exact h ⟨by omega, (lo.gt _ _).2 (lt_of_not_ge hcon)⟩
    · rw [setSlot_ne _ _ hji]
      by_cases hc : j / 2 = i
      · rw [hc, setSlot_same]; exact (H2 j a b hc).1
      · rw [setSlot_ne _ _ hc]; exact H1 j a b hji hc

/-! ### percolate_down -/

omit [DecidableEq α] in
theorem maxchild_cases [LinearOrder κ] (o : Ops α κ) (lo : Lawful o) (q : PQ α) (i : Nat) :
    (maxchild o q i = 0 ∧ q.size ≤ 2 * i) ∨
    (maxchild o q i / 2 = i ∧ 2 * i ≤ maxchild o q i ∧ maxchild o q i < q.size ∧
      ∀ j, j / 2 = i → j < q.size → o.pri (q.d (maxchild o q i)) ≤ o.pri (q.d j)) := by
  unfold maxchild
  simp only [ge_iff_le]
  split
  · left; exact ⟨rfl, by assumption⟩
  · right
    rename_i hs
    split
    · rename_i h
      have hlt := (lo.gt _ _).1 h.2
      refine ⟨by omega, by omega, by omega, ?_⟩
      intro j hj hjs
      rcases (by omega : j = 2 * i ∨ j = 2 * i + 1) with rfl | rfl
      · exact hlt.le
      · exact le_refl _
    · rename_i h
      refine ⟨by omega, by omega, by omega, ?_⟩
      intro j hj hjs
      rcases (by omega : j = 2 * i ∨ j = 2 * i + 1) with rfl | rfl
      · exact le_refl _
      · by_contra hcon
        exact h ⟨hjs, (lo.gt _ _).2 (lt_of_not_ge hcon)⟩

omit [DecidableEq α] in
/-- The part of `maxchild_cases` that needs no law on `cmp`. -/
theorem maxchild_range (o : Ops α κ) (q : PQ α) (i : Nat) (h : maxchild o q i ≠ 0) :
    maxchild o q i / 2 = i ∧ 2 * i ≤ maxchild o q i ∧ maxchild o q i < q.size := by
  unfold maxchild at *
  simp only [ge_iff_le] at *
  split at h
  · simp at h
  · rename_i hs
    rw [if_neg hs]
    split at h
    · rename_i hc; rw [if_pos hc]; omega
    · rename_i hc; rw [if_neg hc]; omega

theorem percolateLoop_meta (o : Ops α κ) (m : α) (q : PQ α) (i : Nat) :
    (percolateLoop o m q i).size = q.size ∧ (percolateLoop o m q i).avail = q.avail ∧
    (percolateLoop o m q i).step = q.step := by
  fun_induction percolateLoop o m q i with
  | case1 q i c h ih => simpa using ih
  | case2 q i c h => simp

theorem percolateLoop_contents (o : Ops α κ) (m : α) (q : PQ α) (i : Nat) (h1 : 1 ≤ i)
    (h2 : i < q.size) :
    contents (percolateLoop o m q i) = (Finset.Ico 1 q.size).val.map (setSlot q.d i m) := by
  fun_induction percolateLoop o m q i with
  | case1 q i c h ih =>
    have hr := maxchild_range o q i h.1
    rw [ih (by omega) (by simp only []; omega)]
    simp only []
    apply fill_swap <;> simp <;> omega
  | case2 q i c h => simp [contents]

theorem percolateLoop_pos (o : Ops α κ) (m : α) (q : PQ α) (i : Nat) (h1 : 1 ≤ i) (h2 : i < q.size)
    (hp : ∀ j, 1 ≤ j → j < q.size → j ≠ i → q.pos (q.d j) = j ∧ q.d j ≠ m) :
    PosOK (percolateLoop o m q i) := by
  fun_induction percolateLoop o m q i with
  | case1 q i c h ih =>
    have hr := maxchild_range o q i h.1
    have hpi : c ≠ i := by omega
    have hpar := hp c (by omega) (by omega) hpi
    apply ih (by omega) (by simp only []; omega)
    intro j hj1 hj2 hj3
    simp only [] at *
    by_cases hji : j = i
    · subst hji; simp [hpar.2]
    · rw [setSlot_ne _ _ hji]
      have := hp j hj1 hj2 hji
      refine ⟨?_, this.2⟩
      rw [setPos_ne, this.1]
      intro he
      rw [he, hpar.1] at this
      exact hj3 this.1.symm
  | case2 q i c h =>
    intro j hj1 hj2
    simp only [] at *
    by_cases hji : j = i
    · subst hji; simp
    · have := hp j hj1 hj2 hji
      rw [setSlot_ne _ _ hji, setPos_ne _ _ this.2, this.1]

theorem percolateLoop_heap [LinearOrder κ] (o : Ops α κ) (lo : Lawful o) (m : α) (q : PQ α)
    (i : Nat) (h1 : 1 ≤ i)
    (H1 : ∀ j, 2 ≤ j → j < q.size → j ≠ i → j / 2 ≠ i → o.pri (q.d (j / 2)) ≤ o.pri (q.d j))
    (H2 : 1 < i → o.pri (q.d (i / 2)) ≤ o.pri m ∧
      ∀ j, 2 ≤ j → j < q.size → j / 2 = i → o.pri (q.d (i / 2)) ≤ o.pri (q.d j))
    (h2 : i < q.size) :
    HeapOK o (percolateLoop o m q i) := by
  fun_induction percolateLoop o m q i with
  | case1 q i c h ih =>
    have hlt : o.pri (q.d c) < o.pri m := (lo.gt _ _).1 h.2
    have hr := maxchild_range o q i h.1
    have hm : ∀ j, j / 2 = i → j < q.size → o.pri (q.d c) ≤ o.pri (q.d j) := by
      rcases maxchild_cases o lo q i with hc | hc
      · exact absurd hc.1 h.1
      · exact hc.2.2.2
    apply ih (by omega)
    · intro j a b e f
      simp only [] at *
      by_cases hji : j = i
      · subst hji
        rw [setSlot_same, setSlot_ne _ _ (by omega)]
        exact (H2 (by omega)).2 c (by omega) (by omega) (by omega)
      · rw [setSlot_ne _ _ hji]
        by_cases hc : j / 2 = i
        · rw [hc, setSlot_same]; exact hm j hc b
        · rw [setSlot_ne _ _ hc]; exact H1 j a b hji hc
    · intro _
      simp only [] at *
      have hci : c / 2 = i := hr.1
      rw [hci, setSlot_same]
      refine ⟨hlt.le, ?_⟩
      intro j a b e
      rw [setSlot_ne _ _ (by omega)]
      have := H1 j a b (by omega) (by omega)
      rw [e] at this
      exact this
    · simp only []; omega
  | case2 q i c h =>
    intro j a b
    simp only [] at *
    by_cases hji : j = i
    · subst hji
      rw [setSlot_same, setSlot_ne _ _ (by omega)]
      exact (H2 (by omega)).1
    · rw [setSlot_ne _ _ hji]
      by_cases hc : j / 2 = i
      · rw [hc, setSlot_same]
        rcases maxchild_cases o lo q i with hm | hm
        · omega
        · have hcj := hm.2.2.2 j hc b
          refine le_trans ?_ hcj
          by_contra hcon
          exact h ⟨by omega, (lo.gt _ _).2 (lt_of_not_ge hcon)⟩
      · rw [setSlot_ne _ _ hc]; exact H1 j a b hji hc

/-! ### API operations -/

omit [DecidableEq α] in
theorem slots_distinct {q : PQ α} (h : PosOK q) {i j : Nat} (hi : 1 ≤ i) (hi' : i < q.size)
    (hj : 1 ≤ j) (hj' : j < q.size) (he : q.d i = q.d j) : i = j := by
  rw [← h i hi hi', ← h j hj hj', he]

omit [DecidableEq α] in
theorem init_inv [LinearOrder κ] (o : Ops α κ) (n : Nat) (d : Nat → α) (p : α → Nat) :
    Inv o (init n d p) := by
  constructor <;> simp [init, HeapOK, PosOK] <;> omega

omit [DecidableEq α] in
theorem init_contents (n : Nat) (d : Nat → α) (p : α → Nat) : contents (init n d p) = 0 := by
  simp [contents, init]

/-- Queue just before `bubble_up` in `insert`. -/
theorem insert_eq (o : Ops α κ) (q : PQ α) (x : α) :
    insert o q x = bubbleLoop o x
      { size := q.size + 1, avail := if q.size ≥ q.avail then q.size + q.step else q.avail,
        step := q.step, d := setSlot q.d q.size x, pos := q.pos } q.size := by
  unfold insert bubbleUp
  split <;> simp

theorem insert_contents (o : Ops α κ) (q : PQ α) (x : α) (h : 1 ≤ q.size) :
    contents (insert o q x) = x ::ₘ contents q := by
  rw [insert_eq, bubbleLoop_contents _ _ _ _ h (by simp)]
  have hm : q.size ∈ Finset.Ico 1 (q.size + 1) := by simp; omega
  simp only []
  rw [map_setSlot _ _ _ hm]
  have : (Finset.Ico 1 (q.size + 1)).erase q.size = Finset.Ico 1 q.size := by
    ext j; simp; omega
  rw [this, map_setSlot_notMem _ _ _ (by simp)]
  rfl

theorem insert_inv [LinearOrder κ] (o : Ops α κ) (lo : Lawful o) (q : PQ α) (x : α) (h : Inv o q)
    (hx : x ∉ contents q) : Inv o (insert o q x) := by
  have hs := h.size_pos
  have hst := h.step_pos
  have hle := h.size_le
  rw [insert_eq]
  have hmeta := bubbleLoop_meta o x
      { size := q.size + 1, avail := if q.size ≥ q.avail then q.size + q.step else q.avail,
        step := q.step, d := setSlot q.d q.size x, pos := q.pos } q.size
  simp only [] at hmeta
  refine ⟨by rw [hmeta.1]; omega, ?_, by rw [hmeta.2.2]; omega, ?_, ?_⟩
  · rw [hmeta.1, hmeta.2.1]; split <;> omega
  · apply bubbleLoop_heap o lo
    · exact hs
    · intro j a b c e
      simp only [] at *
      rw [setSlot_ne _ _ c, setSlot_ne _ _ e]
      exact h.heap j a (by omega)
    · intro j a b c
      simp only [] at *
      omega
    · simp
  · apply bubbleLoop_pos
    · exact hs
    · simp
    · intro j a b c
      simp only [] at *
      rw [setSlot_ne _ _ c]
      refine ⟨h.pos j a (by omega), ?_⟩
      rintro rfl
      exact hx (mem_contents.2 ⟨j, a, by omega, rfl⟩)

omit [DecidableEq α] in
theorem contents_split {q : PQ α} {i : Nat} (h1 : 1 ≤ i) (h2 : i < q.size - 1) :
    ∃ R, contents q = q.d i ::ₘ q.d (q.size - 1) ::ₘ R ∧
      (Finset.Ico 1 (q.size - 1)).val.map (setSlot q.d i (q.d (q.size - 1))) =
        q.d (q.size - 1) ::ₘ R := by
  refine ⟨((Finset.Ico 1 (q.size - 1)).erase i).val.map q.d, ?_, ?_⟩
  · unfold contents
    have hm : q.size - 1 ∈ Finset.Ico 1 q.size := by simp; omega
    have hi : i ∈ Finset.Ico 1 (q.size - 1) := by simp; omega
    rw [map_split q.d _ hm]
    have : (Finset.Ico 1 q.size).erase (q.size - 1) = Finset.Ico 1 (q.size - 1) := by
      ext j; simp; omega
    rw [this, map_split q.d _ hi, Multiset.cons_swap]
  · rw [map_setSlot _ _ _ (by simp; omega)]

omit [DecidableEq α] in
theorem contents_last {q : PQ α} (h : 1 < q.size) :
    contents q = q.d (q.size - 1) ::ₘ (Finset.Ico 1 (q.size - 1)).val.map q.d := by
  unfold contents
  have hm : q.size - 1 ∈ Finset.Ico 1 q.size := by simp; omega
  rw [map_split q.d _ hm]
  have : (Finset.Ico 1 q.size).erase (q.size - 1) = Finset.Ico 1 (q.size - 1) := by
    ext j; simp; omega
  rw [this]

/-- Percolating at a slot at or beyond the end only writes that slot. -/
theorem percolateLoop_end (o : Ops α κ) (m : α) (q : PQ α) (i : Nat) (h : q.size ≤ 2 * i) :
    percolateLoop o m q i = { q with d := setSlot q.d i m, pos := setPos q.pos m i } := by
  rw [percolateLoop]
  have : maxchild o q i = 0 := by simp [maxchild, h]
  simp [this]

theorem bubbleLoop_stop (o : Ops α κ) (m : α) (q : PQ α) (i : Nat) (h : i ≤ 1) :
    bubbleLoop o m q i = { q with d := setSlot q.d i m, pos := setPos q.pos m i } := by
  rw [bubbleLoop]; simp; omega

/-- Removing the element in slot `i`. -/
theorem remove_at [LinearOrder κ] (o : Ops α κ) (lo : Lawful o) (q : PQ α) (h : Inv o q) (i : Nat)
    (h1 : 1 ≤ i) (h2 : i < q.size) (q' : PQ α)
    (hq' : q' = { q with size := q.size - 1, d := setSlot q.d i (q.d (q.size - 1)) })
    (r : PQ α)
    (hr : (o.cmp (o.pri (q.d i)) (o.pri (q.d (q.size - 1))) = 1 ∧ r = bubbleUp o q' i) ∨
      ((o.cmp (o.pri (q.d i)) (o.pri (q.d (q.size - 1))) ≠ 1 ∨ i = 1) ∧
        r = percolateDown o q' i)) :
    Inv o r ∧ contents r = (contents q).erase (q.d i) := by
  have hle := h.size_le
  have hst := h.step_pos
  have hmv : q'.d i = q.d (q.size - 1) := by subst hq'; simp
  by_cases hlast : i = q.size - 1
  · -- the removed element is the last one
    have hrr : r = percolateLoop o (q.d i) q' i ∨ (i = 1 ∧ r = bubbleLoop o (q.d i) q' i) := by
      rcases hr with ⟨hc, rfl⟩ | ⟨_, rfl⟩
      · rw [← hlast] at hc
        exact absurd ((lo.gt _ _).1 hc) (lt_irrefl _)
      · left; unfold percolateDown; rw [hmv, hlast]
    have hfin : r = { q' with d := setSlot q'.d i (q.d i), pos := setPos q'.pos (q.d i) i } := by
      rcases hrr with rfl | ⟨hi1, rfl⟩
      · apply percolateLoop_end; subst hq'; simp only []; omega
      · apply bubbleLoop_stop; omega
    subst hfin
    constructor
    · refine ⟨by subst hq'; simp only []; omega, by subst hq'; simp only []; omega,
        by subst hq'; simp only []; omega, ?_, ?_⟩
      · intro j a b
        subst hq'
        simp only [] at *
        rw [setSlot_ne _ _ (by omega), setSlot_ne _ _ (by omega), setSlot_ne _ _ (by omega),
          setSlot_ne _ _ (by omega)]
        exact h.heap j a (by omega)
      · intro j a b
        subst hq'
        simp only [] at *
        rw [setSlot_ne _ _ (by omega), setSlot_ne _ _ (by omega), setPos_ne]
        · exact h.pos j a (by omega)
        · intro he
          have := slots_distinct h.pos a (by omega) h1 h2 he
          omega
    · rw [contents_last (q := q) (by omega), ← hlast, Multiset.erase_cons_head]
      subst hq'
      unfold contents
      simp only []
      rw [map_setSlot_notMem _ _ _ (by simp; omega), map_setSlot_notMem _ _ _ (by simp; omega),
        hlast]
  · obtain ⟨R, hR1, hR2⟩ := contents_split (q := q) h1 (by omega)
    have hs' : q'.size = q.size - 1 := by subst hq'; rfl
    have hd' : ∀ j, j ≠ i → q'.d j = q.d j := by
      intro j hj; subst hq'; exact setSlot_ne _ _ hj
    have hfill : (Finset.Ico 1 q'.size).val.map (setSlot q'.d i (q'.d i)) =
        q.d (q.size - 1) ::ₘ R := by
      rw [hmv, hs', ← hR2]
      apply Multiset.map_congr rfl
      intro j _
      by_cases hji : j = i
      · subst hji; simp
      · rw [setSlot_ne _ _ hji, setSlot_ne _ _ hji, hd' j hji]
    have hposh : ∀ j, 1 ≤ j → j < q'.size → j ≠ i →
        q'.pos (q'.d j) = j ∧ q'.d j ≠ q'.d i := by
      intro j a b c
      rw [hd' j c, hmv]
      have hp : q'.pos = q.pos := by subst hq'; rfl
      rw [hp]
      refine ⟨h.pos j a (by omega), ?_⟩
      intro he
      have := slots_distinct h.pos a (by omega) (by omega : 1 ≤ q.size - 1) (by omega) he
      omega
    have hH1 : ∀ j, 2 ≤ j → j < q'.size → j ≠ i → j / 2 ≠ i →
        o.pri (q'.d (j / 2)) ≤ o.pri (q'.d j) := by
      intro j a b c e
      rw [hd' _ c, hd' _ e]
      exact h.heap j a (by omega)
    rcases hr with ⟨hc, rfl⟩ | ⟨hc, rfl⟩
    · have hlt := (lo.gt _ _).1 hc
      constructor
      · unfold bubbleUp
        have hmeta := bubbleLoop_meta o (q'.d i) q' i
        refine ⟨by rw [hmeta.1]; omega, ?_, ?_, ?_, ?_⟩
        · rw [hmeta.1, hmeta.2.1]; subst hq'; simp only []; omega
        · rw [hmeta.2.2]; subst hq'; exact hst
        · apply bubbleLoop_heap o lo _ _ _ h1 hH1 _ (by omega)
          intro j a b c
          rw [hmv, hd' j (by omega)]
          have hch := h.heap j a (by omega)
          rw [c] at hch
          refine ⟨hlt.le.trans hch, fun hi => ?_⟩
          rw [hd' _ (by omega)]
          exact (h.heap i (by omega) h2).trans hch
        · exact bubbleLoop_pos o _ _ _ h1 (by omega) hposh
      · unfold bubbleUp
        rw [bubbleLoop_contents _ _ _ _ h1 (by omega), hfill, hR1, Multiset.erase_cons_head]
    · constructor
      · unfold percolateDown
        have hmeta := percolateLoop_meta o (q'.d i) q' i
        refine ⟨by rw [hmeta.1]; omega, ?_, ?_, ?_, ?_⟩
        · rw [hmeta.1, hmeta.2.1]; subst hq'; simp only []; omega
        · rw [hmeta.2.2]; subst hq'; exact hst
        · apply percolateLoop_heap o lo _ _ _ h1 hH1 _ (by omega)
          intro hi
          rw [hmv, hd' _ (by omega)]
          have hpar := h.heap i (by omega) h2
          constructor
          · refine hpar.trans ?_
            rcases hc with hc | hc
            · by_contra hcon
              exact hc ((lo.gt _ _).2 (lt_of_not_ge hcon))
            · omega
          · intro j a b c
            rw [hd' j (by omega)]
            have hch := h.heap j a (by omega)
            rw [c] at hch
            exact hpar.trans hch
        · exact percolateLoop_pos o _ _ _ h1 (by omega) hposh
      · unfold percolateDown
        rw [percolateLoop_contents _ _ _ _ h1 (by omega), hfill, hR1, Multiset.erase_cons_head]

theorem remove_inv [LinearOrder κ] (o : Ops α κ) (lo : Lawful o) (q : PQ α) (x : α) (h : Inv o q)
    (hx : x ∈ contents q) :
    Inv o (remove o q x) ∧ contents (remove o q x) = (contents q).erase x := by
  obtain ⟨i, h1, h2, rfl⟩ := mem_contents.1 hx
  have hpos := h.pos i h1 h2
  unfold remove
  rw [if_neg (by omega)]
  simp only [hpos]
  apply remove_at o lo q h i h1 h2 _ rfl
  simp only [setSlot_same]
  split
  · left; exact ⟨by assumption, rfl⟩
  · right; exact ⟨Or.inl (by assumption), rfl⟩

theorem pop_inv [LinearOrder κ] (o : Ops α κ) (lo : Lawful o) (q : PQ α) (h : Inv o q)
    (hs : q.size ≠ 1) :
    (pop o q).1 = some (q.d 1) ∧ Inv o (pop o q).2 ∧
      contents (pop o q).2 = (contents q).erase (q.d 1) := by
  have := h.size_pos
  unfold pop
  rw [if_neg hs]
  refine ⟨rfl, ?_⟩
  apply remove_at o lo q h 1 (le_refl 1) (by omega) _ rfl
  right; exact ⟨Or.inr rfl, rfl⟩

omit [DecidableEq α] in
theorem root_min [LinearOrder κ] (o : Ops α κ) (q : PQ α) (h : HeapOK o q) :
    ∀ j, 1 ≤ j → j < q.size → o.pri (q.d 1) ≤ o.pri (q.d j) := by
  intro j
  induction j using Nat.strongRecOn with
  | _ j ih =>
    intro h1 h2
    by_cases hj : j = 1
    · subst hj; exact le_refl _
    · exact (ih (j / 2) (by omega) (by omega) (by omega)).trans (h j (by omega) h2)

omit [DecidableEq α] in
theorem contents_empty_iff {q : PQ α} (h : 1 ≤ q.size) : contents q = 0 ↔ q.size = 1 := by
  constructor
  · intro he
    by_contra hs
    have : q.d 1 ∈ contents q := mem_contents.2 ⟨1, le_refl 1, by omega, rfl⟩
    rw [he] at this
    simp at this
  · intro hs; simp [contents, hs]

omit [DecidableEq α] in
theorem contents_card {q : PQ α} : (contents q).card = q.size - 1 := by
  simp [contents]

/-! ### shared position memory -/

theorem bubbleLoop_frame (o : Ops α κ) (m : α) (q : PQ α) (i : Nat) (y : α) (hy : y ≠ m)
    (h1 : 1 ≤ i) (h2 : i < q.size)
    (hd : ∀ j, 1 ≤ j → j < q.size → j ≠ i → q.d j ≠ y) :
    (bubbleLoop o m q i).pos y = q.pos y := by
  fun_induction bubbleLoop o m q i with
  | case1 q i h ih =>
    have hp := hd (i / 2) (by omega) (by omega) (by omega)
    rw [ih (by omega) (by simp only []; omega)]
    · exact setPos_ne _ _ hp.symm
    · intro j a b c
      simp only [] at *
      by_cases hji : j = i
      · subst hji; simpa using hp
      · rw [setSlot_ne _ _ hji]; exact hd j a b hji
  | case2 q i h => exact setPos_ne _ _ hy

theorem percolateLoop_frame (o : Ops α κ) (m : α) (q : PQ α) (i : Nat) (y : α) (hy : y ≠ m)
    (h1 : 1 ≤ i)
    (hd : ∀ j, 1 ≤ j → j < q.size → j ≠ i → q.d j ≠ y) :
    (percolateLoop o m q i).pos y = q.pos y := by
  fun_induction percolateLoop o m q i with
  | case1 q i c h ih =>
    have hr := maxchild_range o q i h.1
    have hp := hd c (by omega) (by omega) (by omega)
    rw [ih (by omega)]
    · exact setPos_ne _ _ hp.symm
    · intro j a b e
      simp only [] at *
      by_cases hji : j = i
      · subst hji; simpa using hp
      · rw [setSlot_ne _ _ hji]; exact hd j a b hji
  | case2 q i c h => exact setPos_ne _ _ hy

theorem insert_frame (o : Ops α κ) (q : PQ α) (x y : α) (hs : 1 ≤ q.size) (hxy : y ≠ x)
    (hy : y ∉ contents q) : (insert o q x).pos y = q.pos y := by
  rw [insert_eq, bubbleLoop_frame o x _ _ y hxy hs (by simp)]
  intro j a b c
  simp only [] at *
  rw [setSlot_ne _ _ c]
  intro he
  exact hy (mem_contents.2 ⟨j, a, by omega, he⟩)

theorem pop_frame (o : Ops α κ) (q : PQ α) (y : α) (hs : 1 < q.size) (hy : y ∉ contents q) :
    (pop o q).2.pos y = q.pos y := by
  unfold pop
  rw [if_neg (by omega)]
  simp only [percolateDown, setSlot_same]
  have hd : ∀ j, 1 ≤ j → j < q.size → q.d j ≠ y := by
    intro j a b he; exact hy (mem_contents.2 ⟨j, a, b, he⟩)
  rw [percolateLoop_frame o _ _ _ y (hd _ (by omega) (by omega)).symm (le_refl 1)]
  intro j a b c
  simp only [] at *
  rw [setSlot_ne _ _ c]
  exact hd j a (by omega)

theorem inv_of_pos [LinearOrder κ] (o : Ops α κ) (q : PQ α) (h : Inv o q) (p : α → Nat)
    (hp : ∀ x ∈ contents q, p x = q.pos x) : Inv o { q with pos := p } := by
  refine ⟨h.size_pos, h.size_le, h.step_pos, h.heap, ?_⟩
  intro j a b
  simp only []
  rw [hp _ (mem_contents.2 ⟨j, a, b, rfl⟩)]
  exact h.pos j a b

theorem contents_setpos (q : PQ α) (p : α → Nat) : contents { q with pos := p } = contents q := rfl

theorem contents_nodup [LinearOrder κ] (o : Ops α κ) (q : PQ α) (h : Inv o q) :
    (contents q).Nodup := by
  unfold contents
  apply Multiset.Nodup.map_on
  · intro i hi j hj he
    simp at hi hj
    exact slots_distinct h.pos hi.1 hi.2 hj.1 hj.2 he
  · exact (Finset.Ico 1 q.size).nodup

theorem moveAll_spec [LinearOrder κ] (o : Ops α κ) (lo : Lawful o) (dest src : PQ α)
    (hd : Inv o dest) (hs : Inv o src) (hpos : dest.pos = src.pos)
    (hdis : ∀ x ∈ contents src, x ∉ contents dest) :
    contents (moveAll o dest src).1 = contents src + contents dest ∧
    contents (moveAll o dest src).2 = 0 ∧
    Inv o (moveAll o dest src).1 ∧ Inv o (moveAll o dest src).2 := by
  fun_induction moveAll o dest src with
  | case1 dest src h =>
    have := hs.size_pos
    have he := (contents_empty_iff hs.size_pos).2 (by omega)
    simp [he, hd, hs]
  | case2 dest src h hp =>
    have := pop_inv o lo src hs (by omega)
    rw [this.1] at hp; simp at hp
  | case3 dest src h x hp dest' ih =>
    have hpi := pop_inv o lo src hs (by omega)
    rw [hpi.1, Option.some.injEq] at hp
    have hm : x ∈ contents src := by
      rw [← hp]; exact mem_contents.2 ⟨1, le_refl 1, by omega, rfl⟩
    rw [hp] at hpi
    have hnd := contents_nodup o src hs
    have hxd : x ∉ contents dest := hdis x hm
    have hd0 : Inv o { dest with pos := (pop o src).2.pos } := by
      apply inv_of_pos o dest hd
      intro y hy
      rw [pop_frame o src y (by omega) (fun hy' => hdis y hy' hy), hpos]
    have hd' : Inv o dest' := insert_inv o lo _ x hd0 hxd
    have hc' : contents dest' = x ::ₘ contents dest := insert_contents o _ x hd0.size_pos
    have hs' : Inv o { (pop o src).2 with pos := dest'.pos } := by
      apply inv_of_pos o _ hpi.2.1
      intro y hy
      have hy2 : y ∈ contents src := by rw [hpi.2.2] at hy; exact Multiset.mem_of_mem_erase hy
      have hyx : y ≠ x := by
        rintro rfl
        rw [hpi.2.2] at hy
        exact (Multiset.Nodup.notMem_erase hnd) hy
      exact insert_frame o _ x y hd0.size_pos hyx (hdis y hy2)
    have := ih hd' hs' rfl (by
      intro y hy
      rw [contents_setpos, hpi.2.2] at hy
      rw [hc', Multiset.mem_cons]
      rintro (rfl | hyd)
      · exact (Multiset.Nodup.notMem_erase hnd) hy
      · exact hdis y (Multiset.mem_of_mem_erase hy) hyd)
    refine ⟨?_, this.2⟩
    rw [this.1, contents_setpos, hpi.2.2, hc', Multiset.add_cons, ← Multiset.cons_add,
      Multiset.cons_erase hm]

/-! ### searches -/

/-- `k` lies in the subtree rooted at slot `p`. -/
inductive Desc : Nat → Nat → Prop where
  | self {p} : Desc p p
  | left {p k} : Desc (2 * p) k → Desc p k
  | right {p k} : Desc (2 * p + 1) k → Desc p k

theorem Desc.down {p k : Nat} (h : Desc p k) : Desc p (2 * k) ∧ Desc p (2 * k + 1) := by
  induction h with
  | self => exact ⟨.left .self, .right .self⟩
  | left _ ih => exact ⟨.left ih.1, .left ih.2⟩
  | right _ ih => exact ⟨.right ih.1, .right ih.2⟩

theorem desc_one (k : Nat) (h : 1 ≤ k) : Desc 1 k := by
  induction k using Nat.strongRecOn with
  | _ k ih =>
    by_cases hk : k = 1
    · subst hk; exact .self
    · have hd := (ih (k / 2) (by omega) (by omega)).down
      rcases (by omega : k % 2 = 0 ∨ k % 2 = 1) with hc | hc
      · have : 2 * (k / 2) = k := by omega
        rw [this] at hd; exact hd.1
      · have : 2 * (k / 2) + 1 = k := by omega
        rw [this] at hd; exact hd.2

omit [DecidableEq α] in
theorem desc_ge {p k : Nat} (hp : 1 ≤ p) (h : Desc p k) : p ≤ k := by
  induction h with
  | self => exact le_refl _
  | left _ ih => have := ih (by omega); omega
  | right _ ih => have := ih (by omega); omega

omit [DecidableEq α] in
theorem desc_pri [LinearOrder κ] (o : Ops α κ) (q : PQ α) (h : HeapOK o q) {p k : Nat}
    (hd : Desc p k) (hp : 1 ≤ p) (hk : k < q.size) : o.pri (q.d p) ≤ o.pri (q.d k) := by
  induction hd with
  | self => exact le_refl _
  | @left p k hd ih =>
    have := desc_ge (by omega) hd
    have h2 := h (2 * p) (by omega) (by omega)
    rw [show 2 * p / 2 = p by omega] at h2
    exact h2.trans (ih (by omega) hk)
  | @right p k hd ih =>
    have := desc_ge (by omega) hd
    have h2 := h (2 * p + 1) (by omega) (by omega)
    rw [show (2 * p + 1) / 2 = p by omega] at h2
    exact h2.trans (ih (by omega) hk)

omit [DecidableEq α] in
theorem findSame_sound [LinearOrder κ] (o : Ops α κ) (lo : Lawful o) (q : PQ α) (e : κ) (p : Nat)
    (r : α) (h : findSame o q e p = some r) : r ∈ contents q ∧ o.pri r = e := by
  fun_induction findSame o q e p with
  | case1 => simp at h
  | case2 => simp at h
  | case3 p h1 h2 h3 =>
    simp only [Option.some.injEq] at h
    subst h
    exact ⟨mem_contents.2 ⟨p, by omega, by omega, rfl⟩, (lo.eq _ _).1 h3⟩
  | case4 p h1 h2 h3 r' hr ih => exact ih (by rw [hr]; exact h)
  | case5 p h1 h2 h3 hr ih1 ih2 => exact ih2 h

omit [DecidableEq α] in
theorem findSame_complete [LinearOrder κ] (o : Ops α κ) (lo : Lawful o) (q : PQ α) (hh : HeapOK o q)
    (e : κ) (p : Nat) (hp : 1 ≤ p) (h : findSame o q e p = none) :
    ∀ k, Desc p k → k < q.size → o.pri (q.d k) ≠ e := by
  fun_induction findSame o q e p with
  | case1 p h1 =>
    intro k hd hk
    have := desc_ge (by omega) hd
    omega
  | case2 p h1 h2 =>
    intro k hd hk he
    have := desc_pri o q hh hd hp hk
    have := (lo.gt _ _).1 h2
    subst he
    exact absurd this (not_lt.2 (by assumption))
  | case3 => simp at h
  | case4 p h1 h2 h3 r' hr ih => simp at h
  | case5 p h1 h2 h3 hr ih1 ih2 =>
    intro k hd hk
    cases hd with
    | self => intro he; exact h3 ((lo.eq _ _).2 he)
    | left hd => exact ih1 (by omega) hr k hd hk
    | right hd => exact ih2 (by omega) h k hd hk

omit [DecidableEq α] in
theorem findEqual_sound [LinearOrder κ] (o : Ops α κ) (lo : Lawful o) (q : PQ α) (e : α) (p : Nat)
    (r : α) (h : findEqual o q e p = some r) :
    r ∈ contents q ∧ o.pri r = o.pri e ∧ o.eqelem r e = true := by
  fun_induction findEqual o q e p with
  | case1 => simp at h
  | case2 => simp at h
  | case3 p h1 h2 h3 =>
    simp only [Option.some.injEq] at h
    subst h
    exact ⟨mem_contents.2 ⟨p, by omega, by omega, rfl⟩, (lo.eq _ _).1 h3.1, h3.2⟩
  | case4 p h1 h2 h3 r' hr ih => exact ih (by rw [hr]; exact h)
  | case5 p h1 h2 h3 hr ih1 ih2 => exact ih2 h

omit [DecidableEq α] in
theorem findEqual_complete [LinearOrder κ] (o : Ops α κ) (lo : Lawful o) (q : PQ α)
    (hh : HeapOK o q) (e : α) (p : Nat) (hp : 1 ≤ p) (h : findEqual o q e p = none) :
    ∀ k, Desc p k → k < q.size → ¬ (o.pri (q.d k) = o.pri e ∧ o.eqelem (q.d k) e = true) := by
  fun_induction findEqual o q e p with
  | case1 p h1 =>
    intro k hd hk
    have := desc_ge (by omega) hd
    omega
  | case2 p h1 h2 =>
    intro k hd hk he
    have h5 := desc_pri o q hh hd hp hk
    have := (lo.gt _ _).1 h2
    rw [he.1] at h5
    exact absurd this (not_lt.2 h5)
  | case3 => simp at h
  | case4 p h1 h2 h3 r' hr ih => simp at h
  | case5 p h1 h2 h3 hr ih1 ih2 =>
    intro k hd hk
    cases hd with
    | self => intro he; exact h3 ⟨(lo.eq _ _).2 he.1, he.2⟩
    | left hd => exact ih1 (by omega) hr k hd hk
    | right hd => exact ih2 (by omega) h k hd hk

end ReactorC.PQueue
