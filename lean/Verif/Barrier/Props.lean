import Verif.Barrier.Model
import Verif.Tag.Order
import Mathlib.Data.List.Basic

/-!
# C44: tag barriers are respected
-/

namespace ReactorC.Barrier
open ReactorC

/-! ## Specification -/

/-- When the barrier was asked for, the tag it asks for (or the stop tag, if that is earlier) was still to come. -/
def Request.ToCome (r : Request) : Prop := r.cur < r.tag ∧ r.cur < r.stop

/-- What is promised to one who asked for a barrier: as long as it is outstanding, the current tag stays before the tag
asked for and the stop tag or, if one of them had been reached already, the current tag does not change at all. -/
def Request.Kept (r : Request) (cur : Tag) : Prop :=
  (r.ToCome → cur < r.tag ∧ cur < r.stop) ∧ (¬ r.ToCome → cur = r.cur)

instance (r : Request) : Decidable r.ToCome := by unfold Request.ToCome; infer_instance
instance (r : Request) (cur : Tag) : Decidable (r.Kept cur) := by unfold Request.Kept; infer_instance

/-! ## Invariant -/

/-- The first tag a barrier keeps the current tag from. -/
def Request.bar (r : Request) : Tag :=
  if r.ToCome then (if r.tag < r.stop then r.tag else r.stop) else ⟨r.cur.time, r.cur.microstep + 1⟩

structure Inv (s : State) : Prop where
  count : s.requestors = s.out.length
  sub : ∀ r ∈ s.out, r ∈ s.batch
  free : s.out = [] → s.horizon = FOREVER_TAG ∧ s.batch = []
  below : ∀ r ∈ s.batch, s.horizon ≤ r.bar
  kept : ∀ r ∈ s.batch, r.cur ≤ s.cur ∧ s.cur < r.bar
  wait : ∀ p, s.waiting = some p → earliest s.q ≤ p ∨ s.stop ≤ p
  tight : s.horizon = FOREVER_TAG ∨ (∃ r ∈ s.batch, s.horizon = r.bar) ∨ ∃ r ∈ s.batch, ¬ r.ToCome ∧ s.cur = r.cur

theorem clamp_cases (stop tag : Tag) : (stop < tag ∧ clamp stop tag = stop) ∨ (tag ≤ stop ∧ clamp stop tag = tag) := by
  unfold clamp
  split
  · rename_i h; exact Or.inl ⟨(cmp_gt_zero _ _).1 h, rfl⟩
  · rename_i h; exact Or.inr ⟨by rw [cmp_gt_zero] at h; exact Tag.not_lt.1 h, rfl⟩

theorem clamp_le (stop tag : Tag) : clamp stop tag ≤ stop := by
  rcases clamp_cases stop tag with ⟨_, h⟩ | ⟨h, h'⟩
  · rw [h]
  · rw [h']; exact h

theorem succ_le {a b : Tag} (h : a < b) : (⟨a.time, a.microstep + 1⟩ : Tag) ≤ b := by
  rw [Tag.lt_def] at h; rw [Tag.le_def]; simp only; omega

theorem lt_succ {a b : Tag} (h : a < (⟨b.time, b.microstep + 1⟩ : Tag)) : a ≤ b := by
  rw [Tag.lt_def] at h; rw [Tag.le_def]; simp only at h; omega

theorem wrap_le (t : Tag) : (⟨t.time, wrapU32 (t.microstep + 1)⟩ : Tag) ≤ ⟨t.time, t.microstep + 1⟩ := by
  rw [Tag.le_def]; simp only [wrapU32]; right; exact ⟨trivial, Nat.mod_le _ _⟩

theorem kept_of {r : Request} {cur : Tag} (h1 : r.cur ≤ cur) (h2 : cur < r.bar) : r.Kept cur := by
  unfold Request.bar at h2
  refine ⟨fun h => ?_, fun h => ?_⟩
  · rw [if_pos h] at h2
    split at h2
    · rename_i h3; exact ⟨h2, Tag.lt_trans h2 h3⟩
    · rename_i h3; exact ⟨Tag.lt_of_lt_of_le h2 (Tag.not_lt.1 h3), h2⟩
  · rw [if_neg h] at h2
    exact Tag.le_antisymm (lt_succ h2) h1

theorem earliest_le {q : List Tag} {t : Tag} (h : t ∈ q) : earliest q ≤ t := by
  induction q with
  | nil => cases h
  | cons a q ih =>
    unfold earliest
    split
    · rename_i hc
      rw [cmp_lt_zero] at hc
      rcases List.mem_cons.1 h with rfl | h
      · exact Tag.le_refl _
      · exact Tag.le_trans (Tag.le_of_lt hc) (ih h)
    · rename_i hc
      rw [cmp_lt_zero] at hc
      rcases List.mem_cons.1 h with rfl | h
      · exact Tag.not_lt.1 hc
      · exact ih h

theorem earliest_cons_le (t : Tag) (q : List Tag) : earliest (t :: q) ≤ earliest q := by
  show (if lf_tag_compare t (earliest q) < 0 then t else earliest q) ≤ earliest q
  split
  · rename_i hc; exact Tag.le_of_lt ((cmp_lt_zero _ _).1 hc)
  · exact Tag.le_refl _

theorem nextEvent_le (s : State) : nextEvent s ≤ earliest s.q ∧ nextEvent s ≤ s.stop := by
  unfold nextEvent
  rcases clamp_cases s.stop (earliest s.q) with ⟨h, h'⟩ | ⟨h, h'⟩ <;> rw [h']
  · exact ⟨Tag.le_of_lt h, Tag.le_refl _⟩
  · exact ⟨Tag.le_refl _, h⟩

theorem Inv.raise {s : State} (i : Inv s) (id : Nat) (tag : Tag) : Inv (raise s id tag) := by
  let r : Request := ⟨id, tag, s.cur, s.stop⟩
  have hb : (r.ToCome ∧ clamp s.stop tag = r.bar ∧ 0 < lf_tag_compare (clamp s.stop tag) s.cur) ∨
      (¬ r.ToCome ∧ r.bar = ⟨s.cur.time, s.cur.microstep + 1⟩ ∧ ¬ 0 < lf_tag_compare (clamp s.stop tag) s.cur) := by
    rw [cmp_gt_zero]
    have hd : r.ToCome ↔ s.cur < tag ∧ s.cur < s.stop := Iff.rfl
    by_cases h : s.cur < tag ∧ s.cur < s.stop
    · left
      refine ⟨hd.2 h, ?_, ?_⟩
      · unfold Request.bar
        rw [if_pos (hd.2 h)]
        rcases clamp_cases s.stop tag with ⟨h1, h2⟩ | ⟨h1, h2⟩ <;> rw [h2]
        · rw [if_neg (Tag.not_lt.2 (Tag.le_of_lt h1))]
        · rcases Tag.lt_or_eq_of_le h1 with h3 | h3
          · rw [if_pos h3]
          · show tag = if tag < s.stop then tag else s.stop
            rw [h3]; split <;> rfl
      · rcases clamp_cases s.stop tag with ⟨h1, h2⟩ | ⟨h1, h2⟩ <;> rw [h2]
        · exact h.2
        · exact h.1
    · right
      refine ⟨fun h' => h (hd.1 h'), ?_, ?_⟩
      · unfold Request.bar
        rw [if_neg (fun h' => h (hd.1 h'))]
      · intro h'
        apply h
        rcases clamp_cases s.stop tag with ⟨h1, h2⟩ | ⟨h1, h2⟩ <;> rw [h2] at h'
        · exact ⟨Tag.lt_trans h' h1, h'⟩
        · exact ⟨h', Tag.lt_of_lt_of_le h' h1⟩
  have hcur : s.cur < r.bar := by
    rcases hb with ⟨h1, h2, h3⟩ | ⟨h1, h2, h3⟩
    · rw [← h2]; exact (cmp_gt_zero _ _).1 h3
    · rw [h2, Tag.lt_def]; simp
  -- the new horizon
  have hor : (Barrier.raise s id tag).horizon ≤ s.horizon ∨ ¬ r.ToCome := by
    rcases hb with ⟨h1, h2, h3⟩ | ⟨h1, h2, h3⟩
    · left
      show (if 0 < lf_tag_compare (clamp s.stop tag) s.cur then
        if lf_tag_compare (clamp s.stop tag) s.horizon < 0 then clamp s.stop tag else s.horizon else _) ≤ _
      rw [if_pos h3]
      split
      · rename_i hc; exact Tag.le_of_lt ((cmp_lt_zero _ _).1 hc)
      · exact Tag.le_refl _
    · exact Or.inr h1
  have hnew : (Barrier.raise s id tag).horizon ≤ r.bar ∧
      (¬ r.ToCome → (Barrier.raise s id tag).horizon = ⟨s.cur.time, wrapU32 (s.cur.microstep + 1)⟩) ∧
      (r.ToCome → (Barrier.raise s id tag).horizon = r.bar ∨ (Barrier.raise s id tag).horizon = s.horizon) := by
    show (if 0 < lf_tag_compare (clamp s.stop tag) s.cur then
        if lf_tag_compare (clamp s.stop tag) s.horizon < 0 then clamp s.stop tag else s.horizon else _) ≤ _ ∧
        (_ → (if 0 < lf_tag_compare (clamp s.stop tag) s.cur then
        if lf_tag_compare (clamp s.stop tag) s.horizon < 0 then clamp s.stop tag else s.horizon else _) = _) ∧
        (_ → (if 0 < lf_tag_compare (clamp s.stop tag) s.cur then
        if lf_tag_compare (clamp s.stop tag) s.horizon < 0 then clamp s.stop tag else s.horizon else _) = _ ∨ _)
    rcases hb with ⟨h1, h2, h3⟩ | ⟨h1, h2, h3⟩
    · rw [if_pos h3]
      refine ⟨?_, fun h => absurd h1 h, fun _ => ?_⟩
      · split
        · exact h2 ▸ Tag.le_refl _
        · rename_i hc
          rw [cmp_lt_zero, h2] at hc
          exact Tag.not_lt.1 hc
      · split
        · exact Or.inl h2
        · right
          show (if 0 < lf_tag_compare (clamp s.stop tag) s.cur then
            if lf_tag_compare (clamp s.stop tag) s.horizon < 0 then clamp s.stop tag else s.horizon else _) = _
          rw [if_pos h3, if_neg ‹_›]
    · rw [if_neg h3]
      refine ⟨?_, fun _ => rfl, fun h => absurd h h1⟩
      rw [h2]; exact wrap_le _
  refine ⟨?_, ?_, ?_, ?_, ?_, ?_, ?_⟩
  · show s.requestors + 1 = ((r :: s.out).length : Nat)
    rw [i.count]; simp
  · intro x hx
    rcases List.mem_cons.1 hx with rfl | hx
    · exact List.mem_cons_self
    · exact List.mem_cons_of_mem _ (i.sub x hx)
  · intro h; cases h
  · intro x hx
    rcases List.mem_cons.1 hx with rfl | hx
    · exact hnew.1
    · by_cases ht : r.ToCome
      · exact Tag.le_trans (hor.resolve_right (fun h => h ht)) (i.below x hx)
      · rw [hnew.2.1 ht]
        exact Tag.le_trans (wrap_le _) (succ_le (i.kept x hx).2)
  · intro x hx
    rcases List.mem_cons.1 hx with rfl | hx
    · exact ⟨Tag.le_refl _, hcur⟩
    · exact i.kept x hx
  · exact i.wait
  · by_cases ht : r.ToCome
    · rcases hnew.2.2 ht with h | h
      · exact Or.inr (Or.inl ⟨r, List.mem_cons_self, h⟩)
      · rw [h]
        rcases i.tight with h | ⟨x, hx, h⟩ | ⟨x, hx, h⟩
        · exact Or.inl h
        · exact Or.inr (Or.inl ⟨x, List.mem_cons_of_mem _ hx, h⟩)
        · exact Or.inr (Or.inr ⟨x, List.mem_cons_of_mem _ hx, h⟩)
    · exact Or.inr (Or.inr ⟨r, List.mem_cons_self, ht, rfl⟩)

theorem giveBack_cases {s : State} (i : Inv s) {r : Request} (hr : r ∈ s.out) :
    (s.out.erase r = [] ∧ giveBack s r =
      { s with requestors := 0, horizon := FOREVER_TAG, out := [], batch := [] }) ∨
    (s.out.erase r ≠ [] ∧ giveBack s r =
      { s with requestors := (s.out.erase r).length, out := s.out.erase r }) := by
  have hl : (s.out.erase r).length + 1 = s.out.length := by
    rw [List.length_erase_of_mem hr]
    have := List.length_pos_of_mem hr
    omega
  have hc := i.count
  by_cases he : s.out.erase r = []
  · left
    refine ⟨he, ?_⟩
    have h0 : s.requestors - 1 = 0 := by rw [he] at hl; simp at hl; omega
    unfold giveBack decrement
    simp only [he, h0, if_true]
    rfl
  · right
    refine ⟨he, ?_⟩
    have h1 : ¬ s.requestors - 1 < 0 := by omega
    have h2 : ¬ s.requestors - 1 = 0 := by
      have := List.length_pos_iff.2 he
      omega
    have h3 : s.requestors - 1 = ((s.out.erase r).length : Nat) := by omega
    unfold giveBack decrement
    simp only [he, h1, h2, if_false]
    rw [h3]

theorem Inv.giveBack {s : State} (i : Inv s) {r : Request} (hr : r ∈ s.out) : Inv (giveBack s r) := by
  rcases giveBack_cases i hr with ⟨_, he⟩ | ⟨h0, he⟩ <;> rw [he]
  · exact ⟨rfl, by simp, fun _ => ⟨rfl, rfl⟩, by simp, by simp, i.wait, Or.inl rfl⟩
  · exact ⟨rfl, fun x hx => i.sub x (List.mem_of_mem_erase hx), fun h => absurd h h0, i.below, i.kept, i.wait, i.tight⟩

theorem Inv.setStop {s : State} (i : Inv s) (tag : Tag) : Inv (setStop s tag) := by
  unfold Barrier.setStop
  split
  · rename_i h
    rw [cmp_lt_zero] at h
    refine ⟨i.count, i.sub, i.free, i.below, i.kept, fun p hp => ?_, i.tight⟩
    exact (i.wait p hp).imp_right (fun hx => Tag.le_trans (Tag.le_of_lt h) hx)
  · exact i

theorem Inv.push {s : State} (i : Inv s) (tag : Tag) (log : List Entry) : Inv { s with q := tag :: s.q, log := log } :=
  ⟨i.count, i.sub, i.free, i.below, i.kept,
    fun p hp => (i.wait p hp).imp_left (Tag.le_trans (earliest_cons_le _ _)), i.tight⟩

theorem Inv.say {s : State} (i : Inv s) (log : List Entry) : Inv { s with log := log } :=
  ⟨i.count, i.sub, i.free, i.below, i.kept, i.wait, i.tight⟩

theorem Inv.fail {s : State} (i : Inv s) : Inv { s with failed := true } :=
  ⟨i.count, i.sub, i.free, i.below, i.kept, i.wait, i.tight⟩

theorem setStop_same (s : State) (tag : Tag) :
    (setStop s tag).out = s.out ∧ (setStop s tag).cur = s.cur ∧ (setStop s tag).log = s.log ∧
    (setStop s tag).q = s.q := by
  unfold Barrier.setStop; split <;> exact ⟨rfl, rfl, rfl, rfl⟩

/-- The part of `deliver` before the barrier is given back. -/
def handOver (s : State) (r : Request) : State :=
  if 0 ≤ lf_tag_compare s.cur s.stop then { s with log := .discarded r :: s.log }
  else
    { s with
      q := (if lf_tag_compare s.cur r.tag < 0 then r.tag else ⟨s.cur.time, wrapU32 (s.cur.microstep + 1)⟩) :: s.q
      log := .delivered r s.cur :: s.log }

theorem deliver_eq (s : State) (r : Request) : deliver s r = giveBack (handOver s r) r := rfl

theorem handOver_out (s : State) (r : Request) : (handOver s r).out = s.out := by
  unfold handOver; split <;> rfl

theorem Inv.handOver {s : State} (i : Inv s) (r : Request) : Inv (handOver s r) := by
  unfold Barrier.handOver
  split
  · exact i.say _
  · exact i.push _ _

theorem Inv.finish {s : State} (i : Inv s) {n : Tag} (hn : s.out = [] ∨ n < s.horizon) : Inv (finish s n) := by
  unfold Barrier.finish
  simp only []
  split
  · exact ⟨i.count, i.sub, i.free, i.below, i.kept, by simp, i.tight⟩
  · split
    · rename_i h
      rw [cmp_lt_zero] at h
      have hk : ∀ r ∈ s.batch, n < s.horizon := by
        intro r hr
        rcases hn with hn | hn
        · rw [(i.free hn).2] at hr; cases hr
        · exact hn
      refine ⟨i.count, i.sub, i.free, i.below, ?_, by simp, ?_⟩
      · intro r hr
        exact ⟨Tag.le_trans (i.kept r hr).1 (Tag.le_of_lt h), Tag.lt_of_lt_of_le (hk r hr) (i.below r hr)⟩
      · rcases i.tight with ht | ht | ⟨r, hr, h1, h2⟩
        · exact Or.inl ht
        · exact Or.inr (Or.inl ht)
        · exfalso
          have h3 := Tag.lt_of_lt_of_le (hk r hr) (i.below r hr)
          unfold Request.bar at h3
          rw [if_neg h1] at h3
          have h4 := lt_succ h3
          rw [← h2] at h4
          exact Tag.lt_irrefl _ (Tag.lt_of_lt_of_le h h4)
    · exact ⟨i.count, i.sub, i.free, i.below, i.kept, by simp, i.tight⟩

theorem notBlocked {s : State} (i : Inv s) {p : Tag} (h : blocked s p = false) : s.out = [] ∨ p < s.horizon := by
  unfold blocked at h
  rw [decide_eq_false_iff_not, cmp_ge_zero] at h
  have hc := i.count
  by_cases h0 : s.out = []
  · exact Or.inl h0
  · right
    have := List.length_pos_iff.2 h0
    have h1 : 0 < s.requestors := by omega
    exact Tag.not_le.1 (fun h' => h ⟨h1, h'⟩)

theorem Inv.next {s : State} (i : Inv s) (ht : (nextEvent s).time < FOREVER) : Inv (next s) := by
  unfold Barrier.next
  split
  · exact i.fail
  · simp only []
    have hle := nextEvent_le s
    have hcl : clamp s.stop (nextEvent s) = nextEvent s := by
      rcases clamp_cases s.stop (nextEvent s) with ⟨h, _⟩ | ⟨_, h⟩
      · exact absurd (Tag.lt_of_lt_of_le h hle.2) (Tag.lt_irrefl _)
      · exact h
    rw [hcl]
    split
    · exact i
    · split
      · rename_i h
        refine i.finish (Or.inl ?_)
        have hc := i.count
        rw [h] at hc
        exact List.length_eq_zero_iff.1 (by omega)
      · split
        · omega
        · split
          · refine ⟨i.count, i.sub, i.free, i.below, i.kept, ?_, i.tight⟩
            intro p hp
            cases hp
            show earliest s.q ≤ nextEvent s ∨ s.stop ≤ nextEvent s
            unfold nextEvent
            rcases clamp_cases s.stop (earliest s.q) with ⟨_, h⟩ | ⟨_, h⟩ <;> rw [h]
            · exact Or.inr (Tag.le_refl _)
            · exact Or.inl (Tag.le_refl _)
          · rename_i h
            exact i.finish (notBlocked i (Bool.eq_false_iff.2 h))

theorem Inv.wake {s : State} (i : Inv s) {p : Tag} (hp : s.waiting = some p) : Inv (wake s p) := by
  unfold Barrier.wake
  simp only []
  have hw := i.wait p hp
  have hn : nextEvent s ≤ clamp s.stop p := by
    have hle := nextEvent_le s
    rcases clamp_cases s.stop p with ⟨_, h⟩ | ⟨_, h⟩ <;> rw [h]
    · exact hle.2
    · rcases hw with h | h
      · exact Tag.le_trans hle.1 h
      · exact Tag.le_trans hle.2 h
  split
  · refine ⟨i.count, i.sub, i.free, i.below, i.kept, ?_, i.tight⟩
    intro p' hp'
    cases hp'
    rcases clamp_cases s.stop p with ⟨_, h⟩ | ⟨_, h⟩ <;> rw [h]
    · exact Or.inr (Tag.le_refl _)
    · exact hw
  · rename_i hb
    split
    · exact i.fail
    · refine i.finish ?_
      rcases notBlocked i (Bool.eq_false_iff.2 hb) with h | h
      · exact Or.inl h
      · exact Or.inr (Tag.lt_of_le_of_lt hn h)

theorem Inv.init (cur stop : Tag) (q : List Tag) : Inv (init cur stop q) :=
  ⟨rfl, by simp [Barrier.init], fun _ => ⟨rfl, rfl⟩, by simp [Barrier.init], by simp [Barrier.init],
    by simp [Barrier.init], Or.inl rfl⟩

theorem Inv.step {s t : State} (i : Inv s) (h : Step false s t) : Inv t := by
  cases h with
  | raise id tag hf => exact i.raise id tag
  | release r hf hr => exact i.giveBack hr
  | deliver r hf hr =>
    rw [deliver_eq]
    exact (i.handOver r).giveBack (by rw [handOver_out]; exact hr)
  | stopGranted tag r hf hr =>
    exact (Inv.setStop i _).giveBack (by rw [(setStop_same _ _).1]; exact hr)
  | schedule tag hf ht => exact i.push tag s.log
  | setStop tag hf => exact i.setStop tag
  | next hf hw ht => exact i.next (ht.resolve_left (by simp))
  | wake p hf hw => exact i.wake hw

theorem reach_inv {s : State} (h : Reach false s) : Inv s := by
  induction h with
  | init cur stop q => exact Inv.init cur stop q
  | step _ hs ih => exact ih.step hs

/-! ## Theorems -/

/-- The promise made to everyone who asked for a barrier is kept as long as the barrier is outstanding. -/
theorem C44_tag_stays_before_outstanding {s : State} (h : Reach false s) {r : Request} (hr : r ∈ s.out) :
    r.Kept s.cur := by
  have i := reach_inv h
  have hk := i.kept r (i.sub r hr)
  exact kept_of hk.1 hk.2

theorem finish_log {s : State} {n : Tag} {r : Request} {c : Tag} (h : Entry.delivered r c ∈ (finish s n).log) :
    Entry.delivered r c ∈ s.log := by
  unfold finish at h
  simp only [] at h
  split at h
  · exact h
  · split at h
    · rcases List.mem_cons.1 h with h | h
      · cases h
      · exact h
    · exact h

/-- A message whose header is read before its tag is reached is handed over before its tag is reached. -/
theorem C44_message_begun_in_time_is_in_time {s : State} (h : Reach false s) {r : Request} {c : Tag}
    (hd : Entry.delivered r c ∈ s.log) (h1 : r.cur < r.tag) (h2 : r.tag ≤ r.stop) : c < r.tag := by
  induction h with
  | init cur stop q => cases hd
  | @step s t hs hst ih =>
    have i := reach_inv hs
    have hgb : ∀ {s' : State} {x : Request}, Inv s' → x ∈ s'.out → (giveBack s' x).log = s'.log := by
      intro s' x i' hx
      rcases giveBack_cases i' hx with ⟨_, he⟩ | ⟨_, he⟩ <;> rw [he]
    cases hst with
    | raise id tag hf => exact ih hd
    | release x hf hx => rw [hgb i hx] at hd; exact ih hd
    | deliver x hf hx =>
      rw [deliver_eq, hgb (i.handOver x) (by rw [handOver_out]; exact hx)] at hd
      unfold handOver at hd
      split at hd
      · rcases List.mem_cons.1 hd with hd | hd
        · cases hd
        · exact ih hd
      · rcases List.mem_cons.1 hd with hd | hd
        · cases hd
          exact ((C44_tag_stays_before_outstanding hs hx).1 ⟨h1, Tag.lt_of_lt_of_le h1 h2⟩).1
        · exact ih hd
    | stopGranted tag x hf hx =>
      unfold stopGranted at hd
      rw [hgb (Inv.setStop i _) (by rw [(setStop_same _ _).1]; exact hx)] at hd
      rw [(setStop_same _ _).2.2.1] at hd
      exact ih hd
    | schedule tag hf ht => exact ih hd
    | setStop tag hf => rw [(setStop_same _ _).2.2.1] at hd; exact ih hd
    | next hf hw ht =>
      unfold next at hd
      simp only [] at hd
      split at hd
      · exact ih hd
      · split at hd
        · exact ih hd
        · split at hd
          · exact ih (finish_log hd)
          · split at hd
            · exact ih (finish_log hd)
            · split at hd
              · exact ih hd
              · exact ih (finish_log hd)
    | wake p hf hw =>
      unfold wake at hd
      simp only [] at hd
      split at hd
      · exact ih hd
      · split at hd
        · exact ih hd
        · exact ih (finish_log hd)

/-- Such a message is put on the event queue at its own tag, unless the stop tag has been moved before it. -/
theorem C44_message_begun_in_time_gets_its_tag {s : State} (h : Reach false s) {r : Request} (hr : r ∈ s.out)
    (h1 : r.cur < r.tag) (h2 : r.tag ≤ r.stop) (h3 : r.tag ≤ s.stop) : (deliver s r).q = r.tag :: s.q := by
  have i := reach_inv h
  have hk := ((C44_tag_stays_before_outstanding h hr).1 ⟨h1, Tag.lt_of_lt_of_le h1 h2⟩).1
  have hgb : (deliver s r).q = (handOver s r).q := by
    rw [deliver_eq]
    rcases giveBack_cases (i.handOver r) (by rw [handOver_out]; exact hr) with ⟨_, he⟩ | ⟨_, he⟩ <;> rw [he]
  rw [hgb]
  unfold handOver
  rw [if_neg (by rw [cmp_ge_zero]; exact Tag.not_le.2 (Tag.lt_of_lt_of_le hk h3)),
    if_pos ((cmp_lt_zero _ _).2 hk)]

/-- The number of barriers counted is the number outstanding; when the last is given back, none is left: the horizon is
`FOREVER_TAG`. Giving back never makes the program exit for mismatched use. -/
theorem C44_last_release_leaves_no_barrier {s : State} (h : Reach false s) :
    s.requestors = s.out.length ∧ (s.out = [] → s.horizon = FOREVER_TAG) ∧
    ∀ r ∈ s.out, (giveBack s r).failed = s.failed ∧ (giveBack s r).out = s.out.erase r := by
  have i := reach_inv h
  refine ⟨i.count, fun h0 => (i.free h0).1, fun r hr => ?_⟩
  rcases giveBack_cases i hr with ⟨h0, he⟩ | ⟨_, he⟩ <;> rw [he]
  · exact ⟨rfl, h0.symm⟩
  · exact ⟨rfl, rfl⟩

/-- Nobody waits for a barrier that is not there: without a barrier outstanding the worker does not begin to wait, and
one that waits goes on when it wakes up. -/
theorem C44_no_barrier_no_wait {s : State} (h : Reach false s) (h0 : s.out = []) :
    (s.waiting = none → (next s).waiting = none) ∧
    (∀ p, s.waiting = some p → tooEarly s = false → (wake s p).waiting = none) := by
  have i := reach_inv h
  have hc := i.count
  rw [h0] at hc
  replace hc : s.requestors = 0 := hc
  have hf : ∀ n, (finish s n).waiting = none := by
    intro n; unfold finish; simp only []; split
    · rfl
    · split <;> rfl
  refine ⟨fun hw => ?_, fun p hp ht => ?_⟩
  · unfold next
    simp only [hc, if_true]
    split
    · exact hw
    · split
      · exact hw
      · exact hf _
  · unfold wake
    simp only [ht, blocked, hc]
    simp [hf]

/-- The worker waits only for good reason: if the next event is later than the current tag and earlier than all barriers
asked for since there was none, the worker advances to it. -/
theorem C44_no_needless_wait {s : State} (h : Reach false s) (hn : s.waiting = none)
    (ht : (nextEvent s).time < FOREVER) (hq : ∀ t ∈ s.q, s.cur ≤ t) (hcur : s.cur < nextEvent s)
    (hall : ∀ r ∈ s.batch, r.ToCome ∧ (nextEvent s < r.tag ∧ nextEvent s < r.stop)) :
    (next s).cur = nextEvent s := by
  have i := reach_inv h
  have hle := nextEvent_le s
  have hte : tooEarly s = false := by
    unfold tooEarly
    rw [decide_eq_false_iff_not, cmp_lt_zero]
    rintro ⟨_, h1⟩
    exact Tag.lt_irrefl _ (Tag.lt_trans hcur (Tag.lt_of_le_of_lt hle.1 h1))
  have hbar : nextEvent s < s.horizon := by
    rcases i.tight with h1 | ⟨r, hr, h1⟩ | ⟨r, hr, h1, _⟩
    · rw [h1, Tag.lt_def]; exact Or.inl ht
    · rw [h1]
      unfold Request.bar
      obtain ⟨h2, h3, h4⟩ := hall r hr
      rw [if_pos h2]
      split
      · exact h3
      · exact h4
    · exact absurd (hall r hr).1 h1
  have hcl : clamp s.stop (nextEvent s) = nextEvent s := by
    rcases clamp_cases s.stop (nextEvent s) with ⟨h, _⟩ | ⟨_, h⟩
    · exact absurd (Tag.lt_of_lt_of_le h hle.2) (Tag.lt_irrefl _)
    · exact h
  have hnb : blocked s (nextEvent s) = false := by
    unfold blocked
    rw [decide_eq_false_iff_not, cmp_ge_zero]
    exact fun h' => Tag.lt_irrefl _ (Tag.lt_of_lt_of_le hbar h'.2)
  have hfin : (finish s (nextEvent s)).cur = nextEvent s := by
    unfold finish
    simp only []
    have h1 : ¬ (0 ≤ lf_tag_compare (nextEvent s) s.stop ∧ 0 ≤ lf_tag_compare s.cur s.stop) := by
      rw [cmp_ge_zero, cmp_ge_zero]
      rintro ⟨_, h2⟩
      exact Tag.lt_irrefl _ (Tag.lt_of_lt_of_le hcur (Tag.le_trans hle.2 h2))
    rw [if_neg h1, if_pos ((cmp_lt_zero _ _).2 hcur)]
  unfold next
  simp only [hte, Bool.false_eq_true, if_false, hcl, hnb]
  rw [if_neg (by rw [cmp_gt_zero]; exact Tag.not_lt.2 hle.2)]
  split
  · exact hfin
  · split
    · exact hfin
    · exact hfin

theorem finish_advance {s : State} {n g : Tag} (hs : n ≤ earliest s.q ∧ n ≤ s.stop)
    (h : (finish s n).log = .advanced g :: s.log) :
    s.cur < g ∧ (finish s n).cur = g ∧ g ≤ s.stop ∧ ∀ t ∈ s.q, g ≤ t := by
  unfold finish at h ⊢
  simp only [] at h ⊢
  split at h
  · exact absurd h (by simp)
  · rename_i h1
    split at h
    · rename_i h2
      rw [if_neg h1, if_pos h2]
      have hg : n = g := by
        have := List.head_eq_of_cons_eq h
        cases this; rfl
      rw [cmp_lt_zero] at h2
      subst hg
      exact ⟨h2, rfl, hs.2, fun t ht => Tag.le_trans hs.1 (earliest_le ht)⟩
    · exact absurd h (by simp)

/-- Whether or not the worker had to wait, the tag it advances to is later than the current tag, not after the stop tag,
and not after any event on the queue at that moment, such as one inserted during the wait. -/
theorem C44_nothing_is_skipped {s t : State} {fast : Bool} (hst : Step fast s t) {g : Tag}
    (h : t.log = .advanced g :: s.log) : s.cur < g ∧ t.cur = g ∧ g ≤ s.stop ∧ ∀ x ∈ s.q, g ≤ x := by
  have hne : ∀ {l : List Entry}, l = .advanced g :: l → False := by
    intro l hl
    have := congrArg List.length hl
    simp at this
  have hgl : ∀ (s' : State) (x : Request), (giveBack s' x).log = s'.log := by
    intro s' x
    unfold giveBack decrement
    simp only []
    split
    · rfl
    · split <;> rfl
  cases hst with
  | raise id tag hf => exact (hne h).elim
  | release x hf hx => rw [hgl] at h; exact (hne h).elim
  | deliver x hf hx =>
    rw [deliver_eq, hgl] at h
    unfold handOver at h
    split at h
    · have := List.head_eq_of_cons_eq h; cases this
    · have := List.head_eq_of_cons_eq h; cases this
  | stopGranted tag x hf hx =>
    rw [hgl] at h
    unfold stopGranted at h
    rw [(setStop_same _ _).2.2.1] at h
    exact (hne h).elim
  | schedule tag hf ht => exact (hne h).elim
  | setStop tag hf => rw [(setStop_same _ _).2.2.1] at h; exact (hne h).elim
  | next hf hw ht =>
    have hle := nextEvent_le s
    unfold next at h ⊢
    simp only [] at h ⊢
    split at h
    · exact (hne h).elim
    · rename_i h1
      rw [if_neg h1]
      split at h
      · exact (hne h).elim
      · rename_i h2
        rw [if_neg h2]
        split at h
        · rename_i h3
          rw [if_pos h3]
          exact finish_advance hle h
        · rename_i h3
          rw [if_neg h3]
          split at h
          · rename_i h4
            rw [if_pos h4]
            exact finish_advance hle h
          · rename_i h4
            rw [if_neg h4]
            split at h
            · exact (hne h).elim
            · rename_i h5
              rw [if_neg h5]
              exact finish_advance hle h
  | wake p hf hw =>
    unfold wake at h ⊢
    simp only [] at h ⊢
    split at h
    · exact (hne h).elim
    · rename_i h1
      rw [if_neg h1]
      split at h
      · exact (hne h).elim
      · rename_i h2
        rw [if_neg h2]
        exact finish_advance (nextEvent_le s) h

theorem finish_keeps {s : State} {n x : Tag} (hx : x ∈ s.q) :
    x ∈ (finish s n).q ∨ ((finish s n).cur = x ∧ (finish s n).log = .advanced x :: s.log) := by
  unfold finish
  simp only []
  split
  · exact Or.inl hx
  · split
    · by_cases h : x = n
      · subst h; exact Or.inr ⟨rfl, rfl⟩
      · exact Or.inl (List.mem_filter.2 ⟨hx, by simpa using h⟩)
    · exact Or.inl hx

/-- No event is lost: an event leaves the queue only when the tag advances to its tag. -/
theorem C44_events_are_kept {s t : State} {fast : Bool} (hst : Step fast s t) {x : Tag} (hx : x ∈ s.q) :
    x ∈ t.q ∨ (t.cur = x ∧ t.log = .advanced x :: s.log) := by
  have hgq : ∀ (s' : State) (r : Request), (giveBack s' r).q = s'.q := by
    intro s' r
    unfold giveBack decrement
    simp only []
    split
    · rfl
    · split <;> rfl
  cases hst with
  | raise id tag hf => exact Or.inl hx
  | release r hf hr => rw [hgq]; exact Or.inl hx
  | deliver r hf hr =>
    rw [deliver_eq, hgq]
    unfold handOver
    split
    · exact Or.inl hx
    · exact Or.inl (List.mem_cons_of_mem _ hx)
  | stopGranted tag r hf hr =>
    rw [hgq]
    unfold stopGranted setStop
    split <;> split <;> exact Or.inl hx
  | schedule tag hf ht => exact Or.inl (List.mem_cons_of_mem _ hx)
  | setStop tag hf => unfold setStop; split <;> exact Or.inl hx
  | next hf hw ht =>
    unfold next
    simp only []
    split
    · exact Or.inl hx
    · split
      · exact Or.inl hx
      · split
        · exact finish_keeps hx
        · split
          · exact finish_keeps hx
          · split
            · exact Or.inl hx
            · exact finish_keeps hx
  | wake p hf hw =>
    unfold wake
    simp only []
    split
    · exact Or.inl hx
    · split
      · exact Or.inl hx
      · exact finish_keeps hx

/-- Two events at one time: when the tag advances to the first microstep the other event stays. -/
example : ∃ s, Step false (init ⟨0, 0⟩ ⟨9, 0⟩ [⟨5, 1⟩, ⟨5, 0⟩]) s ∧ s.cur = ⟨5, 0⟩ ∧ (⟨5, 1⟩ : Tag) ∈ s.q :=
  ⟨_, Step.next _ rfl rfl (Or.inr (by decide)), by decide⟩

/-- An event for a tag that has passed is never executed silently at another tag: the worker ends the program with an error when it
looks for the next event, also while there are barriers, and before it waits. -/
theorem C44_events_in_the_past_are_noticed {s : State} {x : Tag} (hx : x ∈ s.q) (hp : x < s.cur) :
    (next s).failed = true ∧ (next s).cur = s.cur ∧ (next s).waiting = s.waiting := by
  have hte : tooEarly s = true := by
    unfold tooEarly
    rw [decide_eq_true_iff, cmp_lt_zero]
    exact ⟨fun h => (by rw [h] at hx; cases hx), Tag.lt_of_le_of_lt (earliest_le hx) hp⟩
  unfold next
  rw [if_pos hte]
  exact ⟨rfl, rfl, rfl⟩

example : (⟨3, 0⟩ : Tag) ∈ [(⟨8, 0⟩ : Tag), ⟨3, 0⟩] ∧ (⟨3, 0⟩ : Tag) < ⟨5, 0⟩ := by decide

/-! ## What does not hold -/

def t (n : Int) : Tag := ⟨n, 0⟩

/-- With `-fast` and an empty event queue the worker proposes to advance to `FOREVER_TAG`; the barrier is then ignored
(core/threaded/reactor_threaded.c:147-151) and the current tag leaves the message being read behind. -/
theorem C44_fast_ignores_barriers : ∃ s r, Reach true s ∧ r ∈ s.out ∧ ¬ r.Kept s.cur := by
  refine ⟨next (raise (init (t 5) FOREVER_TAG []) 1 (t 10)), ⟨1, t 10, t 5, FOREVER_TAG⟩, ?_, ?_, ?_⟩
  · exact Reach.step (Reach.step (Reach.init _ _ _) (Step.raise _ 1 (t 10) rfl))
      (Step.next _ (by decide +kernel) (by decide +kernel) (Or.inl rfl))
  · decide +kernel
  · decide +kernel

/-- If the contents of a message cannot be read, its barrier is given back without the mutex.  A message whose header is
read between the load and the store is then not counted, and the tag advances past it. -/
theorem C44_unlocked_release_loses_a_barrier :
    let s0 := raise (init (t 5) FOREVER_TAG [t 30]) 1 (t 10)
    let loaded := loadRequestors s0
    let s1 := raise s0 2 (t 20)
    let s2 := storeRequestors s1 ⟨1, t 10, t 5, FOREVER_TAG⟩ loaded
    let s3 := next s2
    ∃ r ∈ s3.out, r.id = 2 ∧ ¬ r.Kept s3.cur := by
  decide +kernel

/-! ## Examples -/

/-- A message for 20 is being read while the next event is at 30: the worker waits, another message for 15 arrives and
is handed over, then the first: the tag advances to 15. -/
def demo0 : State := raise (init (t 5) (t 100) [t 30]) 1 (t 20)
def demo1 : State := next demo0
def demo2 : State := raise demo1 2 (t 15)
def demo3 : State := deliver demo2 ⟨2, t 15, t 5, t 100⟩
def demo4 : State := wake demo3 (t 30)
def demo5 : State := deliver demo4 ⟨1, t 20, t 5, t 100⟩
def demo6 : State := wake demo5 (t 30)

theorem demo_reach : Reach false demo6 :=
  .step (.step (.step (.step (.step (.step (.step (.init (t 5) (t 100) [t 30])
    (.raise _ 1 (t 20) rfl)) (.next demo0 (by decide +kernel) (by decide +kernel) (Or.inr (by decide +kernel))))
    (.raise demo1 2 (t 15) (by decide +kernel)))
    (.deliver demo2 ⟨2, t 15, t 5, t 100⟩ (by decide +kernel) (by decide +kernel)))
    (.wake demo3 (t 30) (by decide +kernel) (by decide +kernel)))
    (.deliver demo4 ⟨1, t 20, t 5, t 100⟩ (by decide +kernel) (by decide +kernel)))
    (.wake demo5 (t 30) (by decide +kernel) (by decide +kernel))

example : demo1.waiting = some (t 30) ∧ demo1.out.length = 1 := by decide +kernel
example : demo4.waiting = some (t 30) ∧ demo4.out.length = 1 := by decide +kernel
example : demo6.cur = t 15 ∧ demo6.out = [] ∧ demo6.q = [t 20, t 30] := by decide +kernel
example : Entry.delivered ⟨1, t 20, t 5, t 100⟩ (t 5) ∈ demo6.log := by decide +kernel

/-- A barrier for a tag that has passed freezes the current tag. -/
example : let s := next (raise (init (t 5) (t 100) [t 6]) 1 (t 3))
    s.cur = t 5 ∧ s.waiting = some (t 6) := by decide +kernel

end ReactorC.Barrier
