import Verif.Tag.Spec

/-! Helper lemmas about tags. -/

namespace ReactorC

theorem Tag.ext_iff' (a b : Tag) : a = b ↔ a.time = b.time ∧ a.microstep = b.microstep := by
  cases a; cases b; simp

/-- Reduce statements about tag order to linear arithmetic. -/
macro "tag_omega" : tactic =>
  `(tactic| (simp only [Tag.lt_def, Tag.le_def, Tag.ext_iff', ne_eq, Tag.Valid, IsI64, NEVER_TAG,
      FOREVER_TAG, ZERO_TAG, NEVER, FOREVER, UINT_MAX, wrapU32, true_and, and_true, or_true, true_or] at * <;> omega))

theorem Tag.lt_irrefl (a : Tag) : ¬ a < a := by rw [Tag.lt_def]; omega
theorem Tag.le_refl (a : Tag) : a ≤ a := by rw [Tag.le_def]; omega
theorem Tag.lt_trans {a b c : Tag} (h₁ : a < b) (h₂ : b < c) : a < c := by tag_omega
theorem Tag.le_trans {a b c : Tag} (h₁ : a ≤ b) (h₂ : b ≤ c) : a ≤ c := by tag_omega
theorem Tag.lt_of_lt_of_le {a b c : Tag} (h₁ : a < b) (h₂ : b ≤ c) : a < c := by tag_omega
theorem Tag.lt_of_le_of_lt {a b c : Tag} (h₁ : a ≤ b) (h₂ : b < c) : a < c := by tag_omega
theorem Tag.le_of_lt {a b : Tag} (h : a < b) : a ≤ b := by tag_omega
theorem Tag.not_lt {a b : Tag} : ¬ a < b ↔ b ≤ a := by
  constructor <;> intro h <;> tag_omega
theorem Tag.not_le {a b : Tag} : ¬ a ≤ b ↔ b < a := by
  constructor <;> intro h <;> tag_omega
theorem Tag.le_antisymm {a b : Tag} (h₁ : a ≤ b) (h₂ : b ≤ a) : a = b := by tag_omega
theorem Tag.le_total (a b : Tag) : a ≤ b ∨ b ≤ a := by tag_omega
theorem Tag.lt_or_eq_of_le {a b : Tag} (h : a ≤ b) : a < b ∨ a = b := by tag_omega
theorem Tag.lt_iff_le_not_le {a b : Tag} : a < b ↔ a ≤ b ∧ ¬ b ≤ a := by
  constructor <;> intro h <;> tag_omega

instance : Std.IsLinearOrder Tag where
  le_refl := Tag.le_refl
  le_trans _ _ _ := Tag.le_trans
  le_antisymm _ _ := Tag.le_antisymm
  le_total := Tag.le_total

instance : Std.LawfulOrderLT Tag where
  lt_iff _ _ := Tag.lt_iff_le_not_le

theorem wrap64_id {x : Int} (h : IsI64 x) : wrap64 x = x := by
  simp only [IsI64, NEVER, FOREVER, wrap64] at *; omega

theorem wrap64_isI64 (x : Int) : IsI64 (wrap64 x) := by
  simp only [IsI64, NEVER, FOREVER, wrap64]; omega

theorem cmp_eq_neg_one (a b : Tag) : lf_tag_compare a b = -1 ↔ a < b := by
  unfold lf_tag_compare; rw [Tag.lt_def]; repeat' split
  all_goals first | omega | (constructor <;> intro h <;> omega)

theorem cmp_eq_zero (a b : Tag) : lf_tag_compare a b = 0 ↔ a = b := by
  unfold lf_tag_compare; rw [Tag.ext_iff']; repeat' split
  all_goals first | omega | (constructor <;> intro h <;> omega)

theorem cmp_eq_one (a b : Tag) : lf_tag_compare a b = 1 ↔ b < a := by
  unfold lf_tag_compare; rw [Tag.lt_def]; repeat' split
  all_goals first | omega | (constructor <;> intro h <;> omega)

theorem cmp_cases (a b : Tag) :
    (lf_tag_compare a b = -1 ∧ a < b) ∨ (lf_tag_compare a b = 0 ∧ a = b) ∨
    (lf_tag_compare a b = 1 ∧ b < a) := by
  rw [← cmp_eq_neg_one, ← cmp_eq_zero, ← cmp_eq_one]
  unfold lf_tag_compare; repeat' split
  all_goals simp

theorem cmp_lt_zero (a b : Tag) : lf_tag_compare a b < 0 ↔ a < b := by
  rcases cmp_cases a b with ⟨h, h'⟩ | ⟨h, h'⟩ | ⟨h, h'⟩ <;> rw [h] <;>
    constructor <;> intro <;> first | omega | tag_omega

theorem cmp_le_zero (a b : Tag) : lf_tag_compare a b ≤ 0 ↔ a ≤ b := by
  rcases cmp_cases a b with ⟨h, h'⟩ | ⟨h, h'⟩ | ⟨h, h'⟩ <;> rw [h] <;>
    constructor <;> intro <;> first | omega | tag_omega

theorem cmp_gt_zero (a b : Tag) : 0 < lf_tag_compare a b ↔ b < a := by
  rcases cmp_cases a b with ⟨h, h'⟩ | ⟨h, h'⟩ | ⟨h, h'⟩ <;> rw [h] <;>
    constructor <;> intro <;> first | omega | tag_omega

theorem cmp_ge_zero (a b : Tag) : 0 ≤ lf_tag_compare a b ↔ b ≤ a := by
  rcases cmp_cases a b with ⟨h, h'⟩ | ⟨h, h'⟩ | ⟨h, h'⟩ <;> rw [h] <;>
    constructor <;> intro <;> first | omega | tag_omega

theorem lf_time_add_eq_satAdd {a b : Int} (ha : IsI64 a) (hb : IsI64 b) :
    lf_time_add a b = satAdd a b := by
  simp only [lf_time_add, satAdd, IsI64, wrap64, NEVER, FOREVER] at *
  repeat' split
  all_goals omega

theorem satAdd_isI64 (a b : Int) : IsI64 (satAdd a b) := by
  simp only [satAdd, IsI64, NEVER, FOREVER]
  repeat' split
  all_goals omega

theorem lf_delay_tag_cases (t : Tag) (d : Int) :
    ((t.time = NEVER ∨ d < 0) ∧ lf_delay_tag t d = t) ∨
    (t.time ≠ NEVER ∧ 0 ≤ d ∧ FOREVER ≤ t.time + d ∧ lf_delay_tag t d = FOREVER_TAG) ∨
    (t.time ≠ NEVER ∧ d = 0 ∧ t.time < FOREVER ∧
      lf_delay_tag t d = ⟨t.time, wrapU32 (t.microstep + 1)⟩) ∨
    (t.time ≠ NEVER ∧ 0 < d ∧ t.time + d < FOREVER ∧ lf_delay_tag t d = ⟨t.time + d, 0⟩) := by
  unfold lf_delay_tag
  split
  · left; simp_all
  · right
    split
    · left; refine ⟨?_, ?_, ?_, rfl⟩ <;> omega
    · right
      split
      · left; refine ⟨?_, ?_, ?_, rfl⟩ <;> omega
      · right; refine ⟨?_, ?_, ?_, rfl⟩ <;> omega

theorem lf_delay_strict_cases (t : Tag) (d : Int) :
    ((d = 0 ∨ d = NEVER ∨ d = FOREVER ∨ (lf_delay_tag t d).time = NEVER ∨
      (lf_delay_tag t d).time = FOREVER) ∧ lf_delay_strict t d = lf_delay_tag t d) ∨
    (d ≠ 0 ∧ d ≠ NEVER ∧ d ≠ FOREVER ∧ (lf_delay_tag t d).time ≠ NEVER ∧
      (lf_delay_tag t d).time ≠ FOREVER ∧
      lf_delay_strict t d = ⟨(lf_delay_tag t d).time - 1, UINT_MAX⟩) := by
  unfold lf_delay_strict
  simp only []
  split
  · right; simp_all
  · left; refine ⟨?_, rfl⟩; omega

theorem satAdd_cases (a b : Int) :
    ((a = NEVER ∨ b = NEVER) ∧ satAdd a b = NEVER) ∨
    (a ≠ NEVER ∧ b ≠ NEVER ∧ (a = FOREVER ∨ b = FOREVER) ∧ satAdd a b = FOREVER) ∨
    (a ≠ NEVER ∧ b ≠ NEVER ∧ a ≠ FOREVER ∧ b ≠ FOREVER ∧ FOREVER < a + b ∧ satAdd a b = FOREVER) ∨
    (a ≠ NEVER ∧ b ≠ NEVER ∧ a ≠ FOREVER ∧ b ≠ FOREVER ∧ a + b < NEVER ∧ satAdd a b = NEVER) ∨
    (a ≠ NEVER ∧ b ≠ NEVER ∧ a ≠ FOREVER ∧ b ≠ FOREVER ∧ NEVER ≤ a + b ∧ a + b ≤ FOREVER ∧
      satAdd a b = a + b) := by
  unfold satAdd
  split
  · left; exact ⟨by assumption, rfl⟩
  · split
    · right; left; refine ⟨?_, ?_, by assumption, rfl⟩ <;> omega
    · have hnf : NEVER < FOREVER := by decide
      rcases (by omega : FOREVER < a + b ∨ a + b < NEVER ∨ (NEVER ≤ a + b ∧ a + b ≤ FOREVER))
        with h | h | h
      · right; right; left; refine ⟨?_, ?_, ?_, ?_, h, ?_⟩ <;> omega
      · right; right; right; left; refine ⟨?_, ?_, ?_, ?_, h, ?_⟩ <;> omega
      · right; right; right; right; refine ⟨?_, ?_, ?_, ?_, h.1, h.2, ?_⟩ <;> omega

theorem lf_tag_add_cases {a b : Tag} (ha : a.Valid) (hb : b.Valid) :
    (satAdd a.time b.time = FOREVER ∧ lf_tag_add a b = FOREVER_TAG) ∨
    (satAdd a.time b.time = NEVER ∧ lf_tag_add a b = NEVER_TAG) ∨
    (satAdd a.time b.time ≠ FOREVER ∧ satAdd a.time b.time ≠ NEVER ∧ 0 < b.time ∧
      lf_tag_add a b = ⟨satAdd a.time b.time, b.microstep⟩) ∨
    (satAdd a.time b.time ≠ FOREVER ∧ satAdd a.time b.time ≠ NEVER ∧ b.time ≤ 0 ∧
      a.microstep + b.microstep ≤ UINT_MAX ∧
      lf_tag_add a b = ⟨satAdd a.time b.time, a.microstep + b.microstep⟩) ∨
    (satAdd a.time b.time ≠ FOREVER ∧ satAdd a.time b.time ≠ NEVER ∧ b.time ≤ 0 ∧
      UINT_MAX < a.microstep + b.microstep ∧ lf_tag_add a b = FOREVER_TAG) := by
  unfold lf_tag_add
  rw [lf_time_add_eq_satAdd ha.1 hb.1]
  have h1 := ha.2
  have h2 := hb.2
  simp only []
  split
  · left; simp_all
  · right; split
    · left; simp_all
    · right
      by_cases hbt : b.time > 0
      · left
        have : wrapU32 b.microstep = b.microstep := by simp only [wrapU32, UINT_MAX] at *; omega
        simp [hbt, this]; simp_all
      · right
        simp only [hbt, if_false]
        by_cases hm : a.microstep + b.microstep ≤ UINT_MAX
        · left
          have : wrapU32 (a.microstep + b.microstep) = a.microstep + b.microstep := by
            simp only [wrapU32, UINT_MAX] at *; omega
          rw [this, if_neg (by omega)]
          refine ⟨by assumption, by assumption, by omega, hm, rfl⟩
        · right
          rw [if_pos (by simp only [wrapU32, UINT_MAX] at *; omega)]
          refine ⟨by assumption, by assumption, by omega, by omega, rfl⟩

end ReactorC
