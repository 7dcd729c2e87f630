import Verif.Tag.Lemmas

/-!
# Property theorems about tags (C01 - C05)
-/

set_option linter.unusedSimpArgs false

namespace ReactorC

/-! ## C01: tags are totally ordered -/

/-- C01. `lf_tag_compare` decides the lexicographic order: it returns -1, 0 or 1
exactly when the first tag is earlier, equal, later. -/
theorem C01_compare_decides_lex_order (a b : Tag) :
    (lf_tag_compare a b = -1 ↔ a.time < b.time ∨ (a.time = b.time ∧ a.microstep < b.microstep)) ∧
    (lf_tag_compare a b = 0 ↔ a = b) ∧
    (lf_tag_compare a b = 1 ↔ b.time < a.time ∨ (b.time = a.time ∧ b.microstep < a.microstep)) ∧
    (lf_tag_compare a b = -1 ∨ lf_tag_compare a b = 0 ∨ lf_tag_compare a b = 1) := by
  refine ⟨cmp_eq_neg_one a b, cmp_eq_zero a b, cmp_eq_one a b, ?_⟩
  rcases cmp_cases a b with h | h | h <;> simp [h.1]

/-- C01. The order computed by `lf_tag_compare` is total, antisymmetric and
transitive. -/
theorem C01_compare_total_order (a b c : Tag) :
    (lf_tag_compare a b = - lf_tag_compare b a) ∧
    (lf_tag_compare a b ≤ 0 → lf_tag_compare b c ≤ 0 → lf_tag_compare a c ≤ 0) ∧
    (lf_tag_compare a b < 0 → lf_tag_compare b c ≤ 0 → lf_tag_compare a c < 0) ∧
    (lf_tag_compare a b ≤ 0 → lf_tag_compare b a ≤ 0 → a = b) := by
  refine ⟨?_, ?_, ?_, ?_⟩
  · unfold lf_tag_compare
    repeat' split
    all_goals omega
  · simp only [cmp_le_zero]; exact Tag.le_trans
  · simp only [cmp_le_zero, cmp_lt_zero]; exact Tag.lt_of_lt_of_le
  · simp only [cmp_le_zero]; exact Tag.le_antisymm

/-- C01. `NEVER_TAG` and `FOREVER_TAG` are the least and the greatest tag. -/
theorem C01_never_least_forever_greatest (t : Tag) (h : t.Valid) :
    lf_tag_compare NEVER_TAG t ≤ 0 ∧ lf_tag_compare t FOREVER_TAG ≤ 0 := by
  rw [cmp_le_zero, cmp_le_zero]; constructor <;> tag_omega

example : lf_tag_compare ⟨5, 7⟩ ⟨5, 8⟩ = -1 ∧ lf_tag_compare ⟨6, 0⟩ ⟨5, 8⟩ = 1 ∧
    (⟨5, 7⟩ : Tag).Valid := by decide

/-! ## C02: saturating addition of times -/

/-- C02. `lf_time_add` is saturating addition for all 64-bit operands. -/
theorem C02_time_add_saturates (a b : Int) (ha : IsI64 a) (hb : IsI64 b) :
    lf_time_add a b = satAdd a b := lf_time_add_eq_satAdd ha hb

/-- C02. When both operands are finite and the exact sum fits, the exact sum is
returned and no undefined signed overflow is executed. -/
theorem C02_time_add_exact (a b : Int) (ha : NEVER < a ∧ a < FOREVER)
    (hb : NEVER < b ∧ b < FOREVER) (hs : IsI64 (a + b)) :
    lf_time_add a b = a + b ∧ ¬ timeAddOverflows a b := by
  constructor
  · rw [lf_time_add_eq_satAdd ⟨by omega, by omega⟩ ⟨by omega, by omega⟩]
    rcases satAdd_cases a b with h | h | h | h | h <;> tag_omega
  · unfold timeAddOverflows; simp [hs]

/-- C02. Overflow and underflow saturate (under two's complement wrap-around). -/
theorem C02_time_add_overflow (a b : Int) (ha : NEVER < a ∧ a < FOREVER)
    (hb : NEVER < b ∧ b < FOREVER) :
    (FOREVER < a + b → lf_time_add a b = FOREVER) ∧
    (a + b < NEVER → lf_time_add a b = NEVER) := by
  rw [lf_time_add_eq_satAdd ⟨by omega, by omega⟩ ⟨by omega, by omega⟩]
  rcases satAdd_cases a b with h | h | h | h | h <;> tag_omega

/-- C02 (finding). The saturation of `lf_time_add` is implemented by first
executing a signed addition that overflows, which C leaves undefined: such inputs
exist. -/
theorem C02_time_add_executes_undefined_overflow :
    ∃ a b, IsI64 a ∧ IsI64 b ∧ timeAddOverflows a b := by
  refine ⟨FOREVER - 1, 2, ?_⟩
  simp [IsI64, timeAddOverflows, NEVER, FOREVER]

example : lf_time_add 3 4 = 7 ∧ lf_time_add (FOREVER - 1) 5 = FOREVER ∧
    lf_time_add (NEVER + 1) (-5) = NEVER ∧ lf_time_add NEVER FOREVER = NEVER := by decide

/-! ## C03: tag addition -/

/-- C03. Adding a delay with non-negative time never moves a tag back. -/
theorem C03_tag_add_ge (a d : Tag) (ha : a.Valid) (hd : d.Valid) (hpos : 0 ≤ d.time)
    (hn : a.time = NEVER → a.microstep = 0) : a ≤ lf_tag_add a d := by
  rcases lf_tag_add_cases ha hd with h | h | h | h | h <;>
  rcases satAdd_cases a.time d.time with h' | h' | h' | h' | h' <;> tag_omega

/-- C03. The zero delay is a right unit on finite tags. -/
theorem C03_tag_add_zero (a : Tag) (ha : a.Valid) (hn : a.time ≠ NEVER) (hf : a.time ≠ FOREVER) :
    lf_tag_add a ZERO_TAG = a := by
  have hz : ZERO_TAG.Valid := by decide
  rcases lf_tag_add_cases ha hz with h | h | h | h | h <;>
  rcases satAdd_cases a.time ZERO_TAG.time with h' | h' | h' | h' | h' <;> tag_omega

/-- C03. `lf_tag_add` is monotone in its first argument provided that adding the
delay to the earlier tag does not overflow the 32-bit microstep. -/
theorem C03_tag_add_mono_left_partial (a a' d : Tag) (ha : a.Valid) (ha' : a'.Valid) (hd : d.Valid)
    (hm : 0 < d.time ∨ a.microstep + d.microstep ≤ UINT_MAX) (h : a ≤ a') :
    lf_tag_add a d ≤ lf_tag_add a' d := by
  rcases lf_tag_add_cases ha hd with k | k | k | k | k <;>
  rcases lf_tag_add_cases ha' hd with h | h | h | h | h <;>
  rcases satAdd_cases a.time d.time with h' | h' | h' | h' | h' <;>
  rcases satAdd_cases a'.time d.time with k' | k' | k' | k' | k' <;> tag_omega

/-- C03 (finding). Without that proviso monotonicity fails: microstep overflow
yields `FOREVER_TAG`, beyond the sum of a later tag. -/
theorem C03_tag_add_not_mono_on_microstep_overflow :
    ∃ a a' d : Tag, a.Valid ∧ a'.Valid ∧ d.Valid ∧ 0 ≤ d.time ∧ a < a' ∧
      lf_tag_add a' d < lf_tag_add a d := by
  refine ⟨⟨0, UINT_MAX⟩, ⟨1, 0⟩, ⟨0, 1⟩, ?_⟩
  decide

/-- C03. `lf_tag_add` is monotone in the delay (non-negative delays, finite start
tag, no microstep overflow with the smaller delay). -/
theorem C03_tag_add_mono_right (a d d' : Tag) (ha : a.Valid) (hd : d.Valid) (hd' : d'.Valid)
    (hpos : 0 ≤ d.time) (hm : 0 < d.time ∨ a.microstep + d.microstep ≤ UINT_MAX) (h : d ≤ d') :
    lf_tag_add a d ≤ lf_tag_add a d' := by
  rcases lf_tag_add_cases ha hd with k | k | k | k | k <;>
  rcases lf_tag_add_cases ha hd' with h | h | h | h | h <;>
  rcases satAdd_cases a.time d.time with h' | h' | h' | h' | h' <;>
  rcases satAdd_cases a.time d'.time with k' | k' | k' | k' | k' <;> tag_omega

/-- C03. Accumulating delays is associative for non-negative start time and
delays as long as microsteps do not overflow (time overflow saturates
consistently). -/
theorem C03_tag_add_assoc (a b c : Tag) (ha : a.Valid) (hb : b.Valid) (hc : c.Valid)
    (ha0 : 0 ≤ a.time) (hb0 : 0 ≤ b.time) (hc0 : 0 ≤ c.time)
    (hm : a.microstep + b.microstep + c.microstep ≤ UINT_MAX) :
    lf_tag_add (lf_tag_add a b) c = lf_tag_add a (lf_tag_add b c) := by
  have key : ∀ x y : Tag, x.Valid → y.Valid → 0 ≤ x.time → 0 ≤ y.time →
      x.microstep + y.microstep ≤ UINT_MAX →
      lf_tag_add x y = if FOREVER ≤ x.time + y.time then FOREVER_TAG else
        ⟨x.time + y.time, (if 0 < y.time then 0 else x.microstep) + y.microstep⟩ := by
    intro x y hx hy hx0 hy0 hxy
    rcases lf_tag_add_cases hx hy with h | h | h | h | h <;>
    rcases satAdd_cases x.time y.time with h' | h' | h' | h' | h' <;>
    (repeat' split) <;> tag_omega
  have fa : ∀ y : Tag, y.Valid → 0 ≤ y.time → lf_tag_add FOREVER_TAG y = FOREVER_TAG := by
    intro y hy hy0
    have hz : FOREVER_TAG.Valid := by decide
    rcases lf_tag_add_cases hz hy with h | h | h | h | h <;>
    rcases satAdd_cases FOREVER_TAG.time y.time with h' | h' | h' | h' | h' <;> tag_omega
  have af : ∀ y : Tag, y.Valid → 0 ≤ y.time → lf_tag_add y FOREVER_TAG = FOREVER_TAG := by
    intro y hy hy0
    have hz : FOREVER_TAG.Valid := by decide
    rcases lf_tag_add_cases hy hz with h | h | h | h | h <;>
    rcases satAdd_cases y.time FOREVER_TAG.time with h' | h' | h' | h' | h' <;> tag_omega
  have hab : a.microstep + b.microstep ≤ UINT_MAX := by omega
  have hbc : b.microstep + c.microstep ≤ UINT_MAX := by omega
  rw [key a b ha hb ha0 hb0 hab, key b c hb hc hb0 hc0 hbc]
  by_cases h1 : FOREVER ≤ a.time + b.time
  · rw [if_pos h1, fa c hc hc0]
    by_cases h2 : FOREVER ≤ b.time + c.time
    · rw [if_pos h2, af a ha ha0]
    · rw [if_neg h2, key]
      · rw [if_pos (by simp only []; omega)]
      · exact ha
      · simp only [Tag.Valid, IsI64, NEVER, FOREVER] at *
        refine ⟨⟨by omega, by omega⟩, ?_⟩
        split <;> omega
      · exact ha0
      · simp only []; omega
      · simp only []; split <;> omega
  · rw [if_neg h1]
    by_cases h2 : FOREVER ≤ b.time + c.time
    · rw [if_pos h2, af a ha ha0, key]
      · rw [if_pos (by simp only []; omega)]
      · simp only [Tag.Valid, IsI64, NEVER, FOREVER] at *
        refine ⟨⟨by omega, by omega⟩, ?_⟩
        split <;> omega
      · exact hc
      · simp only []; omega
      · exact hc0
      · simp only []; split <;> omega
    · rw [if_neg h2, key, key]
      · simp only []
        repeat' split
        all_goals tag_omega
      · exact ha
      · simp only [Tag.Valid, IsI64, NEVER, FOREVER] at *
        refine ⟨⟨by omega, by omega⟩, ?_⟩
        split <;> omega
      · exact ha0
      · simp only []; omega
      · simp only []; split <;> omega
      · simp only [Tag.Valid, IsI64, NEVER, FOREVER] at *
        refine ⟨⟨by omega, by omega⟩, ?_⟩
        split <;> omega
      · exact hc
      · simp only []; omega
      · exact hc0
      · simp only []; split <;> omega

example : lf_tag_add ⟨10, 3⟩ ⟨0, 1⟩ = ⟨10, 4⟩ ∧ lf_tag_add ⟨10, 3⟩ ⟨5, 1⟩ = ⟨15, 1⟩ ∧
    (⟨10, 3⟩ : Tag).Valid ∧ (⟨5, 1⟩ : Tag).Valid ∧ (10 : Int) ≠ NEVER := by decide

/-! ## C04: delaying a tag -/

/-- C04. Value of `lf_delay_tag` on a finite tag. -/
theorem C04_delay_tag_value (t : Tag) (d : Int) (hn : t.time ≠ NEVER) (hd : 0 ≤ d) :
    (d = 0 → t.time < FOREVER → t.microstep < UINT_MAX →
      lf_delay_tag t d = ⟨t.time, t.microstep + 1⟩) ∧
    (0 < d → t.time + d < FOREVER → lf_delay_tag t d = ⟨t.time + d, 0⟩) ∧
    (FOREVER ≤ t.time + d → lf_delay_tag t d = FOREVER_TAG) := by
  refine ⟨?_, ?_, ?_⟩ <;> intros <;>
  rcases lf_delay_tag_cases t d with h | h | h | h <;> tag_omega

/-- C04. A negative interval (including `NEVER`) means no delay. -/
theorem C04_delay_tag_no_delay (t : Tag) (d : Int) (hd : d < 0) : lf_delay_tag t d = t := by
  simp [lf_delay_tag, hd]

/-- C04. For a finite tag and a non-negative interval the result is strictly
later, unless the interval is zero and the microstep is already the maximum. -/
theorem C04_delay_tag_later_partial (t : Tag) (d : Int) (hv : t.Valid) (hn : t.time ≠ NEVER)
    (hf : t ≠ FOREVER_TAG) (hd : 0 ≤ d) (hm : t.microstep < UINT_MAX ∨ 0 < d) :
    t < lf_delay_tag t d := by
  rcases lf_delay_tag_cases t d with h | h | h | h <;> tag_omega

/-- C04 (finding). At the maximal microstep a zero delay wraps around and yields
an *earlier* tag: the full claim of C04 is false of the code. -/
theorem C04_delay_tag_wraps_backwards :
    ∃ t : Tag, t.Valid ∧ t.time ≠ NEVER ∧ t ≠ FOREVER_TAG ∧ lf_delay_tag t 0 < t :=
  ⟨⟨0, UINT_MAX⟩, by decide⟩

/-- C04. `lf_delay_tag` is monotone in the tag when microsteps do not wrap. -/
theorem C04_delay_tag_mono (t t' : Tag) (d : Int) (hv : t.Valid) (hv' : t'.Valid)
    (hm : t'.microstep < UINT_MAX ∨ d ≠ 0) (h : t ≤ t') :
    lf_delay_tag t d ≤ lf_delay_tag t' d := by
  rcases lf_delay_tag_cases t d with k | k | k | k <;>
  rcases lf_delay_tag_cases t' d with k' | k' | k' | k' <;> tag_omega

/-- C04. The result of delaying a representable tag is representable. -/
theorem C04_delay_tag_valid (t : Tag) (d : Int) (hv : t.Valid) : (lf_delay_tag t d).Valid := by
  rcases lf_delay_tag_cases t d with h | h | h | h <;> tag_omega

example : (⟨7, 2⟩ : Tag) < lf_delay_tag ⟨7, 2⟩ 0 ∧ lf_delay_tag ⟨7, 2⟩ 5 = ⟨12, 0⟩ ∧
    lf_delay_tag ⟨7, 2⟩ NEVER = ⟨7, 2⟩ := by decide

/-! ## C05: the strict delay used for promises -/

/-- C05. If everything up to `g` has been sent on a connection with delay `d`,
then `lf_delay_strict g d` is strictly earlier than the arrival tag of every later
message: for every later send tag `g'`. Guards: the arrival time does not
saturate and, for a microstep delay, the microstep of `g'` does not wrap. -/
theorem C05_strict_delay_before_later_arrivals_partial (g g' : Tag) (d : Int)
    (hg : g.Valid) (hg' : g'.Valid) (hd : NEVER ≤ d ∧ d < FOREVER) (hlt : g < g')
    (hsat : 0 ≤ d → g.time ≠ NEVER → g.time + d < FOREVER)
    (hm : d = 0 → g'.microstep < UINT_MAX) :
    lf_delay_strict g d < lf_delay_tag g' d := by
  rcases lf_delay_strict_cases g d with s | s <;>
  rcases lf_delay_tag_cases g d with k | k | k | k <;>
  rcases lf_delay_tag_cases g' d with k' | k' | k' | k' <;> tag_omega

/-- C05. For a positive delay the promise is also tight: no tag lies strictly
between the promised tag and the arrival tag of a message sent at `g`'s time. -/
theorem C05_strict_delay_tight (g t : Tag) (d : Int)
    (hd : 0 < d) (hsat : g.time + d < FOREVER) (ht : t.Valid)
    (h : t < lf_delay_tag g d) : t ≤ lf_delay_strict g d := by
  rcases lf_delay_strict_cases g d with s | s <;>
  rcases lf_delay_tag_cases g d with k | k | k | k <;> tag_omega

/-- C05 (finding). For interval zero the function returns the *next* microstep,
which is not strictly less than the tag plus the interval, contrary to its
documentation (tag/api/tag.h:146-160 documents `(t, 0)`). -/
theorem C05_strict_delay_zero_not_strict :
    lf_delay_strict ⟨100, 0⟩ 0 = ⟨100, 1⟩ ∧
    ¬ (lf_delay_strict ⟨100, 0⟩ 0 < lf_delay_tag ⟨100, 0⟩ 0) := by decide

/-- C05 (finding). For a negative interval other than `NEVER` the tag is not
returned unmodified (as documented) but one nanosecond earlier. -/
theorem C05_strict_delay_negative_modifies :
    lf_delay_strict ⟨100, 3⟩ (-1) = ⟨99, UINT_MAX⟩ := by decide

example : lf_delay_strict ⟨100, 4⟩ 10 = ⟨109, UINT_MAX⟩ ∧
    lf_delay_strict ⟨100, 4⟩ 10 < lf_delay_tag ⟨100, 5⟩ 10 ∧
    lf_delay_strict ⟨100, 4⟩ NEVER < lf_delay_tag ⟨100, 5⟩ NEVER := by decide

end ReactorC
