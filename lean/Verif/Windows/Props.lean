import Verif.Windows.Model
import Mathlib.Algebra.Order.Field.Basic
import Mathlib.Tactic.FieldSimp
import Mathlib.Tactic.Ring

/-!
# C101: on Windows, time follows the counter of the machine, and waits end at the time that was given

Times are in nanoseconds, instants count from the start of the machine.  `2 ^ 63 - 1` is `FOREVER`.
-/

namespace ReactorC.Windows

theorem wrap_id {x : Int} (h0 : -2 ^ 63 ≤ x) (h1 : x < 2 ^ 63) : wrap x = x := by
  unfold wrap; omega

/-! ## Waiting for a condition variable -/

/-- **C101.**  A wait for a condition variable that reports a timeout ends at or after the given time. -/
theorem C101_timeout_is_not_early {wakeup now t : Int} (h0 : 1000000 ≤ now) (h1 : now < 2 ^ 63) (h2 : 0 ≤ wakeup) (h3 : wakeup < 2 ^ 63)
    (h : TimedWait wakeup now 1 t) : wakeup ≤ t := by
  have e : wrap (wakeup - now) = wakeup - now := wrap_id (by omega) (by omega)
  generalize hr : (1 : Int) = r at h
  cases h with
  | atOnce r hk =>
    subst hr
    simp only [ask, e] at hk
    split at hk
    · simp at hk
    · rename_i hd
      have e2 : wrap (wakeup - now + 999999) = wakeup - now + 999999 := wrap_id (by omega) (by omega)
      rw [e2, Int.tdiv_eq_ediv_of_nonneg (by omega)] at hk
      split at hk
      · simp at hk
      · split at hk
        · omega
        · simp at hk
  | waited ms o t hk he =>
    cases he with
    | woken => simp [result] at hr
    | error => simp [result] at hr
    | timeout _ hm ht =>
      simp only [ask, e] at hk
      split at hk
      · simp at hk
      · rename_i hd
        have e2 : wrap (wakeup - now + 999999) = wakeup - now + 999999 := wrap_id (by omega) (by omega)
        rw [e2, Int.tdiv_eq_ediv_of_nonneg (by omega)] at hk
        split at hk
        · simp only [Ask.sleep.injEq] at hk; omega
        · split at hk
          · simp at hk
          · simp only [Ask.sleep.injEq] at hk
            omega

/-- **C101.**  A wait until an instant that is ahead, by no more than 4294967294 ms (49 days and 17 hours), is a wait for a finite time, that
ends less than 1 ms after the instant, and not before. -/
theorem C101_waits_are_as_long_as_asked {wakeup now : Int} (h2 : now < wakeup)
    (h4 : wakeup - now ≤ 4294967294000000) :
    ∃ ms : Nat, ask wakeup now = .sleep ms ∧ ms ≠ 0xFFFFFFFF ∧ wakeup ≤ now + 1000000 * ms ∧ now + 1000000 * ms < wakeup + 1000000 := by
  have e : wrap (wakeup - now) = wakeup - now := wrap_id (by omega) (by omega)
  have e2 : wrap (wakeup - now + 999999) = wakeup - now + 999999 := wrap_id (by omega) (by omega)
  refine ⟨((wakeup - now + 999999) / 1000000).toNat, ?_, ?_, ?_, ?_⟩
  · simp only [ask, e]
    rw [if_neg (by omega), e2, Int.tdiv_eq_ediv_of_nonneg (by omega), if_neg (by omega), if_neg (by omega)]
  · omega
  · omega
  · omega

example : ask 3000000001 2000000000 = .sleep 1001 := by decide

/-- **C101.**  Such a wait can end with a timeout, at any time from 1 ms after the instant on. -/
theorem C101_timeouts_are_reported {wakeup now t : Int} (h2 : now < wakeup)
    (h4 : wakeup - now ≤ 4294967294000000) (ht : wakeup + 1000000 ≤ t) : TimedWait wakeup now 1 t := by
  obtain ⟨ms, hk, hm, _, hu⟩ := C101_waits_are_as_long_as_asked h2 h4
  exact .waited ms .timeout t hk (.timeout t hm (by omega))

/-- **C101, violated.**  A wait until an instant that is further ahead never reports a timeout: the largest number of milliseconds, to which longer
waits are cut, stands for an infinite wait.  Without a signal the wait does not end. -/
theorem C101_long_waits_not_ended {wakeup now : Int} (h0 : 1000000 ≤ now) (h3 : wakeup < 2 ^ 63)
    (h4 : 4294967294000000 < wakeup - now) :
    ask wakeup now = .sleep 0xFFFFFFFF ∧ ∀ t, ¬TimedWait wakeup now 1 t := by
  have e : wrap (wakeup - now) = wakeup - now := wrap_id (by omega) (by omega)
  have e2 : wrap (wakeup - now + 999999) = wakeup - now + 999999 := wrap_id (by omega) (by omega)
  have hk : ask wakeup now = .sleep 0xFFFFFFFF := by
    simp only [ask, e]
    rw [if_neg (by omega), e2, Int.tdiv_eq_ediv_of_nonneg (by omega)]
    split
    · rfl
    · rw [if_neg (by omega)]
      congr 1
      omega
  refine ⟨hk, fun t h => ?_⟩
  generalize hr : (1 : Int) = r at h
  cases h with
  | atOnce r hk' => rw [hk] at hk'; simp at hk'
  | waited ms o t hk' he =>
    rw [hk] at hk'
    simp only [Ask.sleep.injEq] at hk'
    subst hk'
    cases he with
    | woken => simp [result] at hr
    | error => simp [result] at hr
    | timeout _ hm _ => exact hm rfl

example : ask (50 * 86400000000000 + 1000000) 1000000 = .sleep 0xFFFFFFFF := by decide

/-- **C101.**  A wait until an instant that has passed returns at once.  It does not report a timeout, but an interruption. -/
theorem C101_no_wait_for_the_past {wakeup now ret t : Int} (h0 : 0 ≤ wakeup) (h1 : wakeup ≤ now) (h2 : now < 2 ^ 63)
    (h : TimedWait wakeup now ret t) : t = now ∧ ret = 0 := by
  have e : wrap (wakeup - now) = wakeup - now := wrap_id (by omega) (by omega)
  have hk : ask wakeup now = .ret 0 := by simp only [ask, e]; rw [if_pos (by omega)]
  cases h with
  | atOnce r hk' => rw [hk] at hk'; simp only [Ask.ret.injEq] at hk'; exact ⟨rfl, hk'.symm⟩
  | waited ms o t hk' he => rw [hk] at hk'; simp at hk'

/-- **C101.**  A signal ends a wait at once, whatever its length, and is not taken for a timeout. -/
theorem C101_signals_end_waits {wakeup now t : Int} (h0 : 1000000 ≤ now) (h2 : now < wakeup) (h3 : wakeup < 2 ^ 63) (ht : now ≤ t) :
    TimedWait wakeup now 0 t := by
  by_cases h4 : wakeup - now ≤ 4294967294000000
  · obtain ⟨ms, hk, _⟩ := C101_waits_are_as_long_as_asked h2 h4
    exact .waited ms .woken t hk (.woken t ht)
  · exact .waited _ .woken t (C101_long_waits_not_ended h0 h3 (by omega)).1 (.woken t ht)

/-! ## Sleeping -/

/-- **C101.**  A sleep, if no timer fails, lasts for the given time, up to less than 100 ns. -/
theorem C101_sleep_lasts {d now ret t : Int} (hd : 0 ≤ d) (h : Sleep d now .fires ret t) : now + d < t + 100 ∧ now ≤ t := by
  cases h with
  | fired _ hf =>
    obtain ⟨a, b⟩ := hf
    unfold due at b
    rw [Int.tdiv_eq_ediv_of_nonneg hd] at b
    refine ⟨?_, a⟩
    by_cases hq : -1 * (d / 100) < 0
    · have := b hq; omega
    · omega

/-- **C101.**  No more than the given time is asked of the timer. -/
theorem C101_sleep_may_end {d now : Int} (hd : 0 ≤ d) : Sleep d now .fires 1 (now + d) := by
  refine .fired _ ⟨by omega, fun _ => ?_⟩
  unfold due
  rw [Int.tdiv_eq_ediv_of_nonneg hd]
  omega

/-- **C101, violated.**  The result of a sleep is not the documented one, 0 for success and -1 for failure: it is 0 exactly if the sleep
failed. -/
theorem C101_sleep_result_not_as_documented {d now ret t : Int} {x : Timer} (h : Sleep d now x ret t) : ret = 0 ↔ x = .fails := by
  cases h <;> simp

/-- The tag is not advanced before its time if no timer fails. -/
theorem Advance.notEarly {wakeup now t : Int} {x : Timer} (h3 : wakeup < 2 ^ 63) (h : Advance wakeup now x t) (h0 : 0 ≤ now)
    (hw : -2 ^ 63 ≤ wakeup - now) (hx : x = .fires) : wakeup ≤ t := by
  induction h with
  | done now x t hs =>
    subst hx
    generalize hr : (0 : Int) = ret at hs
    cases hs with
    | past hp => rw [wrap_id (by omega) (by omega)] at hp; omega
    | sleep _ _ _ hn hs =>
      subst hr
      cases hs
  | again now ret t now' x t' hs hr ht _ ih =>
    have hn : now ≤ t := by
      cases hs with
      | past _ => exact Int.le_refl _
      | sleep _ _ _ _ hs => cases hs with | fired _ hf => exact hf.1
    by_cases hc : -2 ^ 63 ≤ wakeup - now'
    · exact ih (by omega) hc hx
    · rename_i ha
      -- the clock has left the range of times: the wakeup time has long passed
      have : ∀ {n x t}, Advance wakeup n x t → n ≤ t := by
        intro n x t h
        induction h with
        | done n x t hs =>
          cases hs with
          | past _ => exact Int.le_refl _
          | sleep _ _ _ _ hs =>
            cases hs with
            | noTimer _ h => exact h
        | again n r u n' x t' hs _ hu _ ih =>
          have : n ≤ u := by
            cases hs with
            | past _ => exact Int.le_refl _
            | sleep _ _ _ _ hs => cases hs with | fired _ hf => exact hf.1
          omega
      have := this ha
      omega

/-- **C101, in part.**  If no timer fails, the single-threaded runtime advances to a tag no earlier than its time, although sleeps
may be too short and their results are misread. -/
theorem C101_tags_are_not_early_partial {wakeup now t : Int} (h0 : 0 ≤ now) (h1 : now < 2 ^ 63) (h2 : 0 ≤ wakeup) (h3 : wakeup < 2 ^ 63)
    (h : Advance wakeup now .fires t) : wakeup ≤ t :=
  h.notEarly h3 h0 (by omega) rfl

/-- **C101.**  And it can advance to it at its time. -/
theorem C101_tags_are_not_late {wakeup now : Int} (h0 : 0 ≤ now) (h1 : now ≤ wakeup) (h3 : wakeup < 2 ^ 63) :
    Advance wakeup now .fires wakeup := by
  have last : Advance wakeup wakeup .fires wakeup := .done _ _ _ (.past (by rw [wrap_id (by omega) (by omega)]; omega))
  by_cases e : now = wakeup
  · subst e; exact last
  · have hw : wrap (wakeup - now) = wakeup - now := wrap_id (by omega) (by omega)
    have := C101_sleep_may_end (d := wakeup - now) (now := now) (by omega)
    rw [show now + (wakeup - now) = wakeup by omega] at this
    exact .again now 1 wakeup wakeup .fires wakeup (.sleep _ _ _ (by rw [hw]; omega) (by rw [hw]; exact this)) (by decide)
      (Int.le_refl _) last

/-- **C101, violated.**  If a timer cannot be created or set, the runtime takes the wait for finished and advances to the tag at once,
however far it is ahead. -/
theorem C101_failed_timer_not_waited_for {wakeup now : Int} (h0 : 0 ≤ now) (h1 : now < wakeup) (h3 : wakeup < 2 ^ 63) :
    Advance wakeup now .fails now :=
  .done _ _ _ (.sleep _ _ _ (by rw [wrap_id (by omega) (by omega)]; omega) (.noTimer _ (Int.le_refl _)))

/-! ## The clock -/

theorem Rounding.bounds (r : Rounding) {x : ℚ} (h : 0 ≤ x) : x * (1 - 1 / 2 ^ 53) ≤ r.fl x ∧ r.fl x ≤ x * (1 + 1 / 2 ^ 53) := by
  have e := r.error x
  rw [abs_le, abs_of_nonneg h] at e
  constructor <;> [have := e.1; have := e.2] <;> linarith

/-- The quotient that the clock computes, of the count `x` and the counts per nanosecond `g`. -/
theorem quotient_bounds (r : Rounding) {x g G : ℚ} (hx : 0 ≤ x) (hG : 0 < G) (h1 : G * (1 - 1 / 2 ^ 53) ^ 2 ≤ g) (h2 : g ≤ G * (1 + 1 / 2 ^ 53) ^ 2) :
    x / G * (1 - 5 / 2 ^ 53) ≤ r.fl (r.fl x / g) ∧ r.fl (r.fl x / g) ≤ x / G * (1 + 5 / 2 ^ 53) := by
  have hg : 0 < g := lt_of_lt_of_le (by positivity) h1
  obtain ⟨a1, a2⟩ := r.bounds hx
  have hq : 0 ≤ r.fl x / g := div_nonneg (le_trans (by positivity) a1) hg.le
  obtain ⟨b1, b2⟩ := r.bounds hq
  have hxG : 0 ≤ x / G := div_nonneg hx hG.le
  have lo : x / G * ((1 - 1 / 2 ^ 53) / (1 + 1 / 2 ^ 53) ^ 2) ≤ r.fl x / g := by
    rw [le_div_iff₀ hg]
    refine le_trans ?_ a1
    calc x / G * ((1 - 1 / 2 ^ 53) / (1 + 1 / 2 ^ 53) ^ 2) * g
        ≤ x / G * ((1 - 1 / 2 ^ 53) / (1 + 1 / 2 ^ 53) ^ 2) * (G * (1 + 1 / 2 ^ 53) ^ 2) :=
          mul_le_mul_of_nonneg_left h2 (mul_nonneg hxG (by norm_num))
      _ = x * (1 - 1 / 2 ^ 53) := by field_simp
  have hi : r.fl x / g ≤ x / G * ((1 + 1 / 2 ^ 53) / (1 - 1 / 2 ^ 53) ^ 2) := by
    rw [div_le_iff₀ hg]
    refine le_trans a2 ?_
    calc x * (1 + 1 / 2 ^ 53) = x / G * ((1 + 1 / 2 ^ 53) / (1 - 1 / 2 ^ 53) ^ 2) * (G * (1 - 1 / 2 ^ 53) ^ 2) := by
          have : (1 - 1 / 2 ^ 53 : ℚ) ≠ 0 := by norm_num
          field_simp
      _ ≤ _ := mul_le_mul_of_nonneg_left h1 (mul_nonneg hxG (by norm_num))
  constructor
  · refine le_trans ?_ b1
    calc x / G * (1 - 5 / 2 ^ 53) ≤ x / G * ((1 - 1 / 2 ^ 53) / (1 + 1 / 2 ^ 53) ^ 2 * (1 - 1 / 2 ^ 53)) :=
          mul_le_mul_of_nonneg_left (by norm_num) hxG
      _ = x / G * ((1 - 1 / 2 ^ 53) / (1 + 1 / 2 ^ 53) ^ 2) * (1 - 1 / 2 ^ 53) := by ring
      _ ≤ _ := mul_le_mul_of_nonneg_right lo (by norm_num)
  · refine le_trans b2 ?_
    calc r.fl x / g * (1 + 1 / 2 ^ 53) ≤ x / G * ((1 + 1 / 2 ^ 53) / (1 - 1 / 2 ^ 53) ^ 2) * (1 + 1 / 2 ^ 53) :=
          mul_le_mul_of_nonneg_right hi (by norm_num)
      _ = x / G * ((1 + 1 / 2 ^ 53) / (1 - 1 / 2 ^ 53) ^ 2 * (1 + 1 / 2 ^ 53)) := by ring
      _ ≤ x / G * (1 + 5 / 2 ^ 53) := mul_le_mul_of_nonneg_left (by norm_num) hxG

theorem perNs_bounds (r : Rounding) {f : Int} (hf : 0 < f) :
    (f / 1000000000 : ℚ) * (1 - 1 / 2 ^ 53) ^ 2 ≤ (initializeClock r (some f)).perNs ∧
    (initializeClock r (some f)).perNs ≤ (f / 1000000000 : ℚ) * (1 + 1 / 2 ^ 53) ^ 2 := by
  have hf' : (0 : ℚ) ≤ f := by exact_mod_cast hf.le
  obtain ⟨a1, a2⟩ := r.bounds hf'
  have h0 : 0 ≤ r.fl f / 1000000000 := div_nonneg (le_trans (mul_nonneg hf' (by norm_num)) a1) (by norm_num)
  obtain ⟨b1, b2⟩ := r.bounds h0
  simp only [initializeClock]
  constructor
  · refine le_trans ?_ b1
    calc (f / 1000000000 : ℚ) * (1 - 1 / 2 ^ 53) ^ 2 = (f * (1 - 1 / 2 ^ 53)) / 1000000000 * (1 - 1 / 2 ^ 53) := by ring
      _ ≤ _ := mul_le_mul_of_nonneg_right (div_le_div_of_nonneg_right a1 (by norm_num)) (by norm_num)
  · refine le_trans b2 ?_
    calc r.fl f / 1000000000 * (1 + 1 / 2 ^ 53) ≤ (f * (1 + 1 / 2 ^ 53)) / 1000000000 * (1 + 1 / 2 ^ 53) :=
          mul_le_mul_of_nonneg_right (div_le_div_of_nonneg_right a2 (by norm_num)) (by norm_num)
      _ = _ := by ring

/-- What is read from the clock if the counter stands at `n`. -/
def reading (r : Rounding) (frequency n : Int) (high low : Nat) (old : Int) : Int × Int :=
  clockGettime r (initializeClock r (some frequency)) (some n) high low old

theorem reading_floor (r : Rounding) {f n : Int} (hf : 0 < f) (hn : 0 ≤ n) (hb : n * 1000000000 ≤ f * 2 ^ 62) (high low : Nat) (old : Int) :
    reading r f n high low old = (0, ⌊r.fl (r.fl n / (initializeClock r (some f)).perNs)⌋) := by
  obtain ⟨p1, p2⟩ := perNs_bounds r hf
  have hG : (0 : ℚ) < f / 1000000000 := div_pos (by exact_mod_cast hf) (by norm_num)
  have hn' : (0 : ℚ) ≤ n := by exact_mod_cast hn
  obtain ⟨q1, q2⟩ := quotient_bounds r hn' hG p1 p2
  have hle : (n : ℚ) / (f / 1000000000) ≤ 2 ^ 62 := by
    rw [div_le_iff₀ hG]
    have : (n : ℚ) * 1000000000 ≤ f * 2 ^ 62 := by exact_mod_cast hb
    linarith
  have h0 : 0 ≤ r.fl (r.fl n / (initializeClock r (some f)).perNs) := le_trans (mul_nonneg (div_nonneg hn' hG.le) (by norm_num)) q1
  have h1 : r.fl (r.fl n / (initializeClock r (some f)).perNs) < 2 ^ 63 := by
    refine lt_of_le_of_lt (le_trans q2 (mul_le_mul_of_nonneg_right hle (by norm_num))) (by norm_num)
  have hfl0 : 0 ≤ ⌊r.fl (r.fl n / (initializeClock r (some f)).perNs)⌋ := Int.floor_nonneg.2 h0
  have hfl1 : ⌊r.fl (r.fl n / (initializeClock r (some f)).perNs)⌋ < 2 ^ 63 := by
    rw [Int.floor_lt]; exact_mod_cast h1
  simp only [reading, clockGettime]
  rw [if_pos (by simp [initializeClock])]
  simp only [toInt64, if_pos h0]
  rw [if_pos ⟨by omega, hfl1⟩]

/-- **C101.**  The clock is accurate: for a counter that stands at `n` and makes `f` steps per second, it shows the `n / f` seconds in nanoseconds, up to 1 ns
and 5 parts in 2⁵³ (about 5 ns in 100 days), however operations on floating point numbers round, for 146 years. -/
theorem C101_clock_is_accurate (r : Rounding) {f n : Int} (hf : 0 < f) (hn : 0 ≤ n) (hb : n * 1000000000 ≤ f * 2 ^ 62) (high low : Nat) (old : Int) :
    ∃ t : Int, reading r f n high low old = (0, t) ∧
      |(t : ℚ) - n * 1000000000 / f| ≤ 1 + n * 1000000000 / f * (5 / 2 ^ 53) := by
  refine ⟨_, reading_floor r hf hn hb high low old, ?_⟩
  obtain ⟨p1, p2⟩ := perNs_bounds r hf
  have hG : (0 : ℚ) < f / 1000000000 := div_pos (by exact_mod_cast hf) (by norm_num)
  have hn' : (0 : ℚ) ≤ n := by exact_mod_cast hn
  obtain ⟨q1, q2⟩ := quotient_bounds r hn' hG p1 p2
  have e : (n : ℚ) / (f / 1000000000) = n * 1000000000 / f := by
    have : (f : ℚ) ≠ 0 := by exact_mod_cast hf.ne'
    field_simp
  rw [e] at q1 q2
  have a := Int.floor_le (r.fl (r.fl n / (initializeClock r (some f)).perNs))
  have b := Int.lt_floor_add_one (r.fl (r.fl n / (initializeClock r (some f)).perNs))
  rw [abs_le]
  constructor <;> linarith

/-- **C101.**  The clock does not go backwards. -/
theorem C101_clock_is_monotone (r : Rounding) {f n m : Int} (hf : 0 < f) (hn : 0 ≤ n) (hnm : n ≤ m) (hb : m * 1000000000 ≤ f * 2 ^ 62)
    (high low high' low' : Nat) (old old' : Int) :
    (reading r f n high low old).2 ≤ (reading r f m high' low' old').2 := by
  rw [reading_floor r hf hn (by omega), reading_floor r hf (by omega) hb]
  obtain ⟨p1, p2⟩ := perNs_bounds r hf
  have hG : (0 : ℚ) < f / 1000000000 := div_pos (by exact_mod_cast hf) (by norm_num)
  have hg : 0 < (initializeClock r (some f)).perNs := lt_of_lt_of_le (by positivity) p1
  exact Int.floor_le_floor (r.mono _ _ (div_le_div_of_nonneg_right (r.mono _ _ (by exact_mod_cast hnm)) hg.le))

/-- Exact arithmetic is a rounding. -/
def exactly : Rounding := ⟨id, fun _ _ h => h, fun x => by simp only [id, sub_self, abs_zero]; positivity⟩

example : reading exactly 10000000 123456789 0 0 7 = (0, 12345678900) := by
  rw [reading_floor exactly (by decide) (by decide) (by decide)]
  norm_num [exactly, initializeClock]

/-- **C101, violated.**  If the counter cannot be read, the clock reports success, and leaves the time as it was. -/
theorem C101_failed_reading_not_reported (r : Rounding) (f : Int) (high low : Nat) (old : Int) :
    clockGettime r (initializeClock r (some f)) none high low old = (0, old) := by
  simp [clockGettime, initializeClock]

/-- The two halves of a `FILETIME`. -/
theorem fileTime_eq (high low : Nat) (h : low < 2 ^ 32) : fileTime high low = high * 2 ^ 32 + low := by
  unfold fileTime
  rw [← Nat.shiftLeft_add_eq_or_of_lt h, Nat.shiftLeft_eq]

/-- **C101, violated.**  On a machine without the counter, the clock shows the same time at all times since 1918 (10¹⁷ times 100 ns since 1601), the least
one: the number of nanoseconds since 1601 does not fit. -/
theorem C101_clock_without_counter_not_usable (r : Rounding) (counter : Option Int) (high low : Nat) (h : low < 2 ^ 32)
    (hd : 10 ^ 17 ≤ high * 2 ^ 32 + low) (old : Int) :
    clockGettime r (initializeClock r none) counter high low old = (0, -2 ^ 63) := by
  obtain ⟨a1, a2⟩ := r.bounds (x := 1 / 100) (by norm_num)
  have hq := (quotient_bounds r (x := ((fileTime high low : Nat) : ℚ)) (g := r.fl (1 / 100)) (G := 1 / 100) (by positivity) (by norm_num)
    (le_trans (by norm_num) a1) (le_trans a2 (by norm_num))).1
  have hx : (10 ^ 17 : ℚ) ≤ ((fileTime high low : Nat) : ℚ) := by rw [fileTime_eq high low h]; exact_mod_cast hd
  have hbig : (2 ^ 63 : ℚ) ≤ r.fl (r.fl ((fileTime high low : Nat) : ℚ) / r.fl (1 / 100)) := by
    refine le_trans ?_ hq
    have : ((fileTime high low : Nat) : ℚ) / (1 / 100) = ((fileTime high low : Nat) : ℚ) * 100 := by ring
    rw [this]
    have := mul_le_mul_of_nonneg_right hx (show (0 : ℚ) ≤ 100 * (1 - 5 / 2 ^ 53) by norm_num)
    refine le_trans (by norm_num) (this.trans (le_of_eq (by ring)))
  have hfl : (2 ^ 63 : Int) ≤ ⌊r.fl (r.fl ((fileTime high low : Nat) : ℚ) / r.fl (1 / 100))⌋ := by
    rw [Int.le_floor]; exact_mod_cast hbig
  have hc : toInt64 (r.fl (r.fl ((fileTime high low : Nat) : ℚ) / r.fl (1 / 100))) = -2 ^ 63 := by
    simp only [toInt64]
    rw [if_pos (le_trans (by norm_num) hbig), if_neg (by omega)]
  rw [← hc]
  rfl

example : (10 : Nat) ^ 17 ≤ 31200000 * 2 ^ 32 + 5 := by decide

end ReactorC.Windows
