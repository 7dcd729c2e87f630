import Verif.Platform.Misc
import Mathlib.Tactic.Linarith

/-!
# Priorities, times for the operating system (C66), and condition variables of the RP2040 (C67)
-/

set_option linter.unusedVariables false

namespace ReactorC.Platform

/-! ## Priorities -/

theorem mapPriorities_up {p lo hi : Int} (h0 : 0 ≤ p) (h1 : p ≤ 99) (h : lo ≤ hi) :
    mapPriorities p lo hi = lo + p * (hi - lo) / 99 := by
  unfold mapPriorities
  rw [if_neg (by omega), Int.sub_zero, Int.sub_zero]
  rw [Int.tdiv_eq_ediv_of_nonneg (Int.mul_nonneg h0 (by omega))]

theorem mapPriorities_down {p lo hi : Int} (h0 : 0 ≤ p) (h1 : p ≤ 99) (h : hi ≤ lo) :
    mapPriorities p lo hi = lo - p * (lo - hi) / 99 := by
  unfold mapPriorities
  rw [if_neg (by omega), Int.sub_zero, Int.sub_zero]
  have : p * (hi - lo) = -(p * (lo - hi)) := by rw [← Int.mul_neg]; congr 1; omega
  rw [this, Int.neg_tdiv, Int.tdiv_eq_ediv_of_nonneg (Int.mul_nonneg h0 (by omega))]
  omega

/-- Priorities from 0 to 99 are mapped to the range of the platform, whichever end of it is the most urgent: the least and the greatest to
its ends, none to one that is less urgent than that of a lower priority, and each as near to its place as integers can be. -/
theorem C66_priorities_are_mapped_in_order (least most : Int) :
    mapPriorities 0 least most = least ∧ mapPriorities 99 least most = most ∧
    (∀ p, 0 ≤ p → p ≤ 99 → min least most ≤ mapPriorities p least most ∧ mapPriorities p least most ≤ max least most) ∧
    (∀ p q, 0 ≤ p → p ≤ q → q ≤ 99 → if least ≤ most then mapPriorities p least most ≤ mapPriorities q least most
      else mapPriorities q least most ≤ mapPriorities p least most) ∧
    ∀ p, 0 ≤ p → p ≤ 99 → |99 * (mapPriorities p least most - least) - p * (most - least)| < 99 := by
  rcases Int.le_total least most with h | h
  · refine ⟨?_, ?_, ?_, ?_, ?_⟩
    · rw [mapPriorities_up (by omega) (by omega) h]; omega
    · rw [mapPriorities_up (by omega) (by omega) h]; omega
    · intro p h0 h1
      rw [mapPriorities_up h0 h1 h, min_eq_left h, max_eq_right h]
      have a : 0 ≤ p * (most - least) := Int.mul_nonneg h0 (by omega)
      have b : p * (most - least) ≤ 99 * (most - least) := Int.mul_le_mul_of_nonneg_right h1 (by omega)
      omega
    · intro p q h0 hpq h1
      rw [if_pos h, mapPriorities_up h0 (by omega) h, mapPriorities_up (by omega) h1 h]
      have b : p * (most - least) ≤ q * (most - least) := Int.mul_le_mul_of_nonneg_right hpq (by omega)
      omega
    · intro p h0 h1
      rw [mapPriorities_up h0 h1 h, abs_lt]
      generalize p * (most - least) = z
      omega
  · refine ⟨?_, ?_, ?_, ?_, ?_⟩
    · rw [mapPriorities_down (by omega) (by omega) h]; omega
    · rw [mapPriorities_down (by omega) (by omega) h]; omega
    · intro p h0 h1
      rw [mapPriorities_down h0 h1 h, min_eq_right h, max_eq_left h]
      have a : 0 ≤ p * (least - most) := Int.mul_nonneg h0 (by omega)
      have b : p * (least - most) ≤ 99 * (least - most) := Int.mul_le_mul_of_nonneg_right h1 (by omega)
      omega
    · intro p q h0 hpq h1
      have b : p * (least - most) ≤ q * (least - most) := Int.mul_le_mul_of_nonneg_right hpq (by omega)
      rw [mapPriorities_down h0 (by omega) h, mapPriorities_down (by omega) h1 h]
      split_ifs with h2
      · have e : least = most := by omega
        subst e
        rw [Int.sub_self, Int.mul_zero, Int.mul_zero]
      · omega
    · intro p h0 h1
      rw [mapPriorities_down h0 h1 h, abs_lt]
      have : p * (most - least) = -(p * (least - most)) := by rw [← Int.mul_neg]; congr 1; omega
      rw [this]
      generalize p * (least - most) = z
      omega

/-- Other priorities are rejected. -/
theorem C66_other_priorities_are_rejected (p least most : Int) (h : p < 0 ∨ 99 < p) : mapPriorities p least most = -1 := by
  unfold mapPriorities; rw [if_pos (by omega)]

/-- Priorities of Linux, and of Zephyr with 15 of them. -/
example : mapPriorities 50 1 99 = 50 ∧ mapPriorities 50 14 0 = 7 ∧ mapPriorities 98 14 0 = 1 := by decide +kernel

/-- A time is handed over to the operating system, and taken from it, without a change; it is a valid one if it is not negative. -/
theorem C66_times_are_converted (t : Int) : toNs (toTimespec t) = t ∧
    (0 ≤ t → 0 ≤ (toTimespec t).nsec ∧ (toTimespec t).nsec < 1000000000) := by
  unfold toNs toTimespec
  refine ⟨by have := Int.tdiv_mul_add_tmod t 1000000000; dsimp only; omega, fun h => ?_⟩
  rw [Int.tmod_eq_emod_of_nonneg h]
  dsimp only
  omega

/-- Every valid time of the operating system is the image of one of the runtime. -/
theorem C66_times_are_converted_back (t : Timespec) (h0 : 0 ≤ t.sec) (h1 : 0 ≤ t.nsec) (h2 : t.nsec < 1000000000) :
    toTimespec (toNs t) = t := by
  obtain ⟨s, n⟩ := t
  dsimp only at h0 h1 h2
  unfold toNs toTimespec
  dsimp only
  rw [Int.tmod_eq_emod_of_nonneg (by omega), Int.tdiv_eq_ediv_of_nonneg (by omega)]
  congr 1 <;> omega

/-- Times before 1970 have no valid representation: the operating system rejects them, and a timed wait does not wait and fails. -/
theorem C66_negative_times_are_invalid (t : Int) (h : t < 0) (hm : ¬1000000000 ∣ t) : (toTimespec t).nsec < 0 := by
  unfold toTimespec
  dsimp only
  have := Int.tmod_eq_emod (a := t) (b := 1000000000)
  rw [this, if_neg (by push Not; exact ⟨by omega, hm⟩)]
  omega

example : toTimespec (-1) = ⟨0, -1⟩ ∧ toTimespec 1500000000 = ⟨1, 500000000⟩ := by decide +kernel

/-! ## Condition variables of the RP2040 -/

namespace Pico

/-- What holds of the mutex and the condition variable. -/
structure Inv (s : St) : Prop where
  mutex : s.owner = none ↔ s.depth = 0
  mail : ∀ i, s.notified i = true → (s.pc i = .timed ∨ ∃ n, s.pc i = .waiting n) → s.mailbox i = true
  pos : ∀ i n, s.pc i = .waiting n → 0 < n
  timed : ∀ i, s.pc i = .timed → s.owner = some i
  free : ∀ i n, s.pc i = .waiting n → n = 1 → s.owner ≠ some i
  again : ∀ i n, s.pc i = .relock n → n = 1 → s.owner ≠ some i

theorem Inv.step {s t : St} (h : Inv s) (hx : Step s t) : Inv t := by
  cases hx with
  | @lock i hr hl =>
    refine ⟨by simp [St.lock], h.mail, h.pos, ?_, ?_, ?_⟩
    · intro j hj
      have := h.timed j hj
      rcases hl with hl | hl
      · rw [hl] at this; cases this
      · rw [hl] at this; exact this
    · intro j n hj hn e
      have e : i = j := by simpa [St.lock] using e
      subst e
      have hj : s.pc i = .waiting n := hj
      rw [hr] at hj; cases hj
    · intro j n hj hn e
      have e : i = j := by simpa [St.lock] using e
      subst e
      have hj : s.pc i = .relock n := hj
      rw [hr] at hj; cases hj
  | @unlock i hr ho =>
    have hd : s.depth ≠ 0 := fun e => by rw [h.mutex.2 e] at ho; cases ho
    refine ⟨?_, h.mail, h.pos, ?_, ?_, ?_⟩
    · simp only [St.unlock, ho]; split_ifs with h1 <;> simp <;> omega
    · intro j hj
      have hj : s.pc j = .timed := hj
      have := h.timed j hj
      rw [ho] at this
      cases this
      rw [hr] at hj; cases hj
    · intro j n hj hn e
      have := h.free j n hj hn
      simp only [St.unlock] at e
      split_ifs at e
      exact this e
    · intro j n hj hn e
      have := h.again j n hj hn
      simp only [St.unlock] at e
      split_ifs at e
      exact this e
  | @notify k =>
    refine ⟨h.mutex, ?_, h.pos, h.timed, h.free, h.again⟩
    intro i hi hp
    by_cases e : i = k
    · subst e; simp
    · simp only [Function.update_of_ne e] at hi ⊢
      exact h.mail i hi hp
  | @wait i hr ho =>
    have hd : s.depth ≠ 0 := fun e => by rw [h.mutex.2 e] at ho; cases ho
    refine ⟨?_, ?_, ?_, ?_, ?_, ?_⟩
    · simp only [St.unlock, ho]; split_ifs with h1 <;> simp <;> omega
    · intro j hj hp
      by_cases e : j = i
      · subst e; simp at hj
      · simp only [Function.update_of_ne e] at hj hp
        exact h.mail j hj hp
    · intro j n hj
      by_cases e : j = i
      · subst e; simp at hj; omega
      · simp only [Function.update_of_ne e] at hj; exact h.pos j n hj
    · intro j hj
      by_cases e : j = i
      · subst e; simp at hj
      · simp only [Function.update_of_ne e] at hj
        have := h.timed j hj
        rw [ho] at this
        cases this
        exact absurd rfl e
    · intro j n hj hn
      by_cases e : j = i
      · subst e
        simp only [Function.update_self, Pc.waiting.injEq] at hj
        simp [St.unlock, hj, hn]
      · simp only [Function.update_of_ne e] at hj
        have := h.free j n hj hn
        simp only [St.unlock]
        split_ifs
        · simp
        · exact this
    · intro j n hj hn
      by_cases e : j = i
      · subst e; simp at hj
      · simp only [Function.update_of_ne e] at hj
        have := h.again j n hj hn
        simp only [St.unlock]
        split_ifs
        · simp
        · exact this
  | @acquire i n hw hm =>
    refine ⟨h.mutex, ?_, ?_, ?_, ?_, ?_⟩
    · intro j hj hp
      by_cases e : j = i
      · subst e; simp at hp
      · simp only [Function.update_of_ne e] at hp ⊢
        exact h.mail j hj hp
    · intro j k hj
      by_cases e : j = i
      · subst e; simp at hj
      · simp only [Function.update_of_ne e] at hj; exact h.pos j k hj
    · intro j hj
      by_cases e : j = i
      · subst e; simp at hj
      · simp only [Function.update_of_ne e] at hj; exact h.timed j hj
    · intro j k hj hk
      by_cases e : j = i
      · subst e; simp at hj
      · simp only [Function.update_of_ne e] at hj; exact h.free j k hj hk
    · intro j k hj hk
      by_cases e : j = i
      · subst e
        simp only [Function.update_self, Pc.relock.injEq] at hj
        exact h.free j n hw (by omega)
      · simp only [Function.update_of_ne e] at hj; exact h.again j k hj hk
  | @relock i n hr hl =>
    refine ⟨by simp [St.lock], ?_, ?_, ?_, ?_, ?_⟩
    · intro j hj hp
      by_cases e : j = i
      · subst e; simp at hp
      · simp only [Function.update_of_ne e] at hp
        exact h.mail j hj hp
    · intro j k hj
      by_cases e : j = i
      · subst e; simp at hj
      · simp only [Function.update_of_ne e] at hj; exact h.pos j k hj
    · intro j hj
      by_cases e : j = i
      · subst e; simp at hj
      · simp only [Function.update_of_ne e] at hj
        have := h.timed j hj
        rcases hl with hl | hl
        · rw [hl] at this; cases this
        · rw [hl] at this; cases this; exact absurd rfl e
    · intro j k hj hk ho
      have ho : i = j := by simpa [St.lock] using ho
      subst ho
      simp at hj
    · intro j k hj hk ho
      have ho : i = j := by simpa [St.lock] using ho
      subst ho
      simp at hj
  | @timed i hr ho =>
    refine ⟨h.mutex, ?_, ?_, ?_, ?_, ?_⟩
    · intro j hj hp
      by_cases e : j = i
      · subst e; simp at hj
      · simp only [Function.update_of_ne e] at hj hp
        exact h.mail j hj hp
    · intro j k hj
      by_cases e : j = i
      · subst e; simp at hj
      · simp only [Function.update_of_ne e] at hj; exact h.pos j k hj
    · intro j hj
      by_cases e : j = i
      · subst e; exact ho
      · simp only [Function.update_of_ne e] at hj; exact h.timed j hj
    · intro j k hj hk
      by_cases e : j = i
      · subst e; simp at hj
      · simp only [Function.update_of_ne e] at hj; exact h.free j k hj hk
    · intro j k hj hk
      by_cases e : j = i
      · subst e; simp at hj
      · simp only [Function.update_of_ne e] at hj; exact h.again j k hj hk
  | @acquireTimed i hw hm =>
    refine ⟨h.mutex, ?_, ?_, ?_, ?_, ?_⟩
    · intro j hj hp
      by_cases e : j = i
      · subst e; simp at hp
      · simp only [Function.update_of_ne e] at hp ⊢
        exact h.mail j hj hp
    · intro j k hj
      by_cases e : j = i
      · subst e; simp at hj
      · simp only [Function.update_of_ne e] at hj; exact h.pos j k hj
    · intro j hj
      by_cases e : j = i
      · subst e; simp at hj
      · simp only [Function.update_of_ne e] at hj; exact h.timed j hj
    · intro j k hj hk
      by_cases e : j = i
      · subst e; simp at hj
      · simp only [Function.update_of_ne e] at hj; exact h.free j k hj hk
    · intro j k hj hk
      by_cases e : j = i
      · subst e; simp at hj
      · simp only [Function.update_of_ne e] at hj; exact h.again j k hj hk
  | @timeout i hw =>
    refine ⟨h.mutex, ?_, ?_, ?_, ?_, ?_⟩
    · intro j hj hp
      by_cases e : j = i
      · subst e; simp at hp
      · simp only [Function.update_of_ne e] at hp
        exact h.mail j hj hp
    · intro j k hj
      by_cases e : j = i
      · subst e; simp at hj
      · simp only [Function.update_of_ne e] at hj; exact h.pos j k hj
    · intro j hj
      by_cases e : j = i
      · subst e; simp at hj
      · simp only [Function.update_of_ne e] at hj; exact h.timed j hj
    · intro j k hj hk
      by_cases e : j = i
      · subst e; simp at hj
      · simp only [Function.update_of_ne e] at hj; exact h.free j k hj hk
    · intro j k hj hk
      by_cases e : j = i
      · subst e; simp at hj
      · simp only [Function.update_of_ne e] at hj; exact h.again j k hj hk

theorem Reach.inv {s : St} (h : Reach s) : Inv s := by
  induction h with
  | start =>
    refine ⟨by simp [St.start], ?_, ?_, ?_, ?_, ?_⟩ <;> intros <;> simp_all [St.start]
  | step _ hx ih => exact ih.step hx

/-- RP2040: a core that waits for a condition variable and has been notified since it began to wait can go on, wherever it was
interrupted and whoever else has been notified. -/
theorem C67_no_wakeup_is_lost {s : St} (h : Reach s) (i n : Nat) (hw : s.pc i = .waiting n) (hn : s.notified i = true) :
    ∃ t, Step s t ∧ t.pc i = .relock n := by
  exact ⟨_, .acquire hw (h.inv.mail i hn (.inr ⟨n, hw⟩)), by simp⟩

/-- While a core that has locked the mutex once waits, and until it locks the mutex again, the mutex is not its own. -/
theorem C67_the_mutex_is_released {s : St} (h : Reach s) (i : Nat) (hw : s.pc i = .waiting 1 ∨ s.pc i = .relock 1) :
    s.owner ≠ some i := by
  rcases hw with hw | hw
  · exact h.inv.free i 1 hw rfl
  · exact h.inv.again i 1 hw rfl

/-- When it goes on, it has locked the mutex, as often as before. -/
theorem C67_the_mutex_is_locked_again {s t : St} (h : Reach s) (hx : Step s t) (i : Nat) (hw : s.pc i = .relock 1)
    (ht : t.pc i = .run) : t.owner = some i ∧ t.depth = 1 := by
  have ho := h.inv.again i 1 hw rfl
  cases hx with
  | lock hr hl => rw [St.lock] at ht; rw [hw] at ht; cases ht
  | unlock hr hl => rw [St.unlock] at ht; rw [hw] at ht; cases ht
  | notify => rw [hw] at ht; cases ht
  | @wait j hr hl =>
    by_cases e : i = j
    · subst e; simp at ht
    · simp only [Function.update_of_ne e] at ht; rw [hw] at ht; cases ht
  | @acquire j n hr hl =>
    by_cases e : i = j
    · subst e; simp at ht
    · simp only [Function.update_of_ne e] at ht; rw [hw] at ht; cases ht
  | @relock j n hr hl =>
    by_cases e : i = j
    · subst e
      have hn : s.owner = none := by
        rcases hl with hl | hl
        · exact hl
        · exact absurd hl ho
      exact ⟨rfl, by show s.depth + 1 = 1; rw [h.inv.mutex.1 hn]⟩
    · simp only [Function.update_of_ne e] at ht; rw [hw] at ht; cases ht
  | @timed j hr hl =>
    by_cases e : i = j
    · subst e; simp at ht
    · simp only [Function.update_of_ne e] at ht; rw [hw] at ht; cases ht
  | @acquireTimed j hr hl =>
    by_cases e : i = j
    · subst e; rw [hw] at hr; cases hr
    · simp only [Function.update_of_ne e] at ht; rw [hw] at ht; cases ht
  | @timeout j hr =>
    by_cases e : i = j
    · subst e; rw [hw] at hr; cases hr
    · simp only [Function.update_of_ne e] at ht; rw [hw] at ht; cases ht

/-- RP2040: in a wait with a time limit the mutex is never released: no other core can lock it in order to make true what is waited
for. -/
theorem C67_timed_wait_keeps_the_mutex {s : St} (h : Reach s) (i : Nat) (hw : s.pc i = .timed) :
    ∀ j, j ≠ i → ¬s.canLock j := by
  intro j hj hl
  have := h.inv.timed i hw
  rcases hl with hl | hl
  · rw [this] at hl; cases hl
  · rw [this] at hl; cases hl; exact hj rfl

/-- Core 0 waits, core 1 locks the mutex, notifies it and unlocks. -/
example : ∃ s, Reach s ∧ s.pc 0 = .waiting 1 ∧ s.notified 0 = true ∧ s.owner = none := by
  have h1 := Reach.start.step (Step.lock (i := 0) rfl (.inl rfl))
  have h2 := h1.step (Step.wait (i := 0) rfl rfl)
  have h3 := h2.step (Step.lock (i := 1) rfl (.inl rfl))
  have h4 := h3.step (Step.notify (k := 0))
  have h5 := h4.step (Step.unlock (i := 1) rfl rfl)
  exact ⟨_, h5, rfl, rfl, rfl⟩

/-- Core 0 in a timed wait. -/
example : ∃ s, Reach s ∧ s.pc 0 = .timed := by
  have h1 := Reach.start.step (Step.lock (i := 0) rfl (.inl rfl))
  exact ⟨_, h1.step (Step.timed (i := 0) rfl rfl), rfl⟩

/-- A core about to lock the mutex again. -/
example : ∃ s t, Reach s ∧ Step s t ∧ s.pc 0 = .relock 1 ∧ t.pc 0 = .run := by
  have h1 := Reach.start.step (Step.lock (i := 0) rfl (.inl rfl))
  have h2 := h1.step (Step.wait (i := 0) rfl rfl)
  have h3 := h2.step (Step.notify (k := 0))
  have h4 := h3.step (Step.acquire (i := 0) (n := 1) rfl rfl)
  exact ⟨_, _, h4, Step.relock (i := 0) (n := 1) rfl (.inl rfl), rfl, rfl⟩

end Pico

end ReactorC.Platform
