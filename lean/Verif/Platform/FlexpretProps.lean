import Verif.Platform.Flexpret

/-!
# C104: waiting on FlexPRET
-/

namespace ReactorC.Platform.Flexpret

/-- The time that passes between waits is neither zero nor longer than an epoch. -/
def Costs (cost : Nat → Nat) : Prop := ∀ i, 0 < cost i ∧ cost i ≤ 4294967296

/-- The number of times the lower 32 bits of the clock have overflowed. -/
def epochOf (t : Nat) : Nat := t / 4294967296

/-- A wait ends the first time, from its beginning on, that the lower 32 bits are as requested. -/
theorem C104_instruction_waits_for_the_next_time (n t : Nat) (ht : t < 4294967296) :
    n ≤ delayUntil n t ∧ delayUntil n t % 4294967296 = t ∧ ∀ m, n ≤ m → m % 4294967296 = t → delayUntil n t ≤ m := by
  unfold delayUntil
  refine ⟨by omega, by omega, fun m h1 h2 => by omega⟩

theorem epochs_eq (cost : Nat → Nat) (h : Costs cost) (now : Nat) (h0 : now % 4294967296 + cost 0 < 4294967296) (k : Nat) :
    epochs cost now (k + 1) = (epochOf now + (k + 1)) * 4294967296 - 1 := by
  induction k with
  | zero => simp only [epochs, delayUntil, epochOf]; omega
  | succ k ih =>
    have := h (k + 1)
    rw [epochs, ih]; unfold delayUntil epochOf; omega

theorem epochs_ge (cost : Nat → Nat) (h : Costs cost) (now : Nat) (k : Nat) :
    now ≤ epochs cost now k ∧ (0 < k → (epochOf now + k) * 4294967296 - 1 ≤ epochs cost now k ∧ epochs cost now k % 4294967296 = 4294967295) := by
  induction k with
  | zero => simp [epochs]
  | succ k ih =>
    have hk := h k
    rw [epochs]; unfold delayUntil epochOf at *
    rcases Nat.eq_zero_or_pos k with rfl | hp
    · simp only [epochs] at *; omega
    · obtain ⟨a, b⟩ := ih; obtain ⟨b, c⟩ := b hp; omega

theorem count_eq (now : Nat) (w : Int) (hw : 4294967296 < w) : epochCount now w = w.toNat / 4294967296 := by
  unfold epochCount
  rw [if_neg (by omega)]; rfl

/-- A wait never ends before the time, whatever the time and whenever it begins. -/
theorem C104_never_early (cost : Nat → Nat) (h : Costs cost) (now : Nat) (w : Int) :
    w ≤ sleepUntil cost now w ∧ now ≤ sleepUntil cost now w := by
  unfold sleepUntil
  by_cases hw : 4294967296 < w
  · rw [if_pos hw, count_eq now w hw]
    have e := epochs_ge cost h now (w.toNat / 4294967296)
    obtain ⟨e0, e⟩ := e
    obtain ⟨e1, e2⟩ := e (by omega)
    have c := h (w.toNat / 4294967296)
    generalize cost (w.toNat / 4294967296) = x at *
    generalize epochs cost now (w.toNat / 4294967296) = y at *
    unfold delayUntil epochOf at *
    omega
  · rw [if_neg hw]
    have c := h 0
    split
    · omega
    · unfold delayUntil; omega

/-- `lf_sleep` never returns before the duration has passed. -/
theorem C104_sleep_never_short (cost : Nat → Nat) (h : Costs cost) (c now : Nat) (d : Int) : now + d ≤ sleepFor cost c now d :=
  (C104_never_early cost h (now + c) (now + d)).1

/-- A wait that begins in the first epoch, and in time, ends exactly at the time, in this epoch or a later one. -/
theorem C104_exact_in_first_epoch_partial (cost : Nat → Nat) (h : Costs cost) (now : Nat) (w : Int)
    (hn : now + cost 0 < 4294967296) (hw : now + cost 0 ≤ w)
    (hl : 4294967296 < w → ((cost (w.toNat / 4294967296) - 1 : Nat) : Int) ≤ w % 4294967296) :
    sleepUntil cost now w = w := by
  unfold sleepUntil
  by_cases hw' : 4294967296 < w
  · rw [if_pos hw', count_eq now w hw']
    have hl := hl hw'
    obtain ⟨k, hk⟩ : ∃ k, w.toNat / 4294967296 = k + 1 := ⟨w.toNat / 4294967296 - 1, by omega⟩
    rw [hk] at hl ⊢
    rw [epochs_eq cost h now (by omega) k]
    have c := h (k + 1)
    generalize cost (k + 1) = x at *
    unfold delayUntil epochOf
    omega
  · rw [if_neg hw', if_neg (by omega)]
    unfold delayUntil
    have c := h 0
    obtain ⟨v, rfl⟩ : ∃ v : Nat, w = v := ⟨w.toNat, by omega⟩
    rw [Int.toNat_natCast]
    rcases (show v = 4294967296 ∨ v < 4294967296 by omega) with rfl | hv
    · omega
    · rw [Nat.mod_eq_of_lt hv, Nat.mod_eq_of_lt hn, show v + 4294967296 - (now + cost 0) = v - (now + cost 0) + 4294967296 by omega]
      omega

/-- A wait that begins later is too long by as many epochs as there have been before it: the function counts those from the start of the clock. -/
theorem C104_too_long_by_the_epochs_before (cost : Nat → Nat) (h : Costs cost) (now : Nat) (w : Int)
    (hn : now % 4294967296 + cost 0 < 4294967296) (hw : 4294967296 < w)
    (hl : ((cost (w.toNat / 4294967296) - 1 : Nat) : Int) ≤ w % 4294967296) :
    sleepUntil cost now w = w + epochOf now * 4294967296 := by
  unfold sleepUntil
  rw [if_pos hw, count_eq now w hw]
  obtain ⟨k, hk⟩ : ∃ k, w.toNat / 4294967296 = k + 1 := ⟨w.toNat / 4294967296 - 1, by omega⟩
  rw [hk] at hl ⊢
  rw [epochs_eq cost h now hn k]
  have c := h (k + 1)
  generalize cost (k + 1) = x at *
  unfold delayUntil epochOf
  omega

/-- So there is no bound on how much longer than a millisecond `lf_sleep` of a millisecond takes. -/
theorem C104_sleep_not_bounded (b : Nat) :
    ∃ now : Nat, now + 1000000 + (b : Int) < sleepFor (fun _ => 100) 100 now 1000000 := by
  refine ⟨(b + 1) * 4294967296, ?_⟩
  unfold sleepFor
  rw [C104_too_long_by_the_epochs_before (fun _ => 100) (fun _ => ⟨Nat.le_of_ble_eq_true rfl, Nat.le_of_ble_eq_true rfl⟩) _ _ (by omega) (by omega) (by omega)]
  unfold epochOf
  omega

/-- A time that has passed ends the wait at once only in the first epoch. -/
theorem C104_passed_time_returns_at_once_partial (cost : Nat → Nat) (now : Nat) (w : Int) (hn : now < 4294967296) (hw : w < now) :
    sleepUntil cost now w = now := by
  unfold sleepUntil
  rw [if_neg (by omega), if_pos (by omega)]

/-- Later the wait for a time that has passed lasts for at least as long as the time is from the start of the clock, less two epochs. -/
theorem C104_passed_time_not_noticed (cost : Nat → Nat) (h : Costs cost) (now : Nat) (w : Int) (hw : 4294967296 < w) :
    now + w - 2 * 4294967296 ≤ sleepUntil cost now w := by
  unfold sleepUntil
  rw [if_pos hw, count_eq now w hw]
  obtain ⟨e0, e⟩ := epochs_ge cost h now (w.toNat / 4294967296)
  obtain ⟨e1, e2⟩ := e (by omega)
  generalize cost (w.toNat / 4294967296) = x at *
  generalize epochs cost now (w.toNat / 4294967296) = y at *
  unfold delayUntil epochOf at *
  omega

/-- A time that passes while the function prepares the wait is missed, and the wait lasts for an epoch more. -/
theorem C104_short_wait_not_kept (cost : Nat → Nat) (now : Nat) (w : Int)
    (hn : now + cost 0 < 4294967296) (h1 : now ≤ w) (h2 : w < now + cost 0) :
    sleepUntil cost now w = w + 4294967296 := by
  unfold sleepUntil
  rw [if_neg (by omega), if_neg (by omega)]
  unfold delayUntil
  omega

/-- The branch that is to add an epoch is never taken: the number of epochs does not depend on when the wait begins. -/
theorem C104_no_epoch_is_added (now : Nat) (w : Int) (hw : 4294967296 < w) : (epochCount now w : Int) = w / 4294967296 := by
  rw [count_eq now w hw]; omega

/-! ## The hypotheses are met -/

example : Costs fun _ => 100 := fun _ => ⟨Nat.le_of_ble_eq_true rfl, Nat.le_of_ble_eq_true rfl⟩
example : Costs fun i => i % 7 + 1 := fun i => by constructor <;> simp only <;> omega

-- From the first epoch: in it, to its end, and to the third one.
example : sleepUntil (fun _ => 100) 1000 5000 = 5000 := by decide
example : sleepUntil (fun _ => 100) 1000 4294967296 = 4294967296 := by decide
example : sleepUntil (fun _ => 100) 1000 10000000000 = 10000000000 := by decide
-- From the third one: two epochs too long.
example : sleepFor (fun _ => 100) 100 10000000000 1000000 = 10001000000 + 2 * 4294967296 := by decide
-- In the past: a second too late becomes 13.9 seconds.
example : sleepUntil (fun _ => 100) 10000000000 9000000000 = 9000000000 + 2 * 4294967296 := by decide
example : sleepUntil (fun _ => 100) 5000 4000 = 5000 := by decide
example : sleepUntil (fun _ => 100) 5000 5050 = 5050 + 4294967296 := by decide

end ReactorC.Platform.Flexpret
