import Mathlib.Tactic.Ring

/-!
# Model of waiting on FlexPRET

The clock of FlexPRET counts nanoseconds in 64 bits, but the instructions that wait compare its lower 32 bits with a value of 32 bits.
`_lf_sleep_common` (low_level_platform/impl/src/lf_flexpret_support.c:50-106) therefore divides the wait into epochs of 2^32 nanoseconds.

Simplifications.  `fp_delay_until` and `fp_wait_until` are not part of the repository; they end, as the function supposes, the next time the lower 32 bits of the clock are
equal to their argument (comments in the function say that the processor does not do that yet).  There are no interrupts: `Platform/Sleep.lean` has these.
The time the processor needs between two waits is `cost i`, for the wait number `i`.
-/

namespace ReactorC.Platform.Flexpret

/-- `fp_delay_until(t)` at the time `n`: when it ends. -/
def delayUntil (n t : Nat) : Nat := n + (t + 4294967296 - n % 4294967296) % 4294967296

/-- The loop over the epochs, lf_flexpret_support.c:83-98: when it is left, after `k` waits. -/
def epochs (cost : Nat → Nat) (now : Nat) : Nat → Nat
  | 0 => now
  | k + 1 => delayUntil (epochs cost now k + cost k) 4294967295

/-- The number of epochs to wait for, lf_flexpret_support.c:57-64, for times beyond the first epoch. `rdtime` gives the lower 32 bits of the clock. -/
def epochCount (now : Nat) (w : Int) : Nat :=
  w.toNat / 4294967296 + if w < (now % 4294967296 : Nat) then 1 else 0

/-- `_lf_sleep_common`, lf_flexpret_support.c:50-106, called at the time `now`: when it returns. -/
def sleepUntil (cost : Nat → Nat) (now : Nat) (w : Int) : Nat :=
  if 4294967296 < w then
    delayUntil (epochs cost now (epochCount now w) + cost (epochCount now w)) (w.toNat % 4294967296)
  else if w < (now % 4294967296 : Nat) then now
  else delayUntil (now + cost 0) (w.toNat % 4294967296)

/-- `lf_sleep`, lf_flexpret_support.c:119-122, and `lf_nanosleep`, lines 165-171; `c` passes between the reading of the clock and the call. -/
def sleepFor (cost : Nat → Nat) (c now : Nat) (d : Int) : Nat := sleepUntil cost (now + c) (now + d)

end ReactorC.Platform.Flexpret
