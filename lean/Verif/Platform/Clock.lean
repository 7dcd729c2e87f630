import Mathlib.Data.Nat.Basic

/-!
# Clocks of microcontrollers

Models `_lf_clock_gettime` of low_level_platform/impl/src/lf_arduino_support.c, lf_nrf52_support.c, lf_zephyr_clock_counter.c and
lf_zephyr_clock_kernel.c: how they make 64-bit times of hardware counters that wrap around.

`T` is the number of ticks of the hardware since it was started; counters show `T` modulo their period.  64-bit overflows
of nanoseconds, after 292 years, are left out.
-/

namespace ReactorC.Platform

/-- 2^32. -/
def word : Nat := 4294967296

/-! ## Arduino -/

/-- The variables `_lf_time_us_high` and `_lf_time_us_low_last`, lf_arduino_support.c:58-59. -/
structure Arduino where
  high : Nat
  lowLast : Nat
deriving DecidableEq, Repr

/-- `_lf_clock_gettime`, lf_arduino_support.c:112-126, when `micros()` has been counting for `T` microseconds.  `lowLast` is
never written. -/
def Arduino.gettime (c : Arduino) (T : Nat) : Arduino × Nat :=
  let low := T % word
  let c := if low < c.lowLast then { c with high := (c.high + 1) % word } else c
  (c, (c.high * word + low) * 1000)

/-- The results of calls at these times, by a program that starts with the variables as they are initialized. -/
def Arduino.readings : Arduino → List Nat → List Nat
  | _, [] => []
  | c, T :: l => (c.gettime T).2 :: Arduino.readings (c.gettime T).1 l

/-! ## Readings and interrupts -/

/-- A call of `_lf_clock_gettime`: the numbers of ticks when it began and when it ended, and its result. -/
structure Reading where
  start : Nat
  finish : Nat
  value : Nat
deriving DecidableEq, Repr

/-! ## nRF52 -/

/-- Where the program is in `_lf_clock_gettime`, lf_nrf52_support.c:142-158. -/
inductive Nrf.Pc
  | idle
  /-- `_lf_time_us_high` has been read (145) -/
  | pre (start hi : Nat)
  /-- the timer has been read (146) -/
  | low (start hi lo : Nat)
  /-- `_lf_time_us_high` has been read again (147) -/
  | post (start hi lo hi' : Nat)
deriving DecidableEq, Repr

/-- `pending` is whether the overflow interrupt has been requested but not served; `masked` is whether interrupts are
disabled. -/
structure Nrf where
  T : Nat
  high : Nat
  pending : Bool
  masked : Bool
  pc : Nrf.Pc
  log : List Reading
deriving DecidableEq, Repr

/-- `_lf_initialize_clock`, lf_nrf52_support.c:101-125. -/
def Nrf.start : Nrf := ⟨0, 0, false, false, .idle, []⟩

/-- An interrupt that is not masked is served before anything else happens. -/
def Nrf.free (s : Nrf) : Prop := s.pending = false ∨ s.masked = true

/-- Steps of the hardware and of a program that reads the clock; `masking` is whether the program disables interrupts. -/
inductive Nrf.Step (masking : Prop) : Nrf → Nrf → Prop
  /-- one microsecond; the compare register is 0, so that the interrupt is requested when the timer wraps around (123) -/
  | tick {s} : s.free → Nrf.Step masking s { s with T := s.T + 1, pending := s.pending || (s.T + 1) % word == 0 }
  /-- `lf_timer_event_handler`, lf_nrf52_support.c:92-99 -/
  | isr {s} : s.pending = true → s.masked = false → Nrf.Step masking s { s with high := s.high + 1, pending := false }
  | mask {s} : masking → Nrf.Step masking s { s with masked := true }
  | unmask {s} : Nrf.Step masking s { s with masked := false }
  | readHigh {s} : s.free → s.pc = .idle → Nrf.Step masking s { s with pc := .pre s.T s.high }
  | capture {s a hi} : s.free → s.pc = .pre a hi → Nrf.Step masking s { s with pc := .low a hi (s.T % word) }
  | readHighAgain {s a hi lo} : s.free → s.pc = .low a hi lo → Nrf.Step masking s { s with pc := .post a hi lo s.high }
  | finish {s a hi lo hi'} : s.free → s.pc = .post a hi lo hi' →
      Nrf.Step masking s
        { s with pc := .idle, log := ⟨a, s.T, (hi' * word + if hi ≠ hi' then s.T % word else lo) * 1000⟩ :: s.log }

/-- Reached from the start. -/
inductive Nrf.Reach (masking : Prop) : Nrf → Prop
  | start : Nrf.Reach masking Nrf.start
  | step {s t} : Nrf.Reach masking s → Nrf.Step masking s t → Nrf.Reach masking t

/-! ## Zephyr, with a counter -/

/-- The device: its frequency, and the greatest value it shows. -/
structure Counter where
  freq : Nat
  top : Nat

/-- `counter_ticks_to_us` of Zephyr. -/
def Counter.us (d : Counter) (ticks : Nat) : Nat := ticks * 1000000 / d.freq

/-- `epoch_duration_nsec`, lf_zephyr_clock_counter.c:94-96. -/
def Counter.epochNsec (d : Counter) : Nat := d.us d.top * 1000

/-- Where the program is in `_lf_clock_gettime`, lf_zephyr_clock_counter.c:123-142. -/
inductive Zephyr.Pc
  | idle
  /-- the counter has been read (129) -/
  | got (start cycles : Nat)
deriving DecidableEq, Repr

/-- `epoch` is `last_epoch_nsec`, `last` is `last_nsec`. -/
structure Zephyr where
  T : Nat
  epoch : Nat
  last : Nat
  pending : Bool
  masked : Bool
  pc : Zephyr.Pc
  log : List Reading
deriving DecidableEq, Repr

def Zephyr.start : Zephyr := ⟨0, 0, 0, false, false, .idle, []⟩

def Zephyr.free (s : Zephyr) : Prop := s.pending = false ∨ s.masked = true

/-- Lines 130-139: the time from the counter and the epoch, which must not be less than the last one. -/
def Zephyr.value (d : Counter) (s : Zephyr) (cycles : Nat) : Nat :=
  let now := d.us cycles * 1000 + s.epoch
  if now < s.last then s.last + 1 else now

/-- Steps; `any` is whether the program disables interrupts, and whether the counter wraps around during a call.  One
thread at a time reads the clock. -/
inductive Zephyr.Step (d : Counter) (any : Prop) : Zephyr → Zephyr → Prop
  | tick {s} : s.free → (any ∨ s.pc = .idle ∨ (s.T + 1) % (d.top + 1) ≠ 0) →
      Zephyr.Step d any s { s with T := s.T + 1, pending := s.pending || (s.T + 1) % (d.top + 1) == 0 }
  /-- `overflow_callback`, lf_zephyr_clock_counter.c:59 -/
  | isr {s} : s.pending = true → s.masked = false →
      Zephyr.Step d any s { s with epoch := s.epoch + d.epochNsec, pending := false }
  | mask {s} : any → Zephyr.Step d any s { s with masked := true }
  | unmask {s} : Zephyr.Step d any s { s with masked := false }
  | get {s} : s.free → s.pc = .idle → Zephyr.Step d any s { s with pc := .got s.T (s.T % (d.top + 1)) }
  | finish {s a c} : s.free → s.pc = .got a c →
      Zephyr.Step d any s { s with pc := .idle, last := s.value d c, log := ⟨a, s.T, s.value d c⟩ :: s.log }

/-- Reached from the start. -/
inductive Zephyr.Reach (d : Counter) (any : Prop) : Zephyr → Prop
  | start : Zephyr.Reach d any Zephyr.start
  | step {s t} : Zephyr.Reach d any s → Zephyr.Step d any s t → Zephyr.Reach d any t

/-! ## Zephyr, with the timer of the kernel -/

/-- `TICKS_TO_NSEC`, lf_zephyr_clock_kernel.c:47-61, with `CONFIG_SYS_CLOCK_TICKS_PER_SEC` ticks per second. -/
def ticksToNsec (perSec ticks : Nat) : Nat :=
  if perSec = 100 then 10 * ticks * 1000000
  else if perSec = 1000 then ticks * 1000000
  else if perSec = 10000 then 100 * ticks * 1000
  else if perSec = 100000 then 10 * ticks * 1000
  else if perSec = 1000000 then 1 * ticks * 1000
  else if perSec = 10000000 then 100 * ticks
  else 1000000000 / perSec * ticks

end ReactorC.Platform
