import Mathlib.Tactic.Ring

/-!
# Model of the interruptible sleep of programs without threads

`next` (core/reactor.c:192-254) waits for the time of the next event with `lf_clock_interruptable_sleep_until_locked`
(core/clock.c:46-50), which calls `_lf_interruptable_sleep_until_locked` of the platform, in a critical section, that is, with
interrupts disabled.  Interrupt service routines schedule physical actions, which puts events with the present physical time on the
event queue, and calls `_lf_single_threaded_notify_of_event`.  When the result is 0, `next` advances to the tag it has waited
for; otherwise it looks at the event queue again.

Simplifications.  Critical sections of a platform enable and disable interrupts as they should (C65 has how they are implemented), except for
Arduino.  One interrupt service routine is executed at a time.  Times are in nanoseconds; there is no offset by clock synchronization.
-/

namespace ReactorC.Platform.Sleep

/-- `now`: what the clock shows.  `on`: interrupts are enabled.  `flag`: `_lf_async_event` or `async_event`.  `sem`: the binary semaphore.
`pc`: where the function is.  `left`, `until_`, `res`: local variables.  `alarm`: when the timer gives the semaphore.  `result`: of the function.
`events`: the times of the events that interrupts have put on the queue since the call, the latest first.  `steps`: the steps of the function since the
first of these. -/
structure St where
  now : Int
  on : Bool := false
  flag : Bool := false
  sem : Bool := false
  pc : Nat := 0
  left : Int := 0
  until_ : Int := 0
  res : Bool := false
  alarm : Option Int := none
  result : Option Int := none
  events : List Int := []
  steps : Nat := 0
deriving DecidableEq, Repr

/-- `own`: the next step of the function, if it is not waiting.  `notify`: `_lf_single_threaded_notify_of_event`. -/
structure Platform where
  on : Bool
  own : St → Option St
  notify : St → St

/-- What can happen. -/
inductive Act
  | own
  | tick (t : Int)
  | isr
  | alarm
deriving DecidableEq, Repr

/-- A step.  An interrupt service routine that schedules an action reads the clock. -/
def act (P : Platform) (s : St) : Act → Option St
  | .own => (P.own s).map fun s' => { s' with steps := if s.events = [] then 0 else s.steps + 1 }
  | .tick t => if s.now ≤ t then some { s with now := t } else none
  | .isr => if s.on = true ∧ s.result = none then some (P.notify { s with events := s.now :: s.events }) else none
  | .alarm => match s.alarm with
    | some a => if s.on = true ∧ a ≤ s.now then some { s with alarm := none, sem := true } else none
    | none => none

/-- The states from the call of the function on, with whatever is left in the variables from before. -/
inductive Reach (P : Platform) : St → Prop
  | init (now : Int) (flag sem : Bool) : Reach P { now := now, on := P.on, flag := flag, sem := sem }
  | step {s s'} (a : Act) : Reach P s → act P s a = some s' → Reach P s'

/-! ## The platforms -/

/-- The sleep of Patmos, low_level_platform/impl/src/lf_patmos_support.c:54-74, and of Arduino, lf_arduino_support.c:67-86.  `irq`:
what `lf_enable_interrupts_nested` does. -/
def busyOwn (irq : Bool) (w : Int) (s : St) : Option St :=
  match s.pc with
  | 0 => some { s with flag := false, pc := 1 }
  | 1 => some { s with on := irq, pc := 2 }
  | 2 => some { s with left := s.now, pc := 3 }
  | 3 => if s.left < w ∧ s.flag = false then some { s with pc := 2 } else some { s with pc := 4 }
  | 4 => some { s with on := !irq, pc := 5 }
  | 5 => if s.flag = true then some { s with flag := false, result := some (-1), pc := 6 } else some { s with result := some 0, pc := 6 }
  | _ => none

def patmos (w : Int) : Platform := ⟨false, busyOwn true w, fun s => { s with flag := true }⟩

/-- On Arduino the functions that enable and disable interrupts are exchanged, lf_arduino_support.c:119-141: the critical section around the sleep does
not disable interrupts, and the sleep does. -/
def arduino (w : Int) : Platform := ⟨true, busyOwn false w, fun s => { s with flag := true }⟩

/-- Zephyr with the timer of the kernel, lf_zephyr_clock_kernel.c:73-110. `K_NSEC` begins with the call of `k_sem_take`. -/
def kernelOwn (w : Int) (s : St) : Option St :=
  match s.pc with
  | 0 => some { s with flag := false, pc := 1 }
  | 1 => if w - s.now ≤ 0 then some { s with result := some 0, pc := 8 } else some { s with left := w - s.now, pc := 2 }
  | 2 => some { s with sem := false, pc := 3 }
  | 3 => some { s with on := true, pc := 4 }
  | 4 => some { s with until_ := s.now + s.left, pc := 5 }
  | 5 => if s.sem = true then some { s with sem := false, res := true, pc := 6 }
    else if s.until_ ≤ s.now then some { s with res := false, pc := 6 } else none
  | 6 => some { s with on := false, pc := 7 }
  | 7 => if s.res = true then some { s with flag := false, result := some (-1), pc := 8 } else some { s with result := some 0, pc := 8 }
  | _ => none

def zephyrKernel (w : Int) : Platform := ⟨false, kernelOwn w, fun s => { s with flag := true, sem := true }⟩

/-- `LF_WAKEUP_OVERHEAD_US`, `LF_MIN_SLEEP_US`, `LF_RUNTIME_OVERHEAD_US`, lf_zephyr_board_support.h:41-77, and the duration of an epoch in
microseconds. -/
structure Board where
  wakeup : Int
  least : Int
  runtime : Int
  epoch : Int

/-- Zephyr with a counter, lf_zephyr_clock_counter.c:143-205. Ticks are microseconds, and the counter has 32 bits. -/
def counterOwn (b : Board) (w : Int) (s : St) : Option St :=
  match s.pc with
  | 0 => some { s with flag := false, sem := false, pc := 1 }
  | 1 => some { s with left := (w - s.now).tdiv 1000, pc := 2 }
  | 2 => if s.flag = false ∧ b.wakeup + b.least < s.left then some { s with pc := 3 } else some { s with pc := 8 }
  | 3 => some { s with alarm := some (s.now + 1000 * if s.left < b.epoch then s.left - b.wakeup else 4294967295), pc := 4 }
  | 4 => some { s with on := true, pc := 5 }
  | 5 => if s.sem = true then some { s with sem := false, pc := 6 } else none
  | 6 => some { s with on := false, pc := 7 }
  | 7 => if s.flag = false then some { s with left := (w - s.now).tdiv 1000, pc := 2 } else some { s with pc := 2 }
  | 8 => if s.flag = false ∧ b.runtime < s.left then some { s with until_ := s.now + 1000 * (s.left - b.runtime), pc := 9 }
    else some { s with pc := 10 }
  | 9 => if s.until_ ≤ s.now then some { s with pc := 10 } else none
  | 10 => if s.flag = true then some { s with alarm := none, flag := false, result := some (-1), pc := 11 }
    else some { s with result := some 0, pc := 11 }
  | _ => none

def zephyrCounter (b : Board) (w : Int) : Platform := ⟨false, counterOwn b w, fun s => { s with flag := true, sem := true }⟩

/-- RP2040, lf_rp2040_support.c:125-151. -/
def picoOwn (w : Int) (s : St) : Option St :=
  match s.pc with
  | 0 => if w < 0 then some { s with result := some 0, pc := 6 } else some { s with sem := false, pc := 1 }
  | 1 => some { s with until_ := w / 1000 * 1000, pc := 2 }
  | 2 => some { s with on := true, pc := 3 }
  | 3 => if s.sem = true then some { s with sem := false, res := true, pc := 4 }
    else if s.until_ ≤ s.now then some { s with res := false, pc := 4 } else none
  | 4 => some { s with on := false, pc := 5 }
  | 5 => some { s with result := some (if s.res = true then -1 else 0), pc := 6 }
  | _ => none

def rp2040 (w : Int) : Platform := ⟨false, picoOwn w, fun s => { s with sem := true }⟩

/-- FlexPRET, lf_flexpret_support.c:50-117, for times in the first epoch (of 4.3 seconds); `fp_wait_until` ends at the time or when there is an
interrupt after it has begun (`sem`). -/
def flexOwn (w : Int) (s : St) : Option St :=
  match s.pc with
  | 0 => some { s with on := true, pc := 1 }
  | 1 => if w < s.now then some { s with res := false, pc := 6 } else some { s with pc := 2 }
  | 2 => some { s with flag := false, pc := 3 }
  | 3 => if s.flag = false then some { s with pc := 4 } else some { s with res := true, pc := 6 }
  | 4 => some { s with sem := false, pc := 5 }
  | 5 => if s.sem = true ∨ w ≤ s.now then some { s with res := s.flag, pc := 6 } else none
  | 6 => some { s with on := false, pc := 7 }
  | 7 => some { s with result := some (if s.res = true then 1 else 0), pc := 8 }
  | _ => none

def flexpret (w : Int) : Platform := ⟨false, flexOwn w, fun s => { s with flag := true, sem := true }⟩

/-! ## nRF52 -/

/-- As `St`; the clock, `n`, counts microseconds (32 bits of it are a timer).  `next_`, `asleep`: `sleep_next` and `_lf_sleep_interrupted`.  `cmp`: the value that is compared with the timer.
`due`: the timer has had this value, and the interrupt has not been handled.  `wake`: the event register of `__WFE`. -/
structure Nrf where
  n : Nat
  on : Bool := false
  flag : Bool := false
  next_ : Bool := false
  asleep : Bool := false
  wake : Bool := false
  duration : Int := 0
  curr : Nat := 0
  cmp : Option Nat := none
  due : Bool := false
  pc : Nat := 0
  result : Option Int := none
  events : List Nat := []
  steps : Nat := 0
deriving DecidableEq, Repr

/-- The timer has the value `c` between `a` and `b`. -/
def hits (a b c : Nat) : Prop := ∃ m, a < m ∧ m ≤ b ∧ m % 4294967296 = c

/-- `_lf_interruptable_sleep_until_locked`, lf_nrf52_support.c:207-262. -/
def nrfOwn (w : Int) (s : Nrf) : Option Nrf :=
  match s.pc with
  | 0 =>
    if w - s.n * 1000 ≤ 0 then some { s with result := some 0, pc := 9 }
    else if w - s.n * 1000 < 5000 then some { s with pc := 8 }
    else some { s with duration := w - s.n * 1000, next_ := true, asleep := false, flag := false, pc := 1 }
  | 1 => if s.asleep = false then some { s with curr := s.n, pc := 2 } else some { s with pc := 3 }
  | 2 =>
    if 4294967295 * 1000 < s.duration then
      some { s with cmp := some ((s.curr + 4294967295) % 4294967296), due := false, duration := s.duration - 4294967295 * 1000, asleep := true, pc := 3 }
    else some { s with cmp := some ((w / 1000).toNat % 4294967296), due := false, next_ := false, asleep := true, pc := 3 }
  | 3 => some { s with on := true, pc := 4 }
  | 4 => if s.wake = true then some { s with wake := false, pc := 5 } else none
  | 5 => some { s with on := false, pc := 6 }
  | 6 => if s.flag = false ∧ (s.next_ = true ∨ s.asleep = true) then some { s with pc := 1 } else some { s with pc := 7 }
  | 7 => if s.flag = true then some { s with result := some (-1), pc := 9 } else some { s with result := some 0, pc := 9 }
  | 8 => if w ≤ s.n * 1000 then some { s with result := some 0, pc := 9 } else none
  | _ => none

/-- A step: of the function; of the clock; an interrupt that schedules an action; that of the timer, lf_nrf52_support.c:90-97; another one. -/
inductive NrfStep (w : Int) : Nrf → Nrf → Prop
  | own {s s'} : nrfOwn w s = some s' → NrfStep w s { s' with steps := if s.events = [] then 0 else s.steps + 1 }
  | tick {s} (k : Nat) : (∀ c, s.cmp = some c → ¬ hits s.n (s.n + k) c) → NrfStep w s { s with n := s.n + k }
  | hit {s} (k : Nat) {c} : s.cmp = some c → hits s.n (s.n + k) c → NrfStep w s { s with n := s.n + k, due := true }
  | isr {s} : s.on = true → s.result = none → NrfStep w s { s with events := s.n :: s.events, flag := true, wake := true }
  | timer {s} : s.on = true → s.due = true → NrfStep w s { s with due := false, asleep := false, wake := true }
  | other {s} : s.on = true → NrfStep w s { s with wake := true }

/-- The states from the call of the function on, with whatever is left in the variables and the timer from before. -/
inductive NrfReach (w : Int) : Nrf → Prop
  | init (n : Nat) (flag asleep wake due : Bool) (cmp : Option Nat) :
      NrfReach w { n := n, flag := flag, asleep := asleep, wake := wake, due := due, cmp := cmp }
  | step {s s'} : NrfReach w s → NrfStep w s s' → NrfReach w s'

end ReactorC.Platform.Sleep
