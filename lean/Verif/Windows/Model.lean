import Mathlib.Data.Rat.Floor
import Mathlib.Tactic.Linarith
import Mathlib.Tactic.NormNum
import Mathlib.Tactic.Positivity

/-!
# Time on Windows: the clock, sleeping, and waiting for condition variables

low_level_platform/impl/src/lf_windows_support.c.  What the operating system does is given by relations: a wait that times out has lasted
for the time that was given, any wait can fail, and a wait for a condition variable can be ended by a signal, or spuriously, at
any time.
-/

namespace ReactorC.Windows

/-- The value of an `int64_t` after an operation with the mathematical result `x`; signed overflow, which is undefined in C, wraps
around, as it does in the code that compilers for Windows produce. -/
def wrap (x : Int) : Int := (x + 2 ^ 63) % 2 ^ 64 - 2 ^ 63

/-! ## The clock -/

/-- How `double` operations round: `fl x` is the number that stands for `x`.  The sizes that can be reached are far from the largest and the
smallest numbers, so that the relative error is bounded by 2⁻⁵³. -/
structure Rounding where
  fl : ℚ → ℚ
  mono : ∀ x y, x ≤ y → fl x ≤ fl y
  error : ∀ x, |fl x - x| ≤ |x| / 2 ^ 53

/-- `_lf_use_performance_counter` and `_lf_frequency_to_ns`, lf_windows_support.c:54-60. -/
structure Clock where
  usesCounter : Bool
  perNs : ℚ

/-- `_lf_initialize_clock`, lf_windows_support.c:62-72; `frequency` is what `QueryPerformanceFrequency` gives, `none` if it fails. -/
def initializeClock (r : Rounding) (frequency : Option Int) : Clock :=
  match frequency with
  | some f => ⟨true, r.fl (r.fl f / 1000000000)⟩
  | none => ⟨false, r.fl (1 / 100)⟩

/-- The conversion of a `double` to `int64_t`: towards 0; what does not fit is undefined in C, and gives the least number on x64. -/
def toInt64 (x : ℚ) : Int :=
  let n := if 0 ≤ x then ⌊x⌋ else ⌈x⌉
  if -2 ^ 63 ≤ n ∧ n < 2 ^ 63 then n else -2 ^ 63

/-- The number of 100 ns since 1601 that the two halves of a `FILETIME` stand for, lf_windows_support.c:101-104. -/
def fileTime (high low : Nat) : Nat := (high <<< 32) ||| low

/-- `_lf_clock_gettime`, lf_windows_support.c:82-108: what is returned, and what `*t` is afterwards.  `counter` is what
`QueryPerformanceCounter` gives, `none` if it fails; `high` and `low` what `GetSystemTimeAsFileTime` gives.  `t` is not
`NULL`. -/
def clockGettime (r : Rounding) (c : Clock) (counter : Option Int) (high low : Nat) (t : Int) : Int × Int :=
  if c.usesCounter then
    match counter with
    | none => (0, t)
    | some n => (0, toInt64 (r.fl (r.fl n / c.perNs)))
  else (0, toInt64 (r.fl (r.fl (fileTime high low : Nat) / c.perNs)))

/-! ## Sleeping -/

/-- What is given to `SetWaitableTimer`, lf_windows_support.c:130. -/
def due (d : Int) : Int := -1 * d.tdiv 100

/-- What happens to the waitable timer. -/
inductive Timer
  | fails
  | fires
deriving DecidableEq, Repr

/-- `SetWaitableTimer` and `WaitForSingleObject` of a timer with the due time `q`, from `now` to `t`: for a time relative to now, which is
negative, at least that many times 100 ns; an absolute time counts from 1601, and those that the program uses are
past. -/
def Fires (q now t : Int) : Prop := now ≤ t ∧ (q < 0 → now + 100 * -q ≤ t)

/-- `lf_sleep`, lf_windows_support.c:118-141, called at `now`, returns `ret` at `t`; `TRUE` is 1 and `FALSE` is 0. -/
inductive Sleep (d now : Int) : Timer → Int → Int → Prop
  | noTimer (t) : now ≤ t → Sleep d now .fails 0 t
  | fired (t) : Fires (due d) now t → Sleep d now .fires 1 t

/-- `_lf_interruptable_sleep_until_locked`, lf_windows_support.c:143-152, called at `now`; reading the clock takes no time. -/
inductive SleepUntil (wakeup now : Int) : Timer → Int → Int → Prop
  | past : wrap (wakeup - now) ≤ 0 → SleepUntil wakeup now .fires 0 now
  | sleep (x ret t) : ¬wrap (wakeup - now) ≤ 0 → Sleep (wrap (wakeup - now)) now x ret t →
      SleepUntil wakeup now x ret t

/-- `next` of the single-threaded runtime, core/reactor.c:220-275, called at `now` and again as long as the wait is not finished, with the same
event first in the queue; the tag is advanced at `t`.  `x`: whether a timer failed. -/
inductive Advance (wakeup : Int) : Int → Timer → Int → Prop
  | done (now x t) : SleepUntil wakeup now x 0 t → Advance wakeup now x t
  | again (now ret t now' x t') : SleepUntil wakeup now .fires ret t → ret ≠ 0 → t ≤ now' → Advance wakeup now' x t' →
      Advance wakeup now x t'

/-! ## Waiting for a condition variable -/

/-- What `_lf_cond_timedwait` does: return at once, or call `SleepConditionVariableCS`. -/
inductive Ask
  | ret (r : Int)
  | sleep (ms : Nat)
deriving DecidableEq, Repr

/-- `_lf_cond_timedwait`, lf_windows_support.c:289-309, with `LF_TIMEOUT` 1. -/
def ask (wakeup now : Int) : Ask :=
  let d := wrap (wakeup - now)
  if d ≤ 0 then .ret 0
  else
    let ms := (wrap (d + 999999)).tdiv 1000000
    if ms > 0xFFFFFFFF then .sleep 0xFFFFFFFF
    else if ms ≤ 0 then .ret 1
    else .sleep ms.toNat

/-- How `SleepConditionVariableCS` ends. -/
inductive Outcome
  | woken
  | timeout
  | error
deriving DecidableEq, Repr

/-- `SleepConditionVariableCS` with the timeout `ms`, from `now` to `t`; 0xFFFFFFFF is `INFINITE`. -/
inductive Ends (ms : Nat) (now : Int) : Outcome → Int → Prop
  | woken (t) : now ≤ t → Ends ms now .woken t
  | timeout (t) : ms ≠ 0xFFFFFFFF → now + 1000000 * ms ≤ t → Ends ms now .timeout t
  | error (t) : now ≤ t → Ends ms now .error t

/-- lf_windows_support.c:311-322. -/
def result : Outcome → Int
  | .woken => 0
  | .timeout => 1
  | .error => -1

/-- `_lf_cond_timedwait` called at `now` returns `ret` at `t`. -/
inductive TimedWait (wakeup now : Int) : Int → Int → Prop
  | atOnce (r) : ask wakeup now = .ret r → TimedWait wakeup now r now
  | waited (ms o t) : ask wakeup now = .sleep ms → Ends ms now o t → TimedWait wakeup now (result o) t

end ReactorC.Windows
