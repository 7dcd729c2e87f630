import Mathlib.Logic.Function.Basic
import Mathlib.Data.Nat.Basic

/-!
# Priorities, times for the operating system, and condition variables of the RP2040
-/

namespace ReactorC.Platform

/-! ## Priorities -/

/-- `map_priorities`, low_level_platform/impl/src/lf_platform_util.c:4-14, with `LF_SCHED_MIN_PRIORITY` 0 and `LF_SCHED_MAX_PRIORITY`
99 (low_level_platform/api/low_level_platform.h:82-83).  Overflows of `int`, of ranges of more than 21 million priorities, are
left out.  Used by lf_linux_support.c:77 with the range of the operating system, and by lf_zephyr_support.c:184 with the
range from `CONFIG_NUM_PREEMPT_PRIORITIES - 1` to 0. -/
def mapPriorities (priority destMin destMax : Int) : Int :=
  if priority < 0 ∨ priority > 99 then -1 else destMin + ((priority - 0) * (destMax - destMin)).tdiv (99 - 0)

/-! ## Times -/

/-- `struct timespec`. -/
structure Timespec where
  sec : Int
  nsec : Int
deriving DecidableEq, Repr

/-- `convert_timespec_to_ns`, lf_unix_clock_support.c:9. -/
def toNs (t : Timespec) : Int := t.sec * 1000000000 + t.nsec

/-- `convert_ns_to_timespec`, lf_unix_clock_support.c:11-16; division rounds towards 0. -/
def toTimespec (t : Int) : Timespec := ⟨t.tdiv 1000000000, t.tmod 1000000000⟩

/-! ## Condition variables of the RP2040 -/

namespace Pico

/-- Where a core is: elsewhere; in `lf_cond_wait` after unlocking the mutex (lf_rp2040_support.c:299), having locked it `depth` times
before; about to lock it again (301); in `_lf_cond_timedwait` (308). -/
inductive Pc
  | run
  | waiting (depth : Nat)
  | relock (depth : Nat)
  | timed
deriving DecidableEq, Repr

/-- The recursive mutex (who has locked it how often), a condition variable (a binary semaphore for each core), and the cores.
`notified i`: the condition variable has been signalled since core `i` called `lf_cond_wait` or `_lf_cond_timedwait`. -/
structure St where
  owner : Option Nat
  depth : Nat
  mailbox : Nat → Bool
  pc : Nat → Pc
  notified : Nat → Bool

/-- `lf_mutex_init` and `lf_cond_init`, lf_rp2040_support.c:260-263 and 278-284. -/
def St.start : St := ⟨none, 0, fun _ => false, fun _ => .run, fun _ => false⟩

/-- `recursive_mutex_enter_blocking` succeeds. -/
def St.canLock (s : St) (i : Nat) : Prop := s.owner = none ∨ s.owner = some i

def St.lock (s : St) (i : Nat) : St := { s with owner := some i, depth := s.depth + 1 }

/-- `recursive_mutex_exit`. -/
def St.unlock (s : St) : St := { s with owner := if s.depth = 1 then none else s.owner, depth := s.depth - 1 }

/-- Steps of cores and interrupts. -/
inductive Step : St → St → Prop
  /-- `lf_mutex_lock`, lf_rp2040_support.c:265-268 -/
  | lock {s i} : s.pc i = .run → s.canLock i → Step s (s.lock i)
  /-- `lf_mutex_unlock`, lf_rp2040_support.c:270-273 -/
  | unlock {s i} : s.pc i = .run → s.owner = some i → Step s s.unlock
  /-- an iteration of `lf_cond_broadcast`, lf_rp2040_support.c:286-291, by a core, or by an interrupt, with or without the
  mutex -/
  | notify {s k} : Step s { s with mailbox := Function.update s.mailbox k true, notified := Function.update s.notified k true }
  /-- `lf_cond_wait` until the mutex has been unlocked -/
  | wait {s i} : s.pc i = .run → s.owner = some i →
      Step s { s.unlock with
        pc := Function.update s.pc i (.waiting s.depth), notified := Function.update s.notified i false }
  /-- `sem_acquire_blocking` -/
  | acquire {s i n} : s.pc i = .waiting n → s.mailbox i = true →
      Step s { s with mailbox := Function.update s.mailbox i false, pc := Function.update s.pc i (.relock n) }
  | relock {s i n} : s.pc i = .relock n → s.canLock i → Step s { s.lock i with pc := Function.update s.pc i .run }
  /-- `_lf_cond_timedwait`, lf_rp2040_support.c:305-310: it does not unlock the mutex -/
  | timed {s i} : s.pc i = .run → s.owner = some i →
      Step s { s with pc := Function.update s.pc i .timed, notified := Function.update s.notified i false }
  | acquireTimed {s i} : s.pc i = .timed → s.mailbox i = true →
      Step s { s with mailbox := Function.update s.mailbox i false, pc := Function.update s.pc i .run }
  | timeout {s i} : s.pc i = .timed → Step s { s with pc := Function.update s.pc i .run }

inductive Reach : St → Prop
  | start : Reach St.start
  | step {s t} : Reach s → Step s t → Reach t

end Pico

end ReactorC.Platform
