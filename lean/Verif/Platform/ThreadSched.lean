import Verif.Platform.Misc

/-!
# Scheduling of threads: processors, priorities and policies on Linux and Zephyr

Models `lf_thread_set_cpu`, `lf_thread_set_priority` and `lf_thread_set_scheduling_policy` of
low_level_platform/impl/src/lf_linux_support.c:46-137 and lf_zephyr_support.c:173-219.  Threads are natural numbers.
-/

namespace ReactorC.Platform.ThreadSched

/-- `lf_scheduling_policy_type_t`, low_level_platform/api/low_level_platform.h:150-154; `unknown` is any other number. -/
inductive Policy
  | fair
  | timeslice
  | priority
  | unknown
deriving DecidableEq, Repr

/-- `lf_scheduling_policy_t`, low_level_platform.h:156-160; the time slice in nanoseconds. -/
structure Request where
  policy : Policy
  priority : Int
  timeSlice : Int

namespace Linux

/-- The policies of Linux. -/
inductive Sched
  | other
  | rr
  | fifo
deriving DecidableEq, Repr

/-- What the operating system knows: for each thread, if it exists, the policy and the priority, and the processors it may run on. -/
structure Os where
  sched : Nat → Option (Sched × Int)
  cpus : Nat → List Nat

/-- What does not change: the range of priorities of each policy (`sched_get_priority_min` and `sched_get_priority_max`), what a thread may be
set to, and the number of processors. -/
structure Sys where
  least : Sched → Int
  most : Sched → Int
  permitted : Nat → Sched → Int → Bool
  processors : Nat

/-- ESRCH, EPERM and EINVAL. -/
def ESRCH : Int := 3
def EPERM : Int := 1
def EINVAL : Int := 22

/-- `pthread_setschedparam`, as POSIX has it: the new state, and the result. -/
def setParam (y : Sys) (o : Os) (i : Nat) (p : Sched) (n : Int) : Os × Int :=
  match o.sched i with
  | none => (o, ESRCH)
  | some _ =>
    if n < y.least p ∨ y.most p < n then (o, EINVAL)
    else if y.permitted i p n = false then (o, EPERM)
    else ({ o with sched := Function.update o.sched i (some (p, n)) }, 0)

/-- `lf_thread_set_cpu`, lf_linux_support.c:46-53: a set of at most 1024 processors, of which `CPU_SET` ignores others;
`pthread_setaffinity_np` refuses sets without processors that exist. -/
def setCpu (y : Sys) (o : Os) (i : Nat) (cpu : Nat) : Os × Int :=
  let set := if cpu < 1024 then [cpu] else []
  match o.sched i with
  | none => (o, ESRCH)
  | some _ =>
    if set.filter (· < y.processors) = [] then (o, EINVAL) else ({ o with cpus := Function.update o.cpus i set }, 0)

/-- `lf_thread_set_priority`, lf_linux_support.c:55-83; `pthread_setschedprio` is `pthread_setschedparam` with the present policy. -/
def setPriority (y : Sys) (o : Os) (i : Nat) (priority : Int) : Os × Int :=
  if priority > 99 ∨ priority < 0 then (o, -1)
  else
    match o.sched i with
    | none => (o, ESRCH)
    | some (p, _) =>
      if y.least p = -1 ∨ y.most p = -1 then (o, -1)
      else
        let final := mapPriorities priority (y.least p) (y.most p)
        if final < 0 then (o, -1) else setParam y o i p final

/-- The rest of `lf_thread_set_scheduling_policy`, lf_linux_support.c:121-136: `p` and `n` are written back, and then the priority, if any, is set. -/
def writeBack (y : Sys) (o : Os) (i : Nat) (p : Sched) (n : Int) (priority : Option Int) : Os × Int :=
  let r := setParam y o i p n
  if r.2 ≠ 0 then r
  else
    match priority with
    | none => (r.1, 0)
    | some q => setPriority y r.1 i q

/-- `lf_thread_set_scheduling_policy`, lf_linux_support.c:85-137. -/
def setPolicy (y : Sys) (o : Os) (i : Nat) (r : Request) : Os × Int :=
  match o.sched i with
  | none => (o, ESRCH)
  | some _ =>
    match r.policy with
    | .fair => writeBack y o i .other 0 none
    | .timeslice => writeBack y o i .rr (y.most .rr) (some r.priority)
    | .priority => writeBack y o i .fifo (y.most .fifo) (some r.priority)
    | .unknown => (o, -1)

end Linux

namespace Zephyr

/-- The priorities of threads, and the time slice of all threads in milliseconds, 0 if threads of the same priority are not sliced
(`k_sched_time_slice_set`). -/
structure Os where
  priority : Nat → Int
  slice : Int

/-- `lf_thread_set_priority`, lf_zephyr_support.c:178-191; `n` is `CONFIG_NUM_PREEMPT_PRIORITIES`. -/
def setPriority (n : Int) (o : Os) (i : Nat) (priority : Int) : Os × Int :=
  if priority > 99 ∨ priority < 0 then (o, -1)
  else
    let final := mapPriorities priority (n - 1) 0
    if final < 0 then (o, -1) else ({ o with priority := Function.update o.priority i final }, 0)

/-- `lf_thread_set_scheduling_policy`, lf_zephyr_support.c:193-219. -/
def setPolicy (n : Int) (o : Os) (i : Nat) (r : Request) : Os × Int :=
  match r.policy with
  | .timeslice =>
    let p := setPriority n { o with slice := r.timeSlice.tdiv 1000000 } i r.priority
    if p.2 ≠ 0 then (p.1, -1) else (p.1, 0)
  | .priority =>
    let p := setPriority n o i r.priority
    if p.2 ≠ 0 then (p.1, -1) else (p.1, 0)
  | .fair => (o, -1)
  | .unknown => (o, -1)

end Zephyr

end ReactorC.Platform.ThreadSched
