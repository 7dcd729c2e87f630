import Mathlib.Data.List.Basic

/-!
# The counting semaphore

Models core/utils/lf_semaphore.c for any number of threads, each making any sequence of calls.  The mutex and the
condition variable are those of the platform: at most one thread holds the mutex; waiting on the condition
releases the mutex and blocks; a broadcast, and possibly nothing at all (a spurious wakeup), unblocks a waiting
thread, which must then take the mutex again.  Each statement of the three functions is one step.  The count is a
natural number: `size_t` overflow is not modelled.
-/

namespace ReactorC.Semaphore

/-- The three calls: `lf_semaphore_release` (core/utils/lf_semaphore.c:59-65), `lf_semaphore_acquire` (:72-80)
and `lf_semaphore_wait` (:87-94). -/
inductive Op
  | release (i : Nat)
  | acquire
  | wait
deriving DecidableEq, Repr

/-- Where a thread is. -/
inductive Pc
  /-- outside of the semaphore -/
  | idle
  /-- called; about to lock the mutex (also after a wakeup, inside `lf_cond_wait`) -/
  | enter (op : Op)
  /-- holds the mutex; about to execute the first statement after it: the addition, or the loop test -/
  | body (op : Op)
  /-- holds the mutex; about to broadcast -/
  | bcast (i : Nat)
  /-- holds the mutex; about to decrement -/
  | dec
  /-- holds the mutex; about to unlock and return -/
  | leave (op : Op)
  /-- blocked in `lf_cond_wait` -/
  | asleep (op : Op)
deriving DecidableEq, Repr

/-- The semaphore, the threads, and the record of calls and returns (latest first). -/
structure State where
  count : Nat
  /-- the mutex: the thread that holds it -/
  owner : Option Nat
  threads : List Pc
  /-- calls made -/
  called : List Op
  /-- calls that have returned -/
  returned : List Op

/-- `lf_semaphore_new`, core/utils/lf_semaphore.c:45-51, used by `n` threads. -/
def new (count n : Nat) : State :=
  { count := count
    owner := none
    threads := List.replicate n .idle
    called := []
    returned := [] }

/-- What a broadcast does to a thread: it wakes up if it is blocked. -/
def wake : Pc → Pc
  | .asleep op => .enter op
  | p => p

/-- One step of one thread. -/
inductive Step : State → State → Prop
  | call (s : State) (t : Nat) (op : Op) : s.threads[t]? = some .idle →
      Step s { s with threads := s.threads.set t (.enter op), called := op :: s.called }
  /-- `LF_MUTEX_LOCK`, :61, :74, :89, and the locking at the end of `lf_cond_wait` -/
  | lock (s : State) (t : Nat) (op : Op) : s.threads[t]? = some (.enter op) → s.owner = none →
      Step s { s with threads := s.threads.set t (.body op), owner := some t }
  /-- `semaphore->count += i`, :62 -/
  | add (s : State) (t i : Nat) : s.threads[t]? = some (.body (.release i)) →
      Step s { s with threads := s.threads.set t (.bcast i), count := s.count + i }
  /-- `lf_cond_broadcast`, :63 -/
  | bcast (s : State) (t i : Nat) : s.threads[t]? = some (.bcast i) →
      Step s { s with threads := (s.threads.map wake).set t (.leave (.release i)) }
  /-- `while (semaphore->count == 0) lf_cond_wait`, :75-77 and :90-92, when the count is zero -/
  | sleep (s : State) (t : Nat) (op : Op) : s.threads[t]? = some (.body op) → op = .acquire ∨ op = .wait →
      s.count = 0 →
      Step s { s with threads := s.threads.set t (.asleep op), owner := none }
  /-- the loop of `lf_semaphore_acquire` ends, :75 -/
  | pass (s : State) (t : Nat) : s.threads[t]? = some (.body .acquire) → s.count ≠ 0 →
      Step s { s with threads := s.threads.set t .dec }
  /-- `semaphore->count--`, :78 -/
  | dec (s : State) (t : Nat) : s.threads[t]? = some .dec →
      Step s { s with threads := s.threads.set t (.leave .acquire), count := s.count - 1 }
  /-- the loop of `lf_semaphore_wait` ends, :90 -/
  | passWait (s : State) (t : Nat) : s.threads[t]? = some (.body .wait) → s.count ≠ 0 →
      Step s { s with threads := s.threads.set t (.leave .wait) }
  /-- `LF_MUTEX_UNLOCK` and return, :64, :79, :93 -/
  | leave (s : State) (t : Nat) (op : Op) : s.threads[t]? = some (.leave op) →
      Step s { s with threads := s.threads.set t .idle, owner := none, returned := op :: s.returned }
  /-- a spurious wakeup -/
  | spurious (s : State) (t : Nat) (op : Op) : s.threads[t]? = some (.asleep op) →
      Step s { s with threads := s.threads.set t (.enter op) }

/-- Any interleaving of any length. -/
inductive Reach (c n : Nat) : State → Prop
  | new : Reach c n (new c n)
  | step {s t} : Reach c n s → Step s t → Reach c n t

/-! ## Specification vocabulary -/

/-- The number of units a list of calls releases. -/
def units : List Op → Nat
  | [] => 0
  | .release i :: l => i + units l
  | _ :: l => units l

/-- The number of acquires in a list of calls. -/
def acquires : List Op → Nat
  | [] => 0
  | .acquire :: l => 1 + acquires l
  | _ :: l => acquires l

end ReactorC.Semaphore
