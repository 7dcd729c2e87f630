import Mathlib.Tactic.Ring

/-!
# Model of the creation of threads on Zephyr and on the RP2040

On Zephyr threads have stacks in an array of fixed size, and `lf_thread_create` (low_level_platform/impl/src/lf_zephyr_support.c:134-158) gives them out, one after
the other, under a mutex.  On the RP2040 there is one thread beside the main one, on the second core (lf_rp2040_support.c:217-258).

Simplifications.  Functions and their arguments are numbers.  The operating system starts a thread when it is told to.
-/

namespace ReactorC.Platform.ThreadPool

/-! ## Zephyr -/

/-- Where a caller of `lf_thread_create` is: not in it; before the mutex; past it; past `k_thread_create`; past the assignment of the handle; past the increment. `f`: the function
of the new thread.  `k`: the handle. -/
inductive Pc
  | idle
  | want (f : Nat)
  | locked (f : Nat)
  | started (f : Nat)
  | handed (f k : Nat)
  | counted (f k : Nat)
deriving DecidableEq, Repr

/-- `owner`, `depth`: `thread_mutex`, which a thread can lock again that has locked it (`k_mutex`).  `tid`: the static variable.  `slots`: what the threads of the array `threads` execute.  `pc`: where
callers are.  `log`: the calls that have returned, with the caller, the function and the handle, if there is one; the latest is the first. -/
structure Zephyr where
  owner : Option Nat
  depth : Nat
  tid : Nat
  slots : Nat → Option Nat
  pc : Nat → Pc
  log : List (Nat × Nat × Option Nat)

def put {α : Type} (g : Nat → α) (p : Nat) (x : α) : Nat → α := fun q => if q = p then x else g q

def Zephyr.init : Zephyr := ⟨none, 0, 0, fun _ => none, fun _ => .idle, []⟩

/-- The end of `k_mutex_unlock`. -/
def Zephyr.release (s : Zephyr) : Zephyr := { s with depth := s.depth - 1, owner := if s.depth ≤ 1 then none else s.owner }

/-- The steps of `lf_thread_create`, lf_zephyr_support.c:134-158, by a caller `p`, with `N` (`NUMBER_OF_THREADS`, line 110) threads in the array. -/
inductive Step (N : Nat) : Zephyr → Zephyr → Prop
  | call {s : Zephyr} (p f : Nat) : s.pc p = .idle → Step N s { s with pc := put s.pc p (.want f) }
  | lock {s : Zephyr} (p : Nat) {f : Nat} : s.pc p = .want f → s.owner = none ∨ s.owner = some p →
      Step N s { s with owner := some p, depth := s.depth + 1, pc := put s.pc p (.locked f) }
  | refuse {s : Zephyr} (p : Nat) {f : Nat} : s.pc p = .locked f → (N : Int) - 1 < s.tid →
      Step N s { s with pc := put s.pc p .idle, log := (p, f, none) :: s.log }
  | start {s : Zephyr} (p : Nat) {f : Nat} : s.pc p = .locked f → ¬ (N : Int) - 1 < s.tid →
      Step N s { s with slots := put s.slots s.tid (some f), pc := put s.pc p (.started f) }
  | hand {s : Zephyr} (p : Nat) {f : Nat} : s.pc p = .started f → Step N s { s with pc := put s.pc p (.handed f s.tid) }
  | count {s : Zephyr} (p : Nat) {f k : Nat} : s.pc p = .handed f k → Step N s { s with tid := s.tid + 1, pc := put s.pc p (.counted f k) }
  | unlock {s : Zephyr} (p : Nat) {f k : Nat} : s.pc p = .counted f k →
      Step N s { s.release with pc := put s.pc p .idle, log := (p, f, some k) :: s.log }

/-- States after any number of steps. -/
inductive Steps (N : Nat) (s : Zephyr) : Zephyr → Prop
  | refl : Steps N s s
  | tail {t u} : Steps N s t → Step N t u → Steps N s u

/-! ## RP2040 -/

/-- `thread_1` and whether there has been a call, `thread_1_return`, `thread_1_done`; `launched`: the functions that the second core has been given. -/
structure Pico where
  called : Bool
  fn : Option Nat
  ret : Option Nat
  sem : Nat
  launched : List Nat
deriving DecidableEq, Repr

def Pico.init : Pico := ⟨false, none, none, 0, []⟩

/-- `MAGIC_THREAD1_ID`, lf_rp2040_support.c:223. -/
def magic : Nat := 314159

/-- `lf_thread_create`, lf_rp2040_support.c:230-242: the state, the result, and what becomes of the handle. -/
def Pico.create (s : Pico) (f : Nat) : Pico × Int × Option Nat :=
  if s.called then (s, 1, none)
  else ({ s with fn := some f, called := true, sem := 0, launched := f :: s.launched }, 0, some magic)

/-- The end of `core1_entry`, lf_rp2040_support.c:225-228: the function has returned `v`. -/
def Pico.finish (s : Pico) (v : Nat) : Pico := { s with ret := some v, sem := 1 }

/-- `lf_thread_join`, lf_rp2040_support.c:244-258; `none` if it has to wait.  `sem_release` fails if the semaphore has its greatest value, 1. -/
def Pico.join (s : Pico) (h : Nat) : Option (Pico × Int × Option Nat) :=
  if h ≠ magic then some (s, 1, none)
  else if s.sem = 0 then none
  else if 1 ≤ s.sem - 1 then some ({ s with sem := s.sem - 1 }, 1, none)
  else some ({ s with sem := s.sem - 1 + 1 }, 0, s.ret)

/-- What happens on the RP2040; the second index is what the function of the thread has returned, if it has. -/
inductive PicoReach : Pico → Option Nat → Prop
  | init : PicoReach .init none
  | create {s d} (f : Nat) : PicoReach s d → PicoReach (s.create f).1 d
  | finish {s} (v : Nat) : PicoReach s none → s.called = true → PicoReach (s.finish v) (some v)
  | join {s d} (h : Nat) {s' r x} : PicoReach s d → s.join h = some (s', r, x) → PicoReach s' d

end ReactorC.Platform.ThreadPool
