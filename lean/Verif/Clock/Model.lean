import Mathlib.Data.List.Basic

/-!
# Reading the physical clock

Models `lf_clock_gettime` of core/clock.c, called by any number of threads.  Each access to the shared variable
`last_read_physical_time` is one step.  The values read from the system clock, with the clock synchronisation
offset added, are arbitrary.  The sum `last_read_local + 1` is taken not to overflow (the clock stays below 2^63 - 1
nanoseconds).
-/

namespace ReactorC.Clock

/-- Where a call of `lf_clock_gettime` is, core/clock.c:22-44. -/
inductive Pc
  /-- after reading the system clock and adding the offset: the local `*now` -/
  | read (now : Int)
  /-- after the atomic fetch and the monotonicity correction (core/clock.c:32-37) -/
  | fetched (now : Int) (last : Int)
  /-- after a successful compare-and-swap -/
  | swapped (now : Int)
  | returned
deriving DecidableEq, Repr

/-- What an observer of the calls sees; calls are numbered. -/
inductive Entry
  /-- call `k` begins; the system clock, with the offset, yields `x` -/
  | call (k : Nat) (x : Int)
  /-- the call returns 0 and has stored `v` -/
  | ret (k : Nat) (v : Int)
  /-- the call returns -1 because the system clock could not be read -/
  | fail (k : Nat)
deriving DecidableEq, Repr

/-- The shared variable, the calls in progress or finished (call `k` is at position `k`) and the record of
observable actions, latest first. -/
structure State where
  last : Int
  calls : List Pc
  log : List Entry

/-- `static instant_t last_read_physical_time = NEVER`, core/clock.c:20. -/
def init : State :=
  { last := -9223372036854775808
    calls := []
    log := [] }

/-- The correction `if (*now < last_read_local) *now = last_read_local + 1`, core/clock.c:35-37. -/
def correct (now last : Int) : Int := if now < last then last + 1 else now

/-- One step of the program, core/clock.c:22-44. -/
inductive Step : State → State → Prop
  /-- a thread calls; the system clock yields `x` -/
  | call (s : State) (x : Int) :
      Step s { s with calls := s.calls ++ [.read x], log := .call s.calls.length x :: s.log }
  /-- a thread calls; reading the system clock fails -/
  | fail (s : State) :
      Step s { s with
        calls := s.calls ++ [.returned]
        log := .fail s.calls.length :: s.log }
  /-- atomic fetch and correction -/
  | fetch (s : State) (k : Nat) (now : Int) : s.calls[k]? = some (.read now) →
      Step s { s with calls := s.calls.set k (.fetched (correct now s.last) s.last) }
  /-- the compare-and-swap succeeds -/
  | swap (s : State) (k : Nat) (now last : Int) : s.calls[k]? = some (.fetched now last) → s.last = last →
      Step s { s with last := now, calls := s.calls.set k (.swapped now) }
  /-- the compare-and-swap fails, and the loop is repeated -/
  | retry (s : State) (k : Nat) (now last : Int) : s.calls[k]? = some (.fetched now last) → s.last ≠ last →
      Step s { s with calls := s.calls.set k (.read now) }
  /-- the call returns -/
  | ret (s : State) (k : Nat) (now : Int) : s.calls[k]? = some (.swapped now) →
      Step s { s with calls := s.calls.set k .returned, log := .ret k now :: s.log }

/-- Any interleaving of any length. -/
inductive Reach : State → Prop
  | init : Reach init
  | step {s t} : Reach s → Step s t → Reach t

end ReactorC.Clock
