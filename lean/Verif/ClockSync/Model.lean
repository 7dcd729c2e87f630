import Mathlib.Data.List.Basic

/-!
# Clock synchronisation of a federate with the RTI

Models core/federated/clock-sync.c: the handling of the messages T1 and T4 and of the coded probe, and the statistics
that drive the correction of the clock.  The parameters are `_LF_CLOCK_SYNC_EXCHANGES_PER_INTERVAL` (`E`),
`_LF_CLOCK_SYNC_ATTENUATION` (`A`) and `CLOCK_SYNC_GUARD_BAND` (`G`), include/core/federated/clock-sync.h.

Simplifications: times are integers without overflow; C's integer division is `Int.tdiv`, which truncates towards
zero; of the statistics only the number of samples is kept, and the comparison of their standard deviation, computed
in floating point, with the guard band is an arbitrary Boolean.  `_LF_CLOCK_SYNC_COLLECT_STATS` is on, the default.
-/

namespace ReactorC.ClockSync

structure Params where
  E : Nat
  A : Nat
  G : Int

/-- `socket_stat_t`, include/core/federated/clock-sync.h:59-89, the clock offset, and whether a sample has been written
past the end of the array `network_stat_samples`, which has `E` elements. -/
structure Stat where
  T1 : Int
  T2 : Int
  localDelay : Int
  received : Int
  history : Int
  sampleIndex : Nat
  offset : Int
  overrun : Bool
deriving DecidableEq, Repr

/-- The initial values, core/federated/clock-sync.c:53-63, and `_lf_clock_sync_offset`, 46. -/
def init : Stat :=
  { T1 := 0, T2 := 0, localDelay := 0, received := 0, history := 0, sampleIndex := 0, offset := 0, overrun := false }

/-- `handle_T1_clock_sync_message`, core/federated/clock-sync.c:264-294.  `t3` is the physical time after the reply has
been written, `none` if it could not be written. -/
def handle_T1 (t1 t2 : Int) (t3 : Option Int) (s : Stat) : Stat :=
  match t3 with
  | some t3 => { s with T1 := t1, T2 := t2, localDelay := t3 - t2 }
  | none => { s with T1 := t1, T2 := t2 }

/-- `update_socket_stat`, core/federated/clock-sync.c:100-114. -/
def update_socket_stat (p : Params) (s : Stat) : Stat :=
  { s with
    overrun := s.overrun || decide (p.E ≤ s.sampleIndex)
    sampleIndex := s.sampleIndex + 1 }

/-- `reset_socket_stat`, core/federated/clock-sync.c:148-152. -/
def reset_socket_stat (s : Stat) : Stat := { s with received := 0, history := 0, sampleIndex := 0 }

/-- Over which socket the exchange is made: TCP, initially; or UDP, where T4 is followed by a coded probe, which is
sent at RTI time `t5` and received at `r5`, unless reading it fails or it is not a coded probe. -/
inductive Link
  | tcp
  | udp (probe : Option (Int × Int))
deriving DecidableEq, Repr

/-- The estimated clock error, core/federated/clock-sync.c:326-336. -/
def estimate (s : Stat) (t4 : Int) : Int := Int.tdiv ((t4 - s.T1) - s.localDelay) 2 - (s.T2 - s.T1)

/-- The end of `handle_T4_clock_sync_message`, core/federated/clock-sync.c:390-435.  `deviant` is whether the standard
deviation of the samples is too large. -/
def finish (p : Params) (adjustment : Int) (deviant : Bool) (s : Stat) : Stat :=
  let s := update_socket_stat p s
  let s := { s with history := s.history + Int.tdiv adjustment p.E }
  if (p.E : Int) ≤ s.received then
    if deviant then reset_socket_stat s
    else reset_socket_stat { s with offset := s.offset + s.history }
  else s

/-- `handle_T4_clock_sync_message`, core/federated/clock-sync.c:312-436. -/
def handle_T4 (p : Params) (t4 r4 : Int) (link : Link) (deviant : Bool) (s : Stat) : Stat :=
  let s := { s with received := s.received + 1 }
  match link with
  | .tcp => finish p (estimate s t4) deviant s
  | .udp none => s
  | .udp (some (t5, r5)) =>
    if p.G ≤ ((r5 - r4) - (t5 - t4)).natAbs then { s with received := s.received - 1 }
    else finish p (Int.tdiv (estimate s t4) p.A) deviant s

/-- The messages handled by a federate. -/
inductive Input
  | T1 (t1 t2 : Int) (t3 : Option Int)
  | T4 (t4 r4 : Int) (link : Link) (deviant : Bool)

def handle (p : Params) (s : Stat) : Input → Stat
  | .T1 t1 t2 t3 => handle_T1 t1 t2 t3 s
  | .T4 t4 r4 link deviant => handle_T4 p t4 r4 link deviant s

/-- Any sequence of messages. -/
def run (p : Params) (s : Stat) (l : List Input) : Stat := l.foldl (handle p) s

end ReactorC.ClockSync
