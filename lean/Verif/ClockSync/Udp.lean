import Verif.ClockSync.Props

/-!
# Model of clock synchronization during the execution

The thread of the RTI that synchronizes the clocks, `clock_synchronization_thread` (core/federated/RTI/rti_remote.c:886-972), the thread of each
federate that listens, `listen_to_rti_UDP_thread` (core/federated/clock-sync.c:441-531), and the datagrams between them.  What the messages do to the clock is in
`Verif.ClockSync.Model`.

Simplifications.  `now` is the clock of the RTI; the clocks of the federates run at its speed.  All federates are connected and have clock synchronization on.  Writing T3
and reading the clock afterwards (clock-sync.c:285-292) are one step, and so are sending T4 and the probe
(rti_remote.c:872-884; the probe may have a later time).  Reads do not fail: `read_from_socket` tries again for ever when there is
nothing to read, core/federated/network/net_util.c:100-105, whatever the timeout of the socket.  A datagram that takes longer than `D` is lost.
-/

namespace ReactorC.ClockSync.Udp
open ReactorC.ClockSync

/-- What the RTI sends, with its time. -/
inductive Msg
  | T1 (t : Int)
  | T4 (t : Int)
  | probe (t : Int)
deriving DecidableEq, Repr

/-- The thread of a federate.  `waiting`: `waiting_for_T1`.  `replying`: it has received T1 with this time at this time of its clock, and has not replied yet.  `probing`: it
has received T4 with this time at this time of its clock, and waits for the probe. -/
structure Fed where
  waiting : Bool := true
  replying : Option (Int × Int) := none
  probing : Option (Int × Int) := none
  stat : Stat
deriving DecidableEq, Repr

/-- `n` federates; the parameters of the synchronization; the largest delay; and the error of the clocks without synchronization. -/
structure Config where
  n : Nat
  p : Params
  D : Int
  error : Nat → Int

/-- The state.  `down f`: the datagrams on their way to federate `f`, and `up`: those on their way to the RTI (T3, with the ID of the federate, and when they were sent), the oldest first.
`round`, `cur`, `left`: the thread of the RTI, its loops, and how often it will still read if it waits for T3.  `any`: `any_federates_connected`. `log f`: the exchanges from which
federate `f` has computed corrections, with the error of its clock at the time, the latest first. -/
structure State where
  now : Int
  fed : Nat → Fed
  down : Nat → List Msg
  up : List (Nat × Int)
  round : Nat
  cur : Nat
  left : Option Nat
  any : Bool
  log : Nat → List (Exchange × Int)

def put {α : Type} (f : Nat → α) (i : Nat) (a : α) : Nat → α := fun j => if j = i then a else f j

/-- By how much the clock of federate `f` is behind that of the RTI. -/
def behind (C : Config) (s : State) (f : Nat) : Int := C.error f - (s.fed f).stat.offset

/-- `lf_time_physical` of federate `f`. -/
def clock (C : Config) (s : State) (f : Nat) : Int := s.now - behind C s f

/-- The end of an exchange: what is known when T4 has come and the probe, or something else, has been read. -/
def exchange (s : Stat) (t4 r4 : Int) (l : Link) (deviant : Bool) : Exchange := ⟨s.T1, s.T2, s.T2 + s.localDelay, t4, r4, l, deviant⟩

/-- Whether the exchange is used for a correction, clock-sync.c:351-383. -/
def counts (p : Params) (t4 r4 : Int) : Link → Bool
  | .tcp => true
  | .udp none => false
  | .udp (some (t5, r5)) => decide (((r5 - r4) - (t5 - t4)).natAbs < p.G)

/-- `handle_T4_clock_sync_message`, clock-sync.c:312-436, when the next datagram is `m`. -/
def endExchange (C : Config) (s : State) (f : Nat) (t4 r4 : Int) (m : Msg) (deviant : Bool) : State :=
  let l : Link := match m with
    | .probe t5 => .udp (some (t5, clock C s f))
    | _ => .udp none
  { s with
    fed := put s.fed f { s.fed f with
      waiting := true
      probing := none
      stat := handle_T4 C.p t4 r4 l deviant (s.fed f).stat }
    log := if counts C.p t4 r4 l = true then put s.log f ((exchange (s.fed f).stat t4 r4 l deviant, behind C s f) :: s.log f) else s.log }

/-- A federate handles a datagram, clock-sync.c:486-527. -/
def receive (C : Config) (s : State) (f : Nat) (m : Msg) (deviant : Bool) : State :=
  match (s.fed f).probing with
  | some (t4, r4) => endExchange C s f t4 r4 m deviant
  | none =>
    if (s.fed f).waiting = true then
      match m with
      | .T1 t => { s with fed := put s.fed f { s.fed f with replying := some (t, clock C s f) } }
      | _ => s
    else
      match m with
      | .T4 t => { s with fed := put s.fed f { s.fed f with probing := some (t, clock C s f) } }
      | _ => { s with fed := put s.fed f { s.fed f with waiting := true } }

/-- What the datagram was made for has happened in time. -/
def inTime (C : Config) (s : State) : Msg → Prop
  | .T1 t => s.now ≤ t + C.D
  | _ => True

/-- A step, over a network that loses datagrams but neither duplicates them nor changes their order. -/
inductive Step (C : Config) : State → State → Prop
  | tick {s} {t : Int} : s.now ≤ t → Step C s { s with now := t }
  /-- the next round, rti_remote.c:907-910 -/
  | sleep {s} : s.left = none → s.cur = C.n → s.any = true → Step C s { s with round := s.round + 1, cur := 0, any := false }
  /-- rti_remote.c:923 -/
  | sendT1 {s} : s.left = none → s.cur < C.n →
      Step C s { s with down := put s.down s.cur (s.down s.cur ++ [.T1 s.now]), left := some 5 }
  /-- T3 from the right federate, rti_remote.c:934-950 -/
  | recvT3 {s} {k : Nat} {t5 sent : Int} {rest : List (Nat × Int)} : s.left = some (k + 1) → s.up = (s.cur, sent) :: rest → s.now ≤ sent + C.D →
      s.now ≤ t5 →
      Step C s { s with
        up := rest
        down := put s.down s.cur (s.down s.cur ++ [.T4 s.now, .probe t5])
        left := none
        any := s.any || decide (0 < k)
        cur := s.cur + 1 }
  /-- T3 from another federate, rti_remote.c:938-945 -/
  | recvOther {s} {k f : Nat} {sent : Int} {rest : List (Nat × Int)} : s.left = some (k + 1) → s.up = (f, sent) :: rest → f ≠ s.cur →
      Step C s { s with up := rest, left := if k = 0 then none else some k, cur := if k = 0 then s.cur + 1 else s.cur }
  /-- a federate handles a datagram -/
  | receive {s} {f : Nat} {m : Msg} {rest : List Msg} (deviant : Bool) : f < C.n → s.down f = m :: rest → (s.fed f).replying = none → inTime C s m →
      Step C s (receive C { s with down := put s.down f rest } f m deviant)
  /-- a federate replies, clock-sync.c:264-294 -/
  | reply {s} {f : Nat} {t1 t2 : Int} : (s.fed f).replying = some (t1, t2) →
      Step C s { s with
        fed := put s.fed f { s.fed f with waiting := false, replying := none, stat := handle_T1 t1 t2 (some (clock C s f)) (s.fed f).stat }
        up := s.up ++ [(f, s.now)] }
  /-- the reply cannot be written -/
  | replyFails {s} {f : Nat} {t1 t2 : Int} : (s.fed f).replying = some (t1, t2) →
      Step C s { s with
        fed := put s.fed f { s.fed f with waiting := true, replying := none, stat := handle_T1 t1 t2 none (s.fed f).stat } }
  /-- a datagram is lost -/
  | loseDown {s} {f i : Nat} : i < (s.down f).length → Step C s { s with down := put s.down f ((s.down f).eraseIdx i) }
  | loseUp {s} {i : Nat} : i < s.up.length → Step C s { s with up := s.up.eraseIdx i }

/-- The beginning: after the initial synchronization, which has left some offsets. -/
def init (now : Int) (offset : Nat → Int) : State where
  now := now
  fed f := { stat := { ClockSync.init with offset := offset f } }
  down := fun _ => []
  up := []
  round := 0
  cur := 0
  left := none
  any := false
  log := fun _ => []

/-- The reachable states. -/
inductive Reach (C : Config) (now : Int) (offset : Nat → Int) : State → Prop
  | init : Reach C now offset (init now offset)
  | step {s s'} : Reach C now offset s → Step C s s' → Reach C now offset s'

end ReactorC.ClockSync.Udp
