import Verif.Barrier.Model

/-!
# The stop protocol of a federation

Models lf_request_stop in a federate (core/threaded/reactor_threaded.c:474-513 with `FEDERATED`, core/federated/federate.c:
1364-1492 and 2562-2594) and its handlers in the RTI (core/federated/RTI/rti_remote.c:519-711), with the barrier of
Verif.Barrier.Model in each federate and a FIFO channel in each direction between the RTI and each federate.

Simplifications: each federate has one environment (two are considered in `counteroffer`); sockets do not fail, except that
a federate may resign at any time and then neither sends nor receives anything; a message is its type and its tag (the
encoding is the subject of Verif.Net.Wire); the timeout of the RTI (rti_remote.c:590-604), which ends the RTI with an error,
is left out.
-/

namespace ReactorC.Stop
open ReactorC

/-- Messages: `MSG_TYPE_STOP_REQUEST`, `MSG_TYPE_STOP_REQUEST_REPLY`, `MSG_TYPE_STOP_GRANTED`, `MSG_TYPE_RESIGN`,
include/core/federated/network/net_common.h:444-522. -/
inductive Msg
  | request (tag : Tag)
  | reply (tag : Tag)
  | granted (tag : Tag)
  | resign
deriving DecidableEq, Repr

/-- Update of a function at one argument: a store to a field. -/
def upd {α : Type} (f : Nat → α) (i : Nat) (v : α) : Nat → α := fun j => if j = i then v else f j

/-!
## The RTI
-/

/-- The fields used here: `max_stop_tag`, `num_scheduling_nodes_handling_stop` (core/federated/RTI/rti_common.h),
`requested_stop`, `stop_in_progress` (rti_remote.h), `stop_granted_already_sent_to_federates` (rti_remote.c:525), whether
`enclave.state` is not `NOT_CONNECTED`, `enclave.next_event`, and all messages sent to each federate, oldest first. -/
structure Rti where
  maxStop : Tag
  handling : Nat
  requested : Nat → Bool
  inProgress : Bool
  granted : Bool
  connected : Nat → Bool
  nextEvent : Nat → Tag
  out : Nat → List Msg

/-- `initialize_RTI`, rti_remote.c:1715-1743, `initialize_rti_common`, rti_common.c, and `initialize_federate`, once all
federates have joined. -/
def Rti.init : Rti :=
  { maxStop := NEVER_TAG, handling := 0, requested := fun _ => false, inProgress := false, granted := false,
    connected := fun _ => true, nextEvent := fun _ => NEVER_TAG, out := fun _ => [] }

/-- `write_to_socket_fail_on_error` to federate `i`. -/
def send (s : Rti) (i : Nat) (m : Msg) : Rti := { s with out := upd s.out i (s.out i ++ [m]) }

/-- The loop of `broadcast_stop_time_to_federates_locked`, rti_remote.c:546-562, over the first `k` federates. -/
def broadcastLoop : Nat → Rti → Rti
  | 0, s => s
  | k + 1, s =>
    let s := broadcastLoop k s
    if s.connected k = false then s
    else
      let s :=
        if 0 ≤ lf_tag_compare (s.nextEvent k) s.maxStop then { s with nextEvent := upd s.nextEvent k s.maxStop } else s
      send s k (.granted s.maxStop)

/-- `broadcast_stop_time_to_federates_locked`, rti_remote.c:535-564; `n` is the number of federates. -/
def broadcast (n : Nat) (s : Rti) : Rti :=
  if s.granted = true then s else broadcastLoop n { s with granted := true }

/-- `mark_federate_requesting_stop`, rti_remote.c:573-585. -/
def mark (n : Nat) (s : Rti) (i : Nat) : Rti × Bool :=
  let s := if s.requested i = true then s else { s with handling := s.handling + 1, requested := upd s.requested i true }
  if s.handling = n then (broadcast n s, true) else (s, false)

/-- The loop of `handle_stop_request_message`, rti_remote.c:666-681, over the first `k` federates: the request of federate
`f` is forwarded with the tag `tag`. -/
def forwardLoop (n f : Nat) (tag : Tag) : Nat → Rti → Rti
  | 0, s => s
  | k + 1, s =>
    let s := forwardLoop n f tag k s
    if k ≠ f ∧ s.requested k = false then
      if s.connected k = false then (mark n s k).1 else send s k (.request tag)
    else s

/-- The update of `max_stop_tag`, rti_remote.c:641-643 and 707-709. -/
def raiseMax (s : Rti) (tag : Tag) : Rti := if 0 < lf_tag_compare tag s.maxStop then { s with maxStop := tag } else s

/-- `handle_stop_request_message`, rti_remote.c:606-686. -/
def handleRequest (n : Nat) (s : Rti) (f : Nat) (tag : Tag) : Rti :=
  if s.requested f = true then
    if s.inProgress = true then (mark n s f).1 else s
  else
    let s := raiseMax s tag
    let r := mark n s f
    if r.2 = true then r.1
    else if r.1.inProgress = true then r.1
    else forwardLoop n f r.1.maxStop n { r.1 with inProgress := true }

/-- `handle_stop_request_reply`, rti_remote.c:688-711. -/
def handleReply (n : Nat) (s : Rti) (f : Nat) (tag : Tag) : Rti := (mark n (raiseMax s tag) f).1

/-- `federate_info_thread_TCP`, rti_remote.c:1072-1146, for the messages considered here, with `handle_federate_resign`,
1031-1070. -/
def handle (n : Nat) (s : Rti) (f : Nat) : Msg → Rti
  | .request tag => handleRequest n s f tag
  | .reply tag => handleReply n s f tag
  | .resign => { s with connected := upd s.connected f false, nextEvent := upd s.nextEvent f FOREVER_TAG }
  | .granted _ => s

/-!
## The federates
-/

/-- Where a thread is in `lf_request_stop`: not called (or called in vain); after line 484; after line 499 with
`max_current_tag`; returned. -/
inductive Rq
  | idle
  | flagged
  | raised (max_current_tag : Tag)
  | done
deriving DecidableEq, Repr

/-- Where the thread that listens to the RTI is: between messages; in `handle_stop_request_message` with `tag_to_stop`,
before line 1425; after line 1432 with `already_blocked`; after line 1456 (not blocked already); after line 1475. -/
inductive Rx
  | idle
  | got (tag_to_stop : Tag)
  | checked (tag_to_stop : Tag) (already_blocked : Bool)
  | counted (tag_to_stop : Tag)
  | blocked (tag_to_stop : Tag)
deriving DecidableEq, Repr

/-- A federate: its environment, `lf_stop_requested`, `_fed.received_stop_request_from_rti`, two threads, and whether it is
still there. -/
structure Fed where
  b : Barrier.State
  stopRequested : Bool
  received : Bool
  rq : Rq
  rx : Rx
  alive : Bool

/-- The identity under which the stop protocol asks for a barrier (messages use others). -/
def stopId : Nat := 0

/-- The next microstep, `stop_tag.microstep++`, federate.c:2567, 1469. -/
def nextStep (t : Tag) : Tag := ⟨t.time, wrapU32 (t.microstep + 1)⟩

/-- The release of the barrier of the stop protocol: `_lf_decrement_tag_barrier_locked` if there is a requestor,
federate.c:1399-1400. -/
def release (b : Barrier.State) : Barrier.State :=
  match b.out.find? (fun r => r.id = stopId) with
  | some r => Barrier.giveBack b r
  | none => if b.requestors ≠ 0 then Barrier.decrement b else b

/-- `lf_request_stop` is called, reactor_threaded.c:477-484 (with the global mutex). -/
def callStop (f : Fed) : Fed := if f.stopRequested = true then f else { f with stopRequested := true, rq := .flagged }

/-- The loop of `lf_request_stop`, reactor_threaded.c:488-499 (with the mutex of the environment). -/
def raiseOwn (f : Fed) : Fed :=
  { f with b := Barrier.raise f.b stopId f.b.cur, rq := .raised f.b.cur }

/-- `lf_send_stop_request_to_rti`, federate.c:2562-2594, and the rest of `lf_request_stop`, reactor_threaded.c:505-513:
what is sent, and the federate afterwards. -/
def sendOwn (f : Fed) (c : Tag) : List Msg × Fed :=
  if f.received = false then ([.request (nextStep c)], { f with received := true, rq := .done })
  else ([], { f with b := release f.b, rq := .done })

/-- `handle_stop_granted_message`, federate.c:1364-1404. -/
def takeGrant (f : Fed) (tag : Tag) : Fed := { f with b := release (Barrier.stopGranted f.b tag) }

/-- `handle_stop_request_message`, federate.c:1425-1432 (with the global mutex). -/
def check (f : Fed) (t : Tag) : Fed := { f with stopRequested := true, rx := .checked t f.stopRequested }

/-- federate.c:1441-1457 (with the mutex of the socket). -/
def countOnce (f : Fed) (t : Tag) (already : Bool) : Fed :=
  if f.received = true ∨ already = true then { f with rx := .idle } else { f with received := true, rx := .counted t }

/-- federate.c:1463-1475 (with the mutex of the environment). -/
def raiseAsked (f : Fed) (t : Tag) : Fed :=
  let t := if lf_tag_compare t f.b.cur ≤ 0 then nextStep f.b.cur else t
  { f with b := Barrier.raise f.b stopId t, rx := .blocked t }

/-- The loop of `handle_stop_request_message` over several environments, federate.c:1463-1475: the tag sent in the reply.
The counteroffer is made with the current tag of the first environment (`env->current_tag`), not of the one looked at. -/
def counteroffer (first : Tag) : List Tag → Tag → Tag
  | [], t => t
  | cur :: rest, t => counteroffer first rest (if lf_tag_compare t cur ≤ 0 then nextStep first else t)

/-- What a federate does on its own between messages of the stop protocol: everything in Verif.Barrier.Model except the
release of the barrier of the stop protocol and changes of the stop tag (federates do not end by starvation). -/
inductive Local : Barrier.State → Barrier.State → Prop
  | raise (s : Barrier.State) (id : Nat) (tag : Tag) : id ≠ stopId → Local s (Barrier.raise s id tag)
  | release (s : Barrier.State) (r : Barrier.Request) : r ∈ s.out → r.id ≠ stopId → Local s (Barrier.giveBack s r)
  | deliver (s : Barrier.State) (r : Barrier.Request) : r ∈ s.out → r.id ≠ stopId → Local s (Barrier.deliver s r)
  | schedule (s : Barrier.State) (tag : Tag) : 0 ≤ lf_tag_compare tag s.cur → Local s { s with q := tag :: s.q }
  | next (s : Barrier.State) : s.waiting = none → (Barrier.nextEvent s).time < FOREVER → Local s (Barrier.next s)
  | wake (s : Barrier.State) (proposed : Tag) : s.waiting = some proposed → Local s (Barrier.wake s proposed)

/-!
## The federation
-/

/-- The RTI and how many messages it has taken from each federate; the federates, how many messages each has taken from the
RTI, and all messages each has sent, oldest first. -/
structure Sys where
  rti : Rti
  heard : Nat → Nat
  fed : Nat → Fed
  taken : Nat → Nat
  sent : Nat → List Msg

/-- Federate `i` changes to `f` after sending `ms`. -/
def Sys.set (y : Sys) (i : Nat) (f : Fed) (ms : List Msg) : Sys :=
  { y with fed := upd y.fed i f, sent := upd y.sent i (y.sent i ++ ms) }

/-- The start: federate `i` is at tag `cur i` with the stop tag `stop i` (its timeout) and the events `q i`. -/
def boot (cur stop : Nat → Tag) (q : Nat → List Tag) : Sys :=
  { rti := .init, heard := fun _ => 0, taken := fun _ => 0, sent := fun _ => []
    fed := fun i => ⟨Barrier.init (cur i) (stop i) (q i), false, false, .idle, .idle, true⟩ }

/-- A federate can act: it has not resigned and has not exited with an error. -/
def Fed.up (f : Fed) : Prop := f.alive = true ∧ f.b.failed = false

/-- One step of any thread of any of the `n` federates or of the RTI.  Executions that run out of microsteps are left
out. -/
inductive Step (n : Nat) : Sys → Sys → Prop
  | act (y : Sys) (i : Nat) (b : Barrier.State) : i < n → (y.fed i).up → Local (y.fed i).b b → b.cur.microstep < UINT_MAX →
      Step n y (y.set i { y.fed i with b := b } [])
  | callStop (y : Sys) (i : Nat) : i < n → (y.fed i).up → Step n y (y.set i (callStop (y.fed i)) [])
  | raiseOwn (y : Sys) (i : Nat) : i < n → (y.fed i).up → (y.fed i).rq = .flagged →
      Step n y (y.set i (raiseOwn (y.fed i)) [])
  | sendOwn (y : Sys) (i : Nat) (c : Tag) : i < n → (y.fed i).up → (y.fed i).rq = .raised c →
      Step n y (y.set i (sendOwn (y.fed i) c).2 (sendOwn (y.fed i) c).1)
  | takeRequest (y : Sys) (i : Nat) (t : Tag) : i < n → (y.fed i).up → (y.fed i).rx = .idle →
      (y.rti.out i)[y.taken i]? = some (.request t) →
      Step n y { y.set i { y.fed i with rx := .got t } [] with taken := upd y.taken i (y.taken i + 1) }
  | takeGrant (y : Sys) (i : Nat) (t : Tag) : i < n → (y.fed i).up → (y.fed i).rx = .idle →
      (y.rti.out i)[y.taken i]? = some (.granted t) →
      Step n y { y.set i (takeGrant (y.fed i) t) [] with taken := upd y.taken i (y.taken i + 1) }
  | check (y : Sys) (i : Nat) (t : Tag) : i < n → (y.fed i).up → (y.fed i).rx = .got t →
      Step n y (y.set i (check (y.fed i) t) [])
  | countOnce (y : Sys) (i : Nat) (t : Tag) (a : Bool) : i < n → (y.fed i).up → (y.fed i).rx = .checked t a →
      Step n y (y.set i (countOnce (y.fed i) t a) [])
  | raiseAsked (y : Sys) (i : Nat) (t : Tag) : i < n → (y.fed i).up → (y.fed i).rx = .counted t →
      Step n y (y.set i (raiseAsked (y.fed i) t) [])
  | sendReply (y : Sys) (i : Nat) (t : Tag) : i < n → (y.fed i).up → (y.fed i).rx = .blocked t →
      Step n y (y.set i { y.fed i with rx := .idle } [.reply t])
  | resign (y : Sys) (i : Nat) : i < n → (y.fed i).up → Step n y (y.set i { y.fed i with alive := false } [.resign])
  | hear (y : Sys) (i : Nat) (m : Msg) : i < n → y.rti.connected i = true → (y.sent i)[y.heard i]? = some m →
      Step n y { y with rti := handle n y.rti i m, heard := upd y.heard i (y.heard i + 1) }

/-- Any execution of any length of `n` federates. -/
inductive Reach (n : Nat) (cur stop : Nat → Tag) (q : Nat → List Tag) : Sys → Prop
  | boot : Reach n cur stop q (boot cur stop q)
  | step {y z : Sys} : Reach n cur stop q y → Step n y z → Reach n cur stop q z

end ReactorC.Stop
