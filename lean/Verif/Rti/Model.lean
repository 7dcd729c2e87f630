import Verif.Rti.Delays

/-!
# The grants of the RTI

Models core/federated/RTI/rti_common.c:36-283 and the parts of core/federated/RTI/rti_remote.c that handle the messages
of centralized coordination (181-282, 342-517, 975-1070).

Every handler below runs inside one critical section of `rti_mutex`, so that it is one step of the RTI.

Simplifications:
* The model begins when all federates have their start time, so that no node is `PENDING`; the waits of
  rti_remote.c:188-191, 221-224 and 423-426 do nothing.
* Printing, tracing, the payload of messages and the chunks they are forwarded in are left out; port absent messages,
  which do not touch the state of the RTI, are left out.
* The queue of tags in transit is a list of tags read through its minimum (its implementation is the subject of
  Verif.PQueue).
* The arrays `min_delays` and the flag `IS_IN_ZERO_DELAY_CYCLE` are the cached result of Verif.Rti.Delays.
* Recursions get a bound on their depth; running into it is an outcome of its own (`deep`).
-/

namespace ReactorC.Rti
open ReactorC

/-- What the RTI writes to the socket of a federate: a forwarded message with its intended tag, a tag advance grant, a
provisional tag advance grant. -/
inductive Down
  | msg (t : Tag)
  | tag (t : Tag)
  | ptag (t : Tag)
deriving DecidableEq, Repr

/-- `scheduling_node_t`, core/federated/RTI/rti_common.h:49-68.  `cache` is `min_delays` (`none` for `NULL`) together with
the flag `IS_IN_ZERO_DELAY_CYCLE`; `connected` is `state != NOT_CONNECTED`. -/
structure Node where
  completed : Tag
  lastGranted : Tag
  lastProvisional : Tag
  nextEvent : Tag
  connected : Bool
  cache : Option (List (Nat × Tag) × Bool)

/-- The state of the RTI, with the environment's part: which sockets refuse to be written to, and everything written to
each socket so far, oldest first.  `transit i` is `in_transit_message_tags`, core/federated/RTI/rti_remote.h:61. -/
structure Rti where
  node : Nat → Node
  transit : Nat → List Tag
  broken : Nat → Bool
  out : Nat → List Down
  deep : Bool

/-- An assignment to a field of a node. -/
def Rti.setNode (s : Rti) (i : Nat) (f : Node → Node) : Rti := { s with node := put s.node i (f (s.node i)) }

/-- A message is written to the socket of `i`. -/
def Rti.write (s : Rti) (i : Nat) (d : Down) : Rti := { s with out := put s.out i (s.out i ++ [d]) }

/-- `initialize_scheduling_node`, core/federated/RTI/rti_common.c:44-58, and the connections being made, after which
`state` is `GRANTED` (rti_remote.c:833). -/
def initNode : Node :=
  { completed := NEVER_TAG
    lastGranted := NEVER_TAG
    lastProvisional := NEVER_TAG
    nextEvent := NEVER_TAG
    connected := true
    cache := none }

def initRti : Rti :=
  { node := fun _ => initNode
    transit := fun _ => []
    broken := fun _ => false
    out := fun _ => []
    deep := false }

section
variable (T : Topology) (start : Int)

/-- `update_min_delays_upstream`, core/federated/RTI/rti_common.c:342-378. -/
def updateMin (i : Nat) (s : Rti) : Rti :=
  match (s.node i).cache with
  | some _ => s
  | none => s.setNode i fun nd =>
      { nd with cache := some (minDelays T (fun j => (s.node j).connected) i,
                  (searchFrom T (fun j => (s.node j).connected) i).inZeroDelayCycle) }

/-- The entries `min_delays` of a node. -/
def Rti.entries (s : Rti) (i : Nat) : List (Nat × Tag) :=
  match (s.node i).cache with
  | some c => c.1
  | none => []

/-- The flag `IS_IN_ZERO_DELAY_CYCLE` of a node. -/
def Rti.zdc (s : Rti) (i : Nat) : Bool :=
  match (s.node i).cache with
  | some c => c.2
  | none => false

/-- `is_in_zero_delay_cycle`, core/federated/RTI/rti_common.c:380-383. -/
def isInZeroDelayCycle (i : Nat) (s : Rti) : Rti × Bool := (updateMin T i s, (updateMin T i s).zdc i)

/-- "If we haven't heard from the upstream node, then assume it can send an event at the start time",
core/federated/RTI/rti_common.c:97-101 and 133-137. -/
def heard (i : Nat) (s : Rti) : Rti :=
  if lf_tag_compare (s.node i).nextEvent NEVER_TAG = 0 then s.setNode i fun nd => { nd with nextEvent := ⟨start, 0⟩ }
  else s

/-- `earliest_future_incoming_message_tag`, core/federated/RTI/rti_common.c:84-120. -/
def eimt (i : Nat) (s : Rti) : Rti × Tag :=
  ((updateMin T i s).entries i).foldl
    (fun (a : Rti × Tag) (e : Nat × Tag) =>
      let s := heard start e.1 a.1
      if lf_tag_compare (lf_tag_add (s.node e.1).nextEvent e.2) a.2 < 0 then (s, lf_tag_add (s.node e.1).nextEvent e.2)
      else (s, a.2))
    (updateMin T i s, FOREVER_TAG)

/-- `eimt_strict`, core/federated/RTI/rti_common.c:122-153. -/
def eimtStrict (i : Nat) (s : Rti) : Rti × Tag :=
  (T.up i).foldl
    (fun (a : Rti × Tag) (e : Nat × Int) =>
      let z := isInZeroDelayCycle T e.1 a.1
      if z.2 then (z.1, a.2)
      else
        let s := heard start e.1 z.1
        let r := eimt T start e.1 s
        let earliest := if lf_tag_compare (r.1.node e.1).nextEvent r.2 < 0 then (r.1.node e.1).nextEvent else r.2
        if lf_tag_compare (lf_delay_tag earliest e.2) a.2 < 0 then (r.1, lf_delay_tag earliest e.2) else (r.1, a.2))
    (s, FOREVER_TAG)

/-- "Find the earliest LTC of upstream scheduling_nodes (M)", core/federated/RTI/rti_common.c:158-176. -/
def minUpstreamCompleted (i : Nat) (s : Rti) : Tag :=
  (T.up i).foldl
    (fun (m : Tag) (e : Nat × Int) =>
      if (s.node e.1).connected then
        if lf_tag_compare (lf_delay_strict (s.node e.1).completed e.2) m < 0 then
          lf_delay_strict (s.node e.1).completed e.2
        else m
      else m)
    FOREVER_TAG

/-- `tag_advance_grant_if_safe`, core/federated/RTI/rti_common.c:155-238.  The result is the state, `result.tag` and
`result.is_provisional`. -/
def tagAdvanceGrantIfSafe (i : Nat) (s : Rti) : Rti × Tag × Bool :=
  if lf_tag_compare (minUpstreamCompleted T i s) (s.node i).lastGranted > 0 ∧
      lf_tag_compare (minUpstreamCompleted T i s) (s.node i).nextEvent ≥ 0 then
    (s, minUpstreamCompleted T i s, false)
  else
    let d := eimt T start i s
    let ds := eimtStrict T start i d.1
    let nd := ds.1.node i
    if lf_tag_compare d.2 nd.nextEvent > 0 ∧ lf_tag_compare nd.nextEvent NEVER_TAG > 0 ∧
        lf_tag_compare d.2 nd.lastProvisional ≥ 0 ∧ lf_tag_compare d.2 nd.lastGranted > 0 then
      (ds.1, nd.nextEvent, false)
    else
      -- `is_in_zero_delay_cycle` is evaluated here; the delays of `i` are already known
      if lf_tag_compare d.2 nd.nextEvent = 0 ∧ ds.1.zdc i = true ∧ lf_tag_compare ds.2 nd.nextEvent > 0 ∧
          lf_tag_compare d.2 nd.lastProvisional > 0 ∧ lf_tag_compare d.2 nd.lastGranted > 0 then
        (ds.1, nd.nextEvent, true)
      else (ds.1, NEVER_TAG, false)

/-- `notify_tag_advance_grant`, core/federated/RTI/rti_remote.c:181-212. -/
def notifyTag (i : Nat) (t : Tag) (s : Rti) : Rti :=
  if (s.node i).connected = false ∨ lf_tag_compare t (s.node i).lastGranted ≤ 0 ∨
      lf_tag_compare t (s.node i).lastProvisional < 0 then s
  else if s.broken i then s.setNode i fun nd => { nd with connected := false }
  else (s.write i (.tag t)).setNode i fun nd => { nd with lastGranted := t }

/-- `notify_provisional_tag_advance_grant`, core/federated/RTI/rti_remote.c:214-273.  The first argument bounds the depth
of the recursion. -/
def notifyProvisional : Nat → Nat → Tag → Rti → Rti
  | 0, _, _, s => { s with deep := true }
  | depth + 1, i, t, s =>
    if (s.node i).connected = false ∨ lf_tag_compare t (s.node i).lastGranted ≤ 0 ∨
        lf_tag_compare t (s.node i).lastProvisional ≤ 0 then s
    else if s.broken i then s.setNode i fun nd => { nd with connected := false }
    else
      (T.up i).foldl
        (fun (s : Rti) (e : Nat × Int) =>
          if (s.node e.1).connected then
            let d := eimt T start e.1 s
            let ds := eimtStrict T start e.1 d.1
            if lf_tag_compare d.2 t > 0 then notifyTag e.1 t ds.1
            else if lf_tag_compare d.2 t = 0 ∧ lf_tag_compare ds.2 t > 0 then notifyProvisional depth e.1 t ds.1
            else ds.1
          else s)
        ((s.write i (.ptag t)).setNode i fun nd => { nd with lastProvisional := t })

/-- `notify_advance_grant_if_safe`, core/federated/RTI/rti_common.c:274-283. -/
def notifyIfSafe (i : Nat) (s : Rti) : Rti :=
  let g := tagAdvanceGrantIfSafe T start i s
  if lf_tag_compare g.2.1 NEVER_TAG ≠ 0 then
    if g.2.2 then notifyProvisional T start (T.n + 1) i g.2.1 g.1 else notifyTag i g.2.1 g.1
  else g.1

/-- `notify_downstream_advance_grant_if_safe`, core/federated/RTI/rti_common.c:240-249.  The first argument bounds the
depth of the recursion; the result contains the array `visited`. -/
def notifyDownstream : Nat → Nat → Rti × (Nat → Bool) → Rti × (Nat → Bool)
  | 0, _, a => ({ a.1 with deep := true }, a.2)
  | depth + 1, i, a =>
    (T.down i).foldl
      (fun (a : Rti × (Nat → Bool)) (j : Nat) =>
        if a.2 j then a else notifyDownstream depth j (notifyIfSafe T start j a.1, a.2))
      (a.1, put a.2 i true)

/-- The call with a fresh array `visited`, core/federated/RTI/rti_common.c:269-271. -/
def notifyAllDownstream (i : Nat) (s : Rti) : Rti :=
  (notifyDownstream T start (T.n + 1) i (s, fun _ => false)).1

/-- `update_scheduling_node_next_event_tag_locked`, core/federated/RTI/rti_common.c:251-272. -/
def updateNextEvent (i : Nat) (t : Tag) (s : Rti) : Rti :=
  let s := s.setNode i fun nd => { nd with nextEvent := t }
  let s := if T.up i ≠ [] then notifyIfSafe T start i s else s.setNode i fun nd => { nd with lastGranted := t }
  notifyAllDownstream T start i s

/-- `pqueue_tag_peek_tag`, core/utils/pqueue_tag.c:129-135. -/
def peekTag (q : List Tag) : Tag := q.foldl (fun (m : Tag) (t : Tag) => if lf_tag_compare t m < 0 then t else m) FOREVER_TAG

/-- `update_federate_next_event_tag_locked`, core/federated/RTI/rti_remote.c:275-282. -/
def updateFederateNextEvent (i : Nat) (t : Tag) (s : Rti) : Rti :=
  if lf_tag_compare (peekTag (s.transit i)) t < 0 then updateNextEvent T start i (peekTag (s.transit i)) s
  else updateNextEvent T start i t s

/-- `handle_next_event_tag`, core/federated/RTI/rti_remote.c:498-517. -/
def handleNextEventTag (i : Nat) (t : Tag) (s : Rti) : Rti := updateFederateNextEvent T start i t s

/-- `_logical_tag_complete`, core/federated/RTI/rti_common.c:60-82, called in core/federated/RTI/rti_remote.c:489. -/
def logicalTagComplete (i : Nat) (c : Tag) (s : Rti) : Rti :=
  (T.down i).foldl (fun (s : Rti) (j : Nat) => notifyAllDownstream T start j (notifyIfSafe T start j s))
    (s.setNode i fun nd => { nd with completed := c })

/-- The second critical section of `handle_latest_tag_confirmed`, core/federated/RTI/rti_remote.c:492-495, with
`pqueue_tag_remove_up_to`, core/utils/pqueue_tag.c:153-159. -/
def removeInTransit (i : Nat) (c : Tag) (s : Rti) : Rti :=
  { s with transit := put s.transit i ((s.transit i).filter fun t =>
      decide (¬ (lf_tag_compare t FOREVER_TAG < 0 ∧ lf_tag_compare t c ≤ 0))) }

/-- `handle_timed_message` from the point where it takes the mutex, core/federated/RTI/rti_remote.c:387-477, for a message
to the federate `d`.  The result is `none` if the process exits because the message cannot be forwarded. -/
def handleTimedMessage (d : Nat) (t : Tag) (s : Rti) : Option Rti :=
  if (s.node d).connected = false then some s
  else if s.broken d then none
  else
    let s := s.write d (.msg t)
    let s :=
      if lf_tag_compare (s.node d).completed t < 0 then
        if t ∈ s.transit d then s else { s with transit := put s.transit d (t :: s.transit d) }
      else s
    if lf_tag_compare t (s.node d).nextEvent < 0 then some (updateFederateNextEvent T start d t s) else some s

/-- `handle_federate_resign` and `handle_federate_failed`, core/federated/RTI/rti_remote.c:1033-1069 and 985-1016: the
node is not connected any more and will have no more events. -/
def handleResign (i : Nat) (s : Rti) : Rti :=
  notifyAllDownstream T start i (s.setNode i fun nd => { nd with connected := false, nextEvent := FOREVER_TAG })

/-- The thread of a federate finds the socket closed, core/federated/RTI/rti_remote.c:1085-1092. -/
def socketClosed (i : Nat) (s : Rti) : Rti := s.setNode i fun nd => { nd with connected := false }

end

end ReactorC.Rti
