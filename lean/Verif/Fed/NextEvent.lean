import Verif.Tag.Model

/-!
# The next event tag a federate reports, and the tag it advances to

Models `bounded_NET` and `lf_send_next_event_tag` of core/federated/federate.c and the part of `_lf_next_locked` of
core/threaded/reactor_threaded.c that uses them, for centralized coordination.

The calling thread holds the environment's mutex except while it waits.  What it sees each time it has the mutex
is an observation: the tag of the next event (`get_next_event_tag`, the earlier of the head of the event queue and the
stop tag), the last grant received (`_fed.last_TAG`), and the physical time.  A call is given the list of the
observations it will make, one after each wait; a call that waits once more than the list provides for is still waiting.

Simplifications: sums of times are sums of integers (no overflow); the physical time read at 2475 bounds only a wait and
is left out; the insertion of a dummy event is an effect on the event queue, that is, on later observations.
-/

namespace ReactorC.Fed

/-- `_fed`, core/federated/federate.c:52-76: what does not change during a call.  `minDelay` is
`min_delay_from_physical_action_to_federate_output`, negative if there is no such action. -/
structure Config where
  hasUpstream : Bool
  hasDownstream : Bool
  minDelay : Int

/-- What the thread sees when it has the mutex. -/
structure Obs where
  head : Tag
  lastTAG : Tag
  now : Int
deriving DecidableEq, Repr

/-- A next event tag message, with the next event and the physical time at the moment it is sent. -/
structure Sent where
  net : Tag
  head : Tag
  now : Int
deriving DecidableEq, Repr

/-- `bounded_NET`, core/federated/federate.c:1627-1660: whether the tag is bounded, and the tag. -/
def bounded_NET (fed : Config) (now : Int) (tag : Tag) : Bool × Tag :=
  if 0 ≤ fed.minDelay ∧ fed.hasDownstream = true then
    if now + fed.minDelay < tag.time then (true, ⟨now + fed.minDelay - 1, 0⟩) else (false, tag)
  else (false, tag)

/-- The messages sent by a call and, if it returned, the tag returned, the observation made last and the observations
not made yet. -/
structure Result where
  sent : List Sent
  ret : Option (Tag × Obs × List Obs)

/-- The inner loop of `lf_send_next_event_tag`, core/federated/federate.c:2440-2459, before the wait. -/
def waitForTAG (tag : Tag) : List Obs → Result
  | [] => ⟨[], none⟩
  | o :: rest =>
    if 0 ≤ lf_tag_compare o.lastTAG o.head ∨ 0 ≤ lf_tag_compare o.lastTAG tag then ⟨[], some (o.lastTAG, o, rest)⟩
    else if lf_tag_compare o.head tag ≠ 0 then
      ⟨⟨o.head, o.head, o.now⟩ :: (waitForTAG tag rest).sent, (waitForTAG tag rest).ret⟩
    else waitForTAG tag rest

/-- `lf_send_next_event_tag`, core/federated/federate.c:2374-2504: `o` is the observation current at the start of an
iteration of the loop. -/
def lf_send_next_event_tag (fed : Config) (wait_for_reply : Bool) (tag : Tag) (o : Obs) (rest : List Obs) : Result :=
  if fed.hasDownstream = false ∧ fed.hasUpstream = false then ⟨[], some (tag, o, rest)⟩
  else if 0 ≤ lf_tag_compare o.lastTAG tag then ⟨[], some (o.lastTAG, o, rest)⟩
  else if wait_for_reply = true ∧ (bounded_NET fed o.now tag).1 = true then
    -- a dummy event is inserted; wait for an event or for physical time, then take the next event tag and repeat
    match rest with
    | [] => ⟨[], none⟩
    | o' :: rest' => lf_send_next_event_tag fed wait_for_reply o'.head o' rest'
  else if wait_for_reply = false ∨ fed.hasUpstream = false then ⟨[⟨tag, o.head, o.now⟩], some (tag, o, rest)⟩
  else ⟨⟨tag, o.head, o.now⟩ :: (waitForTAG tag rest).sent, (waitForTAG tag rest).ret⟩

/-- The loop `while (lf_tag_compare(grant_tag, next_tag) < 0)` of `_lf_next_locked`, core/threaded/reactor_threaded.c:
350-353, given the grant just returned for `next`.  `fuel` bounds the repetitions. -/
def grantLoop (fed : Config) : Nat → Tag → Tag × Obs × List Obs → Option (Tag × Obs × List Obs)
  | 0, _, _ => none
  | fuel + 1, next, (grant, o, rest) =>
    if lf_tag_compare grant next < 0 then
      match (lf_send_next_event_tag fed true o.head o rest).ret with
      | none => none
      | some r => grantLoop fed fuel o.head r
    else some (grant, o, rest)

/-- `_lf_next_locked` up to the grant, core/threaded/reactor_threaded.c:310-357: the grant, the observation at that
moment and those to come. -/
def nextGrant (fed : Config) (fuel : Nat) (o : Obs) (rest : List Obs) : Option (Tag × Obs × List Obs) :=
  match (lf_send_next_event_tag fed true o.head o rest).ret with
  | none => none
  | some r => grantLoop fed fuel o.head r

/-- The wait for physical time in `_lf_next_locked`, core/threaded/reactor_threaded.c:380-408, after the grant: `o` is
the current observation, and each of `rest` is made after an interruption of the wait or at its end, the last of them
being the one made when the wait is over.  The tag to which the federate advances is then the next event tag, unless
that is after the stop tag. -/
def advancesTo (o : Obs) (rest : List Obs) : Tag := (rest.getLast?.getD o).head

end ReactorC.Fed
