import Verif.Rti.System
import Verif.Rti.Micro

/-!
# Scheduling enclaves

Models core/federated/RTI/rti_local.c: the coordination of the enclaves of one process by a local RTI that shares the
decision procedure of core/federated/RTI/rti_common.c (Verif.Rti.Model) with the remote one.

Simplifications:
* Printing and tracing are left out.
* Enclaves are connected from the beginning (`state = GRANTED`, rti_local.c:60) and are never disconnected.
* An enclave is represented by what the local RTI relies on it for: the tag before which it will not act unless it
  receives a message (`net`), the last tag it has completed (`done`), and where its worker is in
  `rti_next_event_tag_locked` (`call`).
* A message is scheduled on the event queue of its target and announced with `rti_update_other_net_locked` inside one
  critical section of the target's mutex (documented in rti_local.h:98-111), so it is one step.
-/

namespace ReactorC.Encl
open ReactorC ReactorC.Rti

section
variable (T : Topology) (start : Int)

/-- `notify_advance_grant_if_safe`, core/federated/RTI/rti_common.c:274-283, with the local
`notify_tag_advance_grant`, core/federated/RTI/rti_local.c:174-186 (the same as the remote one with a socket that never
fails: the writing to the socket is the signal to the waiting enclave), and the local
`notify_provisional_tag_advance_grant`, core/federated/RTI/rti_local.c:190-192, which does nothing. -/
def notifyIfSafe (i : Nat) (s : Rti) : Rti :=
  let g := tagAdvanceGrantIfSafe T start i s
  if lf_tag_compare g.2.1 NEVER_TAG ≠ 0 then
    if g.2.2 then g.1 else notifyTag i g.2.1 g.1
  else g.1

/-- `notify_downstream_advance_grant_if_safe`, core/federated/RTI/rti_common.c:240-249. -/
def notifyDownstream : Nat → Nat → Rti × (Nat → Bool) → Rti × (Nat → Bool)
  | 0, _, a => ({ a.1 with deep := true }, a.2)
  | depth + 1, i, a =>
    (T.down i).foldl
      (fun (a : Rti × (Nat → Bool)) (j : Nat) =>
        if a.2 j then a else notifyDownstream depth j (notifyIfSafe T start j a.1, a.2))
      (a.1, put a.2 i true)

/-- The call with a fresh array `visited`, core/federated/RTI/rti_common.c:269-271. -/
def notifyAllDownstream (i : Nat) (s : Rti) : Rti :=
  (notifyDownstream T start (T.n + 1) i (s, fun _ => false)).1

/-- `update_scheduling_node_next_event_tag_locked`, core/federated/RTI/rti_common.c:251-272. -/
def updateNextEvent (i : Nat) (t : Tag) (s : Rti) : Rti :=
  let s := s.setNode i fun nd => { nd with nextEvent := t }
  let s := if T.up i ≠ [] then notifyIfSafe T start i s else s.setNode i fun nd => { nd with lastGranted := t }
  notifyAllDownstream T start i s

/-- `_logical_tag_complete`, core/federated/RTI/rti_common.c:60-82, called in
`rti_logical_tag_complete_locked`, core/federated/RTI/rti_local.c:145-155. -/
def logicalTagComplete (i : Nat) (c : Tag) (s : Rti) : Rti :=
  (T.down i).foldl (fun (s : Rti) (j : Nat) => notifyAllDownstream T start j (notifyIfSafe T start j s))
    (s.setNode i fun nd => { nd with completed := c })

/-- `rti_update_other_net_locked`, core/federated/RTI/rti_local.c:157-168. -/
def updateOtherNet (d : Nat) (m : Tag) (s : Rti) : Rti :=
  if lf_tag_compare m (s.node d).nextEvent < 0 then s.setNode d fun nd => { nd with nextEvent := m } else s

end

/-- Where the worker of an enclave is: not in `rti_next_event_tag_locked`; in it, having given up its own mutex but not
yet having the mutex of the RTI (between lines 89 and 90) with the argument `t`; or in the loop of lines 120-133, with
`previous_tag` and the argument. -/
inductive Call
  | idle
  | entering (t : Tag)
  | waiting (previous t : Tag)
deriving DecidableEq

/-- What an enclave sees, oldest first: `rti_next_event_tag_locked` returns a tag; a message with a tag is put on its event
queue. -/
inductive Ev
  | ret (t : Tag)
  | msg (m : Tag)
deriving DecidableEq

structure Sys where
  rti : Rti
  net : Nat → Tag
  done : Nat → Tag
  call : Nat → Call
  hist : Nat → List Ev

/-- `initialize_local_rti`, core/federated/RTI/rti_local.c:38-62. -/
def initSys (start : Int) : Sys :=
  { rti := initRti
    net := fun _ => ⟨start, 0⟩
    done := fun _ => NEVER_TAG
    call := fun _ => .idle
    hist := fun _ => [] }

/-- Something is added to what an enclave sees. -/
def Sys.see (σ : Sys) (e : Nat) (x : Ev) : Sys := { σ with hist := put σ.hist e (σ.hist e ++ [x]) }

/-- What can happen: an enclave calls `rti_next_event_tag_locked(t)`; it gets the mutex of the RTI; it leaves the loop and
returns; it reports the completion of a tag; the enclave `i`, executing a reaction at tag `s`, sends over a connection
with delay `w` a message with tag `m` to the enclave `d`. -/
inductive Act
  | enter (e : Nat) (t : Tag)
  | update (e : Nat)
  | wake (e : Nat)
  | complete (e : Nat) (c : Tag)
  | message (i d : Nat) (s : Tag) (w : Int) (m : Tag)

/-- What the next event tag, a completed tag and a message have to do with the state of an enclave: the same as for
federates (Verif.Rti.System). -/
def Act.allowed (T : Topology) (start : Int) (σ : Sys) : Act → Prop
  | .enter e t => e < T.n ∧ σ.call e = .idle ∧ Sane T t ∧ ⟨start, 0⟩ ≤ t ∧ σ.net e ≤ t
  | .update _ => True
  | .wake _ => True
  | .complete e c => e < T.n ∧ σ.call e = .idle ∧ Sane T c ∧ σ.done e ≤ c
  | .message i d s w m => i < T.n ∧ d < T.n ∧ (i, w) ∈ T.up d ∧ σ.call i = .idle ∧ Sane T s ∧ s ≠ FOREVER_TAG ∧ Sane T m ∧
      ⟨start, 0⟩ ≤ s ∧ σ.done i < s ∧ σ.net i ≤ s ∧ lf_delay_tag s w ≤ m

instance (T : Topology) (start : Int) (σ : Sys) (a : Act) : Decidable (a.allowed T start σ) := by
  cases a <;> unfold Act.allowed <;> infer_instance

/-- `rti_next_event_tag_locked`, core/federated/RTI/rti_local.c:79-143, in the steps into which the mutexes divide it, and
the other functions. -/
def exec (T : Topology) (start : Int) (σ : Sys) : Act → Option Sys
  | .enter e t =>
    if T.n = 1 then some { σ.see e (.ret t) with net := put σ.net e t }
    else some { σ with net := put σ.net e t, call := put σ.call e (.entering t) }
  | .update e =>
    match σ.call e with
    | .entering t =>
      let r := updateNextEvent T start e t σ.rti
      if lf_tag_compare (r.node e).lastGranted t ≥ 0 then
        some { σ.see e (.ret t) with rti := r, call := put σ.call e .idle }
      else
        let r := if T.up e = [] then r.setNode e fun nd => { nd with lastGranted := t } else r
        some { σ with rti := r, call := put σ.call e (.waiting (σ.rti.node e).lastGranted t) }
    | _ => none
  | .wake e =>
    match σ.call e with
    | .waiting previous _ =>
      if lf_tag_compare previous (σ.rti.node e).lastGranted < 0 then
        some { σ.see e (.ret (σ.rti.node e).lastGranted) with call := put σ.call e .idle }
      else none
    | _ => none
  | .complete e c =>
    if T.n = 1 then some { σ with done := put σ.done e c }
    else some { σ with rti := logicalTagComplete T start e c σ.rti, done := put σ.done e c }
  | .message _ d _ _ m =>
    some { σ.see d (.msg m) with
      rti := updateOtherNet d m (σ.rti.write d (.msg m))
      net := if m < σ.net d then put σ.net d m else σ.net }

/-- No message for the enclave that arrived since it determined its next event tag is earlier than that tag. -/
def Act.undisturbed (σ : Sys) : Act → Prop
  | .update e => ∀ t, σ.call e = .entering t → t ≤ σ.net e
  | _ => True

/-- The states enclaves can be in.  If `races` is `false`, no enclave gets a message that is earlier than its next event
tag while it is about to report that tag. -/
inductive Reach (T : Topology) (start : Int) (races : Bool) : Sys → Prop
  | init : Reach T start races (initSys start)
  | step {σ σ' : Sys} (a : Act) : Reach T start races σ → a.allowed T start σ → (races = true ∨ a.undisturbed σ) →
      exec T start σ a = some σ' → Reach T start races σ'

end ReactorC.Encl
