import Verif.Np.Spec

/-!
# The order of reactions without threads

Models how the runtime without threads (core/reactor.c) chooses the reactions of a tag: the queue of reactions, ordered by
index, and the reactions that are executed without passing through the queue because the reaction before is the last one that
can trigger them (`schedule_output_reactions`, core/reactor_common.c:715-870).  The events that trigger reactions at the start of
a tag are arbitrary here, as is what a reaction does; Verif.Runtime models where they come from.

A reaction is recorded as finished when its outputs have been looked at (the end of the loop in
`schedule_output_reactions`).  Not modelled here: deadlines, modes, federation.
-/

namespace ReactorC.Uni

open Np (Ev)

/-- The program: its reactions, their indices, which reactions depend on which (`dep r r'` if `r` has to be executed before
`r'` when both are executed at the same tag), and `last_enabling_reaction`. -/
structure Config where
  reactions : List Nat
  index : Nat → Nat
  dep : Nat → Nat → Prop
  last : Nat → Option Nat

/-- Where the main loop is: reactions are triggered by events (`_lf_pop_events`, and before the first step), reactions are
executed (`_lf_do_step`), the tag is completed, the program has ended. -/
inductive Phase
  | opening
  | loop
  | tag
  | stopped
deriving DecidableEq, Repr

/-- The queue; the reaction with status `running`; the reaction that is executed; `downstream_to_execute_now` and
`num_downstream_reactions` of the innermost call of `schedule_output_reactions`.  The record `hist` has the latest event
first. -/
structure State where
  phase : Phase
  queue : List Nat
  active : Option Nat
  exec : Option Nat
  cand : Option Nat
  num : Nat
  hist : List Ev

/-- `lf_reactor_c_main`, core/reactor.c:335-353. -/
def init : State := ⟨.opening, [], none, none, none, 0, []⟩

/-- `_lf_trigger_reaction`, core/reactor.c:100-120: inserts the reaction if its status is `inactive`. -/
def State.insert (s : State) (r : Nat) : List Nat := if r ∈ s.queue ∨ s.active = some r then s.queue else r :: s.queue

/-- What happens next: an event triggers a reaction; all events of the tag have been taken from the event queue; the reaction
is taken from the reaction queue; the executing reaction has produced an output that triggers the reaction; it ends; the
reaction that was kept is executed now; the queue is empty; the tag advances; the stop tag has been completed. -/
inductive Act
  | event (r : Nat)
  | opened
  | start (r : Nat)
  | output (d : Nat)
  | finish
  | chain
  | close
  | advance
  | stop
deriving DecidableEq, Repr

/-- One step; `none` if it is not possible. -/
def exec (C : Config) (s : State) : Act → Option State
  | .event r => if s.phase = .opening then some { s with queue := s.insert r, hist := .trigger r :: s.hist } else none
  | .opened => if s.phase = .opening then some { s with phase := .loop } else none
  -- core/reactor.c:134-137
  | .start r =>
    if s.phase = .loop ∧ s.active = none ∧ r ∈ s.queue ∧ ∀ x ∈ s.queue, C.index r ≤ C.index x then
      some { s with
        queue := s.queue.erase r, active := some r, exec := some r, cand := none, num := 0, hist := .start 0 r :: s.hist }
    else none
  -- core/reactor_common.c:749-778
  | .output d =>
    match s.exec with
    | none => none
    | some r =>
      if s.cand = some d then some { s with hist := .trigger d :: s.hist }
      else if s.num = 0 ∧ C.last d = some r then some { s with cand := some d, num := 1, hist := .trigger d :: s.hist }
      else
        let s1 := match s.cand with
          | some c => { s with queue := s.insert c, cand := none }
          | none => s
        some { s1 with queue := s1.insert d, num := s.num + 1, hist := .trigger d :: s.hist }
  -- the end of the loop; without a reaction to be executed now also core/reactor.c:191
  | .finish =>
    match s.exec with
    | none => none
    | some r => some { s with
        exec := none, active := if s.cand = none then none else s.active, hist := .finish 0 r :: s.hist }
  -- core/reactor_common.c:784-863
  | .chain =>
    match s.exec, s.cand with
    | none, some d => some { s with exec := some d, cand := none, num := 0, hist := .start 0 d :: s.hist }
    | _, _ => none
  -- core/reactor.c:134
  | .close => if s.phase = .loop ∧ s.active = none ∧ s.queue = [] then some { s with phase := .tag } else none
  | .advance => if s.phase = .tag then some { s with phase := .opening, hist := .advance :: s.hist } else none
  | .stop => if s.phase = .tag then some { s with phase := .stopped, hist := .stop :: s.hist } else none

/-- The rules: events trigger only reactions of the program, and none that has a last enabling reaction; outputs trigger
only reactions that depend on the reaction, and none that has another last enabling reaction. -/
def Act.allowed (C : Config) (s : State) : Act → Prop
  | .event r => r ∈ C.reactions ∧ C.last r = none
  | .output d => d ∈ C.reactions ∧ ∀ r, s.exec = some r → C.dep r d ∧ (C.last d = none ∨ C.last d = some r)
  | _ => True

/-- The states in which the runtime can be. -/
inductive Reach (C : Config) : State → Prop
  | init : Reach C init
  | step {s s' : State} (a : Act) : Reach C s → a.allowed C s → exec C s a = some s' → Reach C s'

/-- What the compiler makes sure of: a reaction that depends on another one has a greater index; a reaction with a last
enabling reaction depends on this one and else only on reactions on which this one depends. -/
structure Config.Ok (C : Config) : Prop where
  trans : ∀ r r' r'', C.dep r r' → C.dep r' r'' → C.dep r r''
  index : ∀ r r', C.dep r r' → C.index r < C.index r'
  last : ∀ d r, C.last d = some r → ∀ q, C.dep q d → q = r ∨ C.dep q r

end ReactorC.Uni
