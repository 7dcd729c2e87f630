import Mathlib.Data.List.Nodup

/-!
# Tardiness of reactions and its handlers within a tag (decentralized coordination)

A message that is processed after its tag marks the reactions it triggers (`is_STP_violated`). A marked reaction has its
tardiness handler (`STP_handler`) invoked instead of its body; a marked reaction without a handler passes the mark on to the
reactions it enables.

Simplified: the execution of a reaction, with the scheduling of what it enables and the reactions executed in a chain after it,
is one step; steps of several workers happen in some order. Whether a deadline is missed is looked up once for each reaction
and tag. What a reaction (or one of its handlers) enables at a tag is given by the tag, not computed.
-/

namespace ReactorC.Tardiness

/-- What is invoked: the body, the tardiness handler, or the handler for a missed deadline. -/
inductive Kind
  | body
  | stp
  | deadline
deriving DecidableEq, Repr

/-- The reactions of a federate, `reaction_t` in lf_types.h:155-184: `LF_LEVEL(index)`, `STP_handler != NULL`,
`is_an_input_reaction`, `deadline_violation_handler != NULL`, `last_enabling_reaction`. -/
structure Program where
  level : Nat → Nat
  handler : Nat → Bool
  input : Nat → Bool := fun _ => false
  dlHandler : Nat → Bool := fun _ => false
  last : Nat → Option Nat := fun _ => none

/-- What happens at a tag: the reactions triggered by events, in the order of the events, and whether the event is a message
whose intended tag is in the past; the reactions triggered by messages that come in during the execution of the tag; the
reactions triggered by the outputs that an invocation produces, in the order of `schedule_output_reactions`; the reactions
whose deadline is missed. -/
structure Inst where
  popped : List (Nat × Bool)
  later : List Nat := []
  prod : Nat → Kind → List Nat
  missed : Nat → Bool := fun _ => false

/-- `is_STP_violated`, the reaction queue, the reactions whose execution has begun at this tag, and what was invoked. -/
structure State where
  flag : Nat → Bool
  queue : List Nat
  done : List Nat
  log : List (Nat × Kind)

def set (f : Nat → Bool) (i : Nat) (b : Bool) : Nat → Bool := fun j => if j = i then b else f j

/-- `_lf_trigger_reaction`, reactor_threaded.c:532-546: a reaction that is already on the queue is not put there again. -/
def enqueue (s : State) (d : Nat) : State := if d ∈ s.queue then s else { s with queue := s.queue ++ [d] }

/-- The candidate is put on the queue after all, reactor_common.c:765-774. -/
def requeue (s : State) : Option Nat → State
  | some c => enqueue s c
  | none => s

/-- The loop of `schedule_output_reactions`, reactor_common.c:732-783, over the reactions triggered by the outputs produced:
the candidate to be executed at once, and the number of reactions seen. -/
def fan (p : Program) (r : Nat) (inherited : Bool) : List Nat → State → Option Nat → Nat → State × Option Nat
  | [], s, cand, _ => (s, cand)
  | d :: ds, s, cand, num =>
    let s := { s with flag := set s.flag d inherited }
    if cand = some d then fan p r inherited ds s cand num
    else if num = 0 ∧ p.last d = some r then fan p r inherited ds s (some d) 1
    else fan p r inherited ds (enqueue (requeue s cand) d) none (num + 1)

/-- `schedule_output_reactions`, reactor_common.c:715-866: pass the mark on, put what is enabled on the queue, or execute it at
once if it is only one reaction that nothing else can enable. The number bounds the length of the chain. -/
def out (p : Program) (x : Inst) : Nat → State → Nat → Kind → State
  | 0, s, r, k => (fan p r (s.flag r) (x.prod r k) s none 0).1
  | n + 1, s, r, k =>
    match fan p r (s.flag r) (x.prod r k) s none 0 with
    | (s, none) => s
    | (s, some d) =>
      let s := { s with done := d :: s.done }
      let tardy := s.flag d && p.handler d
      -- reactor_common.c:805-826
      let s := if tardy then
          let s := out p x n { s with log := s.log ++ [(d, .stp)] } d .stp
          { s with flag := set s.flag d false }
        else s
      -- reactor_common.c:829-851
      let s := if x.missed d && p.dlHandler d then out p x n { s with log := s.log ++ [(d, .deadline)] } d .deadline else s
      -- reactor_common.c:852-859
      let s := if !tardy && !x.missed d then out p x n { s with log := s.log ++ [(d, .body)] } d .body else s
      -- reactor_common.c:861-863
      { s with flag := set s.flag d false }

/-- `_lf_worker_do_work` for one reaction, reactor_threaded.c:846-855, with `_lf_worker_handle_violations`, 785-791,
`_lf_worker_handle_deadline_violation_for_reaction`, 672-707, `_lf_worker_handle_STP_violation_for_reaction`, 720-771, and
`_lf_worker_invoke_reaction`, 803-813. -/
def work (p : Program) (x : Inst) (n : Nat) (s : State) (r : Nat) : State :=
  let s := { s with queue := s.queue.erase r, done := r :: s.done }
  if x.missed r then
    if p.dlHandler r then out p x n { s with log := s.log ++ [(r, .deadline)] } r .deadline else s
  else if s.flag r && !p.input r && p.handler r then
    let s := { s with log := s.log ++ [(r, .stp)], flag := set s.flag r false }
    let s := out p x n s r .stp
    { s with flag := set s.flag r false }
  else
    let s := out p x n { s with log := s.log ++ [(r, .body)] } r .body
    { s with flag := set s.flag r false }

/-- `_lf_pop_events`, reactor_common.c:257-296, for the reactions triggered by the events: a reaction that is on the queue is
neither marked nor queued again. -/
def pop (s : State) (e : Nat × Bool) : State :=
  if e.1 ∈ s.queue then s
  else { s with flag := if e.2 then set s.flag e.1 true else s.flag, queue := s.queue ++ [e.1] }

/-- The beginning of a tag. The marks are what they were at the end of the one before. -/
def begin (x : Inst) (s : State) : State :=
  x.popped.foldl pop { s with queue := [], done := [], log := [] }

/-- The steps within a tag; `n` bounds the length of chains. -/
inductive Step (p : Program) (x : Inst) (n : Nat) : State → State → Prop
  /-- A worker executes a reaction of the least level on the queue. -/
  | work {s} {r : Nat} : r ∈ s.queue → (∀ q ∈ s.queue, p.level r ≤ p.level q) → Step p x n s (work p x n s r)
  /-- A message for the current tag comes in, `_lf_insert_reactions_for_trigger`, reactor_common.c:588-641: intended tag and
  current tag are equal. Its port was not known before, so its reaction has not been executed. -/
  | insert {s} {r : Nat} : r ∈ x.later → r ∉ s.queue → r ∉ s.done →
      Step p x n s { s with flag := set s.flag r false, queue := s.queue ++ [r] }

/-- Executions: the state within the current tag. -/
inductive Reach (p : Program) (n : Nat) (ok : Inst → Prop) : Inst → State → Prop
  /-- The first tag; no reaction is marked. -/
  | first {x} : ok x → Reach p n ok x (begin x ⟨fun _ => false, [], [], []⟩)
  | step {x s s'} : Reach p n ok x s → Step p x n s s' → Reach p n ok x s'
  /-- All has been executed; the next tag. -/
  | next {x y s} : Reach p n ok x s → s.queue = [] → ok y → Reach p n ok y (begin y s)

end ReactorC.Tardiness
