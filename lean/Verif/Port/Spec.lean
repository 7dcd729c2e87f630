import Verif.Port.Model

/-! # Specification of presence and of multiport iteration -/

namespace ReactorC.Port

/-- What happens to presence during an execution: a port is set, a trigger is marked present, or a
new tag begins. -/
inductive Op
  | set (p : Port)
  | trigger (field : Nat)
  | newTag

/-- Executing one operation with the code's functions. -/
def exec (e : Env) : Op → Env
  | .set p => lf_set_present e p
  | .trigger f => markPresent e f
  | .newTag => lf_start_time_step e

def run (e : Env) (ops : List Op) : Env := ops.foldl exec e

/-- The intended meaning of presence: the flag was set by an operation after the last new tag.
(`h` is the history, latest operation first.) -/
def SetInCurrentTag (f : Nat) : List Op → Prop
  | [] => False
  | .newTag :: _ => False
  | .set p :: h => (p.hasSource = true ∧ p.field = f) ∨ SetInCurrentTag f h
  | .trigger g :: h => g = f ∨ SetInCurrentTag f h

/-- The state at the start of execution: nothing present, nothing recorded; the abbreviated list is
allocated as large as the full one. -/
structure Initial (e : Env) : Prop where
  absent : ∀ f, e.fields f = false
  alloc : e.abbr.length = e.all.length
  empty : e.abbrSize = 0
  sizes : ∀ r, (e.recs r).size = 0

/-- The operations use only flags and records the generated code has put in the environment's
lists. -/
def Registered (e : Env) : Op → Prop
  | .set p => p.field ∈ e.all ∧ ∀ r, p.record = some r → r ∈ e.regs
  | .trigger f => f ∈ e.all
  | .newTag => True

/-- A loop `for (c = lf_multiport_next(&it); c >= 0; c = lf_multiport_next(&it))` visits the list
of channels and then stops. -/
inductive Visits (e : Env) (ports : List Port) (width : Int) : Iter → List Nat → Prop
  | done {it it' : Iter} : iterNext e ports width it = some (-1, it') → Visits e ports width it []
  | step {it it' : Iter} {c : Nat} {cs : List Nat} :
      iterNext e ports width it = some ((c : Int), it') → Visits e ports width it' cs →
      Visits e ports width it (c :: cs)

/-- Creating an iterator and looping over it visits `cs`. -/
def Iterates (e : Env) (ports : List Port) (width : Int) (cs : List Nat) : Prop :=
  ∃ e' it, iterInit e ports width = some (e', it) ∧ Visits e' ports width it cs

/-- The channels of a multiport whose flag is set, in ascending order. -/
def presentChannels (e : Env) (ports : List Port) : List Nat :=
  (List.range ports.length).filter fun c =>
    match ports[c]? with
    | some p => e.fields p.field
    | none => false

/-- `ports` are the channels of one multiport whose sparse record is `r`. -/
structure IsSparseMultiport (ports : List Port) (r : Nat) : Prop where
  source : ∀ p ∈ ports, p.hasSource = true
  record : ∀ p ∈ ports, p.record = some r
  chan : ∀ (c : Nat) (p : Port), ports[c]? = some p → p.chan = c
  distinct : ∀ (c d : Nat) (p q : Port), ports[c]? = some p → ports[d]? = some q → p.field = q.field → c = d

/-- The channels of `ports` set by a sequence of operations, in order. -/
def setChannels (ports : List Port) (ops : List Op) : List Nat :=
  ops.filterMap fun
    | .set p => if p ∈ ports then some p.chan.toNat else none
    | _ => none

/-- Operations of one tag which leave the multiport alone except by setting its channels. -/
def Separate (ports : List Port) (r : Nat) : Op → Prop
  | .set p => p ∈ ports ∨ (p.record ≠ some r ∧ ∀ q ∈ ports, q.field ≠ p.field)
  | .trigger f => ∀ q ∈ ports, q.field ≠ f
  | .newTag => False

end ReactorC.Port
