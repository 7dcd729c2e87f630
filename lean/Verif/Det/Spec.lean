import Verif.Np.Spec

/-!
# What a program computes

The bodies of reactions as the LF compiler generates them access memory: the state of their reactor, the values of ports, and
the event queue, where they schedule actions.  Here memory is a set of cells.  A body is a sequence of accesses to single cells
and of triggers of other reactions; what it does may depend on all it has read.

`results` says what a program computes if it is executed by one thread, reaction after reaction in the order of their
dependencies; this does not mention workers, schedulers or interleavings.
-/

namespace ReactorC.Det

/-- What a reaction still has to do: read a cell and continue depending on its value, write to a cell, trigger a reaction (as
`schedule_output_reactions` does when the reaction has produced an output, core/reactor_common.c:715-783), or end. -/
inductive Code (Cell Val : Type)
  | read (c : Cell) (k : Val → Code Cell Val)
  | write (c : Cell) (v : Val) (k : Code Cell Val)
  | trigger (r : Nat) (k : Code Cell Val)
  | done

variable {Cell Val : Type} [DecidableEq Cell]

/-- A cell gets a value. -/
def set (m : Cell → Val) (c : Cell) (v : Val) : Cell → Val := fun c' => if c' = c then v else m c'

/-- What a body does when nothing else happens meanwhile: the memory that it leaves and what has been triggered then. -/
def Code.run : Code Cell Val → (Cell → Val) × (Nat → Bool) → (Cell → Val) × (Nat → Bool)
  | .read c k, m => (k (m.1 c)).run m
  | .write c v k, m => k.run (set m.1 c v, m.2)
  | .trigger r k, m => k.run (m.1, Np.put m.2 r true)
  | .done, m => m

/-- The body reads and writes only these cells and triggers only these reactions. -/
inductive Code.Within (reads writes : Cell → Prop) (triggers : Nat → Prop) : Code Cell Val → Prop
  | read {c : Cell} {k : Val → Code Cell Val} : reads c → (∀ v, Code.Within reads writes triggers (k v)) →
      Code.Within reads writes triggers (.read c k)
  | write {c : Cell} {v : Val} {k : Code Cell Val} : writes c → Code.Within reads writes triggers k →
      Code.Within reads writes triggers (.write c v k)
  | trigger {r : Nat} {k : Code Cell Val} : triggers r → Code.Within reads writes triggers k →
      Code.Within reads writes triggers (.trigger r k)
  | done : Code.Within reads writes triggers .done

/-- A program: its reactions in an order that agrees with their dependencies, their bodies, the memory and the reactions that
are triggered at the start tag, and what happens to the memory and which reactions are triggered when the tag advances: the
events of the next tag are taken from the event queue, which is part of the memory (`_lf_pop_events`,
core/reactor_common.c:229-337), and ports become absent (`_lf_start_time_step`, core/reactor_common.c:164-222). -/
structure Program (Cell Val : Type) where
  order : List Nat
  body : Nat → Code Cell Val
  memory : Cell → Val
  first : List Nat
  next : (Cell → Val) → (Cell → Val) × List Nat

/-- The reaction's turn: it is executed if it has been triggered. -/
def Program.turn (P : Program Cell Val) (m : (Cell → Val) × (Nat → Bool)) (r : Nat) : (Cell → Val) × (Nat → Bool) :=
  if m.2 r then (P.body r).run m else m

/-- One tag: the reactions `due` are triggered, and the reactions have their turns one after the other. -/
def Program.tag (P : Program Cell Val) (m : Cell → Val) (due : List Nat) : Cell → Val :=
  (P.order.foldl P.turn (m, fun r => decide (r ∈ due))).1

/-- The memory at the end of each tag, of `n` tags that start with this memory and these reactions. -/
def Program.tags (P : Program Cell Val) : Nat → (Cell → Val) → List Nat → List (Cell → Val)
  | 0, _, _ => []
  | n + 1, m, due => P.tag m due :: P.tags n (P.next (P.tag m due)).1 (P.next (P.tag m due)).2

/-- The memory at the end of each of the first `n` tags. -/
def Program.results (P : Program Cell Val) (n : Nat) : List (Cell → Val) := P.tags n P.memory P.first

/-- What the compiler makes sure of.  `first r r'` says that `r` has to be executed before `r'` if both are executed at the
same tag.  Reactions of which one writes what the other one reads or writes are ordered, as are those of which one triggers
the other one; `order` lists every reaction that can be triggered, and agrees with the dependencies. -/
structure Program.Contract (P : Program Cell Val) (first : Nat → Nat → Prop) (reads writes : Nat → Cell → Prop) : Prop where
  within : ∀ r, (P.body r).Within (reads r) (writes r) (fun r' => first r r' ∧ r' ∈ P.order)
  conflict : ∀ r r' c, r ∈ P.order → r' ∈ P.order → r ≠ r' → writes r c → reads r' c ∨ writes r' c → first r r' ∨ first r' r
  irrefl : ∀ r, ¬ first r r
  sorted : P.order.Pairwise fun r r' => r ≠ r' ∧ ¬ first r' r
  start : ∀ r ∈ P.first, r ∈ P.order
  later : ∀ m, ∀ r ∈ (P.next m).2, r ∈ P.order

end ReactorC.Det
