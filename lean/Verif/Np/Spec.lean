import Verif.Np.Model

/-!
# What is expected of a scheduler that works level by level

Said of the record of what happened, which has the latest event first.
-/

namespace ReactorC.Np

/-- What happened at the latest tag. -/
def thisTag : List Ev → List Ev
  | [] => []
  | .advance :: _ => []
  | e :: h => e :: thisTag h

/-- How often a worker got the reaction. -/
def starts (r : Nat) : List Ev → Nat
  | [] => 0
  | .start _ r' :: h => (if r' = r then 1 else 0) + starts r h
  | _ :: h => starts r h

/-- How often the reaction has been executed to its end. -/
def finishes (r : Nat) : List Ev → Nat
  | [] => 0
  | .finish _ r' :: h => (if r' = r then 1 else 0) + finishes r h
  | _ :: h => finishes r h

/-- At one tag: whenever a reaction `r'` starts, each reaction `r` that is executed at this tag and has to come before `r'`
has finished. -/
def Order (first : Nat → Nat → Prop) (q : List Ev) : Prop :=
  ∀ later w r' before, q = later ++ .start w r' :: before →
    ∀ r, first r r' → starts r q ≠ 0 → finishes r before ≠ 0

/-- At one tag: whenever a reaction starts, each reaction of a lower level that is executed at this tag has finished. -/
def LevelOrder (level : Nat → Nat) (q : List Ev) : Prop := Order (fun r r' => level r < level r') q

/-- At one tag that has been completed: the reactions that were triggered have been executed once, the others not at all. -/
def Complete (q : List Ev) : Prop :=
  ∀ r, (Ev.trigger r ∈ q → starts r q = 1 ∧ finishes r q = 1) ∧ (Ev.trigger r ∉ q → starts r q = 0 ∧ finishes r q = 0)

/-- The worker executes the reaction. -/
def Executing (s : State) (w r : Nat) : Prop :=
  s.pc w = .run r ∨ (∃ r', s.pc w = .fetch (.running r) r') ∨ ∃ r' i, s.pc w = .store (.running r) r' i

end ReactorC.Np
