import Verif.Runtime.Props

/-!
# C17: asking during the reaction whether its deadline has passed

Models `lf_check_deadline`, lib/schedule.c:99-108, and where `executing_reaction` is set, core/reactor_common.c:689-697.
-/

namespace ReactorC.Runtime
open ReactorC

/-- What is executed for a reaction: `_lf_invoke_reaction` (core/reactor_common.c:691-697) calls the body with `executing_reaction` set to the reaction, whereas
deadline handlers are called directly, with `executing_reaction` NULL (core/reactor.c:168-175, core/reactor_common.c:839-845,
core/threaded/reactor_threaded.c:693-699). -/
def executing (r : Nat) : Kind → Option Nat
  | .body => some r
  | .handler => none
  | .skipped => none

/-- The result of `lf_check_deadline` and whether the handler has been called; `none` if a null pointer is dereferenced or called. -/
def lf_check_deadline (P : Prog) (cur : Tag) (exec : Option Nat) (phys : Int) (invoke : Bool) : Option (Bool × Bool) :=
  match exec with
  | none => none
  | some r =>
    if phys > wrap64 (cur.time + P.deadline r) then
      if invoke then (if P.hasHandler r then some (true, true) else none) else some (true, false)
    else some (false, false)

/-- **C17**: in the body of a reaction with a deadline, `lf_check_deadline` says whether the physical time it reads is more than the deadline after the logical time, and calls
the handler then and only then, if it is asked to. -/
theorem C17_check_deadline_is_exact {P : Prog} {cur : Tag} {r : Nat} {phys : Int} (hd : 0 ≤ P.deadline r) (fits : IsI64 (cur.time + P.deadline r))
    (hh : P.hasHandler r = true) (invoke : Bool) :
    lf_check_deadline P cur (executing r .body) phys invoke =
      some (decide (cur.time + P.deadline r < phys), decide (cur.time + P.deadline r < phys) && invoke) := by
  unfold lf_check_deadline executing
  simp only [wrap64_id fits, hh]
  by_cases h : cur.time + P.deadline r < phys
  · rw [if_pos h]; cases invoke <;> simp [h]
  · rw [if_neg h]; simp [h]

/-- **C17**: it agrees with the check before the reaction: had it been called then, with the same reading of the clock, it would have said that the deadline has not passed; and once it has said that the
deadline has passed it keeps saying so. -/
theorem C17_check_deadline_agrees {P : Prog} {cur : Tag} {r : Nat} {phys later : Int} (hd : 0 ≤ P.deadline r) (fits : IsI64 (cur.time + P.deadline r))
    (hh : P.hasHandler r = true) :
    (invocation P cur r phys = .body → lf_check_deadline P cur (executing r .body) phys false = some (false, false)) ∧
    (phys ≤ later → lf_check_deadline P cur (executing r .body) phys false = some (true, false) →
      lf_check_deadline P cur (executing r .body) later false = some (true, false)) := by
  rw [C17_check_deadline_is_exact hd fits hh, C17_check_deadline_is_exact hd fits hh]
  constructor
  · intro h
    unfold invocation at h
    rw [wrap64_id fits, hh] at h
    by_cases k : P.deadline r ≥ 0 ∧ (P.deadline r = 0 ∨ phys > cur.time + P.deadline r)
    · rw [if_pos k] at h; cases h
    · simp; omega
  · intro h1 h2
    simp at h2 ⊢
    omega

/-- **C17** is false of reactions without deadline: `lf_check_deadline` says that the deadline has passed, and calls a null pointer if it is asked to call the handler. -/
theorem C17_not_without_deadline {P : Prog} {cur : Tag} {r : Nat} {phys : Int} (hd : P.deadline r = -1) (hh : P.hasHandler r = false) (ht : IsI64 (cur.time - 1))
    (hp : cur.time ≤ phys) : lf_check_deadline P cur (executing r .body) phys false = some (true, false) ∧
    lf_check_deadline P cur (executing r .body) phys true = none := by
  unfold lf_check_deadline executing
  simp only [hd, hh]
  have : wrap64 (cur.time + -1) = cur.time - 1 := wrap64_id ht
  have h1 : phys > cur.time - 1 := by omega
  simp only [this, if_pos h1]
  exact ⟨rfl, rfl⟩

/-- **C17** is false of deadline 0: the reaction is always late, and `lf_check_deadline` says that it is not if no time has passed. -/
theorem C17_not_with_deadline_zero {P : Prog} {cur : Tag} {r : Nat} (hd : P.deadline r = 0) (hh : P.hasHandler r = true) (ht : IsI64 cur.time) :
    invocation P cur r cur.time = .handler ∧ lf_check_deadline P cur (some r) cur.time false = some (false, false) := by
  unfold invocation lf_check_deadline
  simp [hd, hh, wrap64_id ht]

/-- In a deadline handler `lf_check_deadline` dereferences a null pointer. -/
theorem C17_not_in_handlers {P : Prog} {cur : Tag} {r : Nat} {phys : Int} (h : invocation P cur r phys = .handler) (later : Int) (invoke : Bool) :
    lf_check_deadline P cur (executing r (invocation P cur r phys)) later invoke = none := by
  rw [h]; rfl

/-- A reaction with a deadline of 5 and one without. -/
def two : Prog := { demo with deadline := fun r => if r = 0 then 5 else -1, hasHandler := fun r => r == 0 }

example : lf_check_deadline two ⟨100, 0⟩ (some 0) 105 true = some (false, false) ∧ lf_check_deadline two ⟨100, 0⟩ (some 0) 106 true = some (true, true) ∧
    lf_check_deadline two ⟨100, 0⟩ (some 1) 100 false = some (true, false) ∧ invocation two ⟨100, 0⟩ 0 106 = .handler ∧
    invocation two ⟨100, 0⟩ 0 105 = .body := by decide +kernel

end ReactorC.Runtime
