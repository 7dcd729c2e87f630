import Verif.Modes.Model

/-! # Concrete executions, for examples and counterexamples -/

namespace ReactorC.Modes
open ReactorC ReactorC.Sched

inductive Op
  | set (md : Nat) (ch : Change)
  | sched (t : Nat) (tag : Tag) (tok : Option Nat)
  | proc
  | adv (g : Tag)

/-- A step of the given kind, if it is possible. -/
def exec (P : Prog) (y : Sys) : Op → Option Sys
  | .set md ch =>
    if y.done = false ∧ P.owner md < P.n ∧ ch ≠ .no_transition ∧ isActive y.st.m (P.parent (P.owner md)) = true then
      some { y with st := { y.st with m := setMode P y.st.m md ch } }
    else none
  | .sched t tag tok =>
    if (P.trigs t).isTimer = false ∧ isActive y.st.m (P.tmode t) = true ∧ 0 < lf_tag_compare tag y.st.e.env.cur then
      some { y with st := { y.st with e := { y.st.e with
        env := { y.st.e.env with q := ⟨y.st.e.nextId, tag, some t, tok⟩ :: y.st.e.env.q }
        nextId := y.st.e.nextId + 1 } } }
    else none
  | .proc => if y.done = false then some { y with st := process P y.st, done := true } else none
  | .adv g =>
    if y.done = true ∧ 0 < lf_tag_compare g y.st.e.env.cur ∧ (∀ ev ∈ y.st.e.env.q, lf_tag_compare g ev.tag ≤ 0) ∧
        g.time < FOREVER ∧ g.microstep + 1 < UINT_MAX then
      some (handleModes P { y with st := { y.st with e := pop P g y.st.e } })
    else none

theorem exec_step {P : Prog} {y z : Sys} {op : Op} (h : exec P y op = some z) : Step P y z := by
  cases op with
  | set md ch =>
    simp only [exec] at h
    split at h
    · rename_i hc; cases h; exact .setMode y md ch hc.1 hc.2.1 hc.2.2.1 hc.2.2.2
    · cases h
  | sched t tag tok =>
    simp only [exec] at h
    split at h
    · rename_i hc; cases h; exact .schedule y t tag tok hc.1 hc.2.1 hc.2.2
    · cases h
  | proc =>
    simp only [exec] at h
    split at h
    · rename_i hc; cases h; exact .process y hc
    · cases h
  | adv g =>
    simp only [exec] at h
    split at h
    · rename_i hc; cases h; exact .advance y g hc.1 hc.2.1 hc.2.2.1 hc.2.2.2.1 hc.2.2.2.2
    · cases h

def runs (P : Prog) : List Op → Sys → Option Sys
  | [], y => some y
  | op :: rest, y => (exec P y op).bind (runs P rest)

theorem runs_reach {P : Prog} (ops : List Op) {y z : Sys} (hy : Reach P y) (h : runs P ops y = some z) : Reach P z := by
  induction ops generalizing y with
  | nil => cases h; exact hy
  | cons op rest ih =>
    unfold runs at h
    cases hx : exec P y op with
    | none => rw [hx] at h; cases h
    | some y' => rw [hx] at h; exact ih (.step hy (exec_step hx)) h

/-- An execution that ends in a state with the given property. -/
theorem run_witness {P : Prog} (ops : List Op) (stop : Tag) (f : Sys → Bool) (hs : stop.time ≤ FOREVER)
    (h : (runs P ops (boot P 100 stop (fun _ => 0))).any f = true) : ∃ y, Reach P y ∧ f y = true := by
  cases hr : runs P ops (boot P 100 stop (fun _ => 0)) with
  | none => rw [hr] at h; cases h
  | some y =>
    rw [hr] at h
    exact ⟨y, runs_reach ops (.boot 100 stop _ (by decide) (by decide) hs) hr, h⟩

/-- One modal reactor with the modes 0 (initial) and 1.  Mode 0 contains a timer (0) and an action (1), mode 1 a timer
without period (2), a periodic timer (3) and a state variable. -/
def flatProg : Prog :=
  { n := 1, parent := fun _ => none, owner := fun _ => 0, initial := fun _ => 0
    trigs := fun t => match t with
      | 0 => ⟨true, false, 5, 10, .defer⟩
      | 2 => ⟨true, false, 3, 0, .defer⟩
      | 3 => ⟨true, false, 2, 4, .defer⟩
      | _ => ⟨false, false, 0, 0, .defer⟩
    tmode := fun t => if t < 2 then some 0 else if t < 4 then some 1 else none
    timers := [0, 2, 3], resets := [(1, 0, 42)]
    startup := [(0, some 0), (1, some 1)], reset := [(2, some 1)], shutdown := [(3, some 0), (4, some 1)]
    debug := true }

/-- A modal reactor with the modes 0 (initial) and 1, and another with the modes 2 (initial) and 3 inside of mode `p`.
Mode 2 contains an action (0) and startup and shutdown reactions. -/
def nestedProg (p : Nat) : Prog :=
  { n := 2, parent := fun i => if i = 0 then none else some p, owner := fun md => if md < 2 then 0 else 1
    initial := fun i => if i = 0 then 0 else 2
    trigs := fun _ => ⟨false, false, 0, 0, .defer⟩
    tmode := fun t => if t = 0 then some 2 else none
    timers := [], resets := []
    startup := [(0, some 2)], reset := [], shutdown := [(1, some 2)]
    debug := true }

end ReactorC.Modes
