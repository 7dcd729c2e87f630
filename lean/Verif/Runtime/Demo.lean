import Verif.Runtime.Spec

/-! A concrete program and runs of it, used to show that the hypotheses of the theorems are met. -/

namespace ReactorC.Runtime
open ReactorC ReactorC.Sched

/-- Checker for `InDomain`. -/
def inDomainB (P : Prog) (s : St) : Label → Bool
  | .call t extra _ phys =>
    decide ((P.trigs t).isTimer = false ∧ (0 ≤ s.env.cur.time ∧ s.env.cur.time < FOREVER) ∧
      s.env.cur.microstep + s.env.q.length + 2 ≤ UINT_MAX ∧ 0 ≤ (P.trigs t).offset ∧
      s.env.cur.time + ((P.trigs t).offset + max 0 extra) < FOREVER ∧
      ((P.trigs t).isPhysical = true →
        s.env.cur.time < phys + ((P.trigs t).offset + max 0 extra) ∧
          phys + ((P.trigs t).offset + max 0 extra) < FOREVER) ∧
      (0 < (P.trigs t).period → (s.env.last t).time = NEVER ∨
        (0 ≤ (s.env.last t).time ∧ (s.env.last t).time + (P.trigs t).period ≤ FOREVER)))
  | .requestStop | .next | .interrupted => decide (s.env.cur.microstep < UINT_MAX)
  | _ => true

theorem inDomain_of_B {P s l} (h : inDomainB P s l = true) : InDomain P s l := by
  cases l <;> simp only [inDomainB, decide_eq_true_eq] at h <;> simp only [InDomain]
  case call => exact ⟨h.1, h.2.1, h.2.2.1, h.2.2.2.1, h.2.2.2.2.1, h.2.2.2.2.2.1, h.2.2.2.2.2.2⟩
  all_goals exact h

/-- Run a list of labels, checking the domain. -/
def runFrom (P : Prog) : St → List Label → Option St
  | s, [] => some s
  | s, l :: ls =>
    match step P s l with
    | none => none
    | some s' =>
      if inDomainB P s l = true ∧ s'.env.cur.time < FOREVER then runFrom P s' ls else none

theorem good_of_runFrom {P start duration} : ∀ (ls : List Label) {done s s'},
    Good P start duration done s → runFrom P s ls = some s' →
    ∃ all, Good P start duration all s' := by
  intro ls
  induction ls with
  | nil => intro done s s' h hr; simp only [runFrom, Option.some.injEq] at hr; subst hr; exact ⟨_, h⟩
  | cons l ls ih =>
    intro done s s' h hr
    unfold runFrom at hr
    split at hr
    · cases hr
    · rename_i s1 hs
      split at hr
      · rename_i hd
        exact ih (.step h hs (inDomain_of_B hd.1) hd.2) hr
      · cases hr

/-- Run a list of labels without checking the domain. -/
def runAny (P : Prog) : St → List Label → Option St
  | s, [] => some s
  | s, l :: ls =>
    match step P s l with
    | none => none
    | some s' => runAny P s' ls

theorem exec_of_runAny {P start duration} : ∀ (ls : List Label) {done s s'},
    Exec P start duration done s → runAny P s ls = some s' →
    ∃ all, Exec P start duration all s' := by
  intro ls
  induction ls with
  | nil => intro done s s' h hr; simp only [runAny, Option.some.injEq] at hr; subst hr; exact ⟨_, h⟩
  | cons l ls ih =>
    intro done s s' h hr
    unfold runAny at hr
    split at hr
    · cases hr
    · rename_i s1 hs
      exact ih (.step h hs) hr

/-- Timer 0 (offset 0, period 10) triggers reaction 0, whose output triggers reaction 1 (with a
deadline and a handler); action 1 triggers reaction 2; action 2 is a physical action; reaction 3 is
a startup and reaction 4 a shutdown reaction. -/
def demo : Prog where
  trigs := fun t =>
    if t = 0 then ⟨true, false, 0, 10, .defer⟩
    else if t = 1 then ⟨false, false, 3, 0, .defer⟩
    else ⟨false, true, 0, 0, .defer⟩
  reactions := fun t => if t = 0 then [0] else if t = 1 then [2] else []
  index := fun r => r
  deadline := fun r => if r = 1 then 5 else -1
  hasHandler := fun r => r == 1
  down := fun r => if r = 0 then [1] else []
  lastEnabling := fun r => if r = 1 then some 0 else none
  timers := [0]
  startup := [3]
  shutdown := [4]
  keepalive := true
  debug := true

/-- A complete run with timeout 15: at 0 the timer and startup reactions (reaction 1 within its
deadline, and action 1 scheduled), at 3 the action, at 10 the timer again (reaction 1 misses its
deadline), at 15 the shutdown. -/
def demoRun : List Label :=
  [.start 0 100, .call 1 0 none 0, .finish [1] 105, .finish [] 0, .start 3 0, .finish [] 0, .endStep,
   .next, .popEvent ⟨1, ⟨103, 0⟩, some 1, none⟩, .donePop, .start 2 0, .finish [] 0, .endStep,
   .next, .popEvent ⟨0, ⟨110, 0⟩, some 0, none⟩, .donePop, .start 0 120, .finish [1] 120, .finish [] 0,
   .endStep, .next, .donePop, .start 4 0, .finish [] 0, .endStep]

theorem demo_wf : WF demo 100 15 where
  start_time := by decide
  duration := by decide
  timer := by
    intro t
    simp only [demo]
    split
    · simp_all
    · split <;> simp_all
  timers_nodup := by decide
  timer_logical := by decide
  timer_offset := by decide
  timer_period := by decide

theorem demo_topological : Topological demo := by
  intro r d h
  simp only [demo] at h ⊢
  split at h <;> simp_all

theorem demo_sole : SoleEnabler demo := by
  intro d r h
  simp only [demo] at h
  split at h
  · rename_i hd
    simp only [Option.some.injEq] at h
    subst hd; subst h
    refine ⟨?_, ?_, by decide, by decide⟩
    · intro r' h; simp only [demo] at h; split at h <;> simp_all
    · intro t; simp only [demo]; split
      · simp
      · split <;> simp
  · cases h

/-- The final state of the run. -/
def demoEnd : St := (runFrom demo (init demo 100 15) demoRun).getD (init demo 100 15)

theorem demoRun_ok : runFrom demo (init demo 100 15) demoRun = some demoEnd := by
  have h : (runFrom demo (init demo 100 15) demoRun).isSome = true := by decide
  unfold demoEnd
  revert h
  cases runFrom demo (init demo 100 15) demoRun <;> simp

theorem demo_good : ∃ ls, Good demo 100 15 ls demoEnd := good_of_runFrom _ .init demoRun_ok

theorem demo_facts : demoEnd.phase = .stopped ∧
    tagsOf demoEnd.log = [⟨115, 0⟩, ⟨110, 0⟩, ⟨103, 0⟩, ⟨100, 0⟩] ∧
    firesOf 0 demoEnd.log = [⟨110, 0⟩, ⟨100, 0⟩] ∧
    runsAt ⟨100, 0⟩ demoEnd.log = [3, 1, 0] ∧ runsAt ⟨110, 0⟩ demoEnd.log = [1, 0] ∧
    runsAt ⟨115, 0⟩ demoEnd.log = [4] ∧
    Entry.run ⟨100, 0⟩ 1 .body 105 ∈ demoEnd.log ∧ Entry.run ⟨110, 0⟩ 1 .handler 120 ∈ demoEnd.log ∧
    (poppedOf demoEnd.log).map Event.id = [0, 1] := by
  unfold demoEnd; decide

end ReactorC.Runtime
