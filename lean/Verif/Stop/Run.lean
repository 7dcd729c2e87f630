import Verif.Stop.Steps

/-! # Concrete executions of the stop protocol, for examples and counterexamples -/

namespace ReactorC.Stop
open ReactorC

inductive Op
  | next (i : Nat)
  | callStop (i : Nat)
  | raiseOwn (i : Nat)
  | sendOwn (i : Nat)
  | take (i : Nat)
  | rx (i : Nat)
  | resign (i : Nat)
  | hear (i : Nat)

/-- Federate `i` can act, as a test. -/
def isUp (f : Fed) : Bool := f.alive && !f.b.failed

theorem isUp_up {f : Fed} (h : isUp f = true) : f.up := by
  simp only [isUp, Bool.and_eq_true, Bool.not_eq_true'] at h
  exact h

def execRaised (y : Sys) (i : Nat) : Rq → Option Sys
  | .raised c => some (y.set i (sendOwn (y.fed i) c).2 (sendOwn (y.fed i) c).1)
  | _ => none

def execTake (y : Sys) (i : Nat) : Option Msg → Option Sys
  | some (.request t) => some { y.set i { y.fed i with rx := .got t } [] with taken := upd y.taken i (y.taken i + 1) }
  | some (.granted t) => some { y.set i (takeGrant (y.fed i) t) [] with taken := upd y.taken i (y.taken i + 1) }
  | _ => none

def execRx (y : Sys) (i : Nat) : Rx → Option Sys
  | .idle => none
  | .got t => some (y.set i (check (y.fed i) t) [])
  | .checked t a => some (y.set i (countOnce (y.fed i) t a) [])
  | .counted t => some (y.set i (raiseAsked (y.fed i) t) [])
  | .blocked t => some (y.set i { y.fed i with rx := .idle } [.reply t])

def execHear (n : Nat) (y : Sys) (i : Nat) : Option Msg → Option Sys
  | none => none
  | some m => some { y with rti := handle n y.rti i m, heard := upd y.heard i (y.heard i + 1) }

/-- A step of the given kind, if it is possible. -/
def exec (n : Nat) (y : Sys) : Op → Option Sys
  | .next i =>
    if i < n ∧ isUp (y.fed i) = true ∧ (y.fed i).b.waiting = none ∧ (Barrier.nextEvent (y.fed i).b).time < FOREVER ∧
        (Barrier.next (y.fed i).b).cur.microstep < UINT_MAX then
      some (y.set i { y.fed i with b := Barrier.next (y.fed i).b } [])
    else none
  | .callStop i => if i < n ∧ isUp (y.fed i) = true then some (y.set i (callStop (y.fed i)) []) else none
  | .raiseOwn i =>
    if i < n ∧ isUp (y.fed i) = true ∧ (y.fed i).rq = .flagged then some (y.set i (raiseOwn (y.fed i)) []) else none
  | .sendOwn i => if i < n ∧ isUp (y.fed i) = true then execRaised y i (y.fed i).rq else none
  | .take i =>
    if i < n ∧ isUp (y.fed i) = true ∧ (y.fed i).rx = .idle then execTake y i ((y.rti.out i)[y.taken i]?) else none
  | .rx i => if i < n ∧ isUp (y.fed i) = true then execRx y i (y.fed i).rx else none
  | .resign i =>
    if i < n ∧ isUp (y.fed i) = true then some (y.set i { y.fed i with alive := false } [.resign]) else none
  | .hear i => if i < n ∧ y.rti.connected i = true then execHear n y i ((y.sent i)[y.heard i]?) else none

theorem exec_step {n : Nat} {y z : Sys} {op : Op} (h : exec n y op = some z) : Step n y z := by
  cases op with
  | next i =>
    simp only [exec] at h
    split at h
    · rename_i hc; cases h
      exact .act y i _ hc.1 (isUp_up hc.2.1) (.next _ hc.2.2.1 hc.2.2.2.1) hc.2.2.2.2
    · cases h
  | callStop i =>
    simp only [exec] at h
    split at h
    · rename_i hc; cases h; exact .callStop y i hc.1 (isUp_up hc.2)
    · cases h
  | raiseOwn i =>
    simp only [exec] at h
    split at h
    · rename_i hc; cases h; exact .raiseOwn y i hc.1 (isUp_up hc.2.1) hc.2.2
    · cases h
  | sendOwn i =>
    simp only [exec] at h
    split at h
    · rename_i hc
      cases hq : (y.fed i).rq with
      | raised c => rw [hq] at h; cases h; exact .sendOwn y i c hc.1 (isUp_up hc.2) hq
      | _ => rw [hq] at h; cases h
    · cases h
  | take i =>
    simp only [exec] at h
    split at h
    · rename_i hc
      cases hm : (y.rti.out i)[y.taken i]? with
      | none => rw [hm] at h; cases h
      | some m =>
        rw [hm] at h
        cases m with
        | request t => cases h; exact .takeRequest y i t hc.1 (isUp_up hc.2.1) hc.2.2 hm
        | granted t => cases h; exact .takeGrant y i t hc.1 (isUp_up hc.2.1) hc.2.2 hm
        | reply t => cases h
        | resign => cases h
    · cases h
  | rx i =>
    simp only [exec] at h
    split at h
    · rename_i hc
      cases hx : (y.fed i).rx with
      | idle => rw [hx] at h; cases h
      | got t => rw [hx] at h; cases h; exact .check y i t hc.1 (isUp_up hc.2) hx
      | checked t a => rw [hx] at h; cases h; exact .countOnce y i t a hc.1 (isUp_up hc.2) hx
      | counted t => rw [hx] at h; cases h; exact .raiseAsked y i t hc.1 (isUp_up hc.2) hx
      | blocked t => rw [hx] at h; cases h; exact .sendReply y i t hc.1 (isUp_up hc.2) hx
    · cases h
  | resign i =>
    simp only [exec] at h
    split at h
    · rename_i hc; cases h; exact .resign y i hc.1 (isUp_up hc.2)
    · cases h
  | hear i =>
    simp only [exec] at h
    split at h
    · rename_i hc
      cases hm : (y.sent i)[y.heard i]? with
      | none => rw [hm] at h; cases h
      | some m => rw [hm] at h; cases h; exact .hear y i m hc.1 hc.2 hm
    · cases h

def runs (n : Nat) : List Op → Sys → Option Sys
  | [], y => some y
  | op :: rest, y => (exec n y op).bind (runs n rest)

theorem runs_reach {n : Nat} {cur stop : Nat → Tag} {q : Nat → List Tag} (ops : List Op) {y z : Sys}
    (hy : Reach n cur stop q y) (h : runs n ops y = some z) : Reach n cur stop q z := by
  induction ops generalizing y with
  | nil => cases h; exact hy
  | cons op rest ih =>
    unfold runs at h
    cases hx : exec n y op with
    | none => rw [hx] at h; cases h
    | some y' => rw [hx] at h; exact ih (.step hy (exec_step hx)) h

/-- An execution that ends in a state with the given property. -/
theorem run_witness {n : Nat} {cur stop : Nat → Tag} {q : Nat → List Tag} (ops : List Op) (f : Sys → Bool)
    (h : (runs n ops (boot cur stop q)).any f = true) : ∃ y, Reach n cur stop q y ∧ f y = true := by
  cases hr : runs n ops (boot cur stop q) with
  | none => rw [hr] at h; cases h
  | some y => rw [hr] at h; exact ⟨y, runs_reach ops .boot hr, h⟩

end ReactorC.Stop
