import Verif.Platform.SleepInv
import Mathlib.Logic.Relation

/-!
# C77: a program without threads sleeps until the next event and does not miss what interrupts schedule

`next` calls the function with the time `w` of the earliest event.  While it sleeps, interrupt service routines may schedule events, with the present physical time.
When it returns 0, `next` advances to `w`; otherwise it looks at the queue again.
-/

namespace ReactorC.Platform.Sleep

/-- What `next` relies on, in the states `s` of a call with `w`.  The result is 0 only when `w` has come, and then nothing has been scheduled for before `w` (both up to `tol` nanoseconds).
Another result means that something has been scheduled.  When something has been scheduled, the function is not waiting, and it ends: it makes at
most six steps, however long `w` is away. -/
structure Works (P : Platform) (w tol : Int) (s : St) : Prop where
  completed : s.result = some 0 → w ≤ s.now + tol ∧ ∀ e ∈ s.events, w ≤ e + tol
  interrupted : ∀ r, s.result = some r → r ≠ 0 → s.events ≠ []
  wakes : s.events ≠ [] → s.steps ≤ 6 ∧ (s.result = none → ∃ s', P.own s = some s')

/-- Execution of a list of actions. -/
def runs (P : Platform) (s : St) : List Act → Option St
  | [] => some s
  | a :: l => (act P s a).bind fun s' => runs P s' l

theorem Reach.runs {P : Platform} : ∀ {l : List Act} {s s' : St}, Reach P s → runs P s l = some s' → Reach P s'
  | [], _, _, h, e => by cases e; exact h
  | a :: l, s, s', h, e => by
    unfold Sleep.runs at e
    cases k : act P s a with
    | none => rw [k] at e; cases e
    | some s1 => rw [k] at e; exact (h.step a k).runs e

/-! ## Patmos -/

theorem C77_patmos_sleep (w : Int) {s : St} (h : Reach (patmos w) s) : Works (patmos w) w 0 s := by
  have i := patmos_inv h
  refine ⟨fun e => ?_, fun r e hr => ?_, fun ne => ⟨?_, fun e => ?_⟩⟩
  · have hp := i.done.2 (by rw [e]; simp)
    rcases i.res 0 e with ⟨_, q⟩ | ⟨q, _⟩
    · exact ⟨by have := i.over (by omega) q; omega, by rw [q]; simp⟩
    · cases q
  · rcases i.res r e with ⟨q, _⟩ | ⟨_, q⟩
    · exact absurd q hr
    · exact q
  · have := i.steps ne; have := i.pc; omega
  · have hp : s.pc ≠ 6 := fun q => i.done.1 q e
    have := i.pc
    have hp : s.pc = 0 ∨ s.pc = 1 ∨ s.pc = 2 ∨ s.pc = 3 ∨ s.pc = 4 ∨ s.pc = 5 := by omega
    rcases hp with q | q | q | q | q | q <;> simp only [patmos, busyOwn, q] <;> (try split) <;> exact ⟨_, rfl⟩

/-- An interrupt ends the sleep; the function returns -1 at time 5 of 100. -/
example : ∃ s, runs (patmos 100) { now := 0, flag := true } [.own, .own, .own, .own, .tick 5, .isr, .own, .own, .own, .own] = some s ∧ s.result = some (-1) ∧ s.events = [5] := by
  refine ⟨_, rfl, ?_, ?_⟩ <;> decide

/-- Without interrupts the sleep lasts until the time. -/
example : ∃ s, runs (patmos 100) { now := 0 } [.own, .own, .own, .own, .tick 100, .own, .own, .own, .own] = some s ∧ s.result = some 0 := by
  refine ⟨_, rfl, ?_⟩; decide

/-! ## Arduino -/

/-- The claim is false on Arduino.  The function sleeps with interrupts disabled: whatever happens during the sleep waits for its end. -/
theorem C77_arduino_sleeps_without_interrupts (w : Int) {s : St} (h : Reach (arduino w) s) (hs : 2 ≤ s.pc ∧ s.pc ≤ 4) : act (arduino w) s .isr = none := by
  have := (arduino_off h).2 hs
  simp [act, this]

/-- What is scheduled before the function resets its flag is forgotten: it returns 0 although there is an event long before the time it has waited for. -/
theorem C77_arduino_misses_event : ∃ s, Reach (arduino 100) s ∧ s.result = some 0 ∧ s.events = [0] ∧ s.now = 100 := by
  refine ⟨_, Reach.runs (.init 0 false false) (l := [.isr, .own, .own, .tick 100, .own, .own, .own, .own]) rfl, ?_, ?_, ?_⟩ <;> decide

/-! ## Zephyr -/

/-- Zephyr with the timer of the kernel. -/
theorem C77_zephyr_kernel_sleep (w : Int) {s : St} (h : Reach (zephyrKernel w) s) : Works (zephyrKernel w) w 0 s := by
  have i := kernel_inv h
  refine ⟨fun e => ?_, fun r e hr => ?_, fun ne => ⟨?_, fun e => ?_⟩⟩
  · rcases i.res 0 e with ⟨_, q1, q2⟩ | ⟨q, _⟩
    · exact ⟨by omega, fun x hx => by have := q2 x hx; omega⟩
    · cases q
  · rcases i.res r e with ⟨q, _⟩ | ⟨_, q⟩
    · exact absurd q hr
    · exact q
  · have := i.steps ne; have := i.pc; omega
  · have hp : s.pc ≠ 8 := fun q => i.done.1 q e
    have := i.pc
    have := i.steps ne
    have hp : s.pc = 4 ∨ s.pc = 5 ∨ s.pc = 6 ∨ s.pc = 7 := by omega
    rcases hp with q | q | q | q
    · simp only [zephyrKernel, kernelOwn, q]; exact ⟨_, rfl⟩
    · simp only [zephyrKernel, kernelOwn, q, (i.sem (by omega) (by omega)).2 ne]; exact ⟨_, rfl⟩
    · simp only [zephyrKernel, kernelOwn, q]; exact ⟨_, rfl⟩
    · simp only [zephyrKernel, kernelOwn, q]; split <;> exact ⟨_, rfl⟩

example : ∃ s, runs (zephyrKernel 100) { now := 0, sem := true } [.own, .own, .own, .own, .own, .tick 5, .isr, .own, .own, .own] = some s ∧ s.result = some (-1) ∧ s.events = [5] := by
  refine ⟨_, rfl, ?_, ?_⟩ <;> decide

/-- An event after the time is on the queue although the result is 0; it is not before the time. -/
example : ∃ s, runs (zephyrKernel 100) { now := 0 } [.own, .own, .own, .own, .own, .tick 105, .own, .isr, .own, .own] = some s ∧ s.result = some 0 ∧ s.events = [105] := by
  refine ⟨_, rfl, ?_, ?_⟩ <;> decide

/-- Zephyr with a counter.  Missing: the tolerance, one microsecond and the runtime overhead of the board, is not 0. -/
theorem C77_zephyr_counter_sleep_partial (b : Board) (w : Int) {s : St} (h : Reach (zephyrCounter b w) s) :
    Works (zephyrCounter b w) w (1000 * b.runtime + 1000) s := by
  have i := counter_inv h
  refine ⟨fun e => ?_, fun r e hr => ?_, fun ne => ⟨?_, fun e => ?_⟩⟩
  · have hp := i.done.2 (by rw [e]; simp)
    rcases i.res 0 e with ⟨_, q⟩ | ⟨q, _⟩
    · exact ⟨by have := i.over (by omega) q; omega, by rw [q]; simp⟩
    · cases q
  · rcases i.res r e with ⟨q, _⟩ | ⟨_, q⟩
    · exact absurd q hr
    · exact q
  · have := i.steps ne
    have : counterRank s.pc ≤ 6 := by unfold counterRank; repeat' split
                                      all_goals omega
    omega
  · have hp : s.pc ≠ 11 := fun q => i.done.1 q e
    have := i.pc
    have he : ¬ (s.pc ≤ 1 ∨ s.pc = 3 ∨ s.pc = 4 ∨ s.pc = 9) := fun k => ne (i.early k)
    have hp : s.pc = 2 ∨ s.pc = 5 ∨ s.pc = 6 ∨ s.pc = 7 ∨ s.pc = 8 ∨ s.pc = 10 := by omega
    rcases hp with q | q | q | q | q | q
    · simp only [zephyrCounter, counterOwn, q]; split <;> exact ⟨_, rfl⟩
    · simp only [zephyrCounter, counterOwn, q, i.sem q ne]; exact ⟨_, rfl⟩
    · simp only [zephyrCounter, counterOwn, q]; exact ⟨_, rfl⟩
    · simp only [zephyrCounter, counterOwn, q]; split <;> exact ⟨_, rfl⟩
    · simp only [zephyrCounter, counterOwn, q]; split <;> exact ⟨_, rfl⟩
    · simp only [zephyrCounter, counterOwn, q]; split <;> exact ⟨_, rfl⟩

/-- nRF52 DK, lf_zephyr_board_support.h:39-43. -/
def nrfDk : Board := ⟨100, 10, 19, 4294967296⟩

/-- The full claim is false: the function returns 0 about 20 microseconds early, without anything having happened, so logical time gets ahead of the clock. -/
theorem C77_zephyr_counter_ends_early : ∃ s, Reach (zephyrCounter nrfDk 20999) s ∧ s.result = some 0 ∧ s.now = 1000 := by
  refine ⟨_, Reach.runs (.init 1000 false false) (l := [.own, .own, .own, .own, .own]) rfl, ?_, ?_⟩ <;> decide

/-- A sleep with the alarm, that an interrupt ends. -/
example : ∃ s, runs (zephyrCounter nrfDk 5000000) { now := 0, flag := true, sem := true } [.own, .own, .own, .own, .own, .tick 7000, .isr, .own, .own, .own, .own, .own, .own] = some s ∧
    s.result = some (-1) ∧ s.events = [7000] := by
  refine ⟨_, rfl, ?_, ?_⟩ <;> decide

/-- A sleep that the alarm ends; the rest is busy waiting. -/
example : ∃ s, runs (zephyrCounter nrfDk 5000000) { now := 0 } [.own, .own, .own, .own, .own, .tick 4900000, .alarm, .own, .own, .own, .own, .own, .tick 4981000, .own, .own] = some s ∧
    s.result = some 0 ∧ s.now = 4981000 := by
  refine ⟨_, rfl, ?_, ?_⟩ <;> decide

/-! ## RP2040 -/

/-- RP2040.  The tolerance is less than a microsecond, and 0 when the time is a whole number of microseconds.  Missing: other times. -/
theorem C77_rp2040_sleep_partial (w : Int) (h0 : 0 ≤ w) {s : St} (h : Reach (rp2040 w) s) : Works (rp2040 w) w (w % 1000) s := by
  have i := pico_inv h
  refine ⟨fun e => ?_, fun r e hr => ?_, fun ne => ⟨?_, fun e => ?_⟩⟩
  · rcases i.res 0 e with ⟨_, q1, q2⟩ | ⟨q, _⟩
    · exact ⟨by have := q1 h0; omega, fun x hx => by have := q2 x hx; omega⟩
    · cases q
  · rcases i.res r e with ⟨q, _⟩ | ⟨_, q⟩
    · exact absurd q hr
    · exact q
  · have := i.steps ne; have := i.pc; omega
  · have hp : s.pc ≠ 6 := fun q => i.done.1 q e
    have := i.pc
    have := i.steps ne
    have hp : s.pc = 3 ∨ s.pc = 4 ∨ s.pc = 5 := by omega
    rcases hp with q | q | q
    · simp only [rp2040, picoOwn, q, (i.sem q).2 ne]; exact ⟨_, rfl⟩
    · simp only [rp2040, picoOwn, q]; exact ⟨_, rfl⟩
    · simp only [rp2040, picoOwn, q]; exact ⟨_, rfl⟩

/-- The full claim is false: the function returns 0 although there is an event before the time it was called for. -/
theorem C77_rp2040_passes_an_event : ∃ s, Reach (rp2040 1999) s ∧ s.result = some 0 ∧ s.events = [1000] := by
  refine ⟨_, Reach.runs (.init 0 false false) (l := [.own, .own, .own, .tick 1000, .own, .isr, .own, .own]) rfl, ?_, ?_⟩ <;> decide

example : ∃ s, runs (rp2040 9000) { now := 0, sem := true } [.own, .own, .own, .tick 1000, .isr, .own, .own, .own] = some s ∧ s.result = some (-1) ∧ s.events = [1000] := by
  refine ⟨_, rfl, ?_, ?_⟩ <;> decide

/-! ## FlexPRET -/

/-- The claim is false on FlexPRET.  What is scheduled after interrupts are enabled and before the flag is reset is forgotten. -/
theorem C77_flexpret_misses_event : ∃ s, Reach (flexpret 100) s ∧ s.result = some 0 ∧ s.events = [0] ∧ s.now = 100 := by
  refine ⟨_, Reach.runs (.init 0 false false) (l := [.own, .isr, .own, .own, .own, .own, .tick 100, .own, .own, .own]) rfl, ?_, ?_, ?_⟩ <;> decide

/-- After an interrupt between the check of the flag and `fp_wait_until`, the function sleeps until the time it was called for. -/
theorem C77_flexpret_sleeps_on : ∃ s, Reach (flexpret 100) s ∧ s.events = [0] ∧ s.flag = true ∧ s.result = none ∧
    ∀ t < 100, (flexpret 100).own { s with now := t } = none := by
  refine ⟨_, Reach.runs (.init 0 false false) (l := [.own, .own, .own, .own, .isr, .own]) rfl, ?_, ?_, ?_, fun t ht => ?_⟩
  · decide
  · decide
  · decide
  · simp [flexpret, flexOwn]; omega

/-! ## nRF52 -/

/-- nRF52.  Missing: the result can come up to a microsecond early, and see `C77_nrf52_sleeps_too_long`. -/
theorem C77_nrf52_sleep_partial (w : Int) {s : Nrf} (h : NrfReach w s) :
    (s.result = some 0 → w < s.n * 1000 + 1000 ∧ s.events = []) ∧ (∀ r, s.result = some r → r ≠ 0 → s.events ≠ []) ∧
      (s.events ≠ [] → s.steps ≤ 6 ∧ (s.result = none → ∃ s', nrfOwn w s = some s')) := by
  have i := nrf_inv h
  refine ⟨fun e => ?_, fun r e hr => ?_, fun ne => ⟨?_, fun e => ?_⟩⟩
  · rcases i.res 0 e with ⟨_, q1, q2⟩ | ⟨q, _⟩
    · exact ⟨q2, q1⟩
    · cases q
  · rcases i.res r e with ⟨q, _⟩ | ⟨_, q⟩
    · exact absurd q hr
    · exact q
  · have := i.steps ne; omega
  · have hp : s.pc ≠ 9 := fun q => i.done.1 q e
    have := i.pc
    have he : ¬ (s.pc ≤ 3 ∨ s.pc = 8) := fun k => ne (i.early k)
    have hp : s.pc = 4 ∨ s.pc = 5 ∨ s.pc = 6 ∨ s.pc = 7 := by omega
    rcases hp with q | q | q | q
    · simp only [nrfOwn, q, i.wake q ne]; exact ⟨_, rfl⟩
    · simp only [nrfOwn, q]; exact ⟨_, rfl⟩
    · simp only [nrfOwn, q]; split <;> exact ⟨_, rfl⟩
    · simp only [nrfOwn, q]; split <;> exact ⟨_, rfl⟩

/-- Whether the timer has the value `c` between `a` and `b`, computed. -/
def hitsB (a b c : Nat) : Bool := decide (c < 4294967296 ∧ a + 1 + (c + 4294967296 - (a + 1) % 4294967296) % 4294967296 ≤ b)

theorem hitsB_iff (a b c : Nat) : hitsB a b c = true ↔ hits a b c := by
  unfold hitsB hits
  rw [decide_eq_true_iff]
  constructor
  · rintro ⟨h1, h2⟩
    exact ⟨a + 1 + (c + 4294967296 - (a + 1) % 4294967296) % 4294967296, by omega, h2, by omega⟩
  · rintro ⟨m, h1, h2, h3⟩
    exact ⟨by omega, by omega⟩

/-- What can happen, as a function. -/
inductive NAct
  | own
  | tick (k : Nat)
  | isr
  | timer
  | other

def nact (w : Int) (s : Nrf) : NAct → Option Nrf
  | .own => (nrfOwn w s).map fun s' => { s' with steps := if s.events = [] then 0 else s.steps + 1 }
  | .tick k => match s.cmp with
    | some c => if hitsB s.n (s.n + k) c = true then some { s with n := s.n + k, due := true } else some { s with n := s.n + k }
    | none => some { s with n := s.n + k }
  | .isr => if s.on = true ∧ s.result = none then some { s with events := s.n :: s.events, flag := true, wake := true } else none
  | .timer => if s.on = true ∧ s.due = true then some { s with due := false, asleep := false, wake := true } else none
  | .other => if s.on = true then some { s with wake := true } else none

theorem nact_step {w : Int} {s s' : Nrf} {a : NAct} (e : nact w s a = some s') : NrfStep w s s' := by
  cases a with
  | own =>
    unfold nact at e
    cases k : nrfOwn w s with
    | none => rw [k] at e; cases e
    | some s1 => rw [k] at e; cases e; exact .own k
  | tick k =>
    unfold nact at e
    dsimp only at e
    split at e
    · rename_i c hc
      split at e
      · rename_i hh; cases e; exact .hit k hc ((hitsB_iff _ _ _).1 hh)
      · rename_i hh; cases e
        exact .tick k fun c' hc' h => hh ((hitsB_iff _ _ _).2 (by rw [hc] at hc'; cases hc'; exact h))
    · rename_i hc; cases e; exact .tick k fun c' hc' => by rw [hc] at hc'; cases hc'
  | isr =>
    unfold nact at e; dsimp only at e
    split at e
    · rename_i h; cases e; exact .isr h.1 h.2
    · cases e
  | timer =>
    unfold nact at e; dsimp only at e
    split at e
    · rename_i h; cases e; exact .timer h.1 h.2
    · cases e
  | other =>
    unfold nact at e; dsimp only at e
    split at e
    · rename_i h; cases e; exact .other h
    · cases e

def nruns (w : Int) (s : Nrf) : List NAct → Option Nrf
  | [] => some s
  | a :: l => (nact w s a).bind fun s' => nruns w s' l

theorem NrfReach.runs {w : Int} : ∀ {l : List NAct} {s s' : Nrf}, NrfReach w s → nruns w s l = some s' → NrfReach w s'
  | [], _, _, h, e => by cases e; exact h
  | a :: l, s, s', h, e => by
    unfold nruns at e
    cases k : nact w s a with
    | none => rw [k] at e; cases e
    | some s1 => rw [k] at e; exact (h.step (nact_step k)).runs e

/-- An interrupt at 7 microseconds ends the sleep. -/
example : ∃ s, NrfReach 9000000 s ∧ s.result = some (-1) ∧ s.events = [7] := by
  refine ⟨{ n := 7, flag := true, asleep := true, duration := 9000000, cmp := some 9000, pc := 9, result := some (-1), events := [7], steps := 4 },
    NrfReach.runs (.init 0 true true false false none) (l := [.own, .own, .own, .own, .tick 7, .isr, .own, .own, .own, .own]) ?_, rfl, rfl⟩
  decide +kernel

/-- The timer ends a sleep of 2 hours. -/
example : ∃ s, NrfReach 7200000000000 s ∧ s.result = some 0 ∧ s.n = 7200000000 := by
  refine ⟨{ n := 7200000000, duration := 2905032705000, curr := 4294967295, cmp := some 2905032704, pc := 9, result := some 0 },
    NrfReach.runs (.init 0 true true false false none)
      (l := [.own, .own, .own, .own, .tick 4294967295, .timer, .own, .own, .own, .own, .own, .own, .tick 2905032705, .timer, .own, .own, .own, .own]) ?_, rfl, rfl⟩
  decide +kernel

/-- A state of a sleep until 4294967296 microseconds, at 4294967301. -/
def tooLate : Nrf :=
  { n := 4294967301, duration := 1000, curr := 4294967295, cmp := some 0, asleep := true, pc := 3 }

/-- The last part of the sleep programs the timer for a time that has passed meanwhile: the function sleeps, without a limit by what it was called for, until the timer has overflowed once more. -/
theorem C77_nrf52_sleeps_too_long : ∃ s0, NrfReach 4294967296000 s0 ∧ 4294967296 < s0.n ∧
    ∀ s, Relation.ReflTransGen (NrfStep 4294967296000) s0 s → s.events = [] → s.n < 2 * 4294967296 → s.result = none := by
  refine ⟨tooLate, NrfReach.runs (.init 0 false false false false none)
      (l := [.own, .own, .own, .own, .tick 4294967295, .timer, .own, .own, .own, .own, .tick 6, .own]) ?_, by decide, ?_⟩
  · decide +kernel
  · intro s h
    suffices k : s.events = [] → s.n < 2 * 4294967296 → s.cmp = some 0 ∧ s.due = false ∧ s.asleep = true ∧ s.flag = false ∧ 4294967296 < s.n ∧ s.result = none ∧
        (s.pc = 1 ∨ s.pc = 3 ∨ s.pc = 4 ∨ s.pc = 5 ∨ s.pc = 6) from fun h1 h2 => (k h1 h2).2.2.2.2.2.1
    induction h with
    | refl => intro _ _; simp [tooLate]
    | @tail a b _ st ih =>
      intro h1 h2
      cases st with
      | @own s' e =>
        simp only [nrfOwn] at e
        split at e
        all_goals try split at e
        all_goals try split at e
        all_goals first | cases e | skip
        all_goals grind
      | tick k hk => grind
      | hit k hc hh =>
        obtain ⟨m, m1, m2, m3⟩ := hh
        grind
      | isr k1 k2 => cases h1
      | timer k1 k2 => grind
      | other k1 => grind

end ReactorC.Platform.Sleep
