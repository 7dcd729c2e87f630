import Verif.Watchdog.Model
import Mathlib.Tactic.Common

/-! # C50: watchdogs -/

namespace ReactorC.Watchdog

/-! ## Specification -/

/-- The expiration time in force after a record of actions (latest first): that of a start, if nothing has happened
since. -/
def inForce (minimum : Int) : List Entry → Option Int
  | .start logical additional :: _ => some (logical + minimum + additional)
  | _ => none

/-- No start in the record replaces an expiration time in force by an earlier one. -/
def Extending (minimum : Int) : List Entry → Prop
  | [] => True
  | .start logical additional :: l =>
    (∀ e, inForce minimum l = some e → e ≤ logical + minimum + additional) ∧ Extending minimum l
  | _ :: l => Extending minimum l

/-! ## The invariant -/

/-- The watchdog's thread holds the mutex. -/
def Inside : Pc → Prop
  | .top => True
  | .check => True
  | .handler => True
  | _ => False

structure Inv (minimum : Int) (s : State) : Prop where
  owner : Inside s.pc ↔ s.owner = some .watchdog
  term : s.terminate = true → s.expiration = NEVER
  due : ∀ pre p l, s.log = pre ++ .fire p :: l → ∃ a b l', l = .start a b :: l' ∧ a + minimum + b ≤ p
  exp : s.pc ≠ .handler → s.expiration ≠ NEVER →
    ∃ a b l, s.log = .start a b :: l ∧ s.expiration = a + minimum + b
  sleeping : s.pc = .idle → s.expiration = NEVER ∧ s.terminate = false ∧ s.active = false
  waiting : ∀ u, s.pc = .timed u → s.active = true ∧ s.terminate = false ∧
    ∃ e, inForce minimum s.log = some e ∧ (Extending minimum s.log → u ≤ e)

theorem inside_signal (p : Pc) : Inside (signal p) ↔ Inside p := by cases p <;> simp [signal, Inside]

theorem signal_handler (p : Pc) : signal p = .handler ↔ p = .handler := by cases p <;> simp [signal]

theorem signal_idle (p : Pc) : signal p ≠ .idle := by cases p <;> simp [signal]

theorem signal_timed (p : Pc) (u : Int) : signal p ≠ .timed u := by cases p <;> simp [signal]

theorem due_cons {minimum : Int} {log : List Entry} (en : Entry) (he : ∀ p, en ≠ .fire p)
    (h : ∀ pre p l, log = pre ++ .fire p :: l → ∃ a b l', l = .start a b :: l' ∧ a + minimum + b ≤ p) :
    ∀ pre p l, en :: log = pre ++ .fire p :: l → ∃ a b l', l = .start a b :: l' ∧ a + minimum + b ≤ p := by
  intro pre p l hp
  cases pre with
  | nil => simp at hp; exact absurd hp.1 (he p)
  | cons x pre => simp at hp; exact h pre p l hp.2

theorem inv_init (minimum now : Int) : Inv minimum (init now) := by
  refine ⟨?_, ?_, ?_, ?_, ?_, ?_⟩
  · simp [init, Inside]
  · intro h; rfl
  · intro pre p l h; simp [init] at h
  · intro _ h; exact absurd rfl h
  · intro h; simp [init] at h
  · intro u h; simp [init] at h

theorem inv_start {minimum : Int} {s : State} (h : Inv minimum s) (a b : Int) (hc : Callable s) :
    Inv minimum (start minimum a b s) := by
  obtain ⟨ho, ht, hd, he, hsl, hw⟩ := h
  by_cases ha : s.active = true
  · have hpc : (start minimum a b s).pc = s.pc := by simp [start, ha]
    refine ⟨?_, ?_, ?_, ?_, ?_, ?_⟩
    · rw [hpc]; exact ho
    · intro h; simp [start] at h
    · exact due_cons _ (by intro p; simp) hd
    · intro _ _; exact ⟨a, b, s.log, rfl, rfl⟩
    · rw [hpc]; intro hi; have := (hsl hi).2.2; rw [ha] at this; cases this
    · intro u; rw [hpc]; intro hu
      obtain ⟨_, _, e, h1, h2⟩ := hw u hu
      refine ⟨ha, rfl, _, rfl, ?_⟩
      intro hx
      have := h2 hx.2
      have := hx.1 e h1
      omega
  · have hpc : (start minimum a b s).pc = signal s.pc := by simp [start, ha]
    refine ⟨?_, ?_, ?_, ?_, ?_, ?_⟩
    · rw [hpc, inside_signal]; exact ho
    · intro h; simp [start] at h
    · exact due_cons _ (by intro p; simp) hd
    · intro _ _; exact ⟨a, b, s.log, rfl, rfl⟩
    · rw [hpc]; intro hi; exact absurd hi (signal_idle _)
    · intro u; rw [hpc]; intro hu; exact absurd hu (signal_timed _ _)

theorem inv_stop {minimum : Int} {s : State} (h : Inv minimum s) : Inv minimum (stop s) := by
  obtain ⟨ho, ht, hd, he, hsl, hw⟩ := h
  by_cases ha : s.active = true
  · have hpc : (stop s).pc = signal s.pc := by simp [stop, ha]
    refine ⟨?_, ?_, ?_, ?_, ?_, ?_⟩
    · rw [hpc, inside_signal]; exact ho
    · intro _; rfl
    · exact due_cons _ (by intro p; simp) hd
    · intro _ h; exact absurd rfl h
    · rw [hpc]; intro hi; exact absurd hi (signal_idle _)
    · intro u; rw [hpc]; intro hu; exact absurd hu (signal_timed _ _)
  · have hpc : (stop s).pc = s.pc := by simp [stop, ha]
    refine ⟨?_, ?_, ?_, ?_, ?_, ?_⟩
    · rw [hpc]; exact ho
    · intro _; rfl
    · exact due_cons _ (by intro p; simp) hd
    · intro _ h; exact absurd rfl h
    · rw [hpc]; intro hi; exact ⟨rfl, (hsl hi).2⟩
    · intro u; rw [hpc]; intro hu; exact absurd (hw u hu).1 ha

theorem inv_terminate {minimum : Int} {s : State} (h : Inv minimum s) : Inv minimum (terminate s) := by
  obtain ⟨ho, ht, hd, he, hsl, hw⟩ := h
  refine ⟨?_, ?_, ?_, ?_, ?_, ?_⟩
  · show Inside (signal s.pc) ↔ _
    rw [inside_signal]; exact ho
  · intro _; rfl
  · exact due_cons _ (by intro p; simp) hd
  · intro _ h; exact absurd rfl h
  · intro hi; exact absurd hi (signal_idle _)
  · intro u hu; exact absurd hu (signal_timed _ _)

theorem inv_top {minimum : Int} {s : State} (h : Inv minimum s) (hpc : s.pc = .top) : Inv minimum (atTop s) := by
  obtain ⟨ho, ht, hd, he, hsl, hw⟩ := h
  have hn : s.pc ≠ .handler := by simp [hpc]
  unfold atTop
  split
  · exact ⟨by simp [Inside], ht, hd, fun _ => he hn, by simp, by simp⟩
  · rename_i h1
    split
    · rename_i h2
      exact ⟨by simp [Inside], ht, hd, fun _ => he hn, fun _ => ⟨h2, by simpa using h1, rfl⟩, by simp⟩
    · refine ⟨?_, ht, hd, fun _ => he hn, by simp, by simp⟩
      have := ho.1 (by rw [hpc]; trivial)
      simp [this, Inside]

theorem inv_check {minimum : Int} {s : State} (h : Inv minimum s) (hpc : s.pc = .check) (ha : s.active = true) :
    Inv minimum (atCheck s) := by
  obtain ⟨ho, ht, hd, he, hsl, hw⟩ := h
  have hn : s.pc ≠ .handler := by simp [hpc]
  have hown := ho.1 (by rw [hpc]; trivial)
  unfold atCheck
  split
  · rename_i h1
    refine ⟨by simp [Inside], ht, hd, fun _ => he hn, by simp, ?_⟩
    intro u hu
    simp at hu
    obtain ⟨a, b, l, h2, h3⟩ := he hn h1.1
    refine ⟨ha, h1.2.2, s.expiration, ?_, ?_⟩
    · show inForce minimum s.log = _
      rw [h2, h3]; rfl
    · intro _; omega
  · rename_i h1
    split
    · exact ⟨by simp [Inside], ht, hd, fun _ => he hn, by simp, by simp⟩
    · rename_i h2
      split
      · refine ⟨by simp [hown, Inside], ht, hd, fun _ => he hn, by simp, by simp⟩
      · rename_i h3
        refine ⟨by simp [hown, Inside], ht, ?_, by simp, by simp, by simp⟩
        intro pre p l hp
        cases pre with
        | nil =>
          simp at hp
          obtain ⟨hp, hl⟩ := hp
          subst hl
          obtain ⟨a, b, l', h4, h5⟩ := he hn h3
          refine ⟨a, b, l', h4, ?_⟩
          have : ¬ s.now < s.expiration := fun hlt => h1 ⟨h3, hlt, by simpa using h2⟩
          omega
        | cons x pre => simp at hp; exact hd pre p l hp.2

/-- In `check`, and in a timed wait, the watchdog is active. -/
structure Act (s : State) : Prop where
  check : s.pc = .check → s.active = true
  timed : ∀ u, s.pc = .timed u → s.active = true
  woken : s.pc = .timedWoken → s.active = true

theorem act_step {minimum : Int} {s t : State} (h : Act s) (st : Step minimum s t) : Act t := by
  have hsig : ∀ p : Pc, signal p = .timedWoken → p = .timedWoken ∨ ∃ u, p = .timed u := by
    intro p; cases p <;> simp [signal]
  have hsigc : ∀ p : Pc, signal p = .check → p = .check := by
    intro p; cases p <;> simp [signal]
  have hset : ∀ t' : State, t'.pc = signal s.pc → t'.active = s.active → Act t' := by
    intro t' h1 h2
    refine ⟨?_, ?_, ?_⟩
    · rw [h1, h2]; intro hc; exact h.check (hsigc _ hc)
    · rw [h1]; intro u hu; exact absurd hu (signal_timed _ _)
    · rw [h1, h2]; intro hc
      rcases hsig _ hc with hc | ⟨u, hc⟩
      · exact h.woken hc
      · exact h.timed u hc
  have hsame : ∀ t' : State, t'.pc = s.pc → t'.active = s.active → Act t' := by
    intro t' h1 h2
    exact ⟨by rw [h1, h2]; exact h.check, by rw [h1, h2]; exact h.timed, by rw [h1, h2]; exact h.woken⟩
  cases st with
  | tick n hn => exact hsame _ rfl rfl
  | lock hn => exact hsame _ rfl rfl
  | unlock hn => exact hsame _ rfl rfl
  | start a b hc =>
    by_cases ha : s.active = true
    · exact hsame _ (by simp [start, ha]) rfl
    · exact hset _ (by simp [start, ha]) rfl
  | stop hc =>
    by_cases ha : s.active = true
    · exact hset _ (by simp [stop, ha]) rfl
    · exact hsame _ (by simp [stop, ha]) rfl
  | terminate hc => exact hset _ rfl rfl
  | enter hp hn => exact ⟨by simp, by simp, by simp⟩
  | resume hp hn => exact ⟨fun _ => h.woken hp, by simp, by simp⟩
  | top hp =>
    unfold atTop
    split
    · exact ⟨by simp, by simp, by simp⟩
    · split
      · exact ⟨by simp, by simp, by simp⟩
      · exact ⟨by simp, by simp, by simp⟩
  | check hp =>
    have := h.check hp
    unfold atCheck
    split
    · exact ⟨by simp, by simp [this], by simp⟩
    · split
      · exact ⟨by simp, by simp, by simp⟩
      · split
        · exact ⟨by simp, by simp, by simp⟩
        · exact ⟨by simp, by simp, by simp⟩
  | handled hp => exact ⟨by simp, by simp, by simp⟩
  | timeout u hp hn => exact ⟨by simp, by simp, fun _ => h.timed u hp⟩
  | spurious => exact hset _ rfl rfl

theorem inv_step {minimum : Int} {s t : State} (h : Inv minimum s) (hact : Act s) (st : Step minimum s t) :
    Inv minimum t := by
  cases st with
  | start a b hc => exact inv_start h a b hc
  | stop hc => exact inv_stop h
  | terminate hc => exact inv_terminate h
  | top hp => exact inv_top h hp
  | check hp => exact inv_check h hp (hact.check hp)
  | tick n hn => exact ⟨h.owner, h.term, h.due, h.exp, h.sleeping, h.waiting⟩
  | lock hn =>
    have := h.owner; rw [hn] at this
    exact ⟨by simpa using this, h.term, h.due, h.exp, h.sleeping, h.waiting⟩
  | unlock hn =>
    have := h.owner; rw [hn] at this
    exact ⟨by simpa using this, h.term, h.due, h.exp, h.sleeping, h.waiting⟩
  | enter hp hn =>
    have hnh : s.pc ≠ .handler := by rcases hp with hp | hp <;> simp [hp]
    exact ⟨by simp [Inside], h.term, h.due, fun _ => h.exp hnh, by simp, by simp⟩
  | resume hp hn =>
    have hnh : s.pc ≠ .handler := by simp [hp]
    exact ⟨by simp [Inside], h.term, h.due, fun _ => h.exp hnh, by simp, by simp⟩
  | handled hp =>
    have hown := h.owner.1 (by rw [hp]; trivial)
    exact ⟨by simp [Inside, hown], fun _ => rfl, due_cons _ (by intro p; simp) h.due, fun _ hx => absurd rfl hx,
      by simp, by simp⟩
  | timeout u hp hn =>
    have hnh : s.pc ≠ .handler := by simp [hp]
    have hown : s.owner ≠ some .watchdog := fun ho => by
      have := h.owner.2 ho; rw [hp] at this; exact this
    exact ⟨by simp [Inside, hown], h.term, h.due, fun _ => h.exp hnh, by simp, by simp⟩
  | spurious =>
    refine ⟨?_, h.term, h.due, ?_, ?_, ?_⟩
    · show Inside (signal s.pc) ↔ _
      rw [inside_signal]; exact h.owner
    · intro hx; exact h.exp (fun he => hx ((signal_handler _).2 he))
    · intro hi; exact absurd hi (signal_idle _)
    · intro u hu; exact absurd hu (signal_timed _ _)

theorem inv_reach {minimum : Int} {s : State} (r : Reach minimum s) : Inv minimum s ∧ Act s := by
  induction r with
  | init now => exact ⟨inv_init minimum now, ⟨by simp [init], by simp [init], by simp [init]⟩⟩
  | step _ st ih => exact ⟨inv_step ih.1 ih.2 st, act_step ih.2 st⟩

/-- The last entry of the record determines the fields. -/
structure Last (minimum : Int) (s : State) : Prop where
  start : ∀ a b rest, s.log = .start a b :: rest → s.expiration = a + minimum + b
  term : ∀ rest, s.log = .terminate :: rest → s.terminate = true

theorem last_step {minimum : Int} {s t : State} (h : Last minimum s) (st : Step minimum s t) : Last minimum t := by
  cases st with
  | start a b hc =>
    refine ⟨?_, by simp [start]⟩
    intro x y rest hl
    simp [start] at hl ⊢
    omega
  | stop hc => exact ⟨by simp [stop], by simp [stop]⟩
  | terminate hc => exact ⟨by simp [terminate], by simp [terminate]⟩
  | top hp => unfold atTop; split <;> [skip; split] <;> exact ⟨h.start, h.term⟩
  | check hp =>
    unfold atCheck
    split
    · exact ⟨h.start, h.term⟩
    · split
      · exact ⟨h.start, h.term⟩
      · split
        · exact ⟨h.start, h.term⟩
        · exact ⟨by simp, by simp⟩
  | handled hp => exact ⟨by simp, by simp⟩
  | tick n hn => exact ⟨h.start, h.term⟩
  | lock hn => exact ⟨h.start, h.term⟩
  | unlock hn => exact ⟨h.start, h.term⟩
  | enter hp hn => exact ⟨h.start, h.term⟩
  | resume hp hn => exact ⟨h.start, h.term⟩
  | timeout u hp hn => exact ⟨h.start, h.term⟩
  | spurious => exact ⟨h.start, h.term⟩

theorem last_reach {minimum : Int} {s : State} (r : Reach minimum s) : Last minimum s := by
  induction r with
  | init now => exact ⟨by simp [init], by simp [init]⟩
  | step _ st ih => exact last_step ih st

/-! ## Properties -/

/-- C50.  Whenever the handler is called, the last thing that happened to the watchdog was a start (so it has not been
stopped, terminated, restarted or handled since, and the handler runs at most once per start), and the physical clock
had reached the logical time of that start plus the watchdog's timeout plus the additional timeout. -/
theorem C50_handler_only_when_due_partial {minimum : Int} {s : State} (r : Reach minimum s) (later earlier : List Entry)
    (physical : Int) (h : s.log = later ++ .fire physical :: earlier) :
    ∃ logical additional rest, earlier = .start logical additional :: rest ∧
      logical + minimum + additional ≤ physical :=
  (inv_reach r).1.due later physical earlier h

/-- C50.  While the handler runs the reactor's mutex is held by the watchdog's thread, so that no reaction of the
reactor is running. -/
theorem C50_handler_excludes_reactions_partial {minimum : Int} {s : State} (r : Reach minimum s) (h : s.pc = .handler) :
    s.owner = some .watchdog :=
  (inv_reach r).1.owner.1 (by rw [h]; trivial)

/-- C50.  No start is missed: while a watchdog is started, its thread does not sleep waiting for a start; and it does
not sleep once it has been terminated. -/
theorem C50_start_not_missed {minimum : Int} {s : State} (r : Reach minimum s) (h : s.pc = .idle) :
    (∀ logical additional rest, s.log = .start logical additional :: rest → logical + minimum + additional = NEVER) ∧
    ∀ rest, s.log ≠ .terminate :: rest := by
  have h1 := (inv_reach r).1.sleeping h
  have h2 := last_reach r
  refine ⟨?_, ?_⟩
  · intro a b rest hl
    rw [← h2.start a b rest hl]; exact h1.1
  · intro rest hl
    have := h2.term rest hl
    rw [h1.2.1] at this; cases this

/-- A watchdog started at logical time 5 with timeout 10 and additional timeout 3 calls its handler when the clock shows
20. -/
theorem demo_fire : ∃ s, Reach 10 s ∧ s.pc = .handler ∧ s.log = [.fire 20, .start 5 3] := by
  have r := Reach.init (minimum := 10) 0
  have r := r.step (.lock _ rfl)
  have r := r.step (.start _ 5 3 (Or.inl rfl))
  have r := r.step (.unlock _ rfl)
  have r := r.step (.enter _ (Or.inl rfl) rfl)
  have r := r.step (.top _ rfl)
  have r := r.step (.check _ rfl)
  have r := r.step (.tick _ 20 (by decide))
  have r := r.step (.timeout _ 18 rfl (by decide))
  have r := r.step (.resume _ rfl rfl)
  have r := r.step (.check _ rfl)
  exact ⟨_, r, rfl, rfl⟩

example : ∃ s, Reach 10 s ∧ s.log = [] ++ .fire 20 :: [.start 5 3] := by
  obtain ⟨s, r, _, h⟩ := demo_fire; exact ⟨s, r, h⟩

/-- A stopped watchdog's thread goes to sleep. -/
example : ∃ s, Reach 10 s ∧ s.pc = .idle ∧ s.log = [.stop, .start 5 3] := by
  have r := Reach.init (minimum := 10) 0
  have r := r.step (.lock _ rfl)
  have r := r.step (.start _ 5 3 (Or.inl rfl))
  have r := r.step (.stop _ (Or.inl rfl))
  have r := r.step (.unlock _ rfl)
  have r := r.step (.enter _ (Or.inl rfl) rfl)
  have r := r.step (.top _ rfl)
  exact ⟨_, r, rfl, rfl⟩

/-- C50.  A start made by the handler itself has no effect: when the handler returns the thread goes back to sleep
until the next start.  (The code does so; a user may not expect it.) -/
theorem C50_start_in_handler_is_lost : ∃ s, Reach 10 s ∧ s.pc = .idle ∧ s.expiration = NEVER ∧
    s.log = [.handled, .start 20 0, .fire 20, .start 5 3] := by
  obtain ⟨s, r, h1, h2⟩ := demo_fire
  have r := r.step (.start _ 20 0 (Or.inr h1))
  have r := r.step (.handled _ (by simp [start, h1, signal]))
  have r := r.step (.top _ rfl)
  have ht : (start 10 20 0 s).terminate = false := rfl
  refine ⟨_, r, ?_, ?_, ?_⟩ <;> simp [atTop, start, h2]

/-- C50.  Sleeping watchdogs are not woken by a restart with an earlier expiration time: here the restart is due at
16, the clock shows 50, and the thread may stay asleep until 105. -/
theorem C50_shorter_restart_is_late : ∃ s, Reach 10 s ∧ s.pc = .timed 105 ∧ s.owner = none ∧ s.now = 50 ∧
    s.log = [.start 6 0, .start 5 90] := by
  have r := Reach.init (minimum := 10) 0
  have r := r.step (.lock _ rfl)
  have r := r.step (.start _ 5 90 (Or.inl rfl))
  have r := r.step (.unlock _ rfl)
  have r := r.step (.enter _ (Or.inl rfl) rfl)
  have r := r.step (.top _ rfl)
  have r := r.step (.check _ rfl)
  have r := r.step (.lock _ rfl)
  have r := r.step (.start _ 6 0 (Or.inl rfl))
  have r := r.step (.unlock _ rfl)
  have r := r.step (.tick _ 50 (by decide))
  exact ⟨_, r, rfl, rfl, rfl, rfl⟩

/-- C50.  While the thread sleeps until a certain time, the watchdog is started, and if no start has replaced an
expiration time by an earlier one, that time is not after the expiration time: the thread wakes up in time.
Without the condition on starts this is false, see `C50_shorter_restart_is_late`. -/
theorem C50_wakes_in_time_if_extending {minimum : Int} {s : State} (r : Reach minimum s) (u : Int) (h : s.pc = .timed u) :
    ∃ logical additional rest, s.log = .start logical additional :: rest ∧
      (Extending minimum s.log → u ≤ logical + minimum + additional) := by
  obtain ⟨_, _, e, h1, h2⟩ := (inv_reach r).1.waiting u h
  match hl : s.log with
  | .start a b :: rest =>
    rw [hl] at h1 h2
    simp [inForce] at h1
    exact ⟨a, b, rest, rfl, fun hx => by have := h2 hx; omega⟩
  | [] => rw [hl] at h1; simp [inForce] at h1
  | .stop :: _ => rw [hl] at h1; simp [inForce] at h1
  | .terminate :: _ => rw [hl] at h1; simp [inForce] at h1
  | .fire _ :: _ => rw [hl] at h1; simp [inForce] at h1
  | .handled :: _ => rw [hl] at h1; simp [inForce] at h1

/-- A thread asleep until the expiration time. -/
example : ∃ s, Reach 10 s ∧ s.pc = .timed 105 ∧ Extending 10 s.log := by
  have r := Reach.init (minimum := 10) 0
  have r := r.step (.lock _ rfl)
  have r := r.step (.start _ 5 90 (Or.inl rfl))
  have r := r.step (.unlock _ rfl)
  have r := r.step (.enter _ (Or.inl rfl) rfl)
  have r := r.step (.top _ rfl)
  have r := r.step (.check _ rfl)
  refine ⟨_, r, rfl, ?_⟩
  show Extending 10 [.start 5 90]
  simp [Extending, inForce]

end ReactorC.Watchdog
