import Verif.Platform.Clock
import Mathlib.Tactic.Linarith
import Mathlib.Tactic.Ring

/-!
# Physical time on microcontrollers (C64)
-/

set_option linter.unusedVariables false

namespace ReactorC.Platform

/-! ## Specification -/

/-- Successive readings (the latest first) do not decrease. -/
def NeverBack (log : List Reading) : Prop := log.Pairwise fun later earlier => earlier.value ≤ later.value

/-- The result is the time, in microseconds, at some moment of the call, times 1000. -/
def Reading.Current (r : Reading) : Prop := ∃ t, r.start ≤ t ∧ t ≤ r.finish ∧ r.value = t * 1000

/-! ## nRF52 -/

structure Nrf.Inv (s : Nrf) : Prop where
  unmasked : s.masked = false
  high : s.pending = false → s.high = s.T / word
  late : s.pending = true → s.T % word = 0 ∧ s.high + 1 = s.T / word
  pre : ∀ a hi, s.pc = .pre a hi → a ≤ s.T ∧ hi = a / word
  low : ∀ a hi lo, s.pc = .low a hi lo → ∃ t, a ≤ t ∧ t ≤ s.T ∧ hi = a / word ∧ lo = t % word
  post : ∀ a hi lo hi', s.pc = .post a hi lo hi' →
    ∃ t u, a ≤ t ∧ t ≤ u ∧ u ≤ s.T ∧ hi = a / word ∧ lo = t % word ∧ hi' = u / word
  log : ∀ r ∈ s.log, r.start ≤ r.finish ∧ r.finish ≤ s.T ∧ (r.finish < r.start + word → r.Current)
  order : s.log.Pairwise fun later earlier => earlier.finish ≤ later.start
  before : ∀ r ∈ s.log, (∀ a hi, s.pc = .pre a hi → r.finish ≤ a) ∧ (∀ a hi lo, s.pc = .low a hi lo → r.finish ≤ a) ∧
    (∀ a hi lo hi', s.pc = .post a hi lo hi' → r.finish ≤ a)

theorem Nrf.Inv.clear {s : Nrf} (h : s.Inv) (hf : s.free) : s.pending = false ∧ s.high = s.T / word := by
  have hp : s.pending = false := by
    rcases hf with hf | hf
    · exact hf
    · rw [h.unmasked] at hf; cases hf
  exact ⟨hp, h.high hp⟩

theorem Nrf.Inv.step {s t : Nrf} (h : s.Inv) (hx : Nrf.Step False s t) : t.Inv := by
  cases hx with
  | tick hf =>
    obtain ⟨hp, hh⟩ := h.clear hf
    refine ⟨h.unmasked, ?_, ?_, ?_, ?_, ?_, ?_, h.order, h.before⟩
    · intro hq
      dsimp only at hq ⊢
      simp only [hp, Bool.false_or, beq_eq_false_iff_ne, ne_eq] at hq
      unfold word at *
      omega
    · intro hq
      dsimp only at hq ⊢
      simp only [hp, Bool.false_or, beq_iff_eq] at hq
      unfold word at *
      omega
    · intro a hi e
      obtain ⟨h1, h2⟩ := h.pre a hi e
      exact ⟨by dsimp only; omega, h2⟩
    · intro a hi lo e
      obtain ⟨u, h1, h2, h3⟩ := h.low a hi lo e
      exact ⟨u, h1, by dsimp only; omega, h3⟩
    · intro a hi lo hi' e
      obtain ⟨u, v, h1, h2, h3, h4⟩ := h.post a hi lo hi' e
      exact ⟨u, v, h1, h2, by dsimp only; omega, h4⟩
    · intro r hr
      obtain ⟨h1, h2, h3⟩ := h.log r hr
      exact ⟨h1, by dsimp only; omega, h3⟩
  | isr hp hm =>
    obtain ⟨h1, h2⟩ := h.late hp
    exact ⟨h.unmasked, fun _ => h2, fun e => (by cases e), h.pre, h.low, h.post, h.log, h.order, h.before⟩
  | mask hm => exact hm.elim
  | unmask => exact ⟨rfl, h.high, h.late, h.pre, h.low, h.post, h.log, h.order, h.before⟩
  | readHigh hf hpc =>
    obtain ⟨hp, hh⟩ := h.clear hf
    refine ⟨h.unmasked, h.high, h.late, ?_, ?_, ?_, h.log, h.order, ?_⟩
    · intro a hi e; cases e; exact ⟨Nat.le_refl _, hh⟩
    · intro a hi lo e; cases e
    · intro a hi lo hi' e; cases e
    · intro r hr
      exact ⟨fun a hi e => (by cases e; exact (h.log r hr).2.1), fun a hi lo e => (by cases e), fun a hi lo hi' e => (by cases e)⟩
  | @capture a hi hf hpc =>
    obtain ⟨hp, hh⟩ := h.clear hf
    obtain ⟨h1, h2⟩ := h.pre a hi hpc
    refine ⟨h.unmasked, h.high, h.late, ?_, ?_, ?_, h.log, h.order, ?_⟩
    · intro a hi e; cases e
    · intro a' hi' lo e; cases e; exact ⟨s.T, h1, Nat.le_refl _, h2, rfl⟩
    · intro a hi lo hi' e; cases e
    · intro r hr
      exact ⟨fun a hi e => (by cases e), fun a' hi' lo e => (by cases e; exact (h.before r hr).1 a hi hpc),
        fun a hi lo hi' e => (by cases e)⟩
  | @readHighAgain a hi lo hf hpc =>
    obtain ⟨hp, hh⟩ := h.clear hf
    obtain ⟨u, h1, h2, h3, h4⟩ := h.low a hi lo hpc
    refine ⟨h.unmasked, h.high, h.late, ?_, ?_, ?_, h.log, h.order, ?_⟩
    · intro a hi e; cases e
    · intro a hi lo e; cases e
    · intro a' hi' lo' hi'' e; cases e; exact ⟨u, s.T, h1, h2, Nat.le_refl _, h3, h4, hh⟩
    · intro r hr
      exact ⟨fun a hi e => (by cases e), fun a hi lo e => (by cases e),
        fun a' hi' lo' hi'' e => (by cases e; exact (h.before r hr).2.1 a hi lo hpc)⟩
  | @finish a hi lo hi' hf hpc =>
    obtain ⟨hp, hh⟩ := h.clear hf
    obtain ⟨u, v, h1, h2, h3, h4, h5, h6⟩ := h.post a hi lo hi' hpc
    refine ⟨h.unmasked, h.high, h.late, fun a hi e => (by cases e), fun a hi lo e => (by cases e),
      fun a hi lo hi' e => (by cases e), ?_, ?_, ?_⟩
    · intro r hr
      rcases List.mem_cons.1 hr with rfl | hr
      · refine ⟨by dsimp only; omega, Nat.le_refl _, fun hd => ?_⟩
        dsimp only at hd
        by_cases hc : hi ≠ hi'
        · refine ⟨s.T, by dsimp only; omega, Nat.le_refl _, ?_⟩
          dsimp only
          rw [if_pos hc]
          unfold word at *
          omega
        · refine ⟨u, h1, by dsimp only; omega, ?_⟩
          dsimp only
          rw [if_neg hc]
          unfold word at *
          omega
      · exact h.log r hr
    · exact List.pairwise_cons.2 ⟨fun r hr => (h.before r hr).2.2 a hi lo hi' hpc, h.order⟩
    · intro r hr
      exact ⟨fun a hi e => (by cases e), fun a hi lo e => (by cases e), fun a hi lo hi' e => (by cases e)⟩

theorem Nrf.Reach.inv {s : Nrf} (h : Nrf.Reach False s) : s.Inv := by
  induction h with
  | start =>
    refine ⟨rfl, fun _ => rfl, fun e => (by cases e), fun a hi e => (by cases e), fun a hi lo e => (by cases e),
      fun a hi lo hi' e => (by cases e), fun r hr => (by cases hr), List.Pairwise.nil, fun r hr => (by cases hr)⟩
  | step _ hx ih => exact ih.step hx

/-- nRF52: with interrupts enabled, each reading that takes less than 71 minutes gives the time at some moment of the call,
also when the timer wraps around during the call, and readings never go back.  Missing: programs that disable interrupts, as the
runtime does (see below). -/
theorem C64_nrf52_reads_the_time_partial {s : Nrf} (h : Nrf.Reach False s) (short : ∀ r ∈ s.log, r.finish < r.start + word) :
    (∀ r ∈ s.log, r.Current) ∧ NeverBack s.log := by
  have hi := h.inv
  refine ⟨fun r hr => (hi.log r hr).2.2 (short r hr), ?_⟩
  refine (List.Pairwise.and_mem.1 hi.order).imp ?_
  rintro x y ⟨hx, hy, hle⟩
  obtain ⟨t, h1, h2, h3⟩ := (hi.log x hx).2.2 (short x hx)
  obtain ⟨u, g1, g2, g3⟩ := (hi.log y hy).2.2 (short y hy)
  omega

/-- Time passes. -/
theorem Nrf.ticks (m : Prop) : ∀ n, Nrf.Reach m ⟨n, n / word, false, false, .idle, []⟩
  | 0 => .start
  | n + 1 => by
    have h := (Nrf.ticks m n).step (.tick (.inl rfl))
    by_cases hw : (n + 1) % word = 0
    · simp only [hw, Bool.false_or, beq_self_eq_true] at h
      have h2 := h.step (.isr rfl rfl)
      have e : (n + 1) / word = n / word + 1 := by unfold word at *; omega
      rw [e]; exact h2
    · have hb : ((n + 1) % word == 0) = false := by simpa using hw
      simp only [hb, Bool.false_or] at h
      have e : (n + 1) / word = n / word := by unfold word at *; omega
      rw [e]; exact h

/-- Reading without interruption. -/
theorem Nrf.read {m : Prop} {s : Nrf} (h : Nrf.Reach m s) (hf : s.free) (hp : s.pc = .idle) :
    Nrf.Reach m { s with log := ⟨s.T, s.T, (s.high * word + s.T % word) * 1000⟩ :: s.log } := by
  have h1 := h.step (.readHigh hf hp)
  have h2 := h1.step (.capture hf rfl)
  have h3 := h2.step (.readHighAgain hf rfl)
  have h4 := h3.step (.finish hf rfl)
  simp only [ne_eq, not_true_eq_false, if_false] at h4
  obtain ⟨T, high, pending, masked, pc, log⟩ := s
  dsimp only at hp h4 ⊢
  subst hp
  exact h4

/-- A reading during which the timer wraps around. -/
example : ∃ s, Nrf.Reach False s ∧ s.log = [⟨word - 1, word, word * 1000⟩] ∧ ∀ r ∈ s.log, r.finish < r.start + word := by
  have h1 := (Nrf.ticks False (word - 1)).step (.readHigh (.inl rfl) rfl)
  have h2 := h1.step (.capture (.inl rfl) rfl)
  have h3 := h2.step (.tick (.inl rfl))
  have h4 := h3.step (.isr (by decide +kernel) rfl)
  have h5 := h4.step (.readHighAgain (.inl rfl) rfl)
  have h6 := h5.step (.finish (.inl rfl) rfl)
  refine ⟨_, h6, by decide +kernel, ?_⟩
  intro r hr
  simp only [List.mem_singleton] at hr
  subst hr
  decide +kernel

/-- nRF52: when the timer wraps around while interrupts are disabled, as they are in critical sections, the time goes back by 71
minutes. -/
theorem C64_nrf52_goes_back_in_critical_sections : ∃ s, Nrf.Reach True s ∧ ¬NeverBack s.log ∧
    s.log = [⟨word, word, 0⟩, ⟨word - 1, word - 1, (word - 1) * 1000⟩] := by
  have h1 := Nrf.read (Nrf.ticks True (word - 1)) (.inl rfl) rfl
  have h2 := h1.step (.mask trivial)
  have h3 := h2.step (.tick (.inr rfl))
  have h4 := Nrf.read h3 (.inr rfl) rfl
  have e : (Nrf.mk (word - 1 + 1) ((word - 1) / word) (false || (word - 1 + 1) % word == 0) true .idle
      [⟨word - 1 + 1, word - 1 + 1, ((word - 1) / word * word + (word - 1 + 1) % word) * 1000⟩,
       ⟨word - 1, word - 1, ((word - 1) / word * word + (word - 1) % word) * 1000⟩]).log =
    [⟨word, word, 0⟩, ⟨word - 1, word - 1, (word - 1) * 1000⟩] := by decide +kernel
  refine ⟨_, h4, fun hn => ?_, e⟩
  have hn' : NeverBack [⟨word, word, 0⟩, ⟨word - 1, word - 1, (word - 1) * 1000⟩] := e ▸ hn
  have := (List.pairwise_cons.1 hn').1 _ List.mem_cons_self
  revert this
  decide +kernel

/-! ## Arduino -/

theorem Arduino.readings_eq : ∀ l : List Nat, Arduino.readings ⟨0, 0⟩ l = l.map fun T => T % word * 1000
  | [] => rfl
  | T :: l => by
    show _ :: Arduino.readings ((⟨0, 0⟩ : Arduino).gettime T).1 l = _
    have e : (⟨0, 0⟩ : Arduino).gettime T = (⟨0, 0⟩, T % word * 1000) := by simp [Arduino.gettime]
    rw [e, Arduino.readings_eq l]
    rfl

/-- Arduino: for the first 71 minutes the clock shows the time.  Missing: all later times (see below). -/
theorem C64_arduino_reads_the_time_partial (times : List Nat) (h : ∀ T ∈ times, T < word) :
    Arduino.readings ⟨0, 0⟩ times = times.map (· * 1000) := by
  rw [Arduino.readings_eq]
  exact List.map_congr_left fun T hT => by rw [Nat.mod_eq_of_lt (h T hT)]

example : Arduino.readings ⟨0, 0⟩ [0, 5, 4294967295] = [0, 5000, 4294967295000] := by decide +kernel

/-- Arduino: however often the clock is read, it starts from 0 again every 71 minutes: the variable for the last value of the timer
is never written, so that no overflow is ever noticed. -/
theorem C64_arduino_goes_back_every_71_minutes (before after : List Nat) :
    Arduino.readings ⟨0, 0⟩ (before ++ [word - 1, word] ++ after) =
      before.map (· % word * 1000) ++ [(word - 1) * 1000, 0] ++ after.map (· % word * 1000) := by
  rw [Arduino.readings_eq]
  simp only [List.map_append, List.map_cons, List.map_nil, Nat.mod_self, Nat.zero_mul]
  rfl

/-! ## Zephyr, with a counter -/

/-- Zephyr with a counter: the clock never goes back, also when interrupts are disabled while the counter wraps around and when it
wraps around during a reading. -/
theorem C64_zephyr_counter_never_goes_back {d : Counter} {s : Zephyr} (h : Zephyr.Reach d True s) : NeverBack s.log := by
  have key : NeverBack s.log ∧ ∀ r ∈ s.log, r.value ≤ s.last := by
    induction h with
    | start => exact ⟨List.Pairwise.nil, fun r hr => by cases hr⟩
    | @step s t _ hx ih =>
      cases hx with
      | tick _ _ => exact ih
      | isr _ _ => exact ih
      | mask _ => exact ih
      | unmask => exact ih
      | get _ _ => exact ih
      | @finish a c hf hpc =>
        have hv : s.last ≤ s.value d c := by unfold Zephyr.value; dsimp only; split <;> omega
        refine ⟨List.pairwise_cons.2 ⟨fun r hr => Nat.le_trans (ih.2 r hr) hv, ih.1⟩, fun r hr => ?_⟩
        rcases List.mem_cons.1 hr with rfl | hr
        · exact Nat.le_refl _
        · exact Nat.le_trans (ih.2 r hr) hv
  exact key.1

theorem Counter.us_mono (d : Counter) {a b : Nat} (h : a ≤ b) : d.us a ≤ d.us b :=
  Nat.div_le_div_right (Nat.mul_le_mul_right _ h)

structure Zephyr.Inv (d : Counter) (s : Zephyr) : Prop where
  unmasked : s.masked = false
  time : ∃ e c, s.T = e * (d.top + 1) + c ∧ c ≤ d.top ∧ (s.pending = false → s.epoch = e * d.epochNsec) ∧
    (s.pending = true → c = 0 ∧ s.epoch + d.epochNsec = e * d.epochNsec ∧ s.pc = .idle) ∧
    (∀ a y, s.pc = .got a y → y ≤ c ∧ a = e * (d.top + 1) + y ∧ s.last ≤ d.us y * 1000 + e * d.epochNsec) ∧
    s.last ≤ d.us c * 1000 + e * d.epochNsec
  log : ∀ r ∈ s.log, ∃ e c, r.start = e * (d.top + 1) + c ∧ c ≤ d.top ∧ r.value = d.us c * 1000 + e * d.epochNsec

theorem Zephyr.Inv.step {d : Counter} {s t : Zephyr} (h : s.Inv d) (hx : Zephyr.Step d False s t) : t.Inv d := by
  have hclear : s.free → s.pending = false := fun hf => by
    rcases hf with hf | hf
    · exact hf
    · rw [h.unmasked] at hf; cases hf
  obtain ⟨e, c, h1, h2, h3, h4, h5, h6⟩ := h.time
  cases hx with
  | tick hf ha =>
    have hp := hclear hf
    have he := h3 hp
    refine ⟨h.unmasked, ?_, h.log⟩
    by_cases hc : c = d.top
    · have hm : (s.T + 1) % (d.top + 1) = 0 := by
        rw [h1, hc, show e * (d.top + 1) + d.top + 1 = (e + 1) * (d.top + 1) by ring]
        exact Nat.mul_mod_left _ _
      have hidle : s.pc = .idle := by
        rcases ha with ha | ha | ha
        · exact ha.elim
        · exact ha
        · exact absurd hm ha
      refine ⟨e + 1, 0, ?_, Nat.zero_le _, ?_, ?_, ?_, ?_⟩
      · dsimp only; rw [h1, hc]; ring
      · intro hq; simp [hp, hm] at hq
      · intro _; exact ⟨rfl, by dsimp only; rw [he]; ring, hidle⟩
      · intro a y hpc; dsimp only at hpc; rw [hidle] at hpc; cases hpc
      · dsimp only
        rw [hc] at h6
        have : (e + 1) * d.epochNsec = d.us d.top * 1000 + e * d.epochNsec := by unfold Counter.epochNsec; ring
        rw [this]
        exact Nat.le_trans h6 (Nat.le_add_left _ _)
    · have hm : (s.T + 1) % (d.top + 1) ≠ 0 := by
        rw [h1, Nat.add_assoc, Nat.mul_comm, Nat.mul_add_mod, Nat.mod_eq_of_lt (by omega)]
        omega
      have hb : ((s.T + 1) % (d.top + 1) == 0) = false := by simpa using hm
      refine ⟨e, c + 1, by dsimp only; omega, by omega, fun _ => he, ?_, ?_, ?_⟩
      · intro hq; dsimp only at hq; rw [hp, hb] at hq; cases hq
      · intro a y hpc
        obtain ⟨g1, g2, g3⟩ := h5 a y hpc
        exact ⟨by omega, g2, g3⟩
      · have := d.us_mono (Nat.le_succ c)
        dsimp only
        simp only [Nat.succ_eq_add_one] at this
        exact Nat.le_trans h6 (Nat.add_le_add_right (Nat.mul_le_mul_right _ this) _)
  | isr hp hm =>
    obtain ⟨g1, g2, g3⟩ := h4 hp
    exact ⟨h.unmasked, ⟨e, c, h1, h2, fun _ => g2, fun hq => (by cases hq), h5, h6⟩, h.log⟩
  | mask hm => exact hm.elim
  | unmask => exact ⟨rfl, ⟨e, c, h1, h2, h3, h4, h5, h6⟩, h.log⟩
  | get hf hpc =>
    have hp := hclear hf
    have hm : s.T % (d.top + 1) = c := by rw [h1, Nat.mul_comm, Nat.mul_add_mod, Nat.mod_eq_of_lt (by omega)]
    refine ⟨h.unmasked, ⟨e, c, h1, h2, h3, fun hq => (by dsimp only at hq; rw [hp] at hq; cases hq), ?_, h6⟩, h.log⟩
    intro a y hq
    dsimp only at hq
    rw [hm] at hq
    cases hq
    exact ⟨Nat.le_refl _, h1, h6⟩
  | @finish a y hf hpc =>
    have hp := hclear hf
    have he := h3 hp
    obtain ⟨g1, g2, g3⟩ := h5 a y hpc
    have hv : s.value d y = d.us y * 1000 + e * d.epochNsec := by
      unfold Zephyr.value; dsimp only; rw [he, if_neg (by omega)]
    refine ⟨h.unmasked, ⟨e, c, h1, h2, h3, fun hq => (by dsimp only at hq; rw [hp] at hq; cases hq),
      fun a y hq => (by cases hq), ?_⟩, ?_⟩
    · dsimp only
      rw [hv]
      have := d.us_mono g1
      omega
    · intro r hr
      rcases List.mem_cons.1 hr with rfl | hr
      · exact ⟨e, y, g2, by omega, hv⟩
      · exact h.log r hr

theorem Zephyr.Reach.inv {d : Counter} {s : Zephyr} (h : Zephyr.Reach d False s) : s.Inv d := by
  induction h with
  | start =>
    refine ⟨rfl, ⟨0, 0, by simp [Zephyr.start], Nat.zero_le _, fun _ => by simp [Zephyr.start], fun e => (by cases e),
      fun a y e => (by cases e), by simp [Zephyr.start]⟩, fun r hr => by cases hr⟩
  | step _ hx ih => exact ih.step hx

/-- Zephyr with a counter: with interrupts enabled and without a wrap during a reading, the clock is never ahead of time, and it lags
by less than a microsecond plus one tick and one microsecond for each time the counter has wrapped around.  (The time in
nanoseconds is `start * 10^9 / freq`; both sides are multiplied by the frequency.)  Missing: wraps during a reading, and
critical sections. -/
theorem C64_zephyr_counter_reads_the_time_partial {d : Counter} (hf : 0 < d.freq) {s : Zephyr} (h : Zephyr.Reach d False s) :
    ∀ r ∈ s.log, d.freq * r.value ≤ 1000000000 * r.start ∧
      1000000000 * r.start <
        d.freq * r.value + 1000 * d.freq + r.start / (d.top + 1) * (1000000000 + 1000 * d.freq) := by
  intro r hr
  obtain ⟨e, c, h1, h2, h3⟩ := h.inv.log r hr
  have he : r.start / (d.top + 1) = e := by
    rw [h1, Nat.mul_comm, Nat.mul_add_div (by omega), Nat.div_eq_of_lt (by omega), Nat.add_zero]
  have b : ∀ x, d.freq * d.us x ≤ x * 1000000 ∧ x * 1000000 < d.freq * d.us x + d.freq := by
    intro x
    unfold Counter.us
    have := Nat.div_add_mod (x * 1000000) d.freq
    have := Nat.mod_lt (x * 1000000) hf
    omega
  obtain ⟨b1, b2⟩ := b c
  obtain ⟨b3, b4⟩ := b d.top
  rw [he, h1, h3]
  unfold Counter.epochNsec
  have m1 : e * (d.freq * d.us d.top) ≤ e * (d.top * 1000000) := Nat.mul_le_mul_left _ b3
  have m2 : e * (d.top * 1000000) ≤ e * (d.freq * d.us d.top + d.freq) := Nat.mul_le_mul_left _ (Nat.le_of_lt b4)
  constructor
  · nlinarith
  · nlinarith

/-- Time passes. -/
theorem Zephyr.ticks (d : Counter) (m : Prop) : ∀ n ≤ d.top, Zephyr.Reach d m ⟨n, 0, 0, false, false, .idle, []⟩
  | 0, _ => .start
  | n + 1, hn => by
    have h := (Zephyr.ticks d m n (by omega)).step (.tick (.inl rfl) (.inr (.inl rfl)))
    have hw : (n + 1) % (d.top + 1) ≠ 0 := by rw [Nat.mod_eq_of_lt (by omega)]; omega
    have hb : ((n + 1) % (d.top + 1) == 0) = false := by simpa using hw
    simp only [hb, Bool.false_or] at h
    exact h

/-- A counter of 1 MHz that wraps around after 4 microseconds, with readings before and after. -/
example : ∃ s, Zephyr.Reach ⟨1000000, 3⟩ False s ∧ s.log = [⟨4, 4, 3000⟩, ⟨3, 3, 3000⟩] := by
  have h1 := (Zephyr.ticks ⟨1000000, 3⟩ False 3 (by decide)).step (.get (.inl rfl) rfl)
  have h2 := h1.step (.finish (.inl rfl) rfl)
  have h3 := h2.step (.tick (.inl rfl) (.inr (.inl rfl)))
  have h4 := h3.step (.isr (by decide +kernel) rfl)
  have h5 := h4.step (.get (.inl rfl) rfl)
  have h6 := h5.step (.finish (.inl rfl) rfl)
  exact ⟨_, h6, by decide +kernel⟩

/-- Zephyr with a counter: a reading during which the counter wraps around can be ahead by the whole duration of an epoch, whatever
that is; the counter is read before the variable that counts epochs. -/
theorem C64_zephyr_counter_jumps_ahead (d : Counter) : ∃ s, Zephyr.Reach d True s ∧
    s.log = [⟨d.top, d.top + 1, 2 * d.epochNsec⟩] := by
  have h1 := (Zephyr.ticks d True d.top (Nat.le_refl _)).step (.get (.inl rfl) rfl)
  have h2 := h1.step (.tick (.inl rfl) (.inl trivial))
  have h3 := h2.step (.isr (by simp) rfl)
  have h4 := h3.step (.finish (.inl rfl) rfl)
  refine ⟨_, h4, ?_⟩
  have hm : d.top % (d.top + 1) = d.top := Nat.mod_eq_of_lt (by omega)
  have e : d.us d.top * 1000 + (0 + d.epochNsec) = 2 * d.epochNsec := by unfold Counter.epochNsec; ring
  simp only [Zephyr.value, hm, Nat.not_lt_zero, if_false, e]

/-- After that the clock stands still, but for one nanosecond per reading, for a whole epoch: here the time that has passed is 1000
seconds, and that between the readings 1 nanosecond. -/
theorem C64_zephyr_counter_then_stands_still : ∃ s, Zephyr.Reach ⟨1, 2000⟩ True s ∧
    s.log = [⟨3001, 3001, 4000000000001⟩, ⟨2000, 2001, 4000000000000⟩] := by
  have h1 := (Zephyr.ticks ⟨1, 2000⟩ True 2000 (Nat.le_refl _)).step (.get (.inl rfl) rfl)
  have h2 := h1.step (.tick (.inl rfl) (.inl trivial))
  have h3 := h2.step (.isr (by decide +kernel) rfl)
  have h4 := h3.step (.finish (.inl rfl) rfl)
  have key : ∀ n ≤ 1000, Zephyr.Reach ⟨1, 2000⟩ True
      ⟨2001 + n, 2000000000000, 4000000000000, false, false, .idle, [⟨2000, 2001, 4000000000000⟩]⟩ := by
    intro n
    induction n with
    | zero => intro _; exact h4
    | succ n ih =>
      intro hn
      have h := (ih (by omega)).step (.tick (.inl rfl) (.inl trivial))
      have hw : (2001 + n + 1) % 2001 ≠ 0 := by omega
      have hb : ((2001 + n + 1) % ((⟨1, 2000⟩ : Counter).top + 1) == 0) = false := by simpa using hw
      simp only [hb, Bool.false_or] at h
      exact h
  have h5 := (key 1000 (Nat.le_refl _)).step (.get (.inl rfl) rfl)
  have h6 := h5.step (.finish (.inl rfl) rfl)
  exact ⟨_, h6, by decide +kernel⟩

/-! ## Zephyr, with the timer of the kernel -/

/-- Zephyr with the timer of the kernel: never back, never ahead, and exact if the duration of a tick is a number of
nanoseconds. -/
theorem C64_zephyr_kernel_clock (perSec : Nat) (h : 0 < perSec) :
    (∀ a b, a ≤ b → ticksToNsec perSec a ≤ ticksToNsec perSec b) ∧
    (∀ t, ticksToNsec perSec t * perSec ≤ t * 1000000000) ∧
    (perSec ∣ 1000000000 → ∀ t, ticksToNsec perSec t * perSec = t * 1000000000) := by
  have hle : 1000000000 / perSec * perSec ≤ 1000000000 := Nat.div_mul_le_self _ _
  refine ⟨?_, ?_, ?_⟩
  · intro a b hab
    unfold ticksToNsec
    have := Nat.mul_le_mul_left (1000000000 / perSec) hab
    split_ifs <;> omega
  · intro t
    unfold ticksToNsec
    split_ifs with h1 h2 h3 h4 h5 h6
    all_goals first
      | (clear hle; subst_vars; ring_nf; exact Nat.le_refl _)
      | skip
    calc 1000000000 / perSec * t * perSec = 1000000000 / perSec * perSec * t := by ring
      _ ≤ 1000000000 * t := Nat.mul_le_mul_right _ hle
      _ = t * 1000000000 := Nat.mul_comm _ _
  · intro hd t
    have he : 1000000000 / perSec * perSec = 1000000000 := Nat.div_mul_cancel hd
    unfold ticksToNsec
    split_ifs with h1 h2 h3 h4 h5 h6
    all_goals first
      | (clear hle he hd; subst_vars; ring1)
      | skip
    calc 1000000000 / perSec * t * perSec = 1000000000 / perSec * perSec * t := by ring
      _ = t * 1000000000 := by rw [he, Nat.mul_comm]

/-- With 32768 ticks per second, a common choice, the clock of the kernel loses more than 1.6 seconds per day. -/
theorem C64_zephyr_kernel_clock_runs_slow :
    ticksToNsec 32768 (32768 * 86400) + 1600000000 < 86400 * 1000000000 := by decide +kernel

end ReactorC.Platform
