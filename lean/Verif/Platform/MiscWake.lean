import Verif.Platform.MiscProps

/-!
# C67: a core of the RP2040 does not wake up more often than it was notified
-/

namespace ReactorC.Platform.Pico

/-- Specification: core `i` leaves the wait of `lf_cond_wait`. -/
def Wakes (i : Nat) (s t : St) : Prop := ∃ n, s.pc i = .waiting n ∧ t.pc i = .relock n

/-- Specification: a state that can be reached, with the number of times that core `i` has woken up in `lf_cond_wait` and the
number of times that it has been notified.  A step that raises its mailbox is counted as a notification. -/
inductive Counted (i : Nat) : St → Nat → Nat → Prop
  | start : Counted i .start 0 0
  | notified {s t w n} : Counted i s w n → Step s t → s.mailbox i = false → t.mailbox i = true → Counted i t w (n + 1)
  | wakes {s t w n} : Counted i s w n → Step s t → Wakes i s t → Counted i t (w + 1) n
  | other {s t w n} : Counted i s w n → Step s t → ¬(s.mailbox i = false ∧ t.mailbox i = true) → ¬Wakes i s t → Counted i t w n

theorem Counted.bound {i : Nat} {s : St} {w n : Nat} (h : Counted i s w n) : w + (s.mailbox i).toNat ≤ n := by
  induction h with
  | start => simp [St.start]
  | notified _ _ h1 h2 ih => rw [h1] at ih; rw [h2]; simp at ih ⊢; omega
  | @wakes s t w n _ hs hw ih =>
    obtain ⟨d, h1, h2⟩ := hw
    cases hs with
    | lock hr hl => rw [St.lock, h1] at h2; cases h2
    | unlock hr hl => rw [St.unlock, h1] at h2; cases h2
    | notify => rw [h1] at h2; cases h2
    | @wait j hr hl =>
      by_cases e : i = j
      · subst e; simp at h2
      · simp only [Function.update_of_ne e] at h2; rw [h1] at h2; cases h2
    | @acquire j m hr hl =>
      by_cases e : i = j
      · subst e; rw [hl] at ih; simp at ih ⊢; omega
      · simp only [Function.update_of_ne e] at h2; rw [h1] at h2; cases h2
    | @relock j m hr hl =>
      by_cases e : i = j
      · subst e; simp at h2
      · simp only [Function.update_of_ne e] at h2; rw [h1] at h2; cases h2
    | @timed j hr hl =>
      by_cases e : i = j
      · subst e; simp at h2
      · simp only [Function.update_of_ne e] at h2; rw [h1] at h2; cases h2
    | @acquireTimed j hr hl =>
      by_cases e : i = j
      · subst e; simp at h2
      · simp only [Function.update_of_ne e] at h2; rw [h1] at h2; cases h2
    | @timeout j hr =>
      by_cases e : i = j
      · subst e; simp at h2
      · simp only [Function.update_of_ne e] at h2; rw [h1] at h2; cases h2
  | @other s t w n _ _ h1 _ ih =>
    have : (t.mailbox i).toNat ≤ (s.mailbox i).toNat := by
      cases hs : s.mailbox i <;> cases ht : t.mailbox i <;> simp_all
    omega

/-- RP2040: however cores and interrupts interleave, a core that waits for a condition variable does not wake up more often than it
was notified; the first time only after a notification. -/
theorem C67_no_wakeup_without_notification {i : Nat} {s : St} {w n : Nat} (h : Counted i s w n) : w ≤ n := by
  have := h.bound; omega

/-- Every execution is counted. -/
theorem Reach.counted {s : St} (h : Reach s) (i : Nat) : ∃ w n, Counted i s w n := by
  induction h with
  | start => exact ⟨0, 0, .start⟩
  | @step s t _ hs ih =>
    obtain ⟨w, n, ih⟩ := ih
    by_cases h1 : Wakes i s t
    · exact ⟨_, _, .wakes ih hs h1⟩
    · by_cases h2 : s.mailbox i = false ∧ t.mailbox i = true
      · exact ⟨_, _, .notified ih hs h2.1 h2.2⟩
      · exact ⟨_, _, .other ih hs h2 h1⟩

/-- Core 0 is notified before it waits, and wakes up once. -/
example : ∃ s, Counted 0 s 1 1 := by
  have h0 : Counted 0 _ 0 1 := .notified .start (.notify (k := 0)) rfl rfl
  have h1 : Counted 0 _ 0 1 := .other h0 (.lock (i := 0) rfl (.inl rfl)) (by decide) (by rintro ⟨n, k, _⟩; cases k)
  have h2 : Counted 0 _ 0 1 := .other h1 (.wait (i := 0) rfl rfl) (by decide) (by rintro ⟨n, k, _⟩; cases k)
  exact ⟨_, .wakes h2 (.acquire (i := 0) (n := 1) rfl rfl) ⟨1, rfl, rfl⟩⟩

end ReactorC.Platform.Pico
