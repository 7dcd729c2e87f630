import Verif.Clock.Model
import Mathlib.Tactic.Common

/-! # C39: physical time never goes backwards -/

namespace ReactorC.Clock

structure Inv (s : State) : Prop where
  /-- values returned are not above the shared variable -/
  ret : ∀ k v, Entry.ret k v ∈ s.log → v ≤ s.last
  /-- calls in progress are below the number of calls -/
  num : ∀ k x, Entry.call k x ∈ s.log → k < s.calls.length
  own : ∀ (k : Nat) (v : Int), Entry.ret k v ∈ s.log → s.calls[k]? = some Pc.returned
  swapped : ∀ (k : Nat) (v : Int), s.calls[k]? = some (Pc.swapped v) → v ≤ s.last
  fetched : ∀ (k : Nat) (n l : Int), s.calls[k]? = some (Pc.fetched n l) → l ≤ n ∧ l ≤ s.last
  /-- what returned before a call began is not above what the call yields -/
  after : ∀ (k : Nat) (x : Int) A C, s.log = A ++ Entry.call k x :: C → ∀ k1 v1, Entry.ret k1 v1 ∈ C →
    (∀ v : Int, s.calls[k]? = some (Pc.swapped v) → v1 ≤ v) ∧
    (∀ n l : Int, s.calls[k]? = some (Pc.fetched n l) → v1 ≤ l) ∧ (∀ v, Entry.ret k v ∈ A → v1 ≤ v)
  /-- a call never yields less than what it read -/
  low : ∀ (k : Nat) (x : Int), Entry.call k x ∈ s.log →
    (∀ n : Int, s.calls[k]? = some (Pc.read n) → x ≤ n) ∧
    (∀ n l : Int, s.calls[k]? = some (Pc.fetched n l) → x ≤ n) ∧
    (∀ n : Int, s.calls[k]? = some (Pc.swapped n) → x ≤ n) ∧ (∀ v, Entry.ret k v ∈ s.log → x ≤ v)

theorem inv_init : Inv init := by
  refine ⟨?_, ?_, ?_, ?_, ?_, ?_, ?_⟩ <;> simp [init]

theorem correct_low (now last : Int) : now ≤ correct now last := by
  unfold correct; split <;> omega

theorem correct_ge (now last : Int) : last ≤ correct now last := by
  unfold correct; split <;> omega

/-- The log splits at an earlier entry. -/
theorem split_cons {e x : Entry} {L A C : List Entry} (h : e :: L = A ++ x :: C) (hx : x ≠ e) :
    ∃ A', A = e :: A' ∧ L = A' ++ x :: C := by
  cases A with
  | nil => simp at h; exact absurd h.1.symm hx
  | cons a A => simp at h; exact ⟨A, by rw [h.1], h.2⟩

/-- A step that changes the state of call `k` only, where the log is unchanged. -/
theorem inv_set {s : State} (h : Inv s) (k : Nat) (last' : Int) (p p' : Pc) (hk : s.calls[k]? = some p)
    (hp : p ≠ .returned) (hl : s.last ≤ last')
    (h1 : ∀ v, p' = .swapped v → v ≤ last') (h2 : ∀ n l, p' = .fetched n l → l ≤ n ∧ l ≤ last')
    (h3 : ∀ x A C, s.log = A ++ Entry.call k x :: C → ∀ k1 v1, Entry.ret k1 v1 ∈ C →
      (∀ v, p' = .swapped v → v1 ≤ v) ∧ (∀ n l, p' = .fetched n l → v1 ≤ l))
    (h4 : ∀ x, Entry.call k x ∈ s.log → (∀ n, p' = .read n → x ≤ n) ∧ (∀ n l, p' = .fetched n l → x ≤ n) ∧
      (∀ n, p' = .swapped n → x ≤ n)) :
    Inv { s with last := last', calls := s.calls.set k p' } := by
  have hlt : k < s.calls.length := by
    rw [List.getElem?_eq_some_iff] at hk; exact hk.1
  have hget : ∀ j, (s.calls.set k p')[j]? = if j = k then some p' else s.calls[j]? := by
    intro j
    by_cases hjk : j = k
    · rw [hjk]; simp [hlt]
    · rw [if_neg hjk, List.getElem?_set_ne (Ne.symm hjk)]
  refine ⟨?_, ?_, ?_, ?_, ?_, ?_, ?_⟩
  · intro j v hj; exact Int.le_trans (h.ret j v hj) hl
  · intro j x hj; simpa using h.num j x hj
  · intro j v hj
    have := h.own j v hj
    have hne : j ≠ k := by
      rintro rfl; rw [hk] at this; exact hp (by simpa using this)
    show (s.calls.set k p')[j]? = _
    rw [hget, if_neg hne]; exact this
  · intro j v
    show (s.calls.set k p')[j]? = _ → _
    rw [hget]
    by_cases hjk : j = k
    · rw [if_pos hjk]; intro hx; exact h1 v (by simpa using hx)
    · rw [if_neg hjk]; intro hx; exact Int.le_trans (h.swapped j v hx) hl
  · intro j n l
    show (s.calls.set k p')[j]? = _ → _
    rw [hget]
    by_cases hjk : j = k
    · rw [if_pos hjk]; intro hx; exact h2 n l (by simpa using hx)
    · rw [if_neg hjk]; intro hx
      have := h.fetched j n l hx
      exact ⟨this.1, Int.le_trans this.2 hl⟩
  · intro j x A C hlog k1 v1 hm
    obtain ⟨a1, a2, a3⟩ := h.after j x A C hlog k1 v1 hm
    show (∀ v, (s.calls.set k p')[j]? = _ → _) ∧ (∀ n l, (s.calls.set k p')[j]? = _ → _) ∧ _
    rw [hget]
    by_cases hjk : j = k
    · subst hjk
      obtain ⟨b1, b2⟩ := h3 x A C hlog k1 v1 hm
      rw [if_pos rfl]
      refine ⟨fun v hv => b1 v (by simpa using hv), fun n l hv => b2 n l (by simpa using hv), a3⟩
    · rw [if_neg hjk]; exact ⟨a1, a2, a3⟩
  · intro j x hm
    obtain ⟨a1, a2, a3, a4⟩ := h.low j x hm
    show (∀ n, (s.calls.set k p')[j]? = _ → _) ∧ (∀ n l, (s.calls.set k p')[j]? = _ → _) ∧
      (∀ n, (s.calls.set k p')[j]? = _ → _) ∧ _
    rw [hget]
    by_cases hjk : j = k
    · subst hjk
      obtain ⟨b1, b2, b3⟩ := h4 x hm
      rw [if_pos rfl]
      exact ⟨fun v hv => b1 v (by simpa using hv), fun n l hv => b2 n l (by simpa using hv),
        fun v hv => b3 v (by simpa using hv), a4⟩
    · rw [if_neg hjk]; exact ⟨a1, a2, a3, a4⟩

/-- Appending a call that has not yet fetched leaves the others as they are. -/
theorem append_get {L : List Pc} {p q : Pc} {j : Nat} (hj : (L ++ [p])[j]? = some q) (hq : j < L.length ∨ q ≠ p) :
    L[j]? = some q := by
  rw [List.getElem?_append] at hj
  split at hj
  · exact hj
  · rw [List.getElem?_singleton] at hj
    split at hj
    · simp at hj
      rcases hq with hq | hq
      · omega
      · exact absurd hj.symm hq
    · simp at hj

/-- A new call. -/
theorem inv_new {s : State} (h : Inv s) (p : Pc) (e : Entry) (hp : (∃ x, p = .read x ∧ e = .call s.calls.length x) ∨
    (p = .returned ∧ e = .fail s.calls.length)) :
    Inv { s with calls := s.calls ++ [p], log := e :: s.log } := by
  have hlen : ∀ {j q}, s.calls[j]? = some q → j < s.calls.length := by
    intro j q hj; rw [List.getElem?_eq_some_iff] at hj; exact hj.1
  have hret : ∀ k v, Entry.ret k v ∈ e :: s.log → Entry.ret k v ∈ s.log := by
    intro k v hm
    rcases hp with ⟨x, _, rfl⟩ | ⟨_, rfl⟩ <;> simpa using hm
  have hsw : ∀ (k : Nat) (v : Int), (s.calls ++ [p])[k]? = some (Pc.swapped v) → s.calls[k]? = some (.swapped v) := by
    intro k v hk
    rcases hp with ⟨x, rfl, _⟩ | ⟨rfl, _⟩ <;> exact append_get hk (Or.inr (by simp))
  have hfe : ∀ (k : Nat) (n l : Int), (s.calls ++ [p])[k]? = some (Pc.fetched n l) → s.calls[k]? = some (.fetched n l) := by
    intro k n l hk
    rcases hp with ⟨x, rfl, _⟩ | ⟨rfl, _⟩ <;> exact append_get hk (Or.inr (by simp))
  have hcall : ∀ k x, Entry.call k x ∈ e :: s.log → (k = s.calls.length ∧ e = .call k x ∧ p = .read x) ∨
      (k < s.calls.length ∧ Entry.call k x ∈ s.log) := by
    intro k x hm
    rcases List.mem_cons.1 hm with hm | hm
    · left
      rcases hp with ⟨y, rfl, rfl⟩ | ⟨_, rfl⟩
      · simp only [Entry.call.injEq] at hm
        obtain ⟨rfl, rfl⟩ := hm
        exact ⟨rfl, rfl, rfl⟩
      · simp at hm
    · exact Or.inr ⟨h.num k x hm, hm⟩
  refine ⟨?_, ?_, ?_, ?_, ?_, ?_, ?_⟩
  · intro k v hk; exact h.ret k v (hret k v hk)
  · intro k x hk
    simp only [List.length_append, List.length_singleton]
    rcases hcall k x hk with ⟨h1, _⟩ | ⟨h1, _⟩ <;> omega
  · intro k v hk
    have := h.own k v (hret k v hk)
    show (s.calls ++ [p])[k]? = _
    rw [List.getElem?_append_left (hlen this)]
    exact this
  · intro k v hk; exact h.swapped k v (hsw k v hk)
  · intro k n l hk; exact h.fetched k n l (hfe k n l hk)
  · intro k x A C hlog k1 v1 hm
    change e :: s.log = _ at hlog
    cases A with
    | nil =>
      simp only [List.nil_append, List.cons.injEq] at hlog
      obtain ⟨he, rfl⟩ := hlog
      have hk : k = s.calls.length := by
        rcases hp with ⟨y, rfl, rfl⟩ | ⟨_, rfl⟩
        · simp only [Entry.call.injEq] at he; exact he.1.symm
        · simp at he
      refine ⟨fun v hv => ?_, fun n l hv => ?_, by simp⟩
      · have := hlen (hsw k v hv); omega
      · have := hlen (hfe k n l hv); omega
    | cons a A =>
      simp only [List.cons_append, List.cons.injEq] at hlog
      obtain ⟨rfl, hL⟩ := hlog
      obtain ⟨a1, a2, a3⟩ := h.after k x A C hL k1 v1 hm
      refine ⟨fun v hv => a1 v (hsw k v hv), fun n l hv => a2 n l (hfe k n l hv), ?_⟩
      intro v hv
      rcases List.mem_cons.1 hv with hv | hv
      · rcases hp with ⟨y, rfl, rfl⟩ | ⟨_, rfl⟩ <;> simp at hv
      · exact a3 v hv
  · intro k x hm
    rcases hcall k x hm with ⟨hk, he, hpx⟩ | ⟨hk, hmem⟩
    · refine ⟨fun n hv => ?_, fun n l hv => ?_, fun n hv => ?_, fun v hv => ?_⟩
      · change (s.calls ++ [p])[k]? = _ at hv
        rw [hk, List.getElem?_append_right (Nat.le_refl _), hpx] at hv
        simp at hv; omega
      · have := hlen (hfe k n l hv); omega
      · have := hlen (hsw k n hv); omega
      · have := hlen (h.own k v (hret k v hv)); omega
    · obtain ⟨a1, a2, a3, a4⟩ := h.low k x hmem
      exact ⟨fun n hv => a1 n (append_get hv (Or.inl hk)), fun n l hv => a2 n l (hfe k n l hv),
        fun n hv => a3 n (hsw k n hv), fun v hv => a4 v (hret k v hv)⟩

theorem step_inv {s t : State} (h : Inv s) (hst : Step s t) : Inv t := by
  cases hst with
  | call x => exact inv_new h _ _ (Or.inl ⟨x, rfl, rfl⟩)
  | fail => exact inv_new h _ _ (Or.inr ⟨rfl, rfl⟩)
  | fetch k now hk =>
    refine inv_set h k s.last _ _ hk (by simp) (by omega) (by simp) ?_ ?_ ?_
    · intro n l he
      simp only [Pc.fetched.injEq] at he
      obtain ⟨rfl, rfl⟩ := he
      exact ⟨correct_ge _ _, by omega⟩
    · intro x A C hlog k1 v1 hm
      refine ⟨by simp, ?_⟩
      intro n l he
      simp only [Pc.fetched.injEq] at he
      obtain ⟨_, rfl⟩ := he
      exact h.ret k1 v1 (by rw [hlog]; simp [hm])
    · intro x hm
      refine ⟨by simp, ?_, by simp⟩
      intro n l he
      simp only [Pc.fetched.injEq] at he
      have h1 := (h.low k x hm).1 now hk
      have h2 := correct_low now s.last
      omega
  | swap k now last hk hl =>
    have hf := h.fetched k now last hk
    refine inv_set h k now _ _ hk (by simp) (by omega) ?_ (by simp) ?_ ?_
    · intro v he; simp only [Pc.swapped.injEq] at he; omega
    · intro x A C hlog k1 v1 hm
      refine ⟨?_, by simp⟩
      intro v he
      simp only [Pc.swapped.injEq] at he
      have := (h.after k x A C hlog k1 v1 hm).2.1 now last hk
      omega
    · intro x hm
      refine ⟨by simp, by simp, ?_⟩
      intro n he
      simp only [Pc.swapped.injEq] at he
      have := (h.low k x hm).2.1 now last hk
      omega
  | retry k now last hk hl =>
    refine inv_set h k s.last _ _ hk (by simp) (by omega) (by simp) (by simp)
      (fun _ _ _ _ _ _ _ => ⟨by simp, by simp⟩) ?_
    intro x hm
    refine ⟨?_, by simp, by simp⟩
    intro n he
    simp only [Pc.read.injEq] at he
    have := (h.low k x hm).2.1 now last hk
    omega
  | ret k now hk =>
    have h0 := inv_set h k s.last _ .returned hk (by simp) (by omega) (by simp) (by simp)
      (fun _ _ _ _ _ _ _ => ⟨by simp, by simp⟩) (fun _ _ => ⟨by simp, by simp, by simp⟩)
    have hlt : k < s.calls.length := by rw [List.getElem?_eq_some_iff] at hk; exact hk.1
    refine ⟨?_, ?_, ?_, h0.swapped, h0.fetched, ?_, ?_⟩
    · intro j v hj
      simp only [List.mem_cons, Entry.ret.injEq] at hj
      rcases hj with ⟨rfl, rfl⟩ | hj
      · exact h.swapped _ _ hk
      · exact h.ret j v hj
    · intro j x hj
      simp only [List.mem_cons, reduceCtorEq, false_or] at hj
      exact h0.num j x hj
    · intro j v hj
      simp only [List.mem_cons, Entry.ret.injEq] at hj
      rcases hj with ⟨rfl, rfl⟩ | hj
      · simp [hlt]
      · exact h0.own j v hj
    · intro j x A C hlog k1 v1 hm
      obtain ⟨A', rfl, hL⟩ := split_cons hlog (by simp)
      obtain ⟨a1, a2, a3⟩ := h0.after j x A' C hL k1 v1 hm
      refine ⟨a1, a2, ?_⟩
      intro v hv
      simp only [List.mem_cons, Entry.ret.injEq] at hv
      rcases hv with ⟨rfl, rfl⟩ | hv
      · exact (h.after _ x A' C hL k1 v1 hm).1 _ hk
      · exact a3 v hv
    · intro j x hm
      simp only [List.mem_cons, reduceCtorEq, false_or] at hm
      obtain ⟨a1, a2, a3, a4⟩ := h0.low j x hm
      refine ⟨a1, a2, a3, ?_⟩
      intro v hv
      simp only [List.mem_cons, Entry.ret.injEq] at hv
      rcases hv with ⟨rfl, rfl⟩ | hv
      · exact (h.low _ x hm).2.2.1 _ hk
      · exact a4 v hv

theorem reach_inv {s : State} (h : Reach s) : Inv s := by
  induction h with
  | init => exact inv_init
  | step _ hst ih => exact step_inv ih hst

/-! ## The properties -/

/-- **C39** For any number of threads, any interleaving and any behaviour of the system clock: if a call
returned `v1` before another call began and that one returned `v2`, then `v1 ≤ v2`.  (The log lists the latest
action first.) -/
theorem C39_physical_time_monotone {s : State} (h : Reach s) {k1 k2 : Nat} {v1 v2 x : Int} {A B C : List Entry}
    (hlog : s.log = A ++ Entry.ret k2 v2 :: (B ++ Entry.call k2 x :: C)) (h1 : Entry.ret k1 v1 ∈ C) : v1 ≤ v2 := by
  have hlog' : s.log = (A ++ Entry.ret k2 v2 :: B) ++ Entry.call k2 x :: C := by rw [hlog]; simp
  exact ((reach_inv h).after k2 x _ C hlog' k1 v1 h1).2.2 v2 (by simp)

/-- **C39** A call never returns less than what the system clock, with the offset, gave it. -/
theorem C39_not_before_clock {s : State} (h : Reach s) {k : Nat} {x v : Int} (h1 : Entry.call k x ∈ s.log)
    (h2 : Entry.ret k v ∈ s.log) : x ≤ v :=
  ((reach_inv h).low k x h1).2.2.2 v h2

theorem Reach.to {s t : State} (h : Reach s) (u : State) (hs : Step s u) (he : u = t) : Reach t := he ▸ h.step hs

/-- Three calls: the clock goes back after the first, and the second call is overtaken by the third between its
fetch and its swap, so that it repeats the loop. -/
theorem demo : ∃ s, Reach s ∧ s.log = [.ret 1 11, .ret 2 11, .call 2 6, .call 1 5, .ret 0 10, .call 0 10] := by
  refine ⟨⟨11, [.returned, .returned, .returned], _⟩, ?_, rfl⟩
  have r1 := Reach.init.step (.call _ 10)
  have r2 := r1.step (.fetch _ 0 10 rfl)
  have r3 := r2.step (.swap _ 0 10 _ rfl rfl)
  have r4 := r3.step (.ret _ 0 10 rfl)
  have r5 := r4.step (.call _ 5)
  have r6 := r5.step (.call _ 6)
  have r7 := r6.step (.fetch _ 1 5 rfl)
  have r8 := r7.step (.fetch _ 2 6 rfl)
  have r9 := r8.step (.swap _ 2 11 10 rfl rfl)
  have r10 := r9.step (.ret _ 2 11 rfl)
  have r11 := r10.step (.retry _ 1 11 10 rfl (by decide))
  have r12 := r11.step (.fetch _ 1 11 rfl)
  have r13 := r12.step (.swap _ 1 11 11 rfl rfl)
  exact (r13.step (.ret _ 1 11 rfl))

/-- The hypotheses of `C39_physical_time_monotone` are met. -/
example : ∃ s, Reach s ∧ s.log = [] ++ Entry.ret 1 11 :: ([.ret 2 11, .call 2 6] ++ Entry.call 1 5 :: [.ret 0 10, .call 0 10]) ∧
    Entry.ret 0 10 ∈ [Entry.ret 0 10, .call 0 10] := by
  obtain ⟨s, h1, h2⟩ := demo
  exact ⟨s, h1, h2, by simp⟩

end ReactorC.Clock
