import Verif.Platform.ThreadSched
import Verif.Platform.MiscProps

/-!
# C103: threads are scheduled as they are told to be, and no other thread is affected
-/

namespace ReactorC.Platform.ThreadSched

namespace Linux

/-! ## Specification -/

/-- What Linux has for a policy: the documentation says `SCHED_OTHER`, `SCHED_RR` and `SCHED_FIFO`. -/
def Means : Policy → Sched → Prop
  | .fair, .other => True
  | .timeslice, .rr => True
  | .priority, .fifo => True
  | _, _ => False

/-- The ranges of priorities: only 0 for `SCHED_OTHER`, and some that are not negative for the others (on Linux 1 to 99). -/
structure Sys.WF (y : Sys) : Prop where
  least_other : y.least .other = 0
  most_other : y.most .other = 0
  nonneg : ∀ p, 0 ≤ y.least p
  range : ∀ p, y.least p ≤ y.most p

/-! ## Lemmas -/

theorem setParam_zero {y : Sys} {o o' : Os} {i : Nat} {p : Sched} {n : Int} (h : setParam y o i p n = (o', 0)) :
    o' = { o with sched := Function.update o.sched i (some (p, n)) } := by
  unfold setParam at h
  split at h
  · simp [ESRCH] at h
  · split at h
    · simp [EINVAL] at h
    · split at h
      · simp [EPERM] at h
      · simpa using h.symm

theorem setParam_ne {y : Sys} {o : Os} {i : Nat} {p : Sched} {n : Int} (h : (setParam y o i p n).2 ≠ 0) : (setParam y o i p n).1 = o := by
  unfold setParam at h ⊢
  split
  · rfl
  · split
    · rfl
    · split
      · rfl
      · rename_i _ _ h1 h2 h3
        rw [h1] at h
        simp [h2, h3] at h

theorem setParam_frame (y : Sys) (o : Os) (i : Nat) (p : Sched) (n : Int) :
    (∀ j, j ≠ i → (setParam y o i p n).1.sched j = o.sched j) ∧ (setParam y o i p n).1.cpus = o.cpus := by
  by_cases h : (setParam y o i p n).2 = 0
  · have := setParam_zero (o' := (setParam y o i p n).1) (Prod.ext rfl h)
    rw [this]
    exact ⟨fun j hj => Function.update_of_ne hj _ _, rfl⟩
  · rw [setParam_ne h]
    exact ⟨fun _ _ => rfl, rfl⟩

theorem setPriority_frame (y : Sys) (o : Os) (i : Nat) (q : Int) :
    (∀ j, j ≠ i → (setPriority y o i q).1.sched j = o.sched j) ∧ (setPriority y o i q).1.cpus = o.cpus := by
  unfold setPriority
  split
  · exact ⟨fun _ _ => rfl, rfl⟩
  · split
    · exact ⟨fun _ _ => rfl, rfl⟩
    · split
      · exact ⟨fun _ _ => rfl, rfl⟩
      · dsimp only
        split
        · exact ⟨fun _ _ => rfl, rfl⟩
        · exact setParam_frame _ _ _ _ _

theorem writeBack_frame (y : Sys) (o : Os) (i : Nat) (p : Sched) (n : Int) (q : Option Int) :
    (∀ j, j ≠ i → (writeBack y o i p n q).1.sched j = o.sched j) ∧ (writeBack y o i p n q).1.cpus = o.cpus := by
  have a := setParam_frame y o i p n
  unfold writeBack
  dsimp only
  split
  · exact a
  · cases q with
    | none => exact a
    | some q =>
      have b := setPriority_frame y (setParam y o i p n).1 i q
      exact ⟨fun j hj => (b.1 j hj).trans (a.1 j hj), b.2.trans a.2⟩

/-! ## Properties -/

/-- **C103.**  Setting the policy or the priority of a thread affects no other thread, and no assignment to processors, whether it succeeds or
not. -/
theorem C103_other_threads_are_not_affected (y : Sys) (o : Os) (i : Nat) (r : Request) (q : Int) (j : Nat) (h : j ≠ i) :
    (setPolicy y o i r).1.sched j = o.sched j ∧ (setPolicy y o i r).1.cpus = o.cpus ∧
    (setPriority y o i q).1.sched j = o.sched j ∧ (setPriority y o i q).1.cpus = o.cpus := by
  have b := setPriority_frame y o i q
  refine ⟨?_, ?_, b.1 j h, b.2⟩
  · unfold setPolicy
    split
    · rfl
    · split
      · exact (writeBack_frame _ _ _ _ _ _).1 j h
      · exact (writeBack_frame _ _ _ _ _ _).1 j h
      · exact (writeBack_frame _ _ _ _ _ _).1 j h
      · rfl
  · unfold setPolicy
    split
    · rfl
    · split
      · exact (writeBack_frame _ _ _ _ _ _).2
      · exact (writeBack_frame _ _ _ _ _ _).2
      · exact (writeBack_frame _ _ _ _ _ _).2
      · rfl

/-- **C103.**  A thread whose priority has been set has it, mapped to the range of its policy, and has the policy it had. -/
theorem C103_priority_is_set {y : Sys} {o o' : Os} {i : Nat} {q : Int} (h : setPriority y o i q = (o', 0)) :
    0 ≤ q ∧ q ≤ 99 ∧ ∃ p n, o.sched i = some (p, n) ∧ o'.sched i = some (p, mapPriorities q (y.least p) (y.most p)) := by
  unfold setPriority at h
  split at h
  · simp at h
  · rename_i hq
    split at h
    · simp [ESRCH] at h
    · rename_i p n hs
      split at h
      · simp at h
      · dsimp only at h
        split at h
        · simp at h
        · refine ⟨by omega, by omega, p, n, hs, ?_⟩
          rw [setParam_zero h]
          simp

/-- **C103.**  A thread whose policy has been set has the policy of Linux that is documented, and the priority that was given, mapped to the range of
the policy, 0 if it is scheduled fairly. -/
theorem C103_policy_is_set {y : Sys} {o o' : Os} {i : Nat} {r : Request} (h : setPolicy y o i r = (o', 0)) :
    ∃ p, Means r.policy p ∧ o'.sched i = some (p, if r.policy = .fair then 0 else mapPriorities r.priority (y.least p) (y.most p)) ∧
      (r.policy ≠ .fair → 0 ≤ r.priority ∧ r.priority ≤ 99) := by
  have key : ∀ {p n q}, writeBack y o i p n (some q) = (o', 0) →
      o'.sched i = some (p, mapPriorities q (y.least p) (y.most p)) ∧ 0 ≤ q ∧ q ≤ 99 := by
    intro p n q h
    unfold writeBack at h
    dsimp only at h
    split at h
    · rename_i h1
      rw [h] at h1
      simp at h1
    · rename_i h1
      have e := setParam_zero (o' := (setParam y o i p n).1) (Prod.ext rfl (not_not.1 h1))
      obtain ⟨a, b, p', n', hs, ht⟩ := C103_priority_is_set h
      rw [e] at hs
      simp only [Function.update_self, Option.some.injEq, Prod.mk.injEq] at hs
      obtain ⟨rfl, _⟩ := hs
      exact ⟨ht, a, b⟩
  unfold setPolicy at h
  split at h
  · simp [ESRCH] at h
  · split at h
    · rename_i hp
      rw [hp]
      unfold writeBack at h
      dsimp only at h
      split at h
      · rename_i h1
        rw [h] at h1
        simp at h1
      · rename_i h1
        have e := setParam_zero (o' := (setParam y o i .other 0).1) (Prod.ext rfl (not_not.1 h1))
        simp only [Prod.mk.injEq, and_true] at h
        rw [← h, e]
        exact ⟨.other, trivial, by simp, by simp⟩
    · rename_i hp
      rw [hp]
      obtain ⟨a, b⟩ := key h
      exact ⟨.rr, trivial, by simpa using a, fun _ => b⟩
    · rename_i hp
      rw [hp]
      obtain ⟨a, b⟩ := key h
      exact ⟨.fifo, trivial, by simpa using a, fun _ => b⟩
    · simp at h

/-- **C103.**  Of two threads with the same policy, the one with the higher priority does not get a lower one from Linux. -/
theorem C103_order_of_priorities_is_kept {y : Sys} (hy : y.WF) {o o' u u' : Os} {i j : Nat} {r s : Request} (hi : setPolicy y o i r = (o', 0))
    (hj : setPolicy y u j s = (u', 0)) (he : r.policy = s.policy) (hp : r.priority ≤ s.priority) :
    ∃ p n m, o'.sched i = some (p, n) ∧ u'.sched j = some (p, m) ∧ n ≤ m := by
  obtain ⟨p, a, b, c⟩ := C103_policy_is_set hi
  obtain ⟨q, a', b', c'⟩ := C103_policy_is_set hj
  rw [← he] at a' b' c'
  have hpq : p = q := by
    cases hr : r.policy <;> rw [hr] at a a' <;> cases p <;> cases q <;> simp_all [Means]
  subst hpq
  refine ⟨p, _, _, b, b', ?_⟩
  split
  · exact Int.le_refl _
  · rename_i hf
    have := (C66_priorities_are_mapped_in_order (y.least p) (y.most p)).2.2.2.1 r.priority s.priority (c hf).1 hp (c' hf).2
    rwa [if_pos (hy.range p)] at this

theorem setPriority_succeeds {y : Sys} (hy : y.WF) {o : Os} {i : Nat} {p : Sched} {n q : Int} (hs : o.sched i = some (p, n)) (h0 : 0 ≤ q)
    (h1 : q ≤ 99) (hp : y.permitted i p (mapPriorities q (y.least p) (y.most p)) = true) : (setPriority y o i q).2 = 0 := by
  have hr := (C66_priorities_are_mapped_in_order (y.least p) (y.most p)).2.2.1 q h0 h1
  rw [min_eq_left (hy.range p), max_eq_right (hy.range p)] at hr
  have := hy.nonneg p
  have := hy.range p
  unfold setPriority
  rw [if_neg (by omega), hs]
  dsimp only
  rw [if_neg (by omega), if_neg (by omega)]
  unfold setParam
  rw [hs]
  dsimp only
  rw [if_neg (by omega), if_neg (by simp [hp])]

/-- **C103.**  If the thread exists and Linux permits all priorities, every policy with a priority from 0 to 99 can be set, and
fair scheduling with any. -/
theorem C103_policies_can_be_set {y : Sys} (hy : y.WF) {o : Os} {i : Nat} {r : Request} (hs : o.sched i ≠ none)
    (hp : ∀ p n, y.permitted i p n = true) (hr : r.policy = .fair ∨ r.policy ≠ .unknown ∧ 0 ≤ r.priority ∧ r.priority ≤ 99) :
    (setPolicy y o i r).2 = 0 := by
  obtain ⟨x, hx⟩ := Option.ne_none_iff_exists'.1 hs
  have par : ∀ p n, y.least p ≤ n → n ≤ y.most p → setParam y o i p n = ({ o with sched := Function.update o.sched i (some (p, n)) }, 0) := by
    intro p n h0 h1
    unfold setParam
    rw [hx]
    dsimp only
    rw [if_neg (by omega), if_neg (by simp [hp])]
  have rt : ∀ p, 0 ≤ r.priority → r.priority ≤ 99 → (writeBack y o i p (y.most p) (some r.priority)).2 = 0 := by
    intro p h0 h1
    unfold writeBack
    rw [par p (y.most p) (hy.range p) (Int.le_refl _)]
    dsimp only
    rw [if_neg (by simp)]
    exact setPriority_succeeds hy (p := p) (n := y.most p) (by simp) h0 h1 (hp _ _)
  unfold setPolicy
  rw [hx]
  dsimp only
  split
  · unfold writeBack
    rw [par .other 0 (by rw [hy.least_other]) (by rw [hy.most_other])]
    simp
  · rename_i h
    rcases hr with hr | ⟨_, h0, h1⟩
    · rw [h] at hr; simp at hr
    · exact rt _ h0 h1
  · rename_i h
    rcases hr with hr | ⟨_, h0, h1⟩
    · rw [h] at hr; simp at hr
    · exact rt _ h0 h1
  · rename_i h
    rw [h] at hr
    simp at hr

/-- Linux, with all permitted, 8 processors, and one thread with fair scheduling. -/
def demo : Sys := ⟨fun p => if p = .other then 0 else 1, fun p => if p = .other then 0 else 99, fun _ _ _ => true, 8⟩
def demoOs : Os := ⟨fun i => if i = 0 then some (.other, 0) else none, fun _ => List.range 8⟩

example : demo.WF := ⟨by decide, by decide, fun p => by cases p <;> decide, fun p => by cases p <;> decide⟩
example : ((setPolicy demo demoOs 0 ⟨.timeslice, 50, 0⟩).2, (setPolicy demo demoOs 0 ⟨.timeslice, 50, 0⟩).1.sched 0) = (0, some (.rr, 50)) := by
  decide +kernel

/-- **C103, in part.**  A priority that cannot be set leaves the thread as it was. -/
theorem C103_refused_priority_has_no_effect {y : Sys} {o : Os} {i : Nat} {q : Int} (h : (setPriority y o i q).2 ≠ 0) :
    (setPriority y o i q).1 = o := by
  unfold setPriority at h ⊢
  split
  · rfl
  · rename_i hq
    rw [if_neg hq] at h
    split
    · rfl
    · rename_i p n hs
      rw [hs] at h
      dsimp only at h
      split
      · rfl
      · rename_i hm
        rw [if_neg hm] at h
        dsimp only
        split
        · rfl
        · rename_i hf
          rw [if_neg hf] at h
          exact setParam_ne h

/-- **C103, in part.**  A policy without a priority that cannot be set leaves the thread as it was. -/
theorem C103_refused_policy_has_no_effect_partial {y : Sys} {o : Os} {i : Nat} {r : Request} (hr : r.policy = .fair ∨ r.policy = .unknown)
    (h : (setPolicy y o i r).2 ≠ 0) : (setPolicy y o i r).1 = o := by
  unfold setPolicy at h ⊢
  split
  · rfl
  · rename_i hs
    rw [hs] at h
    dsimp only at h
    rcases hr with hr | hr
    · rw [hr] at h ⊢
      dsimp only at h ⊢
      unfold writeBack at h ⊢
      dsimp only at h ⊢
      split
      · rename_i h1
        exact setParam_ne h1
      · rename_i h1
        rw [if_neg h1] at h
        simp at h
    · rw [hr]

/-- **C103, violated.**  A policy with a priority that is not from 0 to 99 is refused, but the thread is left with the policy, and with the
most urgent priority of it. -/
theorem C103_refused_policy_not_without_effect {y : Sys} (hy : y.WF) {o : Os} {i : Nat} {r : Request} (hs : o.sched i ≠ none)
    (hp : ∀ p n, y.permitted i p n = true) (hr : r.policy = .timeslice ∨ r.policy = .priority) (hq : r.priority < 0 ∨ 99 < r.priority) :
    (setPolicy y o i r).2 = -1 ∧ ∃ p, Means r.policy p ∧ (setPolicy y o i r).1.sched i = some (p, y.most p) := by
  obtain ⟨x, hx⟩ := Option.ne_none_iff_exists'.1 hs
  have rt : ∀ p, writeBack y o i p (y.most p) (some r.priority) = ({ o with sched := Function.update o.sched i (some (p, y.most p)) }, -1) := by
    intro p
    have := hy.range p
    have e : setParam y o i p (y.most p) = ({ o with sched := Function.update o.sched i (some (p, y.most p)) }, 0) := by
      unfold setParam
      rw [hx]
      dsimp only
      rw [if_neg (by omega), if_neg (by simp [hp])]
    unfold writeBack
    rw [e]
    dsimp only
    rw [if_neg (by simp)]
    unfold setPriority
    rw [if_pos (by omega)]
  unfold setPolicy
  rw [hx]
  rcases hr with hr | hr
  · rw [hr]
    dsimp only
    rw [rt]
    exact ⟨rfl, .rr, trivial, by simp⟩
  · rw [hr]
    dsimp only
    rw [rt]
    exact ⟨rfl, .fifo, trivial, by simp⟩

example : ((setPolicy demo demoOs 0 ⟨.priority, 100, 0⟩).2, (setPolicy demo demoOs 0 ⟨.priority, 100, 0⟩).1.sched 0) = (-1, some (.fifo, 99)) := by
  decide +kernel

/-- **C103.**  A thread can be bound to each of the first 1024 processors that exist, and then runs on that one only; another processor is refused,
without effect.  Other threads are not affected. -/
theorem C103_thread_is_bound_to_processor (y : Sys) (o : Os) (i cpu : Nat) (hs : o.sched i ≠ none) :
    (setCpu y o i cpu).1.sched = o.sched ∧ (∀ j, j ≠ i → (setCpu y o i cpu).1.cpus j = o.cpus j) ∧
    if cpu < y.processors ∧ cpu < 1024 then (setCpu y o i cpu).2 = 0 ∧ (setCpu y o i cpu).1.cpus i = [cpu]
    else (setCpu y o i cpu).2 = 22 ∧ (setCpu y o i cpu).1 = o := by
  obtain ⟨x, hx⟩ := Option.ne_none_iff_exists'.1 hs
  unfold setCpu
  rw [hx]
  dsimp only
  by_cases h1 : cpu < 1024
  · by_cases h2 : cpu < y.processors
    · simp only [h1, h2, if_true, and_self]
      rw [if_neg (by simp [h2])]
      exact ⟨rfl, fun j hj => Function.update_of_ne hj _ _, rfl, by simp⟩
    · simp [h1, h2, EINVAL]
  · simp [h1, EINVAL]

end Linux

namespace Zephyr

/-- **C103.**  On Zephyr, a thread whose policy has been set has the priority that was given, mapped to those of Zephyr, of which the lowest is the
most urgent, and no other thread has another priority. -/
theorem C103_zephyr_policy_is_set {n : Int} {o o' : Os} {i : Nat} {r : Request} (h : setPolicy n o i r = (o', 0)) :
    0 ≤ r.priority ∧ r.priority ≤ 99 ∧ o'.priority i = mapPriorities r.priority (n - 1) 0 ∧ (∀ j, j ≠ i → o'.priority j = o.priority j) ∧
      (r.policy = .timeslice ∧ o'.slice = r.timeSlice.tdiv 1000000 ∨ r.policy = .priority ∧ o'.slice = o.slice) := by
  have key : ∀ {u : Os} {q : Int}, (setPriority n u i q).2 = 0 → 0 ≤ q ∧ q ≤ 99 ∧
      (setPriority n u i q).1 = { u with priority := Function.update u.priority i (mapPriorities q (n - 1) 0) } := by
    intro u q h
    unfold setPriority at h ⊢
    split at h
    · simp at h
    · rename_i hq
      rw [if_neg hq]
      dsimp only at h ⊢
      split at h
      · simp at h
      · rename_i hf
        rw [if_neg hf]
        exact ⟨by omega, by omega, rfl⟩
  unfold setPolicy at h
  split at h
  · rename_i hr
    dsimp only at h
    split at h
    · simp at h
    · rename_i hz
      obtain ⟨a, b, c⟩ := key (not_not.1 hz)
      simp only [Prod.mk.injEq, and_true] at h
      rw [← h, c]
      exact ⟨a, b, by simp, fun j hj => Function.update_of_ne hj _ _, .inl ⟨hr, rfl⟩⟩
  · rename_i hr
    dsimp only at h
    split at h
    · simp at h
    · rename_i hz
      obtain ⟨a, b, c⟩ := key (not_not.1 hz)
      simp only [Prod.mk.injEq, and_true] at h
      rw [← h, c]
      exact ⟨a, b, by simp, fun j hj => Function.update_of_ne hj _ _, .inr ⟨hr, rfl⟩⟩
  · simp at h
  · simp at h

/-- **C103.**  Policies with priorities from 0 to 99 can be set. -/
theorem C103_zephyr_policies_can_be_set {n : Int} (hn : 1 ≤ n) (o : Os) (i : Nat) {r : Request} (hr : r.policy = .timeslice ∨ r.policy = .priority)
    (h0 : 0 ≤ r.priority) (h1 : r.priority ≤ 99) : (setPolicy n o i r).2 = 0 := by
  have hm := (C66_priorities_are_mapped_in_order (n - 1) 0).2.2.1 r.priority h0 h1
  rw [min_eq_right (by omega), max_eq_left (by omega)] at hm
  have key : ∀ u : Os, (setPriority n u i r.priority).2 = 0 := by
    intro u
    unfold setPriority
    rw [if_neg (by omega)]
    dsimp only
    rw [if_neg (by omega)]
  unfold setPolicy
  rcases hr with hr | hr <;> rw [hr] <;> dsimp only <;> rw [if_neg (by simp [key])]

/-- **C103, violated.**  Fair scheduling is not available on Zephyr; it is refused without effect. -/
theorem C103_zephyr_fair_not_available (n : Int) (o : Os) (i : Nat) {r : Request} (hr : r.policy = .fair) : setPolicy n o i r = (o, -1) := by
  unfold setPolicy; rw [hr]

/-- **C103, violated.**  A time slice of less than a millisecond is accepted, and ends the slicing of all threads. -/
theorem C103_zephyr_short_slices_not_kept {n : Int} (hn : 1 ≤ n) (o : Os) (i : Nat) {r : Request} (hr : r.policy = .timeslice) (h0 : 0 ≤ r.priority)
    (h1 : r.priority ≤ 99) (ht : 0 ≤ r.timeSlice) (ht' : r.timeSlice < 1000000) :
    (setPolicy n o i r).2 = 0 ∧ (setPolicy n o i r).1.slice = 0 := by
  have hz := C103_zephyr_policies_can_be_set hn o i (.inl hr) h0 h1
  obtain ⟨_, _, _, _, h⟩ := C103_zephyr_policy_is_set (o' := (setPolicy n o i r).1) (Prod.ext rfl hz)
  refine ⟨hz, ?_⟩
  rcases h with ⟨_, h⟩ | ⟨h, _⟩
  · rw [h, Int.tdiv_eq_ediv_of_nonneg ht]; omega
  · rw [hr] at h; simp at h

/-- **C103, violated.**  A refused priority does not leave the others as they were: the time slice, which is that of all threads, has been set. -/
theorem C103_zephyr_refused_policy_not_without_effect (n : Int) (o : Os) (i : Nat) {r : Request} (hr : r.policy = .timeslice)
    (hq : r.priority < 0 ∨ 99 < r.priority) : setPolicy n o i r = ({ o with slice := r.timeSlice.tdiv 1000000 }, -1) := by
  have e : ∀ u : Os, setPriority n u i r.priority = (u, -1) := by
    intro u
    unfold setPriority
    rw [if_pos (by omega)]
  unfold setPolicy
  rw [hr]
  dsimp only
  rw [e]
  simp

example : (setPolicy 15 ⟨fun _ => 7, 0⟩ 3 ⟨.timeslice, 99, 5000000⟩).1.slice = 5 := by decide +kernel
example : (setPolicy 15 ⟨fun _ => 7, 0⟩ 3 ⟨.timeslice, 99, 5000000⟩).1.priority 3 = 0 := by decide +kernel

end Zephyr

end ReactorC.Platform.ThreadSched
