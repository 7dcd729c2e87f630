import Verif.Start.Model
import Verif.Stop.Core

/-!
# C29: all federates get the same start time, after every one of them is ready
-/

namespace ReactorC.Start
open ReactorC

@[simp] theorem upd_same {α : Type} (f : Nat → α) (i : Nat) (v : α) : upd f i v i = v := by simp [upd]
@[simp] theorem upd_ne {α : Type} (f : Nat → α) {i j : Nat} (v : α) (h : j ≠ i) : upd f i v j = f j := by simp [upd, h]

def isTimestamp : Msg → Bool
  | .timestamp _ => true
  | _ => false

/-- The thread has not sent the start time. -/
def Pc.early : Pc → Bool
  | .absent | .listening | .waiting | .woken | .unlocked | .computed => true
  | _ => false

/-- The thread has not handled the timestamp of its federate. -/
def Pc.fresh : Pc → Bool
  | .absent | .listening => true
  | _ => false

/-- The thread has passed the wait. -/
def Pc.past : Pc → Bool
  | .unlocked | .computed | .written | .started => true
  | _ => false

def known (s : State) (i : Nat) : Bool := (s.proposed i).isSome

structure Inv (n : Nat) (s : State) : Prop where
  count : s.num = Stop.num n (known s)
  maxLe : ∀ i < n, ∀ t, s.proposed i = some t → t ≤ s.max
  maxPos : 0 ≤ s.max
  maxAt : s.max = 0 ∨ ∃ i < n, s.proposed i = some s.max
  fresh : ∀ i < n, (s.pc i).fresh = true → s.proposed i = none
  past : ∀ i < n, (s.pc i).past = true → s.num = n
  computed : ∀ i < n, s.pc i = .computed → s.start = s.max + DELAY_START
  early : ∀ i < n, (s.pc i).early = true → (s.out i).countP isTimestamp = 0
  late : ∀ i < n, s.pc i = .written ∨ s.pc i = .started → ∃ v, .timestamp v ∈ s.out i
  sent : ∀ i < n, ∀ v, .timestamp v ∈ s.out i → s.num = n ∧ v = s.max + DELAY_START
  once : ∀ i < n, (s.out i).countP isTimestamp ≤ 1
  granted : ∀ i < n, s.node i = .granted → ∃ v, .timestamp v ∈ s.out i
  first : ∀ i < n, ∀ l r, s.out i = l ++ .other :: r → ∃ v, .timestamp v ∈ l
  awake : s.num = n → (∀ i < n, s.pc i ≠ .waiting) ∧ s.clock ≠ .waiting

theorem Inv.init (n : Nat) : Inv n init := by
  refine ⟨?_, ?_, Int.le_refl _, Or.inl rfl, fun _ _ _ => rfl, ?_, ?_, fun _ _ _ => rfl, ?_, ?_, fun _ _ => Nat.zero_le _, ?_,
    ?_, ?_⟩
  · have : ¬ 0 < Stop.num n (known Start.init) := fun h => (by obtain ⟨_, _, h⟩ := Stop.num_pos h; cases h)
    show 0 = _
    omega
  · intro _ _ _ h; cases h
  · intro _ _ h; cases h
  · intro _ _ h; cases h
  · intro _ _ h; rcases h with h | h <;> cases h
  · intro _ _ _ h; cases h
  · intro _ _ h; cases h
  · intro i _ l r h
    have : (([] : List Msg)) = l ++ .other :: r := h
    simp at this
  · intro _
    exact ⟨fun _ _ h => (by cases h), fun h => (by cases h)⟩

theorem Inv.all {n : Nat} {s : State} (v : Inv n s) (h : s.num = n) : ∀ i < n, ∃ t, s.proposed i = some t := by
  intro i hi
  have := (Stop.num_eq n (known s)).1 (v.count.symm.trans h) i hi
  exact Option.isSome_iff_exists.1 this

/-- Only the thread of federate `i` moves on. -/
theorem Inv.move {n : Nat} {s t : State} (v : Inv n s) {i : Nat} {p : Pc} (hn : t.num = s.num) (hm : t.max = s.max)
    (hst : t.start = s.start) (hnode : t.node = s.node) (hpc : t.pc = upd s.pc i p) (ho : t.out = s.out)
    (hpr : t.proposed = s.proposed) (hcl : t.clock = s.clock)
    (h1 : p.fresh = true → s.proposed i = none)
    (h2 : p.past = true → s.num = n) (h3 : p ≠ .computed)
    (h4 : p.early = true → (s.out i).countP isTimestamp = 0)
    (h5 : p = .written ∨ p = .started → ∃ v, .timestamp v ∈ s.out i)
    (h6 : p = .waiting → s.num ≠ n) : Inv n t := by
  have hk : known t = known s := by funext j; unfold known; rw [hpr]
  refine ⟨by rw [hn, hk]; exact v.count, by rw [hpr, hm]; exact v.maxLe, by rw [hm]; exact v.maxPos,
    by rw [hpr, hm]; exact v.maxAt, ?_, ?_, ?_, ?_, ?_, by rw [ho, hn, hm]; exact v.sent, by rw [ho]; exact v.once,
    by rw [hnode, ho]; exact v.granted, by rw [ho]; exact v.first, ?_⟩
  · intro j hj h
    rw [hpr]; rw [hpc] at h
    by_cases hji : j = i
    · subst hji; rw [upd_same] at h; exact h1 h
    · rw [upd_ne _ _ hji] at h; exact v.fresh j hj h
  · intro j hj h
    rw [hn]; rw [hpc] at h
    by_cases hji : j = i
    · subst hji; rw [upd_same] at h; exact h2 h
    · rw [upd_ne _ _ hji] at h; exact v.past j hj h
  · intro j hj h
    rw [hst, hm]; rw [hpc] at h
    by_cases hji : j = i
    · subst hji; rw [upd_same] at h; exact absurd h h3
    · rw [upd_ne _ _ hji] at h; exact v.computed j hj h
  · intro j hj h
    rw [ho]; rw [hpc] at h
    by_cases hji : j = i
    · subst hji; rw [upd_same] at h; exact h4 h
    · rw [upd_ne _ _ hji] at h; exact v.early j hj h
  · intro j hj h
    rw [ho]; rw [hpc] at h
    by_cases hji : j = i
    · subst hji; rw [upd_same] at h; exact h5 h
    · rw [upd_ne _ _ hji] at h; exact v.late j hj h
  · intro h
    rw [hn] at h
    rw [hcl, hpc]
    refine ⟨?_, (v.awake h).2⟩
    intro j hj hw
    by_cases hji : j = i
    · subst hji; rw [upd_same] at hw; exact h6 hw h
    · rw [upd_ne _ _ hji] at hw; exact (v.awake h).1 j hj hw

/-- A message other than the start time is sent to federate `i`. -/
theorem Inv.send {n : Nat} {s : State} (v : Inv n s) {i : Nat} (hi : i < n) {m : Msg} (hm : isTimestamp m = false)
    (hg : m = .other → s.node i = .granted) : Inv n (send s i m) := by
  have hsub : ∀ j, ∀ x ∈ s.out j, x ∈ (Start.send s i m).out j := by
    intro j x hx
    by_cases hji : j = i
    · subst hji; simp only [Start.send, upd_same]; exact List.mem_append_left _ hx
    · simp only [Start.send]; rw [upd_ne _ _ hji]; exact hx
  have hcnt : ∀ j, ((Start.send s i m).out j).countP isTimestamp = (s.out j).countP isTimestamp := by
    intro j
    by_cases hji : j = i
    · subst hji; simp [Start.send, hm]
    · simp only [Start.send]; rw [upd_ne _ _ hji]
  refine ⟨v.count, v.maxLe, v.maxPos, v.maxAt, v.fresh, v.past, v.computed, ?_, ?_, ?_, ?_, ?_, ?_, v.awake⟩
  · intro j hj h; rw [hcnt]; exact v.early j hj h
  · intro j hj h; obtain ⟨x, hx⟩ := v.late j hj h; exact ⟨x, hsub j _ hx⟩
  · intro j hj x hx
    by_cases hji : j = i
    · subst hji
      simp only [Start.send, upd_same, List.mem_append, List.mem_singleton] at hx
      rcases hx with hx | hx
      · exact v.sent j hj x hx
      · rw [← hx] at hm; cases hm
    · simp only [Start.send] at hx; rw [upd_ne _ _ hji] at hx; exact v.sent j hj x hx
  · intro j hj; rw [hcnt]; exact v.once j hj
  · intro j hj h; obtain ⟨x, hx⟩ := v.granted j hj h; exact ⟨x, hsub j _ hx⟩
  · intro j hj l r h
    by_cases hji : j = i
    · subst hji
      simp only [Start.send, upd_same] at h
      rcases List.eq_nil_or_concat r with rfl | ⟨r', x, rfl⟩
      · have := List.append_inj' h rfl
        obtain ⟨h1, h2⟩ := this
        simp only [List.cons.injEq, and_true] at h2
        subst h1
        exact v.granted j hj (hg h2)
      · rw [List.concat_eq_append, ← List.cons_append, ← List.append_assoc] at h
        have := (List.append_inj' h rfl).1
        exact v.first j hj l r' this
    · simp only [Start.send] at h; rw [upd_ne _ _ hji] at h; exact v.first j hj l r h

theorem Inv.setClock {n : Nat} {s : State} (v : Inv n s) (c : Clock) (h : c = .waiting → s.num ≠ n) :
    Inv n { s with clock := c } :=
  ⟨v.count, v.maxLe, v.maxPos, v.maxAt, v.fresh, v.past, v.computed, v.early, v.late, v.sent, v.once, v.granted, v.first,
    fun h' => ⟨(v.awake h').1, fun hw => h hw h'⟩⟩

theorem Inv.propose {n : Nat} {s : State} (v : Inv n s) {i : Nat} (hi : i < n) (hpc : s.pc i = .listening) (ts : Int) :
    Inv n (propose n s i ts) := by
  have hnone := v.fresh i hi (by rw [hpc]; rfl)
  have hlt : s.num < n := by
    have h1 := Stop.num_le n (known s)
    rw [← v.count] at h1
    rcases Nat.lt_or_ge s.num n with h | h
    · exact h
    · obtain ⟨t, ht⟩ := v.all (by omega) i hi
      rw [hnone] at ht; cases ht
  have hnoTs : ∀ j < n, ∀ x, .timestamp x ∉ s.out j := fun j hj x hx => by have := (v.sent j hj x hx).1; omega
  generalize hz : Start.propose n s i ts = z
  have z1 : z.num = s.num + 1 := by
    rw [← hz]; unfold Start.propose; simp only []
    split <;> split <;> rfl
  have z2 : z.max = if ts > s.max then ts else s.max := by
    rw [← hz]; unfold Start.propose; simp only []
    split <;> split <;> simp_all [wakeAll]
  have z3 : z.proposed = upd s.proposed i (some ts) := by
    rw [← hz]; unfold Start.propose; simp only []
    split <;> split <;> rfl
  have z4 : z.out = s.out ∧ z.node = s.node := by
    rw [← hz]; unfold Start.propose; simp only []
    split <;> split <;> exact ⟨rfl, rfl⟩
  have z5 : z.pc i = if s.num + 1 = n then .unlocked else .waiting := by
    rw [← hz]; unfold Start.propose; simp only []
    split <;> split <;> simp_all <;> omega
  have z6 : ∀ j, j ≠ i → z.pc j = s.pc j ∨ (s.pc j = .waiting ∧ z.pc j = .woken) := by
    intro j hj
    rw [← hz]; unfold Start.propose; simp only []
    split <;> split <;> simp only [wakeAll] <;> rw [upd_ne _ _ hj]
    · split
      · rename_i h; exact Or.inr ⟨h, rfl⟩
      · exact Or.inl rfl
    · exact Or.inl rfl
    · split
      · rename_i h; exact Or.inr ⟨h, rfl⟩
      · exact Or.inl rfl
    · exact Or.inl rfl
  have z7 : s.num + 1 = n → (∀ j, j ≠ i → z.pc j ≠ .waiting) ∧ z.clock ≠ .waiting := by
    intro hn
    rw [← hz]; unfold Start.propose
    simp only []
    have hw : ∀ s' : State, (∀ j, (wakeAll s').pc j ≠ .waiting) ∧ (wakeAll s').clock ≠ .waiting := by
      intro s'
      refine ⟨fun j h => ?_, fun h => ?_⟩
      · simp only [wakeAll] at h
        split at h
        · cases h
        · rename_i h'; exact h' h
      · simp only [wakeAll] at h
        split at h
        · cases h
        · rename_i h'; exact h' h
    split
    · refine ⟨fun j hj => ?_, (hw _).2⟩; simp only []; rw [upd_ne _ _ hj]; exact (hw _).1 j
    · refine ⟨fun j hj => ?_, (hw _).2⟩; simp only []; rw [upd_ne _ _ hj]; exact (hw _).1 j
  have hmax : s.max ≤ z.max ∧ ts ≤ z.max := by rw [z2]; split <;> omega
  have hfr : ∀ j, j ≠ i → (z.pc j).fresh = (s.pc j).fresh ∧ (z.pc j).past = (s.pc j).past ∧ (z.pc j).early = (s.pc j).early ∧
      (z.pc j = .computed → s.pc j = .computed) ∧ (z.pc j = .written ∨ z.pc j = .started → s.pc j = .written ∨ s.pc j = .started) := by
    intro j hj
    rcases z6 j hj with h | ⟨h1, h2⟩
    · rw [h]; simp
    · rw [h1, h2]; simp [Pc.fresh, Pc.past, Pc.early]
  have hnp : ∀ j < n, (s.pc j).past = false := by
    intro j hj; rw [Bool.eq_false_iff]; intro h; have := v.past j hj h; omega
  refine ⟨?_, ?_, ?_, ?_, ?_, ?_, ?_, ?_, ?_, ?_, ?_, ?_, ?_, ?_⟩
  · have : known z = Stop.upd (known s) i true := by
      funext j
      unfold known
      rw [z3]
      by_cases hj : j = i
      · subst hj; simp
      · rw [upd_ne _ _ hj, Stop.upd_ne _ _ hj]
    rw [this, Stop.num_upd hi (by unfold known; rw [hnone]; rfl), z1, v.count]
  · intro j hj t ht
    rw [z3] at ht
    by_cases hji : j = i
    · subst hji; rw [upd_same] at ht; cases ht; exact hmax.2
    · rw [upd_ne _ _ hji] at ht
      have := v.maxLe j hj t ht; omega
  · have := v.maxPos; omega
  · by_cases hts : ts > s.max
    · refine Or.inr ⟨i, hi, ?_⟩
      rw [z3, z2, if_pos hts, upd_same]
    · rw [z2, if_neg hts]
      rcases v.maxAt with h | ⟨j, hj, h⟩
      · exact Or.inl h
      · refine Or.inr ⟨j, hj, ?_⟩
        have : j ≠ i := by rintro rfl; rw [hnone] at h; cases h
        rw [z3, upd_ne _ _ this]; exact h
  · intro j hj h
    by_cases hji : j = i
    · subst hji; rw [z5] at h; split at h <;> cases h
    · rw [(hfr j hji).1] at h
      rw [z3, upd_ne _ _ hji]; exact v.fresh j hj h
  · intro j hj h
    by_cases hji : j = i
    · subst hji; rw [z5] at h
      split at h
      · rename_i hn; rw [z1]; exact hn
      · cases h
    · rw [(hfr j hji).2.1, hnp j hj] at h; cases h
  · intro j hj h
    by_cases hji : j = i
    · subst hji; rw [z5] at h; split at h <;> cases h
    · have := (hfr j hji).2.2.2.1 h
      have := hnp j hj
      simp_all [Pc.past]
  · intro j hj _
    rw [z4.1, List.countP_eq_zero]
    intro m hm
    cases m with
    | timestamp x => exact absurd hm (hnoTs j hj x)
    | _ => simp [isTimestamp]
  · intro j hj h
    by_cases hji : j = i
    · subst hji; rw [z5] at h; split at h <;> rcases h with h | h <;> cases h
    · have h' := (hfr j hji).2.2.2.2 h
      have := hnp j hj
      rcases h' with h' | h' <;> · rw [h'] at this; cases this
  · intro j hj x hx; rw [z4.1] at hx; exact absurd hx (hnoTs j hj x)
  · rw [z4.1]; exact v.once
  · rw [z4.1, z4.2]; exact v.granted
  · rw [z4.1]; exact v.first
  · intro h
    rw [z1] at h
    refine ⟨fun j hj => ?_, (z7 h).2⟩
    by_cases hji : j = i
    · subst hji; rw [z5, if_pos h]; simp
    · exact (z7 h).1 j hji

theorem Inv.step {n : Nat} {s t : State} (v : Inv n s) (h : Step n s t) : Inv n t := by
  cases h with
  | join i hi hpc =>
    have e := v.early i hi (by rw [hpc]; rfl)
    have v' : Inv n { s with pc := upd s.pc i .listening } :=
      v.move rfl rfl rfl rfl rfl rfl rfl rfl (fun _ => v.fresh i hi (by rw [hpc]; rfl)) (fun h => (by cases h)) (by simp)
        (fun _ => e) (fun h => (by rcases h with h | h <;> cases h)) (fun h => (by cases h))
    refine ⟨v'.count, v'.maxLe, v'.maxPos, v'.maxAt, v'.fresh, v'.past, v'.computed, v'.early, v'.late, v'.sent, v'.once, ?_,
      v'.first, v'.awake⟩
    intro j hj hg
    by_cases hji : j = i
    · subst hji; simp [Start.join] at hg
    · simp only [Start.join] at hg; rw [upd_ne _ _ hji] at hg; exact v.granted j hj hg
  | propose i ts hi hpc _ => exact v.propose hi hpc ts
  | spurious i hi hpc =>
    exact v.move rfl rfl rfl rfl rfl rfl rfl rfl (fun h => (by cases h)) (fun h => (by cases h)) (by simp)
      (fun _ => v.early i hi (by rw [hpc]; rfl)) (fun h => (by rcases h with h | h <;> cases h)) (fun h => (by cases h))
  | recheck i hi hpc =>
    have hle := Stop.num_le n (known s)
    rw [← v.count] at hle
    unfold Start.recheck
    split
    · rename_i hlt
      exact v.move rfl rfl rfl rfl rfl rfl rfl rfl (fun h => (by cases h)) (fun h => (by cases h)) (by simp)
        (fun _ => v.early i hi (by rw [hpc]; rfl)) (fun h => (by rcases h with h | h <;> cases h)) (fun _ => (by omega))
    · exact v.move rfl rfl rfl rfl rfl rfl rfl rfl (fun h => (by cases h)) (fun _ => (by omega)) (by simp)
        (fun _ => v.early i hi (by rw [hpc]; rfl)) (fun h => (by rcases h with h | h <;> cases h)) (fun h => (by cases h))
  | compute i hi hpc =>
    have hn := v.past i hi (by rw [hpc]; rfl)
    refine ⟨v.count, v.maxLe, v.maxPos, v.maxAt, ?_, fun _ _ _ => hn, fun _ _ _ => rfl, ?_, ?_, v.sent, v.once, v.granted,
      v.first, ?_⟩
    · intro j hj h
      by_cases hji : j = i
      · subst hji; simp [Start.compute, Pc.fresh] at h
      · simp only [Start.compute] at h; rw [upd_ne _ _ hji] at h; exact v.fresh j hj h
    · intro j hj h
      by_cases hji : j = i
      · subst hji; exact v.early j hj (by rw [hpc]; rfl)
      · simp only [Start.compute] at h; rw [upd_ne _ _ hji] at h; exact v.early j hj h
    · intro j hj h
      by_cases hji : j = i
      · subst hji; simp [Start.compute] at h
      · simp only [Start.compute] at h; rw [upd_ne _ _ hji] at h; exact v.late j hj h
    · intro _
      refine ⟨fun j hj h => ?_, (v.awake hn).2⟩
      by_cases hji : j = i
      · subst hji; simp [Start.compute] at h
      · simp only [Start.compute] at h; rw [upd_ne _ _ hji] at h; exact (v.awake hn).1 j hj h
  | write i hi hpc =>
    have hn := v.past i hi (by rw [hpc]; rfl)
    have hs := v.computed i hi hpc
    have hc := v.early i hi (by rw [hpc]; rfl)
    refine ⟨v.count, v.maxLe, v.maxPos, v.maxAt, ?_, fun _ _ _ => hn, ?_, ?_, ?_, ?_, ?_, ?_, ?_, ?_⟩
    · intro j hj h
      by_cases hji : j = i
      · subst hji; simp [Start.write, Pc.fresh] at h
      · simp only [Start.write] at h; rw [upd_ne _ _ hji] at h; exact v.fresh j hj h
    · intro j hj h
      exact hs
    · intro j hj h
      by_cases hji : j = i
      · subst hji; simp [Start.write, Pc.early] at h
      · simp only [Start.write] at h ⊢; rw [upd_ne _ _ hji] at h ⊢; exact v.early j hj h
    · intro j hj h
      by_cases hji : j = i
      · subst hji; exact ⟨s.start, by simp [Start.write]⟩
      · simp only [Start.write] at h ⊢; rw [upd_ne _ _ hji] at h ⊢; exact v.late j hj h
    · intro j hj x hx
      by_cases hji : j = i
      · subst hji
        simp only [Start.write, upd_same, List.mem_append, List.mem_singleton, Msg.timestamp.injEq] at hx
        rcases hx with hx | rfl
        · exact v.sent j hj x hx
        · exact ⟨hn, hs⟩
      · simp only [Start.write] at hx; rw [upd_ne _ _ hji] at hx; exact v.sent j hj x hx
    · intro j hj
      by_cases hji : j = i
      · subst hji; simp [Start.write, hc, isTimestamp]
      · simp only [Start.write]; rw [upd_ne _ _ hji]; exact v.once j hj
    · intro j hj hg
      by_cases hji : j = i
      · subst hji; exact ⟨s.start, by simp [Start.write]⟩
      · simp only [Start.write]; rw [upd_ne _ _ hji]; exact v.granted j hj hg
    · intro j hj l r h
      by_cases hji : j = i
      · subst hji
        simp only [Start.write, upd_same] at h
        rcases List.eq_nil_or_concat r with rfl | ⟨r', x, rfl⟩
        · have := (List.append_inj' h rfl).2
          simp at this
        · rw [List.concat_eq_append, ← List.cons_append, ← List.append_assoc] at h
          exact v.first j hj l r' (List.append_inj' h rfl).1
      · simp only [Start.write] at h; rw [upd_ne _ _ hji] at h; exact v.first j hj l r h
    · intro _
      refine ⟨fun j hj h => ?_, (v.awake hn).2⟩
      by_cases hji : j = i
      · subst hji; simp [Start.write] at h
      · simp only [Start.write] at h; rw [upd_ne _ _ hji] at h; exact (v.awake hn).1 j hj h
  | grant i hi hpc =>
    have hn := v.past i hi (by rw [hpc]; rfl)
    have hl := v.late i hi (Or.inl hpc)
    have v' : Inv n { s with pc := upd s.pc i .started } :=
      v.move rfl rfl rfl rfl rfl rfl rfl rfl (fun h => (by cases h)) (fun _ => hn) (by simp)
        (fun h => (by cases h)) (fun _ => hl) (fun h => (by cases h))
    refine ⟨v'.count, v'.maxLe, v'.maxPos, v'.maxAt, v'.fresh, v'.past, v'.computed, v'.early, v'.late, v'.sent, v'.once, ?_,
      v'.first, v'.awake⟩
    intro j hj hg
    by_cases hji : j = i
    · subst hji; exact hl
    · simp only [Start.grant] at hg; rw [upd_ne _ _ hji] at hg; exact v.granted j hj hg
  | forward i hi hg => exact v.send hi rfl (fun _ => hg)
  | stop i j x hi hj _ _ => exact v.send hi rfl (fun h => (by cases h))
  | leave i hi hpc =>
    have v' : Inv n { s with pc := upd s.pc i .ended } :=
      v.move rfl rfl rfl rfl rfl rfl rfl rfl (fun h => (by cases h)) (fun h => (by cases h)) (by simp)
        (fun h => (by cases h)) (fun h => (by rcases h with h | h <;> cases h)) (fun h => (by cases h))
    refine ⟨v'.count, v'.maxLe, v'.maxPos, v'.maxAt, v'.fresh, v'.past, v'.computed, v'.early, v'.late, v'.sent, v'.once, ?_,
      v'.first, v'.awake⟩
    intro j hj hg
    by_cases hji : j = i
    · subst hji; simp [Start.leave] at hg
    · simp only [Start.leave] at hg; rw [upd_ne _ _ hji] at hg; exact v.granted j hj hg
  | clockCheck _ =>
    refine v.setClock _ ?_
    intro h
    split at h
    · omega
    · cases h
  | clockRead _ => exact v.setClock _ (fun h => (by cases h))

theorem reach_inv {n : Nat} {s : State} (r : Reach n s) : Inv n s := by
  induction r with
  | init => exact Inv.init n
  | step _ st ih => exact ih.step st

/-! ## The theorems

`n` is any number of federates, `s` any state that any interleaving of the threads of the RTI leads to. -/

variable {n : Nat} {s : State}

/-- **C29** All federates are sent the same start time. -/
theorem C29_same_start_time (r : Reach n s) {i j : Nat} (hi : i < n) (hj : j < n) {v w : Int} (h1 : .timestamp v ∈ s.out i)
    (h2 : .timestamp w ∈ s.out j) : v = w := by
  rw [((reach_inv r).sent i hi v h1).2, ((reach_inv r).sent j hj w h2).2]

/-- **C29** The start time is sent only after every federate has proposed a time. -/
theorem C29_start_time_after_all_have_proposed (r : Reach n s) {i : Nat} (hi : i < n) {v : Int} (h : .timestamp v ∈ s.out i) :
    ∀ j < n, ∃ t, s.proposed j = some t :=
  (reach_inv r).all ((reach_inv r).sent i hi v h).1

/-- **C29** The start time is the latest time proposed plus one second (times are counted from 1970: if all were before
that, the start time would be one second after the beginning of 1970). -/
theorem C29_start_time_is_latest_plus_delay (r : Reach n s) {i : Nat} (hi : i < n) {v : Int} (h : .timestamp v ∈ s.out i) :
    (∀ j < n, ∀ t, s.proposed j = some t → t + 1000000000 ≤ v) ∧
    ((∃ j < n, ∃ t, s.proposed j = some t ∧ 0 ≤ t) → ∃ j < n, s.proposed j = some (v - 1000000000)) ∧
    1000000000 ≤ v := by
  have inv := reach_inv r
  have hv := (inv.sent i hi v h).2
  have hd : DELAY_START = 1000000000 := rfl
  have hp := inv.maxPos
  refine ⟨?_, ?_, by omega⟩
  · intro j hj t ht
    have := inv.maxLe j hj t ht
    omega
  · rintro ⟨j, hj, t, ht, h0⟩
    have hle := inv.maxLe j hj t ht
    rcases inv.maxAt with hm | ⟨k, hk, hm⟩
    · have : v - 1000000000 = t := by omega
      exact ⟨j, hj, by rw [this]; exact ht⟩
    · exact ⟨k, hk, by rw [hm, hv, hd]; congr 1; omega⟩

/-- **C29** The start time is sent once, and no grant and no message from another federate comes before it. -/
theorem C29_start_time_once_and_first (r : Reach n s) {i : Nat} (hi : i < n) :
    ((s.out i).filter (fun m => m matches .timestamp _)).length ≤ 1 ∧
    ∀ before after, s.out i = before ++ .other :: after → ∃ v, .timestamp v ∈ before := by
  refine ⟨?_, (reach_inv r).first i hi⟩
  have := (reach_inv r).once i hi
  rw [List.countP_eq_length_filter] at this
  refine Nat.le_trans (Nat.le_of_eq (congrArg List.length (List.filter_congr ?_))) this
  intro m _; cases m <;> rfl

/-- How many steps a thread has left before its federate has started. -/
def stepsLeft : Pc → Nat
  | .waiting => 5
  | .woken => 4
  | .unlocked => 3
  | .computed => 2
  | .written => 1
  | _ => 0

/-- **C29** Nobody is forgotten: once all have proposed, no thread waits for proposals, and the thread of each federate
that has not been told the start time can go on, and is then closer to doing so. -/
theorem C29_nobody_waits_in_vain (r : Reach n s) (h : ∀ j < n, ∃ t, s.proposed j = some t) {i : Nat} (hi : i < n)
    (he : s.pc i ≠ .ended) :
    (∃ v, .timestamp v ∈ s.out i) ∨ ∃ t, Step n s t ∧ stepsLeft (t.pc i) < stepsLeft (s.pc i) := by
  have inv := reach_inv r
  have hn : s.num = n := by
    rw [inv.count, Stop.num_eq]
    intro j hj
    exact Option.isSome_iff_exists.2 (h j hj)
  cases hpc : s.pc i with
  | absent => have := inv.fresh i hi (by rw [hpc]; rfl); obtain ⟨t, ht⟩ := h i hi; rw [this] at ht; cases ht
  | listening => have := inv.fresh i hi (by rw [hpc]; rfl); obtain ⟨t, ht⟩ := h i hi; rw [this] at ht; cases ht
  | waiting => exact absurd hpc ((inv.awake hn).1 i hi)
  | woken =>
    refine Or.inr ⟨_, .recheck s i hi hpc, ?_⟩
    simp only [recheck, upd_same]
    rw [if_neg (by omega)]
    decide
  | unlocked => exact Or.inr ⟨_, .compute s i hi hpc, by simp [compute, stepsLeft]⟩
  | computed => exact Or.inr ⟨_, .write s i hi hpc, by simp [write, stepsLeft]⟩
  | written => exact Or.inl (inv.late i hi (Or.inl hpc))
  | started => exact Or.inl (inv.late i hi (Or.inr hpc))
  | ended => exact absurd hpc he

/-- **C29** (limit) A federate that goes away before proposing a time keeps all others from starting. -/
theorem C29_all_wait_for_everyone (r : Reach n s) {j : Nat} (hj : j < n) (h : s.proposed j = none) :
    ∀ i < n, ∀ v, .timestamp v ∉ s.out i := by
  intro i hi v hv
  obtain ⟨t, ht⟩ := C29_start_time_after_all_have_proposed r hi hv j hj
  rw [h] at ht; cases ht

/-! ## Examples and limits -/

theorem runs {n : Nat} {s t : State} (r : Reach n s) (h : Step n s t) (P : State → Prop) (hp : P t) :
    ∃ u, Reach n u ∧ P u := ⟨t, .step r h, hp⟩

/-- Two federates join; federate 0 proposes 7, federate 1 proposes 5. -/
def both : State := propose 2 (propose 2 (join (join init 0) 1) 0 7) 1 5

theorem both_reach : Reach 2 both := by
  have r0 : Reach 2 init := .init
  have r1 := Reach.step r0 (.join _ 0 (by decide) rfl)
  have r2 := Reach.step r1 (.join _ 1 (by decide) rfl)
  have r3 := Reach.step r2 (.propose _ 0 7 (by decide) rfl (by decide))
  exact Reach.step r3 (.propose _ 1 5 (by decide) rfl (by decide))

/-- Both are told the start time, one second after 7. -/
def bothStarted : State :=
  grant (write (compute (grant (write (compute (recheck 2 both 0) 0) 0) 0) 1) 1) 1

theorem bothStarted_reach : Reach 2 bothStarted := by
  have r0 := both_reach
  have r1 := Reach.step r0 (.recheck _ 0 (by decide) rfl)
  have r2 := Reach.step r1 (.compute _ 0 (by decide) rfl)
  have r3 := Reach.step r2 (.write _ 0 (by decide) rfl)
  have r4 := Reach.step r3 (.grant _ 0 (by decide) rfl)
  have r5 := Reach.step r4 (.compute _ 1 (by decide) rfl)
  have r6 := Reach.step r5 (.write _ 1 (by decide) rfl)
  exact Reach.step r6 (.grant _ 1 (by decide) rfl)

example : bothStarted.out 0 = [.timestamp 1000000007] ∧ bothStarted.out 1 = [.timestamp 1000000007] := by decide

/-- A message for federate 1 after that. -/
example : ∃ s, Reach 2 s ∧ s.out 1 = [.timestamp 1000000007, .other] :=
  runs bothStarted_reach (.forward _ 1 (by decide) rfl) _ (by decide)

/-- **C29** (limit) A stop request does not wait: if a federate requests to stop as soon as it has started, another one may
be sent the stop request before its start time.  That federate then exits with an error (federate.c:998-1004). -/
theorem C29_stop_request_may_precede_start_time : ∃ s, Reach 2 s ∧ s.out 1 = [.stopRequest] := by
  have r1 := Reach.step both_reach (.recheck _ 0 (by decide) rfl)
  have r2 := Reach.step r1 (.compute _ 0 (by decide) rfl)
  have r3 := Reach.step r2 (.write _ 0 (by decide) rfl)
  exact runs r3 (.stop _ 1 0 1000000007 (by decide) (by decide) (by decide) (by decide)) _ (by decide)

/-- **C29** (limit) The clock synchronization thread waits for the proposals only: the start time it reads then, in order to
sleep until the start, may not have been set (rti_remote.c:896-898). -/
theorem C29_clock_thread_may_read_no_start_time : ∃ s, Reach 2 s ∧ s.clock = .read NEVER := by
  have r1 := Reach.step both_reach (.clockCheck _ rfl)
  exact runs r1 (.clockRead _ rfl) _ rfl

end ReactorC.Start
