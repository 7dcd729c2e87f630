import Verif.Cycle.Progress

/-!
# C85: one tag in a federation with cycles of connections without delay

Every federate that is in a cycle begins a tag with a provisional grant, before its inputs are known.  Nevertheless no message is too late, the
results are those that the program says, whatever the timing, and if the levels of all federates have a common order, all federates
complete the tag.  Without such an order none of the federates in the loop does.
-/

namespace ReactorC.Cycle
open ReactorC
variable {S V : Type} {P : Prog S V} {g : Tag} {x : Nat → S} {rank : Nat → Nat → Nat}

/-- C85.  No message comes in after the level of its reaction has been executed, and no federate ends because a message is in the past. -/
theorem C85_no_message_too_late_partial (hw : WF P) (hg : g.microstep < UINT_MAX) {s : State S V} (h : Reach P g x s) : s.fault = false :=
  (reach_inv hw hg h).ok

/-- C85.  Whatever has happened so far, the reactors of every federate are in the state that the program says for the level that the federate
has got to, and the inputs of all levels up to it are those of the program.  -/
theorem C85_results_of_the_program_partial (hw : WF P) (hg : g.microstep < UINT_MAX) {s : State S V} (h : Reach P g x s)
    {st : Nat → Nat → S} {inp : Nat → Nat → Option V} (hs : Solution P x st inp) {j : Nat} (hj : j < P.n) :
    (s.fed j).st = st j (pos P j (s.fed j).pc) ∧
    ∀ p, ((P.cfg j).port p).level < adm P j (s.fed j).pc → (s.fed j).inp p = inp j p := by
  refine ⟨?_, fun p hp => reach_input hw hg h hs hj hp⟩
  rw [((reach_inv hw hg h).fed j hj).st]
  exact reach_agrees hw hg h hs j hj _ (Nat.le_refl _)

/-- C85.  A federate that has completed the tag in one execution is in the same state as in every other execution, and has had the same inputs.
`hc` says that there is an execution in which all federates complete the tag, see `C85_completes_partial`. -/
theorem C85_executions_agree (hw : WF P) (hg : g.microstep < UINT_MAX) {s s' : State S V} (h : Reach P g x s) (h' : Reach P g x s')
    (hc : Complete P s) {j : Nat} (hj : j < P.n) (hd : (s'.fed j).pc = .done) :
    (s'.fed j).st = (s.fed j).st ∧ ∀ k < P.nc, (P.conn k).dst = j → (s'.fed j).inp (P.conn k).port = (s.fed j).inp (P.conn k).port := by
  have hS := complete_solution hw (reach_inv hw hg h) hc
  obtain ⟨h1, h2⟩ := C85_results_of_the_program_partial hw hg h' hS hj
  obtain ⟨h3, h4⟩ := C85_results_of_the_program_partial hw hg h hS hj
  refine ⟨?_, fun k hk hd' => ?_⟩
  · rw [h1, h3, hd, hc j hj]
  · subst hd'
    exact h2 _ (by rw [hd]; exact hw.inLevel k hk)

/-- C85.  As long as the tag is not complete, something can happen: there is no deadlock. -/
theorem C85_no_deadlock (hw : WF P) (ho : Ordered P rank) (hg : g.microstep < UINT_MAX) {s : State S V} (h : Reach P g x s)
    (hc : ¬ Complete P s) : ∃ s', Work P g s s' := by
  by_contra hn
  exact hc (no_stuck hw ho (reach_inv hw hg h) fun s' hs => hn ⟨s', hs⟩)

/-- C85.  Federates do not work on a tag for ever. -/
theorem C85_terminates (hw : WF P) (hg : g.microstep < UINT_MAX) {f : Nat → State S V} (h : Reach P g x (f 0)) :
    ¬ ∀ i, Work P g (f i) (f (i + 1)) := by
  intro hw'
  have hr : ∀ i, Reach P g x (f i) := by
    intro i
    induction i with
    | zero => exact h
    | succ i ih => exact .step ih (.work (hw' i))
  have hm : ∀ i, left P g (f i) + i ≤ left P g (f 0) := by
    intro i
    induction i with
    | zero => exact Nat.le_refl _
    | succ i ih =>
      have := work_left hw (reach_inv hw hg (hr i)) (hw' i)
      omega
  have := hm (left P g (f 0) + 1)
  omega

inductive Works (P : Prog S V) (g : Tag) : State S V → State S V → Prop
  | refl {s} : Works P g s s
  | step {s s' s''} : Work P g s s' → Works P g s' s'' → Works P g s s''

theorem works_reach {s s' : State S V} (h : Reach P g x s) (hs : Works P g s s') : Reach P g x s' := by
  induction hs with
  | refl => exact h
  | step w _ ih => exact ih (.step h (.work w))

/-- C85.  From wherever an execution is, the tag is completed, in all federates, by what the federates do next, whichever order it is done
in (with `C85_no_deadlock` and `C85_terminates`). -/
theorem C85_completes_partial (hw : WF P) (ho : Ordered P rank) (hg : g.microstep < UINT_MAX) {s : State S V} (h : Reach P g x s) :
    ∃ s', Works P g s s' ∧ Complete P s' := by
  generalize hm : left P g s = m
  induction m using Nat.strongRecOn generalizing s with
  | _ m ih =>
    by_cases hc : Complete P s
    · exact ⟨s, .refl, hc⟩
    · obtain ⟨s', hs⟩ := C85_no_deadlock hw ho hg h hc
      have := work_left hw (reach_inv hw hg h) hs
      obtain ⟨s'', h1, h2⟩ := ih _ (by omega) (.step h (.work hs)) rfl
      exact ⟨s'', .step hs h1, h2⟩

/-- A state before the tag. -/
def before (g : Tag) (x : Nat → S) : State S V :=
  let t : Tag := ⟨g.time - 1, 0⟩
  { fed := fun j => {
      lv := { phase := .running, cur := t, mlaa := 0, known := fun _ => t, status := fun _ => .absent, lastTAG := t, prov := false, now := 0,
              staaWait := none, asleep := fun _ => false, admitted := fun _ => false, hist := [] }
      pc := .before
      st := x j
      inp := fun _ => none
      tr := fun _ => x j }
    chan := fun _ => []
    fault := false }

theorem before_initial (P : Prog S V) (g : Tag) (x : Nat → S) : Initial P g x (before g x : State S V) := by
  have hlt : (⟨g.time - 1, 0⟩ : Tag) < g := Or.inl (by show g.time - 1 < g.time; omega)
  exact ⟨fun _ => rfl, rfl, fun _ => rfl, fun _ => rfl, fun _ => rfl, fun _ _ => rfl, fun _ => rfl, fun _ => hlt, fun _ => hlt, fun _ _ => hlt,
    fun _ _ => rfl⟩

/-- C85.  If the levels have a common order, what the program says about the tag is well-defined: there is exactly one result. -/
theorem C85_one_result (hw : WF P) (ho : Ordered P rank) (x : Nat → S) : ∃ st inp, Solution P x st inp ∧ ∀ st' inp', Solution P x st' inp' →
    (∀ j < P.n, ∀ L ≤ P.levels j, st' j L = st j L) ∧ inp' = inp := by
  have hg : (⟨0, 0⟩ : Tag).microstep < UINT_MAX := by decide
  obtain ⟨s, h1, h2⟩ := C85_completes_partial hw ho hg (.init (before_initial P ⟨0, 0⟩ x))
  have hr := works_reach (.init (before_initial P ⟨0, 0⟩ x)) h1
  have hS := complete_solution hw (reach_inv hw hg hr) h2
  refine ⟨_, _, hS, fun st' inp' hS' => ?_⟩
  have hst : ∀ j < P.n, ∀ L ≤ P.levels j, st' j L = (s.fed j).tr L := by
    intro j hj L hL
    exact (reach_agrees hw hg hr hS' j hj L (by rw [h2 j hj]; exact hL)).symm
  refine ⟨fun j hj L hL => ?_, ?_⟩
  · rw [hst j hj L hL, if_pos hj]
  · funext j p
    by_cases hcn : ∃ k < P.nc, (P.conn k).dst = j ∧ (P.conn k).port = p
    · obtain ⟨k, hk, rfl, rfl⟩ := hcn
      have h3 := hw.outLevel k hk
      rw [hS'.conn k hk, hst _ (hw.src k hk) _ (by omega)]
      have := hS.conn k hk
      rw [if_pos (hw.src k hk)] at this
      exact this.symm
    · have hcn : ∀ k < P.nc, ¬((P.conn k).dst = j ∧ (P.conn k).port = p) := fun k hk hh => hcn ⟨k, hk, hh⟩
      rw [hS'.none j p hcn, hS.none j p hcn]

/-- C85.  If there are connections within cycles such that each one is sent at a level that waits for another one of them, none of them is
ever sent, whatever happens, and their federates do not complete the tag. -/
theorem C85_loops_never_complete (hw : WF P) (hg : g.microstep < UINT_MAX) {D : Nat → Prop} (hD : ∀ k, D k → k < P.nc ∧ inCycle P k = true)
    (hloop : ∀ k, D k → ∃ k', D k' ∧ (P.conn k').dst = (P.conn k).src ∧
      ((P.cfg (P.conn k').dst).port (P.conn k').port).level ≤ (P.conn k).sendLevel)
    {s : State S V} (h : Reach P g x s) {k : Nat} (hk : D k) : (s.fed (P.conn k).src).pc ≠ .done := by
  have key : ∀ k, D k → srcPos P s k ≤ (P.conn k).sendLevel := by
    induction h with
    | init h =>
      intro k _
      unfold srcPos
      rw [h.pc]
      exact Nat.zero_le _
    | @step s s' hr st ih =>
      have hI := reach_inv hw hg hr
      intro k hk
      have h1 := ih k hk
      unfold srcPos at h1 ⊢
      rcases step_cases st with h | ⟨j, L, hj, hp, rfl⟩
      · rw [(h _).2]
        exact h1
      · unfold execLevel
        dsimp only
        by_cases e : (P.conn k).src = j
        · rw [e, upd_same]
          show L + 1 ≤ _
          rw [e, hp] at h1
          have h1 : L ≤ (P.conn k).sendLevel := h1
          by_contra hn
          obtain ⟨k', hk', hd, hlev⟩ := hloop k hk
          obtain ⟨h2, h3⟩ := hD k' hk'
          have := cycle_final hw hI h2 h3 (by rw [hd, e, hp] at *; show _ < L + 1; omega)
          have h4 := sent_pos hw h2 this.1
          have h5 := ih k' hk'
          omega
        · rw [upd_other _ _ e]
          exact h1
  intro hd
  have h1 := key k hk
  have h2 := hw.outLevel k (hD k hk).1
  unfold srcPos at h1
  rw [hd] at h1
  have : P.levels (P.conn k).src ≤ (P.conn k).sendLevel := h1
  omega

/-! ### Examples -/

/-- Two federates in a cycle: the first one sends at level `a` and waits at level `b`; the second one waits at level 0 and sends, at level 1, if
the number is odd. -/
def ping (a b : Nat) : Prog (Nat × Nat) Nat where
  n := 2
  cfg := fun j => { dec := false, n := 1, port := fun _ => { index := if j = 0 then b else 0, cycle := true, physical := false }, startTime := 0 }
  zdc := fun _ => true
  nc := 2
  conn := fun k => if k = 0 then ⟨0, 1, 0, a, a, true⟩ else ⟨1, 0, 0, 1, 1, true⟩
  levels := fun _ => 3
  exec := fun j L x i =>
    if j = 0 then
      if L = 0 then (x.1, x.1 + 1) else if L = b then ((i 0).getD 99, x.2) else x
    else
      if L = 0 then ((i 0).getD 99, (i 0).getD 99 + 1) else x
  out := fun k x => if k = 0 then some x.2 else if x.2 % 2 = 1 then some x.2 else none

theorem ping_wf {a b : Nat} (h1 : 1 ≤ a) (h2 : a ≤ 2) (h3 : 1 ≤ b) (h4 : b ≤ 2) : WF (ping a b) := by
  have two : ∀ k, k < (ping a b).nc → k = 0 ∨ k = 1 := by
    intro k hk
    change k < 2 at hk
    omega
  refine ⟨fun _ => rfl, ?_, ?_, ?_, ?_, fun _ _ => rfl, ?_, ?_, ?_, ?_, fun _ => (by simp [ping]), ?_, ?_⟩
  · intro k hk
    rcases two k hk with rfl | rfl <;> simp [ping]
  · intro k hk
    rcases two k hk with rfl | rfl <;> simp [ping]
  · intro k hk
    rcases two k hk with rfl | rfl <;> simp [ping]
  · intro k hk k' hk' hd _
    rcases two k hk with rfl | rfl <;> rcases two k' hk' with rfl | rfl <;> first | rfl | (simp [ping] at hd)
  · intro k hk _
    rcases two k hk with rfl | rfl <;> exact ⟨rfl, rfl⟩
  · intro j hj p hp _
    change j < 2 at hj
    change p < 1 at hp
    have hp : p = 0 := by omega
    subst hp
    have : j = 0 ∨ j = 1 := by omega
    rcases this with rfl | rfl
    · exact ⟨1, Nat.lt_succ_self 1, rfl, rfl, rfl⟩
    · exact ⟨0, Nat.zero_lt_succ 1, rfl, rfl, rfl⟩
  · intro k hk
    rcases two k hk with rfl | rfl
    · show 0 % 65536 < 3
      decide
    · show b % 65536 < 3
      omega
  · intro k hk
    rcases two k hk with rfl | rfl
    · show a ≤ a ∧ a < 3
      omega
    · show 1 ≤ 1 ∧ 1 < 3
      decide
  · intro k hk L x i hL
    rcases two k hk with rfl | rfl
    · change a ≤ L at hL
      simp only [ping, if_true]
      rw [if_neg (by omega)]
      split <;> rfl
    · change 1 ≤ L at hL
      simp [ping, show L ≠ 0 by omega]
  · intro j L x i i' hi
    by_cases hj : j = 0
    · subst hj
      simp only [ping, if_true]
      by_cases hL : L = b
      · have := hi 0 (by show b % 65536 ≤ L; omega)
        rw [this]
      · rw [if_neg hL, if_neg hL]
    · simp only [ping, if_neg hj]
      have := hi 0 (by show (if j = 0 then b else 0) % 65536 ≤ L; rw [if_neg hj]; omega)
      rw [this]

/-- The order of the levels if the first federate waits after it has sent. -/
theorem ping_ordered : Ordered (ping 1 2) (fun j L => if j = 0 then (if L ≤ 1 then L else L + 10) else L + 2) := by
  refine ⟨fun j L => ?_, fun k hk => ?_⟩
  · split
    · split <;> split <;> omega
    · omega
  · change k < 2 at hk
    have : k = 0 ∨ k = 1 := by omega
    rcases this with rfl | rfl <;> decide

/-- All federates complete the tag, from every reachable state, and the results do not depend on the timing: the first federate sends 2, the second one
3, and the first one receives it. -/
example {g : Tag} (hg : g.microstep < UINT_MAX) {s : State (Nat × Nat) Nat} (h : Reach (ping 1 2) g (fun _ => (1, 0)) s) :
    ∃ s', Works (ping 1 2) g s s' ∧ Complete (ping 1 2) s' ∧ (s'.fed 0).st = (3, 2) ∧ (s'.fed 1).st = (2, 3) := by
  have hw := ping_wf (a := 1) (b := 2) (by decide) (by decide) (by decide) (by decide)
  obtain ⟨s', h1, h2⟩ := C85_completes_partial hw ping_ordered hg h
  have hr := works_reach h h1
  have hS : Solution (ping 1 2) (fun _ => (1, 0))
      (fun j L => if L = 0 then (1, 0) else if j = 0 then (if L = 3 then (3, 2) else (1, 2)) else if j = 1 then (2, 3) else (1, 0))
      (fun j p => if p = 0 then (if j = 0 then some 3 else if j = 1 then some 2 else none) else none) := by
    refine ⟨fun _ => rfl, ?_, ?_, ?_⟩
    · intro j hj L hL
      change j < 2 at hj
      change L < 3 at hL
      have h1 : j = 0 ∨ j = 1 := by omega
      have h2 : L = 0 ∨ L = 1 ∨ L = 2 := by omega
      rcases h1 with rfl | rfl <;> rcases h2 with rfl | rfl | rfl <;> decide
    · intro k hk
      change k < 2 at hk
      have : k = 0 ∨ k = 1 := by omega
      rcases this with rfl | rfl <;> decide
    · intro j p hn
      by_cases hp : p = 0
      · subst hp
        by_cases h0 : j = 0
        · subst h0
          exact absurd ⟨rfl, rfl⟩ (hn 1 (by decide))
        · by_cases h1 : j = 1
          · subst h1
            exact absurd ⟨rfl, rfl⟩ (hn 0 (by decide))
          · rw [if_pos rfl, if_neg h0, if_neg h1]
      · rw [if_neg hp]
  have r0 := (C85_results_of_the_program_partial hw hg hr hS (j := 0) (by decide)).1
  have r1 := (C85_results_of_the_program_partial hw hg hr hS (j := 1) (by decide)).1
  rw [h2 0 (by decide)] at r0
  rw [h2 1 (by decide)] at r1
  exact ⟨s', h1, h2, r0, r1⟩

/-- There are executions. -/
example : ∃ s, Reach (ping 1 2) ⟨5, 0⟩ (fun _ => (1, 0)) s := ⟨_, .init (before_initial _ _ _)⟩

/-- C85.  If the first federate sends at the level that waits for the answer, or later, no federate completes the tag. -/
theorem C85_not_without_order {g : Tag} (hg : g.microstep < UINT_MAX) {x : Nat → Nat × Nat} {s : State (Nat × Nat) Nat}
    (h : Reach (ping 2 1) g x s) : (s.fed 0).pc ≠ .done ∧ (s.fed 1).pc ≠ .done := by
  have hw := ping_wf (a := 2) (b := 1) (by decide) (by decide) (by decide) (by decide)
  have key : ∀ k, k < 2 → (s.fed ((ping 2 1).conn k).src).pc ≠ .done := by
    intro k hk
    refine C85_loops_never_complete hw hg (D := fun k => k < 2) (fun k hk => ⟨hk, rfl⟩) (fun k hk => ?_) h hk
    have : k = 0 ∨ k = 1 := by omega
    rcases this with rfl | rfl
    · exact ⟨1, by decide, rfl, by decide⟩
    · exact ⟨0, by decide, rfl, by decide⟩
  exact ⟨key 0 (by decide), key 1 (by decide)⟩

end ReactorC.Cycle
