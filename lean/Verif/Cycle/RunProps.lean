import Verif.Cycle.RunProgress

/-!
# C86: executions of federations with cycles of connections without delay

The results of C85 for whole executions: with delayed connections, messages that come in long before their tag, federates at different tags at the
same time, and provisional grants at each tag.
-/

namespace ReactorC.Cycle.Run
open ReactorC
variable {S V : Type} {M : Federation S V} {x : Nat → S} {rank : Nat → Nat → Nat}

/-- C86.  At no tag does a message come in after the level of its reaction has been executed, and no federate ends because a message is in the past. -/
theorem C86_no_message_too_late_partial (hw : WF M) {s : State S V} (h : Reach M x s) : s.fault = false :=
  (reach_inv hw h).ok

/-- C86.  Whatever has happened so far, the reactors of every federate are in the state that the program says for the tag and the level that the
federate has got to; the inputs for levels up to it are those of the program, and so were all inputs at earlier tags. -/
theorem C86_results_of_the_program_partial (hw : WF M) {s : State S V} (h : Reach M x s) {N : Nat}
    {st : Nat → Nat → Nat → S} {inp : Nat → Nat → Nat → Option V} (hs : Solution M x N st inp) {j : Nat} (hj : j < M.P.n) :
    ((s.fed j).n < N → (s.fed j).st = st j (s.fed j).n (pos M.P j (s.fed j).pc) ∧
      ∀ p, ((M.P.cfg j).port p).level < adm M.P j (s.fed j).pc → (s.fed j).inp (M.tau (s.fed j).n) p = inp j (s.fed j).n p) ∧
    ∀ m, m < (s.fed j).n → m < N → ∀ p, (s.fed j).inp (M.tau m) p = inp j m p := by
  have hI := reach_inv hw h
  have ha := reach_agrees hw h hs
  refine ⟨fun hN => ⟨?_, ?_⟩, ?_⟩
  · rw [← ha j hj _ hN _ (Or.inr ⟨rfl, Nat.le_refl _⟩)]
    exact (hI.fed j hj).st
  · intro p hp
    by_cases hcn : ∃ k < M.P.nc, (M.P.conn k).dst = j ∧ (M.P.conn k).port = p
    · obtain ⟨k, hk, rfl, rfl⟩ := hcn
      by_cases hm : ∃ m, M.arr k m = (s.fed (M.P.conn k).dst).n
      · obtain ⟨m, hm⟩ := hm
        obtain ⟨h1, h2⟩ := input_final hw hI hk hm hp
        have h3 := arr_ge hw hk m
        rw [h1, sends, ha _ (hw.src k hk) m (by omega) _ (done_of_past hw hk h2), ← hs.conn k hk m (by omega), hm]
      · have hm : ∀ m, M.arr k m ≠ (s.fed (M.P.conn k).dst).n := fun m e => hm ⟨m, e⟩
        rw [input_gap hw hI hk hm, hs.gap k hk _ hN hm]
    · have hcn : ∀ k < M.P.nc, ¬((M.P.conn k).dst = j ∧ (M.P.conn k).port = p) := fun k hk hh => hcn ⟨k, hk, hh⟩
      rw [hI.noConn j hj p hcn, hs.none j hj p hcn _ hN]
  · intro i hi hN p
    by_cases hcn : ∃ k < M.P.nc, (M.P.conn k).dst = j ∧ (M.P.conn k).port = p
    · obtain ⟨k, hk, rfl, rfl⟩ := hcn
      by_cases hm : ∃ m, M.arr k m = i
      · obtain ⟨m, rfl⟩ := hm
        obtain ⟨h1, h2⟩ := input_over hw hI hk hi
        have h3 := arr_ge hw hk m
        rw [h1, sends, ha _ (hw.src k hk) m (by omega) _ (done_of_past hw hk h2), ← hs.conn k hk m hN]
      · have hm : ∀ m, M.arr k m ≠ i := fun m e => hm ⟨m, e⟩
        rw [input_gap hw hI hk hm, hs.gap k hk _ hN hm]
    · have hcn : ∀ k < M.P.nc, ¬((M.P.conn k).dst = j ∧ (M.P.conn k).port = p) := fun k hk hh => hcn ⟨k, hk, hh⟩
      rw [hI.noConn j hj p hcn, hs.none j hj p hcn _ hN]

/-- C86.  From wherever an execution is, it can go on until all federates have completed any number of tags. -/
theorem C86_completes_partial (hw : WF M) (ho : Ordered M rank) {s : State S V} (h : Reach M x s) (N : Nat) : ∃ s', Steps M s s' ∧ Completed M s' N :=
  completes hw ho h N

/-- C86.  There is no deadlock: with `rank` an order of the levels, from every reachable state each federate gets to a later tag than it is at. -/
theorem C86_no_deadlock_partial (hw : WF M) (ho : Ordered M rank) {s : State S V} (h : Reach M x s) :
    ∃ s', Steps M s s' ∧ ∀ j < M.P.n, (s.fed j).n < (s'.fed j).n := by
  have hmax : ∀ n, ∃ N, ∀ j < n, (s.fed j).n < N := by
    intro n
    induction n with
    | zero => exact ⟨0, fun j hj => absurd hj (Nat.not_lt_zero j)⟩
    | succ n ih =>
      obtain ⟨N, hN⟩ := ih
      refine ⟨N + (s.fed n).n + 1, fun j hj => ?_⟩
      by_cases e : j = n
      · subst e
        omega
      · have := hN j (by omega)
        omega
  obtain ⟨N, hN⟩ := hmax M.P.n
  obtain ⟨s', h1, h2⟩ := completes hw ho h N
  refine ⟨s', h1, fun j hj => ?_⟩
  have h3 := hN j hj
  have h4 := h2 j hj
  omega

/-- A state before the first tag. -/
def before (M : Federation S V) (x : Nat → S) : State S V :=
  let t : Tag := ⟨(M.tau 0).time - 1, 0⟩
  { fed := fun j => {
      n := 0
      lv := { phase := .running, cur := t, mlaa := 0, known := fun _ => t, status := fun _ => .absent, lastTAG := t, prov := false, now := 0,
              staaWait := none, asleep := fun _ => false, admitted := fun _ => false, hist := [] }
      pc := .before
      st := M.enter j 0 (x j)
      inp := fun _ _ => none
      tr := fun _ _ => M.enter j 0 (x j) }
    chan := fun _ => []
    fault := false }

theorem before_initial (M : Federation S V) (x : Nat → S) : Initial M x (before M x) := by
  have hlt : (⟨(M.tau 0).time - 1, 0⟩ : Tag) < M.tau 0 := Or.inl (by show (M.tau 0).time - 1 < (M.tau 0).time; omega)
  exact ⟨fun _ => rfl, rfl, fun _ => rfl, fun _ => rfl, fun _ => rfl, fun _ => rfl, fun _ _ _ => rfl, fun _ => rfl, fun _ => hlt, fun _ => hlt,
    fun _ _ => hlt, fun _ _ => rfl⟩

/-- C86.  What the program says about any number of tags is well-defined: there is exactly one result. -/
theorem C86_one_result_partial (hw : WF M) (ho : Ordered M rank) (x : Nat → S) (N : Nat) : ∃ st inp, Solution M x N st inp ∧
    ∀ st' inp', Solution M x N st' inp' → ∀ j < M.P.n, ∀ m < N, (∀ L ≤ M.P.levels j, st' j m L = st j m L) ∧ inp' j m = inp j m := by
  obtain ⟨s, h1, h2⟩ := completes hw ho (.init (before_initial M x)) N
  have hr := h1.reach (.init (before_initial M x))
  have hS := completed_solution hw (reach_inv hw hr) h2
  refine ⟨_, _, hS, fun st' inp' hS' j hj m hm => ⟨fun L hL => ?_, ?_⟩⟩
  · have := h2 j hj
    exact (reach_agrees hw hr hS' j hj m hm L (Or.inl ⟨by omega, hL⟩)).symm
  · funext p
    have := h2 j hj
    exact ((C86_results_of_the_program_partial hw hr hS' hj).2 m (by omega) hm p).symm

/-- C86.  Two executions of the same program agree: when a federate is in both at the same tag and level, its reactors are in the same state; and it has had the same
inputs at every tag that it has completed in both. -/
theorem C86_executions_agree_partial (hw : WF M) (ho : Ordered M rank) {s s' : State S V} (h : Reach M x s) (h' : Reach M x s') {j : Nat} (hj : j < M.P.n) :
    ((s.fed j).n = (s'.fed j).n → pos M.P j (s.fed j).pc = pos M.P j (s'.fed j).pc → (s.fed j).st = (s'.fed j).st) ∧
    ∀ m, m < (s.fed j).n → m < (s'.fed j).n → (s.fed j).inp (M.tau m) = (s'.fed j).inp (M.tau m) := by
  obtain ⟨st, inp, hS, _⟩ := C86_one_result_partial hw ho x ((s.fed j).n + 1)
  obtain ⟨h1, h2⟩ := C86_results_of_the_program_partial hw h hS hj
  obtain ⟨h3, h4⟩ := C86_results_of_the_program_partial hw h' hS hj
  refine ⟨fun e1 e2 => ?_, fun m hm hm' => ?_⟩
  · rw [(h1 (by omega)).1, (h3 (by omega)).1, e1, e2]
  · funext p
    rw [h2 m hm (by omega) p, h4 m hm' (by omega) p]

/-! ### Example -/

/-- Two federates in a cycle, as in C85; a third one gets the number of the second one 100 ns later, and tells it to the first one, which adds it. -/
def game : Federation (Nat × Nat) Nat where
  P := {
    n := 3
    cfg := fun j => { dec := false, n := if j = 0 then 2 else 1, startTime := 0,
                      port := fun p => { index := if j = 0 ∧ p = 0 then 2 else 0, cycle := decide (j ≠ 2 ∧ p = 0), physical := false } }
    zdc := fun j => decide (j ≠ 2)
    nc := 4
    conn := fun k => if k = 0 then ⟨0, 1, 0, 1, 1, true⟩ else if k = 1 then ⟨1, 0, 0, 1, 1, true⟩ else if k = 2 then ⟨2, 0, 1, 1, 1, false⟩
      else ⟨1, 2, 0, 1, 1, false⟩
    levels := fun j => if j = 2 then 2 else 3
    exec := fun j L x i =>
      if j = 0 then
        if L = 0 then (x.1 + (i 1).getD 0, x.1 + (i 1).getD 0 + 1) else if L = 2 then ((i 0).getD 99, x.2) else x
      else if j = 1 then
        if L = 0 then ((i 0).getD 99, (i 0).getD 99 + 1) else x
      else
        if L = 0 then ((i 0).getD 0, (i 0).getD 0) else x
    out := fun k x => if k = 1 then (if x.2 % 2 = 1 then some x.2 else none) else if k = 3 then some x.1 else some x.2 }
  ring := fun _ => 0
  tau := fun m => ⟨100 * m, 0⟩
  delayed := fun k => decide (k = 3)
  arr := fun k m => if k = 3 then m + 1 else m
  enter := fun _ _ x => x

theorem game_wf : WF game := by
  have four : ∀ k, k < game.P.nc → k = 0 ∨ k = 1 ∨ k = 2 ∨ k = 3 := by
    intro k hk
    change k < 4 at hk
    omega
  refine ⟨fun _ => rfl, ?_, ?_, ?_, ?_, fun _ _ => rfl, ?_, ?_, ?_, ?_, fun j => ?_, ?_, ?_, ?_, fun _ => (by show (0:Nat) < UINT_MAX; decide), ?_, ?_, ?_, fun _ _ _ _ _ => rfl⟩
  · intro k hk
    rcases four k hk with rfl | rfl | rfl | rfl <;> decide
  · intro k hk
    rcases four k hk with rfl | rfl | rfl | rfl <;> decide
  · intro k hk
    rcases four k hk with rfl | rfl | rfl | rfl <;> decide
  · intro k hk k' hk' hd hp
    rcases four k hk with rfl | rfl | rfl | rfl <;> rcases four k' hk' with rfl | rfl | rfl | rfl <;>
      first | rfl | (revert hd hp; decide)
  · intro k hk hc
    rcases four k hk with rfl | rfl | rfl | rfl <;> first | (revert hc; decide) | decide
  · intro j hj p hp hc
    change j < 3 at hj
    have hp : p = 0 := by
      simp only [game, decide_eq_true_eq] at hc
      exact hc.2
    subst hp
    have : j = 0 ∨ j = 1 ∨ j = 2 := by omega
    rcases this with rfl | rfl | rfl
    · exact ⟨1, by decide, rfl, rfl, rfl⟩
    · exact ⟨0, by decide, rfl, rfl, rfl⟩
    · revert hc
      decide
  · intro k hk
    rcases four k hk with rfl | rfl | rfl | rfl <;> decide
  · intro k hk
    rcases four k hk with rfl | rfl | rfl | rfl <;> decide
  · show (if j = 2 then 2 else 3) ≤ 65536
    split <;> omega
  · intro k hk L x i hL
    rcases four k hk with rfl | rfl | rfl | rfl <;> change 1 ≤ L at hL <;> simp [game, show L ≠ 0 by omega]
    split <;> rfl
  · intro j L x i i' hi
    by_cases hj : j = 0
    · subst hj
      simp only [game, if_true]
      by_cases hL : L = 0
      · have := hi 1 (by show 0 % 65536 ≤ L; omega)
        rw [if_pos hL, if_pos hL, this]
      · rw [if_neg hL, if_neg hL]
        by_cases hL : L = 2
        · have := hi 0 (by show 2 % 65536 ≤ L; omega)
          rw [this]
        · rw [if_neg hL, if_neg hL]
    · have := hi 0 (by show (if j = 0 ∧ 0 = 0 then 2 else 0) % 65536 ≤ L; rw [if_neg (by simp [hj])]; omega)
      simp only [game, if_neg hj]
      rw [this]
  · intro m
    left
    show (100 * (m : Int)) < 100 * ((m + 1 : Nat) : Int)
    omega
  · intro k hk hd m
    rcases four k hk with rfl | rfl | rfl | rfl <;> first | rfl | exact absurd hd (by decide)
  · intro k hk hd m
    rcases four k hk with rfl | rfl | rfl | rfl <;> first | exact absurd hd (by decide) | exact Nat.lt_succ_self m
  · intro k hk m
    rcases four k hk with rfl | rfl | rfl | rfl <;> simp [game]

theorem game_ordered : Ordered game (fun j L => if j = 0 then (if L ≤ 1 then L + 3 else L + 10) else if j = 1 then L + 5 else L) := by
  refine ⟨fun j L => ?_, fun k hk hd => ?_⟩
  · split
    · split <;> split <;> omega
    · split <;> omega
  · change k < 4 at hk
    have : k = 0 ∨ k = 1 ∨ k = 2 ∨ k = 3 := by omega
    rcases this with rfl | rfl | rfl | rfl <;> first | decide | (revert hd; decide)

/-- What the example does at the first two tags. -/
def gameSt (j m L : Nat) : Nat × Nat :=
  if j = 0 then
    if m = 0 then (if L = 0 then (1, 0) else if L = 3 then (3, 2) else (1, 2))
    else (if L = 0 then (3, 2) else if L = 3 then (7, 6) else (5, 6))
  else if j = 1 then
    if m = 0 then (if L = 0 then (1, 0) else (2, 3)) else (if L = 0 then (2, 3) else (6, 7))
  else
    if m = 0 then (if L = 0 then (1, 0) else (0, 0)) else (if L = 0 then (0, 0) else (2, 2))

def gameInp (j m p : Nat) : Option Nat :=
  if j = 0 ∧ p = 0 then some (if m = 0 then 3 else 7)
  else if j = 0 ∧ p = 1 then some (if m = 0 then 0 else 2)
  else if j = 1 ∧ p = 0 then some (if m = 0 then 2 else 6)
  else if j = 2 ∧ p = 0 ∧ m ≠ 0 then some 2
  else none

theorem game_solution : Solution game (fun _ => (1, 0)) 2 gameSt gameInp := by
  have three : ∀ j, j < game.P.n → j = 0 ∨ j = 1 ∨ j = 2 := by
    intro k hk
    change k < 3 at hk
    omega
  have four : ∀ k, k < game.P.nc → k = 0 ∨ k = 1 ∨ k = 2 ∨ k = 3 := by
    intro k hk
    change k < 4 at hk
    omega
  have two : ∀ m, m < 2 → m = 0 ∨ m = 1 := by
    intro m hm
    omega
  refine ⟨?_, ?_, ?_, ?_, ?_, ?_⟩
  · intro j hj _
    rcases three j hj with rfl | rfl | rfl <;> decide
  · intro j hj m hm
    have : m = 0 := by omega
    subst this
    rcases three j hj with rfl | rfl | rfl <;> decide
  · intro j hj m hm L hL
    have hL' : L < 3 := by
      have : game.P.levels j ≤ 3 := by
        show (if j = 2 then 2 else 3) ≤ 3
        split <;> omega
      omega
    have : L = 0 ∨ L = 1 ∨ L = 2 := by omega
    rcases three j hj with rfl | rfl | rfl <;> rcases two m hm with rfl | rfl <;> rcases this with rfl | rfl | rfl <;>
      first | decide | (revert hL; decide)
  · intro k hk m hm
    have h1 := arr_ge game_wf hk m
    rcases four k hk with rfl | rfl | rfl | rfl <;> rcases two m (by omega) with rfl | rfl <;> first | decide | (revert hm; decide)
  · intro k hk i hi hn
    rcases four k hk with rfl | rfl | rfl | rfl
    · exact absurd rfl (hn i)
    · exact absurd rfl (hn i)
    · exact absurd rfl (hn i)
    · rcases two i hi with rfl | rfl
      · decide
      · exact absurd rfl (hn 0)
  · intro j hj p hn i hi
    have h0 : ¬ (j = 0 ∧ p = 0) := fun h => hn 1 (by decide) ⟨h.1.symm, h.2.symm⟩
    have h1 : ¬ (j = 0 ∧ p = 1) := fun h => hn 2 (by decide) ⟨h.1.symm, h.2.symm⟩
    have h2 : ¬ (j = 1 ∧ p = 0) := fun h => hn 0 (by decide) ⟨h.1.symm, h.2.symm⟩
    have h3 : ¬ (j = 2 ∧ p = 0 ∧ i ≠ 0) := fun h => hn 3 (by decide) ⟨h.1.symm, h.2.1.symm⟩
    unfold gameInp
    rw [if_neg h0, if_neg h1, if_neg h2, if_neg h3]

/-- From every reachable state both tags are completed.  When the second one is over in the first federate, its reactors are in state (7, 6): it has received 2 from the third
federate, for 100 ns later, has sent 6 and has received 7 in return at the same tag. -/
example {s : State (Nat × Nat) Nat} (h : Reach game (fun _ => (1, 0)) s) :
    (∃ s', Steps game s s' ∧ Completed game s' 2) ∧ s.fault = false ∧
    ((s.fed 0).n = 1 → (s.fed 0).pc = .level 3 → (s.fed 0).st = (7, 6) ∧ (s.fed 0).inp ⟨100, 0⟩ 0 = some 7) := by
  refine ⟨C86_completes_partial game_wf game_ordered h 2, C86_no_message_too_late_partial game_wf h, fun hn hp => ?_⟩
  obtain ⟨h1, _⟩ := C86_results_of_the_program_partial game_wf h game_solution (j := 0) (by decide)
  obtain ⟨h1, h2⟩ := h1 (by omega)
  refine ⟨?_, ?_⟩
  · rw [h1, hn, hp]
    decide
  · have := h2 0 (by rw [hp]; decide)
    rw [hn] at this
    exact this

/-- There are executions. -/
example : ∃ s, Reach game (fun _ => (1, 0)) s ∧ Completed game s 2 := by
  obtain ⟨s, h1, h2⟩ := C86_completes_partial game_wf game_ordered (.init (before_initial game fun _ => (1, 0))) 2
  exact ⟨s, h1.reach (.init (before_initial _ _)), h2⟩

end ReactorC.Cycle.Run
