import Verif.Cycle.RunLive
import Verif.Cycle.RunProps

/-!
# C86: fair executions complete every tag, with the results of the program
-/

namespace ReactorC.Cycle.Run
open ReactorC
variable {S V : Type} {M : Federation S V} {x : Nat → S} {rank : Nat → Nat → Nat} {run : Nat → State S V}

/-- C86.  Every fair execution completes every tag in every federate: for any number of tags there is a time from which on all federates have completed them. -/
theorem C86_fair_executions_complete_partial (hw : WF M) (ho : Ordered M rank) (F : Fair M x run) (N : Nat) :
    ∃ i0, ∀ i, i0 ≤ i → Completed M (run i) N := by
  obtain ⟨i0, h⟩ := eventually_all (p := fun j i => N ≤ ((run i).fed j).n) M.P.n fun j hj => by
    obtain ⟨i0, h⟩ := F.gets_to hw ho N j hj
    exact ⟨i0, fun i hi => F.n_mono hw hi h⟩
  exact ⟨i0, fun i hi j hj => h i hi j hj⟩

/-- C86.  Fair executions exist, from every state that can be reached. -/
theorem C86_fair_executions_exist_partial (hw : WF M) {s : State S V} (h : Reach M x s) : ∃ run, Fair M x run ∧ run 0 = s :=
  ⟨inTurn M s, fair_exists hw h, rfl⟩

/-- C86.  In every fair execution there is a time from which on all federates have had, at the first `N` tags, the inputs that the program says. -/
theorem C86_fair_executions_have_the_inputs_partial (hw : WF M) (ho : Ordered M rank) (F : Fair M x run) {N : Nat}
    {st : Nat → Nat → Nat → S} {inp : Nat → Nat → Nat → Option V} (hs : Solution M x N st inp) :
    ∃ i0, ∀ i, i0 ≤ i → ∀ j < M.P.n, ∀ m < N, ∀ p, ((run i).fed j).inp (M.tau m) p = inp j m p := by
  obtain ⟨i0, h⟩ := C86_fair_executions_complete_partial hw ho F N
  exact ⟨i0, fun i hi j hj m hm p => (C86_results_of_the_program_partial hw (F.reached i) hs hj).2 m (Nat.lt_of_lt_of_le hm (h i hi j hj)) hm p⟩

/-- C86.  In every fair execution each federate comes to the end of each tag that it has not yet completed, and then its reactors are in the state that the program says. -/
theorem C86_fair_executions_have_the_states_partial (hw : WF M) (ho : Ordered M rank) (F : Fair M x run) {N : Nat}
    {st : Nat → Nat → Nat → S} {inp : Nat → Nat → Nat → Option V} (hs : Solution M x N st inp) {j m : Nat} (hj : j < M.P.n)
    (hm : m < N) (h0 : ((run 0).fed j).n ≤ m) :
    ∃ i, ((run i).fed j).n = m ∧ ((run i).fed j).pc = .level (M.P.levels j) ∧ ((run i).fed j).st = st j m (M.P.levels j) := by
  obtain ⟨i1, h1⟩ := F.gets_to hw ho (m + 1) j hj
  have key : ∀ i, m < ((run i).fed j).n → ∃ i, ((run i).fed j).n = m ∧ ((run i).fed j).pc = .level (M.P.levels j) := by
    intro i
    induction i with
    | zero => intro h; omega
    | succ i ih =>
      intro h
      by_cases hi : m < ((run i).fed j).n
      · exact ih hi
      · rcases F.next i with e | e
        · rw [e] at h; exact absurd h hi
        · rcases node_step hw e j with ⟨e1, _⟩ | ⟨_, e1⟩
          · rw [e1] at h; exact absurd h hi
          · rcases e1 with ⟨_, _, e2⟩ | ⟨_, _, _, _, e2⟩ | ⟨_, _, _, e2⟩ | ⟨e1, _, e2⟩
            · rw [e2] at h; exact absurd h hi
            · rw [e2] at h; exact absurd h hi
            · rw [e2] at h; exact absurd h hi
            · exact ⟨i, by omega, e1⟩
  obtain ⟨i, h2, h3⟩ := key i1 h1
  refine ⟨i, h2, h3, ?_⟩
  have := ((C86_results_of_the_program_partial hw (F.reached i) hs hj).1 (by omega)).1
  rw [h2, h3] at this
  exact this

/-- The example has fair executions; in each of them the first federate ends the second tag in state (7, 6). -/
example : (∃ run, Fair game (fun _ => (1, 0)) run ∧ run 0 = before game fun _ => (1, 0)) ∧
    ∀ run, Fair game (fun _ => (1, 0)) run → ((run 0).fed 0).n ≤ 1 →
      (∃ i0, ∀ i, i0 ≤ i → Completed game (run i) 1000) ∧
      ∃ i, ((run i).fed 0).n = 1 ∧ ((run i).fed 0).pc = .level 3 ∧ ((run i).fed 0).st = (7, 6) := by
  refine ⟨C86_fair_executions_exist_partial game_wf (.init (before_initial game fun _ => (1, 0))), fun run F h0 => ⟨?_, ?_⟩⟩
  · exact C86_fair_executions_complete_partial game_wf game_ordered F 1000
  · exact C86_fair_executions_have_the_states_partial game_wf game_ordered F game_solution (by decide) (by decide) h0

end ReactorC.Cycle.Run
