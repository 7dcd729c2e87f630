import Verif.Token.ThreadsUniq

/-!
# C73: reference counts in parallel reactions

`Reach n A s` says that a program with `n` ports whose acts satisfy `A` can get to `s`, with any number of threads and any
interleaving of their steps.
-/

set_option linter.unusedVariables false

namespace ReactorC.Token.Threads

/-- The messages at ports that are not being set are there: the token is in use, its payload is allocated, and its count
accounts for all the ports that have it when no thread is at work. -/
structure Safe (n : Nat) (s : State) : Prop where
  fault : s.fault = false
  there : ∀ q < n, ∀ k, (∀ i, (s.pc i).port ≠ some q) → s.port q = some k →
    (s.tok k).place = .live ∧ ((s.tok k).value = true → (s.tok k).payload = true)
  counted : (∀ i, s.pc i = .idle) → ∀ k, (List.range n).countP (fun q => decide (s.port q = some k)) ≤ (s.tok k).rc

theorem Inv.safe {n : Nat} {s : State} (h : Inv n s) : Safe n s := by
  refine ⟨h.fault, fun q hq k hu e => ?_, fun hi k => ?_⟩
  · exact h.good_port hq (by rw [h.same q hu]; exact e)
  · have e : s.port = s.own := by
      funext q
      exact (h.same q fun i => by rw [hi i]; exact fun x => by cases x).symm
    rw [e]; exact h.count k

/-- **C73** No freed token is accessed, no payload is freed twice and no message is freed while a port has it, if no two threads
work on the same token at the same time. `_partial`: this is needed, see `C73_parallel_forwarding_loses_a_message` and
`C73_parallel_release_frees_twice`. -/
theorem C73_safe_if_threads_are_apart_partial {n : Nat} {s : State}
    (h : Reach n (fun s a => ∀ s', exec s a = some s' → Apart s') s) : Safe n s := Reach.inv (s := s) h |>.safe

/-- **C73** With any number of threads, this is so for programs that do not forward tokens of their inputs or actions; a message
is at one port only. `_partial`: tokens that are forwarded are excluded. -/
theorem C73_safe_without_forwarding_partial {n : Nat} {s : State}
    (h : Reach n (fun _ a => ∀ i p q k, a ≠ .forward i p q k) s) :
    Safe n s ∧ ∀ q < n, ∀ q' < n, ∀ k, (∀ i, (s.pc i).port ≠ some q) → (∀ i, (s.pc i).port ≠ some q') →
      s.port q = some k → s.port q' = some k → q = q' := by
  have h' : Reach n NoForward s := by
    induction h with
    | start => exact .start
    | step a _ hp hN e ih =>
      refine .step a ih hp ?_ e
      cases a with
      | forward i p q k => exact hN i p q k rfl
      | _ => trivial
  obtain ⟨h1, h2⟩ := h'.noForward
  refine ⟨h1.inv.safe, fun q hq q' hq' k hu hu' e e' => ?_⟩
  by_contra hne
  have e1 : s.own q = some k := by rw [h1.inv.same q hu]; exact e
  have e2 : s.own q' = some k := by rw [h1.inv.same q' hu']; exact e'
  have h3 := holders_put (n := n) (own := s.own) none k hq
  have h4 : 0 < holders n (put s.own q none) k := holders_pos hq' (by rw [put_other _ _ (Ne.symm hne)]; exact e2)
  have := h2.one k
  rw [if_pos e1] at h3
  simp at h3
  omega

theorem Reach.oneThread {n i : Nat} {s : State} (h : Reach n (fun _ a => a.thread = i) s) : Reach n Keeps s := by
  have key : Reach n Keeps s ∧ ∀ j, j ≠ i → s.pc j = .idle := by
    induction h with
    | start => exact ⟨.start, fun _ _ => rfl⟩
    | @step s0 s1 a _ hp hi e ih =>
      have idle : ∀ s'', exec s0 a = some s'' → ∀ j, j ≠ i → s''.pc j = .idle := by
        intro s'' e' j hj
        rw [← ih.2 j hj]
        exact exec_other e' (by rw [hi]; exact hj)
      refine ⟨.step a ih.1 hp (fun s'' e' => ?_) e, idle _ e⟩
      intro x y hxy k hk hk'
      by_cases ex : x = i
      · rw [idle _ e' y (fun ey => hxy (by rw [ex, ey]))] at hk'; cases hk'
      · rw [idle _ e' x ex] at hk; cases hk
  exact key.1

/-- **C73** With one thread, it is so for all programs. `_partial`: one thread. -/
theorem C73_safe_with_one_thread_partial {n i : Nat} {s : State} (h : Reach n (fun _ a => a.thread = i) s) : Safe n s :=
  h.oneThread.inv.safe

/-! ## What goes wrong -/

/-- No thread below `m` is setting the port. -/
def unset (m : Nat) (s : State) (p : Nat) : Bool := (List.range m).all fun j => decide ((s.pc j).port ≠ some p)

/-- `Pre`, with threads below `m`. -/
def pre (n m : Nat) (s : State) : Act → Bool
  | .forward i p q k => decide (i < m ∧ s.pc i = .idle ∧ p < n ∧ q < n) && unset m s p && unset m s q && decide (s.port q = some k)
  | .set i p => decide (i < m ∧ s.pc i = .idle ∧ p < n) && unset m s p
  | .send i p => decide (i < m ∧ s.pc i = .idle ∧ p < n) && unset m s p
  | .go i _ _ => decide (i < m)

/-- The steps of a list, with threads below `m`. -/
def run (n m : Nat) : State → List Act → Option State
  | s, [] => some s
  | s, a :: l =>
    if pre n m s a then (exec s a).bind fun s' => run n m s' l
    else none

theorem run_reach {n m : Nat} {A : State → Act → Prop} {l : List Act} (hA : ∀ s, ∀ a ∈ l, A s a) : ∀ {s s' : State}, Reach n A s →
    (∀ j, m ≤ j → s.pc j = .idle) → run n m s l = some s' → Reach n A s' ∧ ∀ j, m ≤ j → s'.pc j = .idle := by
  induction l with
  | nil => intro s s' h hi e; cases e; exact ⟨h, hi⟩
  | cons a l ih =>
    intro s s' h hi e
    unfold run at e
    split at e
    · rename_i hp
      cases ea : exec s a with
      | none => rw [ea] at e; cases e
      | some s1 =>
        rw [ea] at e
        have hun : ∀ p, unset m s p = true → Unset s p := by
          intro p hp j
          by_cases hj : j < m
          · exact of_decide_eq_true (List.all_eq_true.1 hp j (List.mem_range.2 hj))
          · rw [hi j (by omega)]; exact fun x => by cases x
        have hpre : Pre n s a ∧ a.thread < m := by
          cases a with
          | forward i p q k =>
            simp only [pre, Bool.and_eq_true, decide_eq_true_eq] at hp
            exact ⟨⟨hp.1.1.1.2.1, hp.1.1.1.2.2.1, hp.1.1.1.2.2.2, hun _ hp.1.1.2, hun _ hp.1.2, hp.2⟩, hp.1.1.1.1⟩
          | set i p =>
            simp only [pre, Bool.and_eq_true, decide_eq_true_eq] at hp
            exact ⟨⟨hp.1.2.1, hp.1.2.2, hun _ hp.2⟩, hp.1.1⟩
          | send i p =>
            simp only [pre, Bool.and_eq_true, decide_eq_true_eq] at hp
            exact ⟨⟨hp.1.2.1, hp.1.2.2, hun _ hp.2⟩, hp.1.1⟩
          | go i k f => exact ⟨trivial, of_decide_eq_true hp⟩
        refine ih (fun s b hb => hA s b (List.mem_cons_of_mem _ hb)) (h.step a hpre.1 (hA s a List.mem_cons_self) ea) (fun j hj => ?_) e
        rw [exec_other ea (by have := hpre.2; omega)]; exact hi j hj
    · cases e

/-- Sends a new message from port 0 to nobody yet: thread 0, token `k`. -/
def first : List Act := [.set 0 0, .go 0 0 false, .go 0 0 false, .go 0 0 false, .go 0 0 false]

/-- Thread 0 sends a new message at port 0, with the token 1, and releases the token 0 that it had, whose count stays positive. -/
def second : List Act := .send 0 0 :: List.replicate 9 (.go 0 1 false)

/-- Two reactions forward the message of port 0, to the ports 1 and 2, at the same time. -/
def together : List Act :=
  [.forward 1 1 0 0, .forward 2 2 0 0, .go 1 0 false, .go 2 0 false, .go 1 0 false, .go 2 0 false, .go 1 0 false, .go 2 0 false]

/-- One after the other. -/
def apart : List Act :=
  [.forward 1 1 0 0, .go 1 0 false, .go 1 0 false, .go 1 0 false, .forward 2 2 0 0, .go 2 0 false, .go 2 0 false, .go 2 0 false]

/-- One thread sends a message and forwards it to two ports: the premises of `C73_safe_with_one_thread_partial` and, with
`Reach.oneThread`, of `C73_safe_if_threads_are_apart_partial` hold. -/
example : ∃ s, Reach 3 (fun _ a => a.thread = 0) s ∧ s.port 0 = some 7 ∧ s.port 1 = some 7 ∧ s.port 2 = some 7 ∧ (s.tok 7).rc = 3 := by
  let l : List Act := [.set 0 0, .go 0 0 false, .go 0 7 false, .go 0 0 false, .go 0 0 false,
    .forward 0 1 0 7, .go 0 0 false, .go 0 0 false, .go 0 0 false, .forward 0 2 0 7, .go 0 0 false, .go 0 0 false, .go 0 0 false]
  have e : (run 3 1 start l).any (fun s => decide (s.port 0 = some 7 ∧ s.port 1 = some 7 ∧ s.port 2 = some 7 ∧ (s.tok 7).rc = 3)) = true := by
    decide +kernel
  cases hs : run 3 1 start l with
  | none => rw [hs] at e; cases e
  | some s =>
    rw [hs] at e
    exact ⟨s, (run_reach (A := fun _ a => a.thread = 0) (by intro s a ha; simp only [l, List.mem_cons, List.not_mem_nil, or_false] at ha
                                                            rcases ha with h | h | h | h | h | h | h | h | h | h | h | h | h <;> (rw [h]; rfl))
      .start (fun _ _ => rfl) hs).1, of_decide_eq_true e⟩

/-- Two threads send messages at the same time, each two of them; the second message of thread 0 replaces the payload of its first, and
thread 1 puts its first token into the recycling bin. -/
example : ∃ s, Reach 2 (fun _ a => ∀ i p q k, a ≠ .forward i p q k) s ∧ s.port 0 = some 0 ∧ s.port 1 = some 2 ∧ (s.tok 1).place = .bin := by
  let l : List Act := [.set 0 0, .send 1 1, .go 0 0 false, .go 1 1 false, .go 0 0 false, .go 1 0 false, .go 0 0 false, .go 1 0 false,
    .go 0 0 false, .go 1 0 false, .go 1 0 false, .send 1 1, .set 0 0, .go 1 2 false, .go 0 0 false, .go 1 0 false, .go 0 0 false,
    .go 1 0 false, .go 0 0 false, .go 1 0 false, .go 1 0 false, .go 1 0 false, .go 0 0 false] ++ List.replicate 7 (.go 1 0 false)
  have e : (run 2 2 start l).any (fun s => decide (s.port 0 = some 0 ∧ s.port 1 = some 2 ∧ (s.tok 1).place = .bin)) = true := by
    decide +kernel
  cases hs : run 2 2 start l with
  | none => rw [hs] at e; cases e
  | some s =>
    rw [hs] at e
    refine ⟨s, (run_reach (A := fun _ a => ∀ i p q k, a ≠ .forward i p q k) ?_ .start (fun _ _ => rfl) hs).1, of_decide_eq_true e⟩
    intro s a ha i p q k ea
    have : (l.all fun a => match a with | .forward .. => false | _ => true) = true := by decide +kernel
    have := List.all_eq_true.1 this a ha
    rw [ea] at this; cases this

/-- **C73** fails: two reactions that forward the same input at the same time count one reference for the two of them.  When the
input and one of the outputs have their next message, the payload is freed and the token is put into the recycling bin, although
the other output has it. -/
theorem C73_parallel_forwarding_loses_a_message : ∃ s, Reach 3 (fun _ _ => True) s ∧ (∀ i, s.pc i = .idle) ∧
    s.port 2 = some 0 ∧ (s.tok 0).place = .bin ∧ (s.tok 0).payload = false := by
  have e : (run 3 3 start (first ++ together ++ second ++ (.forward 1 1 0 1 :: List.replicate 11 (.go 1 0 false)))).any
      (fun s => decide ((s.pc 0 = .idle ∧ s.pc 1 = .idle ∧ s.pc 2 = .idle) ∧ s.port 2 = some 0 ∧ (s.tok 0).place = .bin ∧
        (s.tok 0).payload = false)) = true := by decide +kernel
  cases hs : run 3 3 start (first ++ together ++ second ++ (.forward 1 1 0 1 :: List.replicate 11 (.go 1 0 false))) with
  | none => rw [hs] at e; cases e
  | some s =>
    rw [hs] at e
    obtain ⟨h1, h2⟩ := of_decide_eq_true e
    obtain ⟨k1, k2⟩ := run_reach (A := fun _ _ => True) (fun _ _ _ => trivial) .start (fun _ _ => rfl) hs
    refine ⟨s, k1, fun i => ?_, h2⟩
    match i with
    | 0 => exact h1.1
    | 1 => exact h1.2.1
    | 2 => exact h1.2.2
    | i + 3 => exact k2 _ (by omega)

/-- **C73** fails: when two outputs have the same message and get their next messages at the same time, both threads find the count
at 0 and the payload is freed twice.  This would be so also if counts were decremented in one step. -/
theorem C73_parallel_release_frees_twice : ∃ s, Reach 3 (fun _ _ => True) s ∧ s.fault = true := by
  have e : (run 3 3 start (first ++ apart ++ second ++ [.forward 1 1 0 1, .forward 2 2 0 1,
      .go 1 0 false, .go 1 0 false, .go 1 0 false, .go 2 0 false, .go 2 0 false, .go 2 0 false,
      .go 1 0 false, .go 2 0 false, .go 1 0 false, .go 2 0 false, .go 1 0 false, .go 2 0 false])).any
      (fun s => s.fault) = true := by decide +kernel
  cases hs : run 3 3 start (first ++ apart ++ second ++ [.forward 1 1 0 1, .forward 2 2 0 1,
      .go 1 0 false, .go 1 0 false, .go 1 0 false, .go 2 0 false, .go 2 0 false, .go 2 0 false,
      .go 1 0 false, .go 2 0 false, .go 1 0 false, .go 2 0 false, .go 1 0 false, .go 2 0 false]) with
  | none => rw [hs] at e; cases e
  | some s =>
    rw [hs] at e
    exact ⟨s, (run_reach (A := fun _ _ => True) (fun _ _ _ => trivial) .start (fun _ _ => rfl) hs).1, e⟩

end ReactorC.Token.Threads
