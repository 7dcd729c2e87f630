import Verif.Gedf.Work

/-!
# C43: the scheduler that follows deadlines

The theorems are about every state that the scheduler can reach (`Reach`), for every number of workers, every set of
reactions with their deadlines, and every order of the steps of the threads.  What is said of the record of what happened is
said in the words of Verif.Np.Spec.
-/

namespace ReactorC.Gedf

open Np (Ev put thisTag starts finishes Order)

/-- The worker executes the reaction; it may be about to queue a reaction that was triggered by it. -/
def Executing (s : State) (w r : Nat) : Prop :=
  s.pc w = .run r ∨ ∃ r', s.pc w = .lock (.running r) r' ∨ s.pc w = .insert (.running r) r'

section
variable {C : Config} {s : State}

/-- At every tag that has been completed (the tag advanced, or the scheduler decided to stop), each reaction that was
triggered, however often, has been executed exactly once, and no other reaction has been executed. -/
theorem C43_triggered_reactions_execute_exactly_once (hC : C.Ok) (h : Reach C s) {later before : List Ev} {e : Ev}
    (hh : s.hist = later ++ e :: before) (he : e = .advance ∨ e = .stop) (r : Nat) :
    (Ev.trigger r ∈ thisTag before → starts r (thisTag before) = 1 ∧ finishes r (thisTag before) = 1) ∧
    (Ev.trigger r ∉ thisTag before → starts r (thisTag before) = 0 ∧ finishes r (thisTag before) = 0) :=
  ((h.ledger hC).2.past later e before hh he).1 r

/-- At no moment has a reaction been started twice at a tag, finished without having been started, or started without having
been triggered. -/
theorem C43_never_twice_at_a_tag (hC : C.Ok) (h : Reach C s) (r : Nat) :
    starts r (thisTag s.hist) ≤ 1 ∧ finishes r (thisTag s.hist) ≤ starts r (thisTag s.hist) ∧
      (starts r (thisTag s.hist) ≠ 0 → Ev.trigger r ∈ thisTag s.hist) :=
  ⟨((h.ledger hC).2.once r).1, ((h.ledger hC).2.once r).2, (h.ledger hC).2.asked r⟩

/-- Whenever a reaction starts, each reaction on which it depends and which is executed at this tag, even later, has already
finished. -/
theorem C43_dependencies_finish_first (hC : C.Ok) (h : Reach C s) : Order C.dep (thisTag s.hist) :=
  (h.ledger hC).2.order

/-- Reactions that are executed at the same time have the same level, and they are different reactions. -/
theorem C43_executing_reactions_have_one_level (hC : C.Ok) (h : Reach C s) {w w' r r' : Nat} (h1 : Executing s w r)
    (h2 : Executing s w' r') : C.level r = C.level r' ∧ (w ≠ w' → r ≠ r') := by
  have P := (h.inv hC).2
  refine ⟨by rw [P.lev w r h1, P.lev w' r' h2], fun hne e => ?_⟩
  subst e
  exact hne (P.uniq r w w' (Pc.doing_holds (Pc.Exec.doing h1)) (Pc.doing_holds (Pc.Exec.doing h2)))

/-- When a worker gets a reaction, no reaction that has been triggered and not been started has a smaller index (deadline,
then level), except for those that a reaction has triggered just now, which still wait for the mutex to be queued. -/
theorem C43_least_index_is_taken (hC : C.Ok) (h : Reach C s) {a : Act} {s' : State} (ha : a.allowed C s)
    (he : exec C s a = some s') {w r : Nat} (hh : s'.hist = .start w r :: s.hist) {r' : Nat}
    (ht : Ev.trigger r' ∈ thisTag s.hist) (hn : starts r' (thisTag s.hist) = 0) :
    C.index r ≤ C.index r' ∨ ∃ x r0, s.pc x = .lock (.running r0) r' := by
  obtain ⟨hc, P⟩ := h.inv hC
  have key : ∀ y, s.pc y = .loop → s.stop = false → (∀ r' ∈ s.queue, C.index r ≤ C.index r') →
      C.index r ≤ C.index r' ∨ ∃ x r0, s.pc x = .lock (.running r0) r' := by
    intro y e hs hmin
    have L := (h.ledger hC).1 hs
    have only : ∀ x, (s.pc x).inside = true → s.pc x = .loop := fun x k => by
      have k1 := (hc.mutex x).2 k
      have k2 := (hc.mutex y).2 (by rw [e]; rfl)
      rw [k1] at k2; cases k2; exact e
    cases hq : s.queued r' with
    | false => have := ((L.rest r' hq).1 ht).1; omega
    | true =>
      rcases (P.q r').1 hq with k | ⟨x, k⟩
      · exact .inl (hmin r' k)
      · rcases Pc.holds_cases k with ⟨f, k⟩ | ⟨r0, k⟩ | ⟨k1, k2⟩
        · have := (L.work x r' f k).1; omega
        · rcases k with k | k
          · exact .inr ⟨x, r0, k⟩
          · have := only x (by rw [k]; rfl)
            rw [k] at this; cases this
        · rw [only x k2] at k1; cases k1
  have bad : ∀ {l : List Ev} {e : Ev}, l ≠ e :: l := fun k => by simpa using congrArg List.length k
  cases exec_step hc P ha he with
  | take r1 e hs hr hmin hl =>
    obtain ⟨k1, _⟩ := List.cons.inj hh
    cases k1; exact key _ e hs hmin
  | takeSignal r1 x e hs hr hmin hl =>
    obtain ⟨k1, _⟩ := List.cons.inj hh
    cases k1; exact key _ e hs hmin
  | finish => exact absurd (List.cons.inj hh).1 (by simp)
  | advance => exact absurd (List.cons.inj hh).1 (by simp)
  | stop => exact absurd (List.cons.inj hh).1 (by simp)
  | triggerAgain => exact absurd (List.cons.inj hh).1 (by simp)
  | triggerNew => exact absurd (List.cons.inj hh).1 (by simp)
  | _ => exact absurd hh bad

/-- While the tag is being advanced, no reaction is queued and none is executing. -/
theorem C43_tag_advances_when_nothing_is_left (hC : C.Ok) (h : Reach C s) {w : Nat} (e : s.pc w = .tag ∨ s.pc w = .pause) (r : Nat) :
    s.queued r = false ∧ ∀ x, ¬ Executing s x r := by
  obtain ⟨hc, P⟩ := h.inv hC
  obtain ⟨k1, k2⟩ := P.nothing hc e r
  exact ⟨k1, fun x k => k2 x false (Pc.Exec.doing k)⟩

/-- After the decision to stop nothing is triggered or executed any more, and the tag does not advance. -/
theorem C43_nothing_after_stop (hC : C.Ok) (h : Reach C s) {later before : List Ev}
    (hh : s.hist = later ++ .stop :: before) : later = [] :=
  (h.ledger hC).2.last later before hh

/-- The queue is only accessed by the thread that has the mutex, the mutex is only unlocked by the thread that has it, and
`lf_sched_done_with_reaction` never exits with an error. -/
theorem C43_no_race_on_the_queue (hC : C.Ok) (h : Reach C s) : s.fault = false := h.fault hC

/-- Not all workers wait, unless the execution has ended: as long as a worker has not left its loop, some thread can make a
step. -/
theorem C43_some_thread_can_step (hC : C.Ok) (h : Reach C s) (hw : ∃ w, w < C.n ∧ s.pc w ≠ .exited) :
    ∃ a : Act, a.allowed C s ∧ ∃ s', exec C s a = some s' := by
  by_cases hset : Settled C s
  · rcases settled_cases (h.inv hC).1 (h.inv hC).2 hset with ⟨w, r, _, e⟩ | ⟨⟨w, _, e⟩, _⟩ | ⟨_, k⟩
    · exact ⟨.finish w, trivial, _, by unfold exec; dsimp only; rw [e]⟩
    · exact ⟨.advance w, trivial, _, by unfold exec; dsimp only; rw [e]⟩
    · obtain ⟨w, hw, k'⟩ := hw
      exact absurd (k w hw) k'
  · unfold Settled at hset
    by_contra hc
    refine hset fun a _ ha => ?_
    cases he : exec C s a with
    | none => rfl
    | some s' => exact absurd ⟨a, ha, s', he⟩ hc

/-- The workers do not wait busily: after at most `bound C` steps they can only go on when a reaction ends, a reaction is
triggered, the next tag is known, or a thread wakes up without a signal. -/
theorem C43_no_busy_waiting (hC : C.Ok) (h : Reach C s) {k : Nat} {s' : State} (hk : OwnSteps C s k s') : k ≤ bound C := by
  have h1 := hk.measure hC h
  have h2 := measure_pos (C := C) (s := s')
  have h3 := measure_le (h.inv hC).2
  omega

/-- From every state, whatever the order of the steps of the threads, the workers get by themselves to a state in which a
reaction is executing, or in which nothing is queued and the next tag is awaited, or in which they have all left. -/
theorem C43_reactions_get_executed (hC : C.Ok) (h : Reach C s) :
    (∃ k s', OwnSteps C s k s' ∧ Settled C s') ∧
    ∀ k s', OwnSteps C s k s' → Settled C s' →
      (∃ w r, w < C.n ∧ Executing s' w r) ∨
      ((∃ w, w < C.n ∧ s'.pc w = .tag) ∧ ∀ r, s'.queued r = false) ∨
      (s'.stop = true ∧ ∀ w, w < C.n → s'.pc w = .exited) := by
  refine ⟨settles hC (measure C s).toNat h (by omega), fun k s' h1 h2 => ?_⟩
  have hi := (h1.reach h).inv hC
  rcases settled_cases hi.1 hi.2 h2 with ⟨w, r, hw, e⟩ | k | k
  · exact .inl ⟨w, r, hw, .inl e⟩
  · exact .inr (.inl k)
  · exact .inr (.inr k)

/-- Workers do not idle while there is something to do: when the threads cannot go on by themselves and a worker waits while
others execute reactions, the queue is empty or its reactions with the least index have another level than those that
execute, so that nobody may take them yet. -/
theorem C43_idle_workers_are_used (hC : C.Ok) (h : Reach C s) (hset : Settled C s) {x y r : Nat} (hx : x < C.n)
    (hxw : s.pc x = .wait) (hr : Executing s y r) {r' : Nat} (hq : r' ∈ s.queue)
    (hmin : ∀ r'' ∈ s.queue, C.index r' ≤ C.index r'') : C.level r' ≠ C.level r := by
  obtain ⟨hc, P⟩ := h.inv hC
  have hy : y < C.n := by
    obtain ⟨a1, a2, a3, a4, a5, a6⟩ := Pc.Exec.awake hr
    rcases hc.is_worker (w := y) a1 a4 with k | k
    · exact k.1
    · exact absurd k.2 a2
  cases hf : C.front s.queue with
  | none => rw [C.front_none hf] at hq; cases hq
  | some r1 =>
    have h1 := settled_wait hC h hset hx hxw hy hr hf
    obtain ⟨f1, f2⟩ := C.front_some hf
    have : C.index r' = C.index r1 := Nat.le_antisymm (hmin r1 f1) (f2 r' hq)
    have h2 : C.level r' = C.level r1 := by unfold Config.level; rw [this]
    rw [P.lev y r hr, h2]
    exact h1

end

/-! ## Examples -/

/-- The decidable version of the rules. -/
def Act.okay (C : Config) (d : Nat → Nat → Bool) (s : State) : Act → Bool
  | .trigger w r => decide (r ∈ C.reactions) && match s.pc w with
    | .run r' => d r' r
    | _ => true
  | _ => true

def runOkay (C : Config) (d : Nat → Nat → Bool) : State → List Act → Option State
  | s, [] => some s
  | s, a :: l => if a.okay C d s then (exec C s a).bind fun s => runOkay C d s l else none

theorem Act.okay_allowed {C : Config} {d : Nat → Nat → Bool} (hd : ∀ r r', d r r' = true → C.dep r r') {s : State} {a : Act}
    (h : a.okay C d s = true) : a.allowed C s := by
  cases a with
  | trigger w r =>
    obtain ⟨h3, h4⟩ := Bool.and_eq_true_iff.1 h
    refine ⟨of_decide_eq_true h3, fun r' e => ?_⟩
    rw [e] at h4
    exact hd _ _ h4
  | _ => trivial

theorem runOkay_reach {C : Config} {d : Nat → Nat → Bool} (hd : ∀ r r', d r r' = true → C.dep r r') :
    ∀ (l : List Act) {s s' : State}, Reach C s → runOkay C d s l = some s' → Reach C s'
  | [], s, s', h, e => by cases e; exact h
  | a :: l, s, s', h, e => by
    unfold runOkay at e
    split at e
    · rename_i ha
      cases he : exec C s a with
      | none => rw [he] at e; cases e
      | some s1 =>
        rw [he] at e
        exact runOkay_reach hd l (.step a h (Act.okay_allowed hd ha) he) e
    · cases e

/-- Two workers.  The reaction 0 has deadline 1 and level 0, and the reaction 1, which depends on it, deadline 1 and level 2.
The reaction 2 has deadline 2 and level 1; the reaction 3 has deadline 2 and level 0. -/
def two : Config :=
  { n := 2
    maxLevel := 2
    reactions := [0, 1, 2, 3]
    index := fun r => if r = 0 then 65536 else if r = 1 then 65538 else if r = 2 then 131073 else 131072
    dep := fun r r' => r = 0 ∧ r' = 1 }

def twoDep (r r' : Nat) : Bool := decide (r = 0) && decide (r' = 1)

theorem twoDep_dep (r r' : Nat) (h : twoDep r r' = true) : two.dep r r' := by
  unfold twoDep at h
  show r = 0 ∧ r' = 1
  simpa using h

theorem two_ok : two.Ok where
  workers := by decide
  levels := fun r hr => by
    have : ∀ r ∈ two.reactions, two.level r ≤ two.maxLevel := by decide
    exact this r hr
  trans := fun r r' r'' h1 h2 => by have := h1.2; have := h2.1; omega
  level := fun r r' h => by obtain ⟨rfl, rfl⟩ := h; decide
  index := fun r r' h => by obtain ⟨rfl, rfl⟩ := h; decide

/-- The main thread triggers 0 and 2.  A worker executes 0, which triggers 1, and then, since its deadline is earlier, 1; and
then 2.  The other worker waits.  At the next tag nothing is triggered, and the scheduler stops. -/
def demo : List Act :=
  [.trigger 2 0, .go 2, .go 2, .trigger 2 2, .go 2, .go 2, .go 2, .go 0, .take 0 0 none, .go 1, .go 1,
   .trigger 0 1, .go 0, .go 0, .trigger 0 1, .finish 0, .go 0, .go 0, .go 0, .go 0, .take 0 1 none, .finish 0, .go 0, .go 0,
   .go 0, .go 0, .take 0 2 none, .finish 0, .go 0, .go 0, .go 0, .advance 0, .go 0, .go 0, .stop 0, .go 1, .go 1]

example : (runOkay two twoDep (init two) demo).map (fun s => (s.hist, s.pc 0, s.pc 1, s.fault)) =
    some ([.stop, .advance, .finish 0 2, .start 0 2, .finish 0 1, .start 0 1, .finish 0 0, .trigger 1, .trigger 1, .start 0 0,
      .trigger 2, .trigger 0], .exited, .exited, false) := by decide +kernel

/-- The reactions 0 and 3 are executed side by side; the second worker was signalled when the first one took 0. -/
def demoBoth : List Act :=
  [.go 2, .go 1, .go 1, .go 0, .go 0, .advance 0, .trigger 0 0, .go 0, .go 0, .trigger 0 3, .go 0, .go 0, .go 0,
   .take 0 0 (some 1), .go 1, .take 1 3 none]

/-- The hypotheses of the theorems are met by a state in which two reactions execute side by side. -/
example : ∃ s, Reach two s ∧ Executing s 0 0 ∧ Executing s 1 3 := by
  have h : ((runOkay two twoDep (init two) demoBoth).map fun s => (s.pc 0, s.pc 1)) = some (.run 0, .run 3) := by decide +kernel
  cases hr : runOkay two twoDep (init two) demoBoth with
  | none => rw [hr] at h; cases h
  | some s =>
    rw [hr] at h
    have h' := Option.some.inj h
    exact ⟨s, runOkay_reach twoDep_dep _ .init hr, .inl (congrArg Prod.fst h'), .inl (congrArg Prod.snd h')⟩

/-- Reactions of a lower level do not always come first: the reaction 1, of level 2, is executed before the reaction 2, of
level 1, which has been triggered from the beginning but has a later deadline and does not depend on it. -/
theorem C43_deadlines_come_before_levels : ∃ s, two.Ok ∧ Reach two s ∧ two.level 2 < two.level 1 ∧
    s.hist = [.start 0 2, .finish 0 1, .start 0 1, .finish 0 0, .trigger 1, .trigger 1, .start 0 0, .trigger 2, .trigger 0] := by
  have h : ((runOkay two twoDep (init two) (demo.take 27)).map fun s => s.hist) =
      some [.start 0 2, .finish 0 1, .start 0 1, .finish 0 0, .trigger 1, .trigger 1, .start 0 0, .trigger 2, .trigger 0] := by
    decide +kernel
  cases hr : runOkay two twoDep (init two) (demo.take 27) with
  | none => rw [hr] at h; cases h
  | some s =>
    rw [hr] at h
    exact ⟨s, two_ok, runOkay_reach twoDep_dep _ .init hr, by decide, Option.some.inj h⟩

end ReactorC.Gedf
