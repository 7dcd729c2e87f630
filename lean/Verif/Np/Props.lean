import Verif.Np.Work

/-!
# C41, C42: the scheduler that works level by level

The theorems are about every state that the scheduler can reach (`Reach`), for every number of workers, every set of
reactions and every order of the steps of the threads.  Since each earlier record is the record of an earlier reachable
state, what is said of the record holds at every moment.
-/

namespace ReactorC.Np

section
variable {C : Config} {s : State}

/-! ## C41 -/

/-- At every tag that has been completed (the tag advanced, or the scheduler decided to stop), each reaction that was
triggered, however often, has been executed exactly once, and no other reaction has been executed. -/
theorem C41_triggered_reactions_execute_exactly_once (hC : C.Ok) (h : Reach C s) {later before : List Ev} {e : Ev}
    (hh : s.hist = later ++ e :: before) (he : e = .advance ∨ e = .stop) (r : Nat) :
    (Ev.trigger r ∈ thisTag before → starts r (thisTag before) = 1 ∧ finishes r (thisTag before) = 1) ∧
    (Ev.trigger r ∉ thisTag before → starts r (thisTag before) = 0 ∧ finishes r (thisTag before) = 0) :=
  ((h.ledger hC).2.past later e before hh he).1 r

/-- At no moment has a reaction been started twice at a tag, finished without having been started, or started without having
been triggered. -/
theorem C41_never_twice_at_a_tag (hC : C.Ok) (h : Reach C s) (r : Nat) :
    starts r (thisTag s.hist) ≤ 1 ∧ finishes r (thisTag s.hist) ≤ starts r (thisTag s.hist) ∧
      (starts r (thisTag s.hist) ≠ 0 → Ev.trigger r ∈ thisTag s.hist) :=
  ⟨((h.ledger hC).2.once r).1, ((h.ledger hC).2.once r).2, (h.ledger hC).2.asked r⟩

/-- Whenever a reaction starts, each reaction of a lower level that is executed at this tag, even later, has already
finished. -/
theorem C41_lower_levels_finish_first (hC : C.Ok) (h : Reach C s) : LevelOrder C.level (thisTag s.hist) :=
  (h.ledger hC).2.order

/-- Reactions that are executed at the same time have the same level, and they are different reactions. -/
theorem C41_executing_reactions_have_one_level (hC : C.Ok) (h : Reach C s) {w w' r r' : Nat} (h1 : Executing s w r)
    (h2 : Executing s w' r') : C.level r = C.level r' ∧ (w ≠ w' → r ≠ r') := by
  have hi := h.inv hC
  have hd : ∀ {w r}, Executing s w r → (s.pc w).doing = some (r, false) := by
    intro w r h
    rcases h with h | ⟨r', h⟩ | ⟨r', i, h⟩ <;> rw [h] <;> rfl
  have hs : s.stop = false := by
    cases hs : s.stop with
    | false => rfl
    | true =>
      exfalso
      have hst := h.started_turn hC hs
      have k := hd h1
      rcases Nat.lt_trichotomy w C.n with hw | hw | hw
      · rcases hi.pool.stop_pc hs hw with e | e | e | e <;> rw [e] at k <;> cases k
      · subst hw; rw [hi.pool.main hst] at k; cases k
      · rw [hi.pool.beyond w hw] at k; cases k
  obtain ⟨loc, base, P, B⟩ := hi.data hs
  have hl : ∀ {w r}, Executing s w r → C.level r = base := by
    intro w r h
    have := B.fine w
    rcases h with h | ⟨r', h⟩ | ⟨r', i, h⟩ <;> rw [h] at this
    · exact this
    · exact (this.1 r rfl).1
    · exact (this.1 r rfl).1
  refine ⟨by rw [hl h1, hl h2], fun hne e => ?_⟩
  subst e
  have k1 := (P.held r w).2 (Pc.doing_holds (hd h1) _)
  have k2 := (P.held r w').2 (Pc.doing_holds (hd h2) _)
  rw [k1] at k2; cases k2; exact hne rfl

/-- After the decision to stop nothing is triggered or executed any more, and the tag does not advance. -/
theorem C41_nothing_after_stop (hC : C.Ok) (h : Reach C s) {later before : List Ev}
    (hh : s.hist = later ++ .stop :: before) : later = [] :=
  (h.ledger hC).2.last later before hh

/-- If every level has a reaction, no array is accessed outside of its bounds, and `lf_sched_done_with_reaction` never
exits with an error. -/
theorem C41_no_access_outside_of_arrays (hC : C.Ok) (hF : C.Full) (h : Reach C s) : s.fault = false := (h.sound hC hF).1

/-! ## C42 -/

/-- As long as a worker has not left its loop, some thread can make a step: they never all sleep. -/
theorem C42_some_thread_can_step (hC : C.Ok) (h : Reach C s) (hw : ∃ w, w < C.n ∧ s.pc w ≠ .exited) :
    ∃ a : Act, a.allowed C s ∧ ∃ s', exec C s a = some s' := by
  rcases (h.inv hC).progress hC with ⟨_, _, k⟩ | k
  · obtain ⟨w, hw, k'⟩ := hw
    exact absurd (k w hw) k'
  · exact k

/-- A worker that is not waiting for the semaphore can make a step. -/
theorem C42_only_the_semaphore_blocks (hC : C.Ok) (h : Reach C s) (hst : s.started = true) {w : Nat} (hw : w < C.n)
    (h1 : s.pc w ≠ .exited) (h2 : s.pc w ≠ .acquire) :
    ∃ a : Act, a.thread = w ∧ a.allowed C s ∧ ∃ s', exec C s a = some s' :=
  can_act (h.inv hC) (by rw [hst]; exact hw) h1 (fun k => absurd k h2)

/-- The workers do not wait busily: after at most `bound C` steps they can only go on when a reaction ends, a reaction is
triggered, or the next tag is known. -/
theorem C42_no_busy_waiting (hC : C.Ok) (h : Reach C s) {k : Nat} {s' : State} (hk : OwnSteps C s k s') : k ≤ bound C := by
  have h1 := hk.measure hC h
  have h2 := (hk.reach h).measure_pos hC
  have h3 := h.measure_le hC
  omega

/-- From every state, whatever the order of the steps of the threads, the workers get by themselves to a state in which a
reaction is executing, or in which nothing is queued and the next tag is awaited, or in which they have all left. -/
theorem C42_reactions_get_executed (hC : C.Ok) (h : Reach C s) :
    (∃ k s', OwnSteps C s k s' ∧ Settled C s') ∧
    ∀ k s', OwnSteps C s k s' → Settled C s' →
      (∃ w r, w < C.n ∧ Executing s' w r) ∨
      ((∃ w, w < C.n ∧ s'.pc w = .tag) ∧ ∀ r, s'.queued r = false) ∨
      (s'.stop = true ∧ ∀ w, w < C.n → s'.pc w = .exited) := by
  refine ⟨settles hC (measure C s).toNat h (by omega), fun k s' h1 h2 => ?_⟩
  rcases settled_cases hC (h1.reach h) h2 with ⟨w, r, hw, e⟩ | ⟨k1, _, k2⟩ | k
  · exact .inl ⟨w, r, hw, .inl e⟩
  · exact .inr (.inl ⟨k1, k2⟩)
  · exact .inr (.inr k)

/-- In particular, as long as a reaction is queued and the workers cannot go on by themselves, a reaction is executing. -/
theorem C42_queued_means_executing (hC : C.Ok) (h : Reach C s) (hset : Settled C s) (hs : s.stop = false) {r : Nat}
    (hq : s.queued r = true) : ∃ w r', w < C.n ∧ Executing s w r' := by
  rcases settled_cases hC h hset with ⟨w, r', hw, e⟩ | ⟨_, _, k⟩ | ⟨k, _⟩
  · exact ⟨w, r', hw, .inl e⟩
  · rw [k r] at hq; cases hq
  · rw [hs] at k; cases k

/-- Workers do not idle while there is something to do: when the workers cannot go on by themselves and one of them waits
while another one executes a reaction, all reactions of this level that are left are executing. -/
theorem C42_idle_workers_are_used (hC : C.Ok) (h : Reach C s) (hset : Settled C s) {x y r r' : Nat} (hx : x < C.n)
    (hxw : s.pc x = .acquire) (hy : y < C.n) (hr : s.pc y = .run r) (hq : s.queued r' = true)
    (hl : C.level r' = C.level r) : ∃ z, z < C.n ∧ Executing s z r' := by
  obtain ⟨z, hz, k⟩ := settled_wait hC h hset hx hxw hy hr hq hl
  exact ⟨z, hz, .inl k⟩

end

/-! ## Examples -/

/-- Runs a list of actions. -/
def run (C : Config) : State → List Act → Option State
  | s, [] => some s
  | s, a :: l => (exec C s a).bind fun s => run C s l

/-- The decidable version of the rules. -/
def Act.okay (C : Config) (s : State) (a : Act) : Bool :=
  (if s.started then decide (a.thread < C.n) else decide (a.thread = C.n)) &&
  match a with
  | .trigger w r => decide (r ∈ C.reactions) && match s.pc w with
    | .run r' => decide (C.level r' < C.level r)
    | _ => true
  | _ => true

def runOkay (C : Config) : State → List Act → Option State
  | s, [] => some s
  | s, a :: l => if a.okay C s then (exec C s a).bind fun s => runOkay C s l else none

theorem Act.okay_allowed {C : Config} {s : State} {a : Act} (h : a.okay C s = true) : a.allowed C s := by
  unfold Act.okay at h
  obtain ⟨h1, h2⟩ := Bool.and_eq_true_iff.1 h
  refine ⟨?_, ?_⟩
  · split at h1
    · rename_i k; rw [if_pos k]; exact of_decide_eq_true h1
    · rename_i k; rw [if_neg k]; exact of_decide_eq_true h1
  · cases a with
    | trigger w r =>
      obtain ⟨h3, h4⟩ := Bool.and_eq_true_iff.1 h2
      refine ⟨of_decide_eq_true h3, fun r' e => ?_⟩
      rw [e] at h4
      exact of_decide_eq_true h4
    | _ => trivial

theorem runOkay_reach {C : Config} : ∀ (l : List Act) {s s' : State}, Reach C s → runOkay C s l = some s' → Reach C s'
  | [], s, s', h, e => by cases e; exact h
  | a :: l, s, s', h, e => by
    unfold runOkay at e
    split at e
    · rename_i ha
      cases he : exec C s a with
      | none => rw [he] at e; cases e
      | some s1 =>
        rw [he] at e
        exact runOkay_reach l (.step a h (Act.okay_allowed ha) he) e
    · cases e

/-- Two workers; the reactions 0 and 1 have level 0, the reaction 2 has level 1. -/
def two : Config := { n := 2, maxLevel := 1, reactions := [0, 1, 2], level := fun r => if r = 2 then 1 else 0 }

theorem two_ok : two.Ok :=
  ⟨by decide, fun r h => by show (if r = 2 then 1 else 0) ≤ 1; split <;> omega⟩

theorem two_full : two.Full := by
  intro l hl
  have hl : l ≤ 1 := hl
  rcases Nat.lt_or_ge l 1 with h | h
  · exact ⟨0, by decide, by rw [show l = 0 by omega]; rfl⟩
  · exact ⟨2, by decide, by rw [show l = 1 by omega]; rfl⟩

/-- The main thread triggers 0 and 1; the two workers execute them side by side, and both trigger 2, which is then executed
by one of them. -/
def demo : List Act :=
  [.trigger 2 0, .go 2, .go 2, .trigger 2 1, .go 2, .go 2, .go 2,
   .go 0, .go 1, .go 0, .go 1, .go 0, .go 1, .go 1, .go 0, .go 0, .go 1,   -- both have a reaction
   .trigger 0 2, .go 0, .trigger 1 2, .go 0, .finish 1, .go 1, .go 1, .go 1, .go 1, .go 1,  -- worker 1 waits
   .finish 0, .go 0, .go 0, .go 0, .go 0, .go 0, .go 0, .go 0, .go 0, .go 0,  -- worker 0 advances the level
   .go 0, .go 0, .go 0, .go 0, .go 0, .finish 0, .go 0, .go 0, .go 0, .go 0, .go 0, .go 0, .go 0]

example : (runOkay two (init two) demo).map (fun s => (s.hist, s.pc 0, s.pc 1, s.fault)) =
    some ([.finish 0 2, .start 0 2, .finish 0 1, .finish 1 0, .trigger 2, .trigger 2, .start 1 0, .start 0 1,
      .trigger 1, .trigger 0], .tag, .acquire, false) := by decide +kernel

/-- It goes on with the next tag, at which nothing is triggered, and stops there: both workers leave. -/
def demoStop : List Act := demo ++ [.advance 0, .go 0, .go 0, .go 0, .go 0, .go 0, .stop 0, .go 0, .go 0, .go 0, .go 1, .go 1]

example : (runOkay two (init two) demoStop).map (fun s => (s.hist.take 3, s.pc 0, s.pc 1, s.fault)) =
    some ([.stop, .advance, .finish 0 2], .exited, .exited, false) := by decide +kernel

/-- The hypotheses of the theorems are met by a state in which two reactions execute side by side. -/
example : ∃ s, Reach two s ∧ Executing s 0 1 ∧ Executing s 1 0 := by
  have h : ((runOkay two (init two) (demo.take 17)).map fun s => (s.pc 0, s.pc 1)) = some (.run 1, .run 0) := by decide +kernel
  cases hr : runOkay two (init two) (demo.take 17) with
  | none => rw [hr] at h; cases h
  | some s =>
    rw [hr] at h
    have h' := Option.some.inj h
    exact ⟨s, runOkay_reach _ .init hr, .inl (congrArg Prod.fst h'), .inl (congrArg Prod.snd h')⟩

/-! ## A level without reactions -/

/-- A program whose level 1 has no reaction. -/
def gap : Config := { n := 1, maxLevel := 2, reactions := [0, 1], level := fun r => if r = 1 then 2 else 0 }

/-- `_lf_sched_distribute_ready_reactions` reads the first entry of the array of each level, core/threaded/scheduler_NP.c:114:
of a level without reactions the array has no entries. -/
theorem C41_level_without_reactions_reads_outside : ∃ s, gap.Ok ∧ Reach gap s ∧ s.fault = true := by
  have h : ((runOkay gap (init gap) [.trigger 1 0, .go 1, .go 1, .go 1, .go 0, .go 0, .go 0, .go 0, .go 0, .finish 0,
      .go 0, .go 0, .go 0, .go 0, .go 0, .go 0, .go 0, .go 0]).map fun s => s.fault) = some true := by decide +kernel
  cases hr : runOkay gap (init gap) [.trigger 1 0, .go 1, .go 1, .go 1, .go 0, .go 0, .go 0, .go 0, .go 0, .finish 0,
      .go 0, .go 0, .go 0, .go 0, .go 0, .go 0, .go 0, .go 0] with
  | none => rw [hr] at h; cases h
  | some s =>
    rw [hr] at h
    exact ⟨s, ⟨by decide, fun r hr => by show (if r = 1 then 2 else 0) ≤ 2; split <;> omega⟩, runOkay_reach _ .init hr,
      Option.some.inj h⟩

end ReactorC.Np
