import Verif.Adaptive.Live

/-!
# C61: the adaptive scheduler

The theorems are about every state that the scheduler can reach (`Reach`), for every number of workers, every set of
reactions, every outcome of the measurements and every order of the steps of the threads.  Since each earlier record is the
record of an earlier reachable state, what is said of the record holds at every moment.
-/

namespace ReactorC.Adaptive

open Np (Ev Who put thisTag starts finishes LevelOrder)

/-- The worker executes the reaction (and possibly inserts one that it triggers). -/
def Executing (s : State) (w r : Nat) : Prop :=
  s.pc w = .run r ∨ (∃ r', s.pc w = .fetch (.running r) r') ∨ ∃ r' v i, s.pc w = .store (.running r) r' v i

/-- Every level has a reaction. -/
def Config.Full (C : Config) : Prop := ∀ l, l ≤ C.maxLevel → ∃ r ∈ C.reactions, C.level r = l

section
variable {C : Config} {s : State}

/-- At every tag that has been completed (the tag advanced, or the scheduler decided to stop), each reaction that was
triggered, however often, has been executed exactly once, and no other reaction has been executed. -/
theorem C61_triggered_reactions_execute_exactly_once_partial (hC : C.Ok) (h : Reach C s) {later before : List Ev} {e : Ev}
    (hh : s.hist = later ++ e :: before) (he : e = .advance ∨ e = .stop) (r : Nat) :
    (Ev.trigger r ∈ thisTag before → starts r (thisTag before) = 1 ∧ finishes r (thisTag before) = 1) ∧
    (Ev.trigger r ∉ thisTag before → starts r (thisTag before) = 0 ∧ finishes r (thisTag before) = 0) := by
  obtain ⟨loc, hi⟩ := h.inv hC
  exact (hi.abs.ok.past later e before hh he).1 r

/-- At no moment has a reaction been started twice at a tag, finished without having been started, or started without having
been triggered. -/
theorem C61_never_twice_at_a_tag (hC : C.Ok) (h : Reach C s) (r : Nat) :
    starts r (thisTag s.hist) ≤ 1 ∧ finishes r (thisTag s.hist) ≤ starts r (thisTag s.hist) ∧
      (starts r (thisTag s.hist) ≠ 0 → Ev.trigger r ∈ thisTag s.hist) := by
  obtain ⟨loc, hi⟩ := h.inv hC
  have k := hi.abs.ok.now r
  change Agrees (thisTag s.hist) r _ at k
  cases hst : (absOf s loc).st r with
  | idle =>
    rw [hst] at k
    by_cases ht : Ev.trigger r ∈ thisTag s.hist
    · obtain ⟨k1, k2⟩ := k.1 ht
      exact ⟨by omega, by omega, fun _ => ht⟩
    · obtain ⟨k1, k2⟩ := k.2 ht
      exact ⟨by omega, by omega, fun hne => (hne k1).elim⟩
  | waiting => rw [hst] at k; exact ⟨by have := k.2.1; omega, by have := k.2; omega, fun _ => k.1⟩
  | running => rw [hst] at k; exact ⟨by have := k.2.1; omega, by have := k.2; omega, fun _ => k.1⟩
  | ended => rw [hst] at k; exact ⟨by have := k.2.1; omega, by have := k.2; omega, fun _ => k.1⟩

/-- Whenever a reaction starts, each reaction of a lower level that is executed at this tag, even later, has already
finished. -/
theorem C61_lower_levels_finish_first_partial (hC : C.Ok) (h : Reach C s) : LevelOrder C.level (thisTag s.hist) := by
  obtain ⟨loc, hi⟩ := h.inv hC
  exact hi.abs.ok.order

/-- Reactions that are executed at the same time have the same level, and they are different reactions. -/
theorem C61_executing_reactions_have_one_level (hC : C.Ok) (h : Reach C s) {w w' r r' : Nat} (h1 : Executing s w r)
    (h2 : Executing s w' r') : C.level r = C.level r' ∧ (w ≠ w' → r ≠ r') := by
  obtain ⟨loc, hi⟩ := h.inv hC
  have hd : ∀ {w r}, Executing s w r → loc r = .with w .running := by
    intro w r h
    refine (hi.data.p.held r w _).2 ?_
    rcases h with h | ⟨r', h⟩ | ⟨r', v, i, h⟩ <;> rw [h]
    · exact ⟨rfl, rfl⟩
    · exact .inr ⟨rfl, rfl⟩
    · exact ⟨rfl, rfl⟩
  have hl : ∀ {w r}, Executing s w r → C.level r = s.cur := fun h => hi.data.l.here _ _ _ (hd h) (by decide)
  refine ⟨by rw [hl h1, hl h2], fun hne e => ?_⟩
  subst e
  have k1 := hd h1
  rw [hd h2] at k1
  cases k1; exact hne rfl

/-- After the decision to stop nothing is triggered or executed any more, and the tag does not advance. -/
theorem C61_nothing_after_stop (hC : C.Ok) (h : Reach C s) {later before : List Ev}
    (hh : s.hist = later ++ .stop :: before) : later = [] := by
  obtain ⟨loc, hi⟩ := h.inv hC
  exact hi.abs.ok.last later before hh

/-- No array is accessed outside of its bounds, nothing is divided by zero, and the assertions other than those at :383 and
:587 hold. -/
theorem C61_no_access_outside_of_arrays (hC : C.Ok) (h : Reach C s) : s.fault = false := by
  obtain ⟨loc, hi⟩ := h.inv hC
  exact hi.prog.fault

/-- The number of workers to which the reactions of a level are distributed is at least one, and at most the number of workers
and the number of reactions of the level, if it has reactions. -/
theorem C61_workers_per_level_in_range (hC : C.Ok) (h : Reach C s) {r : Nat} (hr : r ∈ C.reactions) :
    1 ≤ s.nw (C.level r) ∧ s.nw (C.level r) ≤ C.n ∧
      s.nw (C.level r) ≤ (C.reactions.filter fun r' => C.level r' = C.level r).length := by
  obtain ⟨loc, hi⟩ := h.inv hC
  obtain ⟨h1, h2⟩ := hi.data.n.nw _ (cap_ne hr)
  unfold Config.maxw at h2
  have h3 : (C.reactions.filter fun r' => C.level r' = C.level r).length = C.cap (C.level r) := rfl
  split at h2 <;> exact ⟨h1, by omega, by omega⟩

/-- Without `-fast`, whoever advances the tag or takes events from the event queue holds the mutex. -/
theorem C61_tag_advances_with_the_mutex (hC : C.Ok) (h : Reach C s) (hf : C.fast = false) {w : Nat} (hw : w < C.n)
    (hpc : s.pc w = .tag ∨ s.pc w = .events ∨ (∃ r, s.pc w = .fetch .events r) ∨ ∃ r v i, s.pc w = .store .events r v i) :
    s.mutex = some w := by
  rcases (h.crew hC).phase with hk | hb
  · refine (hk.mutex w hw).1 ?_
    have ht := (hk.thr w hw).2
    rcases hpc with e | e | ⟨r, e⟩ | ⟨r, v, i, e⟩ <;> rw [e] at ht <;>
      exact ht.resolve_left (fun k => by rw [hf] at k; cases k)
  · exfalso
    rcases hb.thr w hw with k | ⟨k | k, _⟩ | ⟨sn, k, _⟩ <;>
      rcases hpc with e | e | ⟨r, e⟩ | ⟨r, v, i, e⟩ <;> rw [k] at e <;> cases e

/-- At most one thread goes on to the next level or the next tag, and meanwhile no reaction is executing. -/
theorem C61_only_one_advances (hC : C.Ok) (h : Reach C s) {w : Nat} (hw : w < C.n) (hpc : (s.pc w).top = true) {w' : Nat}
    (hw' : w' < C.n) : ((s.pc w').top = true → w' = w) ∧ ∀ r, ¬ Executing s w' r := by
  rcases (h.crew hC).phase with hk | hb
  · obtain ⟨k1, k2⟩ := hk.alone w hw hpc w' hw'
    refine ⟨k2, fun r hr => ?_⟩
    unfold awake at k1
    rcases hr with e | ⟨r', e⟩ | ⟨r', v, i, e⟩ <;> rw [e] at k1 <;> simp [Pc.active] at k1
  · exfalso
    rcases hb.thr w hw with k | ⟨k | k, _⟩ | ⟨sn, k, _⟩ <;> rw [k] at hpc <;> cases hpc

/-- With a single worker, and if every level has a reaction, all assertions hold. -/
theorem C61_single_worker_never_aborts (hC : C.Ok) (hF : C.Full) (hn : C.n = 1) (h : Reach C s) : s.aborted = false := by
  induction h with
  | init => rfl
  | @step s s' a h ha he ih =>
    obtain ⟨loc, hi⟩ := h.inv hC
    have hcap : ∀ l, l ≤ C.maxLevel → 1 ≤ C.maxw l := by
      intro l hl
      obtain ⟨r, hr, e⟩ := hF l hl
      have := cap_ne hr
      rw [e] at this
      unfold Config.maxw
      split <;> omega
    have hcheck : ∀ w sn, w < C.n → s.pc w = .check sn → s.cnt s.cur w = 0 := by
      intro w sn hw e
      have h1 := hi.prog.near w hw
      unfold Near at h1
      rw [e] at h1
      rcases Int.lt_or_le (s.cnt s.cur w) 0 with k | k
      · obtain ⟨t, sn', k'⟩ := hi.data.n.neg w k
        exfalso
        have hcr := h.crew hC
        have ht : t = w := by
          rcases Nat.lt_trichotomy t C.n with ht | ht | ht
          · omega
          · subst ht
            have := hcr.main
            rw [k'] at this
            split at this <;> cases this
          · rw [hcr.beyond t ht] at k'; cases k'
        rw [ht, e] at k'; cases k'
      · dsimp only at h1; omega
    have hst : s.started = false → ∀ sn, s.pc C.n ≠ .check sn := by
      intro hs sn e
      have := (h.crew hC).main
      rw [hs, e] at this
      cases this
    have hlt : ∀ w, (if s.started then w < C.n else w = C.n) → ∀ sn, s.pc w = .check sn → s.cnt s.cur w = 0 := by
      intro w hw sn e
      cases hs : s.started with
      | true => rw [hs] at hw; exact hcheck w sn hw e
      | false =>
        rw [hs] at hw
        have hw : w = C.n := hw
        subst hw
        exact (hst hs sn e).elim
    cases a with
    | go w =>
      cases hp : s.pc w with
      | check sn =>
        have hz := hlt w ha sn hp
        simp only [exec, hp] at he
        cases he
        simp [ih, hz]
      | _ =>
        simp only [exec, hp] at he
        repeat' split at he
        all_goals first
          | (cases he; done)
          | (cases he; exact ih)
    | close w f =>
      simp only [exec] at he
      split at he
      · cases he
        dsimp only
        rw [ih, Bool.false_or, List.any_eq_false]
        intro l hl
        have := hcap l (by rw [List.mem_range] at hl; omega)
        simp only [decide_eq_true_eq]
        omega
      · cases he
    | _ =>
      simp only [exec, trigger] at he
      repeat' split at he
      all_goals first
        | (cases he; done)
        | (cases he; exact ih)

/-- As long as a worker has not left its loop, some thread can make a step, other than being woken up without a cause and
other than a thread outside taking the mutex: the workers never all sleep. -/
theorem C61_some_thread_can_step (hC : C.Ok) (h : Reach C s) (hw : ∃ w, w < C.n ∧ s.pc w ≠ .exited) :
    ∃ a : Act, a.allowed C s ∧ (∃ s', exec C s a = some s') ∧ (∀ w, a ≠ .spurious w) ∧ a ≠ .outsideLock := by
  obtain ⟨s', h1, h2⟩ := settles hC h
  cases h1 with
  | refl =>
    have hst : s.started = true ∨ s.started = false := by cases s.started <;> simp
    rcases hst with hst | hst
    · have hall : ∀ {w}, w < C.n → (if s.started then w < C.n else w = C.n) := by
        intro w hw; rw [if_pos hst]; exact hw
      rcases h2 with ⟨w, r, hw', e⟩ | ⟨w, hw', e⟩ | ⟨_, e⟩
      · exact ⟨.finish w, hall hw', ⟨_, by simp only [exec, e]; rfl⟩, fun _ k => (by cases k), fun k => by cases k⟩
      · exact ⟨.advance w, hall hw', ⟨_, by simp only [exec, e]; rfl⟩, fun _ k => (by cases k), fun k => by cases k⟩
      · obtain ⟨w, hw', hne⟩ := hw
        exact (hne (e w hw')).elim
    · obtain ⟨loc, hi⟩ := h.inv hC
      rcases h2 with ⟨w, r, hw', e⟩ | ⟨w, hw', e⟩ | ⟨_, e⟩
      · rw [hi.prog.boot hst w hw'] at e; cases e
      · rw [hi.prog.boot hst w hw'] at e; cases e
      · obtain ⟨w, hw', hne⟩ := hw
        exact (hne (e w hw')).elim
  | step a h3 h4 h5 _ =>
    exact ⟨a, h4, ⟨_, h5⟩, fun _ k => (by rw [k] at h3; cases h3), fun k => by rw [k] at h3; cases h3⟩

/-- From every state the threads can get by themselves to a state in which a reaction is executing, or in which nothing is
queued and the next tag is awaited, or in which all workers have left: there is no state from which the program cannot go
on. -/
theorem C61_progress_stays_possible_partial (hC : C.Ok) (h : Reach C s) :
    ∃ s', Own C s s' ∧ ((∃ w r, w < C.n ∧ Executing s' w r) ∨ ((∃ w, w < C.n ∧ s'.pc w = .tag) ∧ ∀ r, s'.queued r = false) ∨
      (s'.stop = true ∧ ∀ w, w < C.n → s'.pc w = .exited)) := by
  obtain ⟨s', h1, h2⟩ := settles hC h
  refine ⟨s', h1, ?_⟩
  rcases h2 with ⟨w, r, hw, e⟩ | ⟨w, hw, e⟩ | k
  · exact .inl ⟨w, r, hw, .inl e⟩
  · obtain ⟨loc, hi⟩ := (h1.reach h).inv hC
    refine .inr (.inl ⟨⟨w, hw, e⟩, fun r => ?_⟩)
    have := hi.prog.empty w (.inr (.inl e)) r
    cases hq : s'.queued r with
    | false => rfl
    | true => exact ((hi.data.p.queued r).1 hq this).elim
  · exact .inr (.inr k)

end

/-! ## Examples -/

/-- The decidable version of the rules. -/
def Act.okay (C : Config) (s : State) (a : Act) : Bool :=
  let there := fun w => if s.started then decide (w < C.n) else decide (w = C.n)
  match a with
  | .go w | .finish w | .close w _ | .advance w | .retry w | .stop w => there w
  | .trigger w r => there w && decide (r ∈ C.reactions) && match s.pc w with
    | .run r' => decide (C.level r' < C.level r)
    | _ => true
  | .spurious w => there w && !s.sig w && (C.spurious || decide (w + 1 ≠ s.awak))
  | .outsideLock | .outsideUnlock => true

def runOkay (C : Config) : State → List Act → Option State
  | s, [] => some s
  | s, a :: l => if a.okay C s then (exec C s a).bind fun s => runOkay C s l else none

theorem there_iff {s : State} {w n : Nat} (h : (if s.started then decide (w < n) else decide (w = n)) = true) :
    if s.started then w < n else w = n := by
  cases hs : s.started <;> rw [hs] at h
  · simpa using h
  · simpa using h

theorem Act.okay_allowed {C : Config} {s : State} {a : Act} (h : a.okay C s = true) : a.allowed C s := by
  cases a with
  | trigger w r =>
    obtain ⟨h1, h2⟩ := Bool.and_eq_true_iff.1 h
    obtain ⟨h1, h3⟩ := Bool.and_eq_true_iff.1 h1
    refine ⟨there_iff h1, of_decide_eq_true h3, fun r' e => ?_⟩
    rw [e] at h2
    exact of_decide_eq_true h2
  | spurious w =>
    obtain ⟨h1, h2⟩ := Bool.and_eq_true_iff.1 h
    obtain ⟨h1, h3⟩ := Bool.and_eq_true_iff.1 h1
    refine ⟨there_iff h1, by simpa using h3, ?_⟩
    rcases Bool.or_eq_true_iff.1 h2 with k | k
    · exact .inl k
    · exact .inr (of_decide_eq_true k)
  | outsideLock => trivial
  | outsideUnlock => trivial
  | _ => exact there_iff h

theorem runOkay_reach {C : Config} : ∀ (l : List Act) {s s' : State}, Reach C s → runOkay C s l = some s' → Reach C s'
  | [], s, s', h, e => by cases e; exact h
  | a :: l, s, s', h, e => by
    unfold runOkay at e
    split at e
    · rename_i ha
      cases he : exec C s a with
      | none => rw [he] at e; cases e
      | some s1 =>
        rw [he] at e
        exact runOkay_reach l (.step a h (Act.okay_allowed ha) he) e
    · cases e

/-- What can be read off from a run. -/
theorem reach_of {C : Config} {α : Type} {l : List Act} {f : State → α} {a : α}
    (h : (runOkay C (init C) l).map f = some a) : ∃ s, Reach C s ∧ f s = a := by
  cases hr : runOkay C (init C) l with
  | none => rw [hr] at h; cases h
  | some s =>
    rw [hr] at h
    exact ⟨s, runOkay_reach _ .init hr, Option.some.inj h⟩

/-- The worker makes several steps. -/
def goes (w k : Nat) : List Act := List.replicate k (.go w)

/-- Two workers; the reactions 0 and 1 have level 0, the reaction 2 has level 1. -/
def two : Config :=
  { n := 2, maxLevel := 1, reactions := [0, 1, 2], level := fun r => if r = 2 then 1 else 0, hash := id, fast := false,
    spurious := false }

theorem two_ok : two.Ok :=
  ⟨by decide, fun r h => by show (if r = 2 then 1 else 0) ≤ 1; split <;> omega, .inl rfl⟩

/-- The main thread triggers 0 and 1; the two workers execute them side by side, and both trigger 2. -/
def demo : List Act :=
  [.trigger 2 0] ++ goes 2 2 ++ [.trigger 2 1] ++ goes 2 3 ++ goes 0 3 ++ goes 1 3 ++ [.trigger 0 2] ++ goes 0 2 ++ [.trigger 1 2]

/-- Worker 1 ends and sleeps; worker 0 ends, goes on to level 1, executes 2 and awaits the next tag. -/
def demoTag : List Act := demo ++ [.finish 1] ++ goes 1 15 ++ [.finish 0] ++ goes 0 21 ++ [.finish 0] ++ goes 0 11 ++
  [.close 0 fun _ => 2]

example : (runOkay two (init two) demoTag).map (fun s => (s.hist, s.pc 0, s.pc 1, s.fault)) =
    some ([.finish 0 2, .start 0 2, .finish 0 0, .finish 1 1, .trigger 2, .trigger 2, .start 1 1, .start 0 0,
      .trigger 1, .trigger 0], .tag, .asleep 0, false) := by decide +kernel

/-- It goes on with the next tag, at which nothing is triggered, and stops there: both workers leave. -/
def demoStop : List Act := demoTag ++ [.advance 0] ++ goes 0 5 ++ [.close 0 fun _ => 2, .stop 0] ++ goes 0 5 ++ goes 1 2

example : (runOkay two (init two) demoStop).map (fun s => (s.hist.take 3, s.pc 0, s.pc 1, s.fault, s.aborted)) =
    some ([.stop, .advance, .finish 0 2], .exited, .exited, false, false) := by decide +kernel

/-- The hypotheses of the theorems are met by a state in which two reactions execute side by side. -/
example : ∃ s, Reach two s ∧ Executing s 0 0 ∧ Executing s 1 1 := by
  obtain ⟨s, h, e⟩ := reach_of (C := two) (l := demo) (f := fun s => (s.pc 0, s.pc 1)) (a := (.run 0, .run 1)) (by decide +kernel)
  exact ⟨s, h, .inl (congrArg Prod.fst e), .inl (congrArg Prod.snd e)⟩

/-- The same reactions with one worker. -/
def single : Config := { two with n := 1 }

/-- The hypotheses of the theorem about a single worker are met. -/
example : ∃ s, single.Ok ∧ single.Full ∧ single.n = 1 ∧ Reach single s ∧ Executing s 0 0 := by
  obtain ⟨s, h, e⟩ := reach_of (C := single) (l := [.trigger 1 0] ++ goes 1 3 ++ goes 0 3) (f := fun s => s.pc 0)
    (a := .run 0) (by decide +kernel)
  refine ⟨s, ⟨by decide, two_ok.levels, .inl rfl⟩, fun l hl => ?_, rfl, h, .inl e⟩
  have hl : l ≤ 1 := hl
  rcases Nat.lt_or_ge l 1 with k | k
  · exact ⟨0, by decide, by rw [show l = 0 by omega]; rfl⟩
  · exact ⟨2, by decide, by rw [show l = 1 by omega]; rfl⟩

/-! ## What goes wrong -/

/-- Three workers, one reaction at level 1. -/
def three : Config :=
  { n := 3, maxLevel := 1, reactions := [0, 1, 2, 3], level := fun r => if r = 3 then 1 else 0, hash := id, fast := false,
    spurious := true }

/-- Condition variables may wake up a thread without a cause.  `num_awakened` counts the thread that wakes up the others, which
may have a high number (:341-342), so that it exceeds the number of the threads that were woken up.  A thread in between that
wakes up without a cause goes on although it is not counted, and the tag advances while a reaction is executing. -/
theorem C61_wakeup_without_cause_ends_the_tag_early :
    ∃ s r, Reach three s ∧ Executing s 0 r ∧ starts r (thisTag s.hist) = 0 ∧ s.hist.head? = some .advance := by
  obtain ⟨s, h, e⟩ := reach_of (C := three) (l := [.trigger 3 0] ++ goes 3 3 ++ goes 0 3 ++ [.trigger 0 3] ++ goes 0 2 ++ [.finish 0] ++
    goes 0 18 ++ goes 1 17 ++ goes 2 14 ++ goes 2 7 ++ goes 0 5 ++ [.spurious 1] ++ goes 1 12 ++ goes 2 10 ++
    [.close 2 (fun _ => 1), .advance 2]) (f := fun s => (s.pc 0, starts 3 (thisTag s.hist), s.hist.head?))
    (a := (.run 3, 0, some .advance)) (by decide +kernel)
  exact ⟨s, 3, h, .inl (congrArg Prod.fst e), congrArg (fun p => p.2.1) e, congrArg (fun p => p.2.2) e⟩

/-- With two workers the assertion at :383 can fail: another worker that looks for a reaction has decremented the count of this
one, which is 0, and has not set it back to 0 yet. -/
theorem C61_two_workers_can_abort : ∃ s, two.Ok ∧ Reach two s ∧ s.aborted = true := by
  obtain ⟨s, h, e⟩ := reach_of (C := two) (l := goes 2 1 ++ goes 0 10 ++ goes 1 5 ++ goes 0 1) (f := fun s => s.aborted)
    (a := true) (by decide +kernel)
  exact ⟨s, two_ok, h, e⟩

/-- A program whose level 1 has no reaction. -/
def gap : Config :=
  { n := 1, maxLevel := 2, reactions := [0, 1], level := fun r => if r = 1 then 2 else 0, hash := id, fast := false,
    spurious := false }

/-- If a level has no reaction, the assertion of `restrict_to_range` (:587) fails at the end of the first tag. -/
theorem C61_level_without_reactions_aborts : ∃ s, gap.Ok ∧ Reach gap s ∧ s.aborted = true := by
  obtain ⟨s, h, e⟩ := reach_of (C := gap) (l := goes 1 1 ++ goes 0 14 ++ [.close 0 fun _ => 1]) (f := fun s => s.aborted)
    (a := true) (by decide +kernel)
  exact ⟨s, ⟨by decide, fun r hr => by show (if r = 1 then 2 else 0) ≤ 2; split <;> omega, .inl rfl⟩, h, e⟩

/-- One worker and `-fast`. -/
def quick : Config :=
  { n := 1, maxLevel := 0, reactions := [0], level := fun _ => 0, hash := id, fast := true, spurious := false }

/-- With `-fast`, a worker that is alone advances the tag and takes events from the event queue without the mutex, even while
another thread, such as one that schedules a physical action, holds it. -/
theorem C61_fast_advances_without_the_mutex :
    ∃ s, quick.Ok ∧ Reach quick s ∧ s.pc 0 = .events ∧ s.mutex = some (quick.n + 1) := by
  obtain ⟨s, h, e⟩ := reach_of (C := quick) (l := goes 1 1 ++ goes 0 9 ++ [.close 0 fun _ => 1, .outsideLock, .advance 0])
    (f := fun s => (s.pc 0, s.mutex)) (a := (.events, some 2)) (by decide +kernel)
  exact ⟨s, ⟨by decide, fun r hr => Nat.le_refl _, .inl rfl⟩, h, congrArg Prod.fst e, congrArg Prod.snd e⟩

/-! ### Two workers can keep each other busy -/

/-- The part of the state that matters here. -/
structure View (s : State) (p q : Pc) (a b : Int) (m : Option Nat) (h0 h1 : Bool) : Prop where
  pc0 : s.pc 0 = p
  pc1 : s.pc 1 = q
  cnt0 : s.cnt 0 0 = a
  cnt1 : s.cnt 0 1 = b
  mutex : s.mutex = m
  held0 : s.held 0 = h0
  held1 : s.held 1 = h1
  cur : s.cur = 0
  num : s.num = 2
  loose : s.loose = 2
  lc : s.lc = 0
  started : s.started = true
  hist : s.hist = []

section
variable {s : State} {p q : Pc} {a b : Int} {m : Option Nat} {h0 h1 : Bool}

theorem unlock_0 (h : View s (.unlock 0) q a b (some 0) true h1) : ∃ s', exec two s (.go 0) = some s' ∧ View s' (.get 0 0) q a b none false h1 := by
  obtain ⟨k1, k2, k3, k4, k5, k6, k7, k8, k9, k10, k11, k12, k13⟩ := h
  refine ⟨_, by set_option linter.unusedSimpArgs false in (simp only [exec, k1, k2]); rw [if_pos k6], ?_⟩
  constructor <;> set_option linter.unusedSimpArgs false in simp [State.goto, put, scanNext, two, k1, k2, k3, k4, k5, k6, k7, k8, k9, k10, k11, k12, k13]

theorem unlock_1 (h : View s p (.unlock 0) a b (some 1) h0 true) : ∃ s', exec two s (.go 1) = some s' ∧ View s' p (.get 0 1) a b none h0 false := by
  obtain ⟨k1, k2, k3, k4, k5, k6, k7, k8, k9, k10, k11, k12, k13⟩ := h
  refine ⟨_, by set_option linter.unusedSimpArgs false in (simp only [exec, k1, k2]); rw [if_pos k7], ?_⟩
  constructor <;> set_option linter.unusedSimpArgs false in simp [State.goto, put, scanNext, two, k1, k2, k3, k4, k5, k6, k7, k8, k9, k10, k11, k12, k13]

theorem get_00 (h : View s (.get 0 0) q (-1) b m h0 h1) : ∃ s', exec two s (.go 0) = some s' ∧ View s' (.zero 0 0) q (-2) b m h0 h1 := by
  obtain ⟨k1, k2, k3, k4, k5, k6, k7, k8, k9, k10, k11, k12, k13⟩ := h
  refine ⟨_, by set_option linter.unusedSimpArgs false in (simp only [exec, k1, k2]); rfl, ?_⟩
  constructor <;> set_option linter.unusedSimpArgs false in simp [State.goto, put, scanNext, two, k1, k2, k3, k4, k5, k6, k7, k8, k9, k10, k11, k12, k13]

theorem get_11 (h : View s p (.get 0 1) a (-1) m h0 h1) : ∃ s', exec two s (.go 1) = some s' ∧ View s' p (.zero 0 1) a (-2) m h0 h1 := by
  obtain ⟨k1, k2, k3, k4, k5, k6, k7, k8, k9, k10, k11, k12, k13⟩ := h
  refine ⟨_, by set_option linter.unusedSimpArgs false in (simp only [exec, k1, k2]); rfl, ?_⟩
  constructor <;> set_option linter.unusedSimpArgs false in simp [State.goto, put, scanNext, two, k1, k2, k3, k4, k5, k6, k7, k8, k9, k10, k11, k12, k13]

theorem get_01 (h : View s (.get 0 1) q a 0 m h0 h1) : ∃ s', exec two s (.go 0) = some s' ∧ View s' (.zero 0 1) q a (-1) m h0 h1 := by
  obtain ⟨k1, k2, k3, k4, k5, k6, k7, k8, k9, k10, k11, k12, k13⟩ := h
  refine ⟨_, by set_option linter.unusedSimpArgs false in (simp only [exec, k1, k2]); rfl, ?_⟩
  constructor <;> set_option linter.unusedSimpArgs false in simp [State.goto, put, scanNext, two, k1, k2, k3, k4, k5, k6, k7, k8, k9, k10, k11, k12, k13]

theorem get_10 (h : View s p (.get 0 0) 0 b m h0 h1) : ∃ s', exec two s (.go 1) = some s' ∧ View s' p (.zero 0 0) (-1) b m h0 h1 := by
  obtain ⟨k1, k2, k3, k4, k5, k6, k7, k8, k9, k10, k11, k12, k13⟩ := h
  refine ⟨_, by set_option linter.unusedSimpArgs false in (simp only [exec, k1, k2]); rfl, ?_⟩
  constructor <;> set_option linter.unusedSimpArgs false in simp [State.goto, put, scanNext, two, k1, k2, k3, k4, k5, k6, k7, k8, k9, k10, k11, k12, k13]

theorem zero_00 (h : View s (.zero 0 0) q a b m h0 h1) : ∃ s', exec two s (.go 0) = some s' ∧ View s' (.scan 0 0) q 0 b m h0 h1 := by
  obtain ⟨k1, k2, k3, k4, k5, k6, k7, k8, k9, k10, k11, k12, k13⟩ := h
  refine ⟨_, by set_option linter.unusedSimpArgs false in (simp only [exec, k1, k2]); rfl, ?_⟩
  constructor <;> set_option linter.unusedSimpArgs false in simp [State.goto, put, scanNext, two, k1, k2, k3, k4, k5, k6, k7, k8, k9, k10, k11, k12, k13]

theorem zero_01 (h : View s (.zero 0 1) q a b m h0 h1) : ∃ s', exec two s (.go 0) = some s' ∧ View s' (.scan 0 1) q a 0 m h0 h1 := by
  obtain ⟨k1, k2, k3, k4, k5, k6, k7, k8, k9, k10, k11, k12, k13⟩ := h
  refine ⟨_, by set_option linter.unusedSimpArgs false in (simp only [exec, k1, k2]); rfl, ?_⟩
  constructor <;> set_option linter.unusedSimpArgs false in simp [State.goto, put, scanNext, two, k1, k2, k3, k4, k5, k6, k7, k8, k9, k10, k11, k12, k13]

theorem zero_11 (h : View s p (.zero 0 1) a b m h0 h1) : ∃ s', exec two s (.go 1) = some s' ∧ View s' p (.scan 0 1) a 0 m h0 h1 := by
  obtain ⟨k1, k2, k3, k4, k5, k6, k7, k8, k9, k10, k11, k12, k13⟩ := h
  refine ⟨_, by set_option linter.unusedSimpArgs false in (simp only [exec, k1, k2]); rfl, ?_⟩
  constructor <;> set_option linter.unusedSimpArgs false in simp [State.goto, put, scanNext, two, k1, k2, k3, k4, k5, k6, k7, k8, k9, k10, k11, k12, k13]

theorem zero_10 (h : View s p (.zero 0 0) a b m h0 h1) : ∃ s', exec two s (.go 1) = some s' ∧ View s' p (.scan 0 0) 0 b m h0 h1 := by
  obtain ⟨k1, k2, k3, k4, k5, k6, k7, k8, k9, k10, k11, k12, k13⟩ := h
  refine ⟨_, by set_option linter.unusedSimpArgs false in (simp only [exec, k1, k2]); rfl, ?_⟩
  constructor <;> set_option linter.unusedSimpArgs false in simp [State.goto, put, scanNext, two, k1, k2, k3, k4, k5, k6, k7, k8, k9, k10, k11, k12, k13]

theorem scan_00 (h : View s (.scan 0 0) q a b m h0 h1) : ∃ s', exec two s (.go 0) = some s' ∧ View s' (.get 0 1) q a b m h0 h1 := by
  obtain ⟨k1, k2, k3, k4, k5, k6, k7, k8, k9, k10, k11, k12, k13⟩ := h
  refine ⟨_, by set_option linter.unusedSimpArgs false in (simp only [exec, k1, k2]); rfl, ?_⟩
  constructor <;> set_option linter.unusedSimpArgs false in simp [State.goto, put, scanNext, two, k1, k2, k3, k4, k5, k6, k7, k8, k9, k10, k11, k12, k13]

theorem scan_01 (h : View s (.scan 0 1) q a b m h0 h1) : ∃ s', exec two s (.go 0) = some s' ∧ View s' (.look 0) q a b m h0 h1 := by
  obtain ⟨k1, k2, k3, k4, k5, k6, k7, k8, k9, k10, k11, k12, k13⟩ := h
  refine ⟨_, by set_option linter.unusedSimpArgs false in (simp only [exec, k1, k2]); rfl, ?_⟩
  constructor <;> set_option linter.unusedSimpArgs false in simp [State.goto, put, scanNext, two, k1, k2, k3, k4, k5, k6, k7, k8, k9, k10, k11, k12, k13]

theorem scan_11 (h : View s p (.scan 0 1) a b m h0 h1) : ∃ s', exec two s (.go 1) = some s' ∧ View s' p (.get 0 0) a b m h0 h1 := by
  obtain ⟨k1, k2, k3, k4, k5, k6, k7, k8, k9, k10, k11, k12, k13⟩ := h
  refine ⟨_, by set_option linter.unusedSimpArgs false in (simp only [exec, k1, k2]); rfl, ?_⟩
  constructor <;> set_option linter.unusedSimpArgs false in simp [State.goto, put, scanNext, two, k1, k2, k3, k4, k5, k6, k7, k8, k9, k10, k11, k12, k13]

theorem scan_10 (h : View s p (.scan 0 0) a b m h0 h1) : ∃ s', exec two s (.go 1) = some s' ∧ View s' p (.look 0) a b m h0 h1 := by
  obtain ⟨k1, k2, k3, k4, k5, k6, k7, k8, k9, k10, k11, k12, k13⟩ := h
  refine ⟨_, by set_option linter.unusedSimpArgs false in (simp only [exec, k1, k2]); rfl, ?_⟩
  constructor <;> set_option linter.unusedSimpArgs false in simp [State.goto, put, scanNext, two, k1, k2, k3, k4, k5, k6, k7, k8, k9, k10, k11, k12, k13]

theorem look_0 (h : View s (.look 0) q a b m h0 h1) : ∃ s', exec two s (.go 0) = some s' ∧ View s' (.lock 0) q a b m h0 h1 := by
  obtain ⟨k1, k2, k3, k4, k5, k6, k7, k8, k9, k10, k11, k12, k13⟩ := h
  refine ⟨_, by set_option linter.unusedSimpArgs false in (simp only [exec, k1, k2]); rfl, ?_⟩
  constructor <;> set_option linter.unusedSimpArgs false in simp [State.goto, put, scanNext, two, k1, k2, k3, k4, k5, k6, k7, k8, k9, k10, k11, k12, k13]

theorem look_1 (h : View s p (.look 0) a b m h0 h1) : ∃ s', exec two s (.go 1) = some s' ∧ View s' p (.lock 0) a b m h0 h1 := by
  obtain ⟨k1, k2, k3, k4, k5, k6, k7, k8, k9, k10, k11, k12, k13⟩ := h
  refine ⟨_, by set_option linter.unusedSimpArgs false in (simp only [exec, k1, k2]); rfl, ?_⟩
  constructor <;> set_option linter.unusedSimpArgs false in simp [State.goto, put, scanNext, two, k1, k2, k3, k4, k5, k6, k7, k8, k9, k10, k11, k12, k13]

theorem lock_0 (h : View s (.lock 0) q a b none h0 h1) : ∃ s', exec two s (.go 0) = some s' ∧ View s' (.test 0) q a b (some 0) true h1 := by
  obtain ⟨k1, k2, k3, k4, k5, k6, k7, k8, k9, k10, k11, k12, k13⟩ := h
  refine ⟨_, by set_option linter.unusedSimpArgs false in (simp only [exec, k1, k2]); rw [if_pos k5], ?_⟩
  constructor <;> set_option linter.unusedSimpArgs false in simp [State.goto, put, scanNext, two, k1, k2, k3, k4, k5, k6, k7, k8, k9, k10, k11, k12, k13]

theorem lock_1 (h : View s p (.lock 0) a b none h0 h1) : ∃ s', exec two s (.go 1) = some s' ∧ View s' p (.test 0) a b (some 1) h0 true := by
  obtain ⟨k1, k2, k3, k4, k5, k6, k7, k8, k9, k10, k11, k12, k13⟩ := h
  refine ⟨_, by set_option linter.unusedSimpArgs false in (simp only [exec, k1, k2]); rw [if_pos k5], ?_⟩
  constructor <;> set_option linter.unusedSimpArgs false in simp [State.goto, put, scanNext, two, k1, k2, k3, k4, k5, k6, k7, k8, k9, k10, k11, k12, k13]

theorem test_0 (h : View s (.test 0) q (-1) b m h0 h1) : ∃ s', exec two s (.go 0) = some s' ∧ View s' (.unlock 0) q (-1) b m h0 h1 := by
  obtain ⟨k1, k2, k3, k4, k5, k6, k7, k8, k9, k10, k11, k12, k13⟩ := h
  refine ⟨_, by set_option linter.unusedSimpArgs false in (simp only [exec, k1, k2]); rfl, ?_⟩
  constructor <;> set_option linter.unusedSimpArgs false in simp [State.goto, put, scanNext, two, k1, k2, k3, k4, k5, k6, k7, k8, k9, k10, k11, k12, k13]

theorem test_1 (h : View s p (.test 0) a (-1) m h0 h1) : ∃ s', exec two s (.go 1) = some s' ∧ View s' p (.unlock 0) a (-1) m h0 h1 := by
  obtain ⟨k1, k2, k3, k4, k5, k6, k7, k8, k9, k10, k11, k12, k13⟩ := h
  refine ⟨_, by set_option linter.unusedSimpArgs false in (simp only [exec, k1, k2]); rfl, ?_⟩
  constructor <;> set_option linter.unusedSimpArgs false in simp [State.goto, put, scanNext, two, k1, k2, k3, k4, k5, k6, k7, k8, k9, k10, k11, k12, k13]

/-- Worker 0 has found its count decremented and gives back the mutex; worker 1 is about to set it to 0. -/
def Around (s : State) : Prop := View s (.unlock 0) (.zero 0 0) (-1) 0 (some 0) true false

/-- Both workers make ten steps. -/
def around : List Nat := [0, 0, 0, 0, 0, 1, 1, 1, 1, 1, 1, 1, 1, 1, 1, 0, 0, 0, 0, 0]

theorem go_okay (h : s.started = true) {w : Nat} (hw : w < 2) : (Act.go w).okay two s = true := by
  show (if s.started then decide (w < 2) else decide (w = 2)) = true
  rw [if_pos h]; exact decide_eq_true hw

theorem run_cons {w : Nat} {l : List Nat} {s' s'' : State} (hw : w < 2) (hst : s.started = true)
    (he : exec two s (.go w) = some s') (hr : runOkay two s' (l.map .go) = some s'') :
    runOkay two s ((w :: l).map .go) = some s'' := by
  show (if (Act.go w).okay two s = true then (exec two s (.go w)).bind _ else none) = _
  rw [if_pos (go_okay hst hw), he]; exact hr

theorem Around.again (h : Around s) : ∃ s', runOkay two s (around.map .go) = some s' ∧ Around s' := by
  obtain ⟨s1, e1, v1⟩ := unlock_0 h
  obtain ⟨s2, e2, v2⟩ := get_00 v1
  obtain ⟨s3, e3, v3⟩ := zero_00 v2
  obtain ⟨s4, e4, v4⟩ := scan_00 v3
  obtain ⟨s5, e5, v5⟩ := get_01 v4
  obtain ⟨s6, e6, v6⟩ := zero_10 v5
  obtain ⟨s7, e7, v7⟩ := scan_10 v6
  obtain ⟨s8, e8, v8⟩ := look_1 v7
  obtain ⟨s9, e9, v9⟩ := lock_1 v8
  obtain ⟨s10, e10, v10⟩ := test_1 v9
  obtain ⟨s11, e11, v11⟩ := unlock_1 v10
  obtain ⟨s12, e12, v12⟩ := get_11 v11
  obtain ⟨s13, e13, v13⟩ := zero_11 v12
  obtain ⟨s14, e14, v14⟩ := scan_11 v13
  obtain ⟨s15, e15, v15⟩ := get_10 v14
  obtain ⟨s16, e16, v16⟩ := zero_01 v15
  obtain ⟨s17, e17, v17⟩ := scan_01 v16
  obtain ⟨s18, e18, v18⟩ := look_0 v17
  obtain ⟨s19, e19, v19⟩ := lock_0 v18
  obtain ⟨s20, e20, v20⟩ := test_0 v19
  refine ⟨s20, ?_, v20⟩
  exact run_cons (by decide) h.started e1 (run_cons (by decide) v1.started e2 (run_cons (by decide) v2.started e3 (run_cons (by decide) v3.started e4 (run_cons (by decide) v4.started e5 (run_cons (by decide) v5.started e6 (run_cons (by decide) v6.started e7 (run_cons (by decide) v7.started e8 (run_cons (by decide) v8.started e9 (run_cons (by decide) v9.started e10 (run_cons (by decide) v10.started e11 (run_cons (by decide) v11.started e12 (run_cons (by decide) v12.started e13 (run_cons (by decide) v13.started e14 (run_cons (by decide) v14.started e15 (run_cons (by decide) v15.started e16 (run_cons (by decide) v16.started e17 (run_cons (by decide) v17.started e18 (run_cons (by decide) v18.started e19 (run_cons (by decide) v19.started e20 rfl)))))))))))))))))))

end

theorem runOkay_append {C : Config} : ∀ (l l' : List Act) {s s' : State}, runOkay C s l = some s' →
    runOkay C s (l ++ l') = runOkay C s' l'
  | [], _, _, _, e => by cases e; rfl
  | a :: l, l', s, s', e => by
    show (if a.okay C s = true then _ else none) = _
    unfold runOkay at e
    split at e
    · rename_i ha
      rw [if_pos ha]
      cases he : exec C s a with
      | none => rw [he] at e; cases e
      | some s1 =>
        rw [he] at e
        exact runOkay_append l l' e
    · cases e

/-- How the two workers get there. -/
def lead : List Act := goes 2 1 ++ goes 0 9 ++ goes 1 5 ++ goes 0 1

set_option synthInstance.maxSize 1000 in
set_option synthInstance.maxHeartbeats 200000 in
theorem lead_around : ∃ s, runOkay two (init two) lead = some s ∧ Around s := by
  have h : (runOkay two (init two) lead).map (fun s => (s.pc 0, s.pc 1, s.cnt 0 0, s.cnt 0 1, s.mutex, s.held 0, s.held 1)) =
      some (.unlock 0, .zero 0 0, -1, 0, some 0, true, false) := by decide +kernel
  have k : (runOkay two (init two) lead).map (fun s => (s.cur, s.num, s.loose, s.lc, s.started, s.hist)) =
      some (0, 2, 2, 0, true, []) := by decide +kernel
  cases hr : runOkay two (init two) lead with
  | none => rw [hr] at h; cases h
  | some s =>
    rw [hr] at h k
    have h := Option.some.inj h
    have k := Option.some.inj k
    simp only [Prod.mk.injEq] at h k
    obtain ⟨h1, h2, h3, h4, h5, h6, h7⟩ := h
    obtain ⟨h8, h9, h10, h11, h12, h13⟩ := k
    exact ⟨s, rfl, ⟨h1, h2, h3, h4, h5, h6, h7, h8, h9, h10, h11, h12, h13⟩⟩

theorem around_times (k : Nat) {s : State} (h : Around s) :
    ∃ l : List Nat, l.count 0 = 10 * k ∧ l.count 1 = 10 * k ∧ ∃ s', runOkay two s (l.map .go) = some s' ∧ Around s' := by
  induction k generalizing s with
  | zero => exact ⟨[], rfl, rfl, s, rfl, h⟩
  | succ k ih =>
    obtain ⟨s1, h1, h2⟩ := h.again
    obtain ⟨l, c0, c1, s2, h3, h4⟩ := ih h2
    refine ⟨around ++ l, ?_, ?_, s2, ?_, h4⟩
    · rw [List.count_append, c0, show around.count 0 = 10 from rfl]; omega
    · rw [List.count_append, c1, show around.count 1 = 10 from rfl]; omega
    · rw [List.map_append, runOkay_append _ _ h1]; exact h3

/-- There are runs of any length in which both workers make steps and nothing comes of it: no reaction is there to be executed,
but each of them finds its own count decremented by the other one again and again, so that neither sleeps and the tag does not
end. -/
theorem C61_two_workers_can_keep_each_other_busy (k : Nat) :
    ∃ (l : List Nat) (s0 s : State), two.Ok ∧ Reach two s0 ∧ runOkay two s0 (l.map .go) = some s ∧ k ≤ l.count 0 ∧ k ≤ l.count 1 ∧
      s.hist = [] ∧ s.started = true := by
  obtain ⟨s0, h1, h2⟩ := lead_around
  obtain ⟨l, c0, c1, s, h3, h4⟩ := around_times k h2
  exact ⟨l, s0, s, two_ok, runOkay_reach _ .init h1, h3, by omega, by omega, h4.hist, h4.started⟩

end ReactorC.Adaptive
