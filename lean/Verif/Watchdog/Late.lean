import Verif.Watchdog.Props

/-!
# C50: watchdogs and the handlers of late reactions

Deadline handlers and the handlers of tardy messages of a reactor are called without its mutex (core/reactor.c:161-181,
core/reactor_common.c:799-850, core/threaded/reactor_threaded.c:687-702, 738-760), whereas `_lf_invoke_reaction`
takes it (core/reactor_common.c:685-689).  Such a handler may start and stop watchdogs as any reaction may
(`lf_watchdog_start` "assumes reactor mutex is already held", core/threaded/watchdog.c:143).
-/

namespace ReactorC.Watchdog

/-- What the watchdog's thread has decided on: nothing yet; it has found `expiration` to be `NEVER` and is about to wait (core/threaded/watchdog.c:101-107); it has found the watchdog to have expired at the
given physical time and is about to call the handler (core/threaded/watchdog.c:59, 117-131). -/
inductive Going
  | nothing
  | sleep
  | fire (physical : Int)
deriving DecidableEq, Repr

/-- The watchdog, whether a handler of a late reaction is executed, and what the watchdog's thread has decided on. -/
structure Late where
  dog : State
  handler : Bool
  going : Going
deriving DecidableEq, Repr

/-- Steps of any thread; `allowed` says whether handlers of late reactions are executed.  Two reactions of a reactor are never executed at the same time, so that a handler does not begin while the
mutex is held by a reaction, and no reaction begins before it ends. -/
inductive LateStep (minimum : Int) (allowed : Bool) : Late → Late → Prop
  /-- what the watchdog's thread does elsewhere, reactions and time -/
  | other (l : Late) (t : State) : Step minimum l.dog t → (l.dog.pc = .top ∨ l.dog.pc = .check → t.pc = l.dog.pc) → (l.dog.owner = none → t.owner = some .user → l.handler = false) →
      LateStep minimum allowed l { l with dog := t }
  /-- core/threaded/watchdog.c:98, 110-113, if the thread is to end or the watchdog has been started -/
  | top (l : Late) : l.dog.pc = .top → l.going = .nothing → l.dog.terminate = true ∨ l.dog.expiration ≠ NEVER →
      LateStep minimum allowed l { l with dog := atTop l.dog }
  /-- core/threaded/watchdog.c:98, 101 -/
  | test (l : Late) : l.dog.pc = .top → l.dog.terminate = false → l.dog.expiration = NEVER → LateStep minimum allowed l { l with going := .sleep }
  /-- core/threaded/watchdog.c:105-107 -/
  | sleep (l : Late) : l.going = .sleep → LateStep minimum allowed l { l with going := .nothing, dog := { l.dog with pc := .idle, active := false, owner := none } }
  /-- core/threaded/watchdog.c:59-63, 119-128, unless the handler is to be called -/
  | check (l : Late) : l.dog.pc = .check → l.going = .nothing → (atCheck l.dog).pc ≠ .handler → LateStep minimum allowed l { l with dog := atCheck l.dog }
  | expired (l : Late) : l.dog.pc = .check → l.going = .nothing → (atCheck l.dog).pc = .handler → LateStep minimum allowed l { l with going := .fire l.dog.now }
  /-- core/threaded/watchdog.c:131 -/
  | fire (l : Late) (n : Int) : l.going = .fire n →
      LateStep minimum allowed l { l with going := .nothing, dog := { l.dog with pc := .handler, log := .fire n :: l.dog.log } }
  /-- a handler of a late reaction begins and ends -/
  | late (l : Late) : allowed = true → l.dog.owner ≠ some .user → LateStep minimum allowed l { l with handler := true }
  | ends (l : Late) : LateStep minimum allowed l { l with handler := false }
  /-- it starts or stops the watchdog -/
  | start (l : Late) (logical additional : Int) : l.handler = true → LateStep minimum allowed l { l with dog := start minimum logical additional l.dog }
  | stop (l : Late) : l.handler = true → LateStep minimum allowed l { l with dog := stop l.dog }

/-- Any execution of any length. -/
inductive LateReach (minimum : Int) (allowed : Bool) : Late → Prop
  | init (now : Int) : LateReach minimum allowed ⟨init now, false, .nothing⟩
  | step {l m : Late} : LateReach minimum allowed l → LateStep minimum allowed l m → LateReach minimum allowed m

/-- The watchdog when the decision to call the handler has been carried out. -/
def ahead (l : Late) : State :=
  match l.going with
  | .fire n => { l.dog with pc := .handler, log := .fire n :: l.dog.log }
  | _ => l.dog

/-- What a step of the model of `Verif.Watchdog.Model` does while the watchdog's thread has the mutex and does nothing. -/
theorem step_inside {minimum : Int} {s t : State} (hs : Step minimum s t) (ho : s.owner = some .watchdog) (hp : s.pc = .top ∨ s.pc = .check)
    (hk : t.pc = s.pc) : t = s ∨ (∃ n, s.now ≤ n ∧ t = { s with now := n }) ∨ s.pc = .top ∧ t = atTop s ∨ s.pc = .check ∧ t = atCheck s := by
  have hc : ¬ Callable s := by
    rintro (k | k)
    · rw [ho] at k; cases k
    · rw [k] at hp; rcases hp with hp | hp <;> cases hp
  cases hs with
  | tick n h => exact .inr (.inl ⟨n, h, rfl⟩)
  | lock k => rw [ho] at k; cases k
  | unlock k => rw [ho] at k; cases k
  | start _ _ k => exact (hc k).elim
  | stop k => exact (hc k).elim
  | terminate k => rw [ho] at k; cases k
  | enter k _ => rcases hp with hp | hp <;> rw [hp] at k <;> rcases k with k | k <;> cases k
  | resume k _ => rcases hp with hp | hp <;> rw [hp] at k <;> cases k
  | top k => exact .inr (.inr (.inl ⟨k, rfl⟩))
  | check k => exact .inr (.inr (.inr ⟨k, rfl⟩))
  | handled k => rcases hp with hp | hp <;> rw [hp] at k <;> cases k
  | timeout u k _ => rcases hp with hp | hp <;> rw [hp] at k <;> cases k
  | spurious =>
    left
    have : signal s.pc = s.pc := hk
    rw [this]

theorem atTop_pc (s : State) : (atTop s).pc ≠ .top := by
  unfold atTop
  split
  · simp
  · split <;> simp

theorem atCheck_pc (s : State) : (atCheck s).pc ≠ .check := by
  unfold atCheck
  split
  · simp
  · split
    · simp
    · split <;> simp

theorem atCheck_handler {s : State} (h : (atCheck s).pc = .handler) : atCheck s = { s with pc := .handler, log := .fire s.now :: s.log } := by
  unfold atCheck at h ⊢
  split at h
  · cases h
  · rename_i h1
    rw [if_neg h1]
    split at h
    · cases h
    · rename_i h2
      rw [if_neg h2]
      split at h
      · cases h
      · rename_i h3
        rw [if_neg h3]

/-- Without handlers of late reactions this is the model of `Verif.Watchdog.Model`: the watchdog, after what its thread has decided on, is in a state that can be
reached there. -/
theorem late_reach {minimum : Int} {l : Late} (h : LateReach minimum false l) :
    Reach minimum (ahead l) ∧ l.handler = false ∧ (l.going = .sleep → l.dog.pc = .top ∧ l.dog.terminate = false ∧ l.dog.expiration = NEVER) ∧
    (∀ n, l.going = .fire n → l.dog.pc = .check) ∧ (Inside l.dog.pc → l.dog.owner = some .watchdog) := by
  induction h with
  | init now => exact ⟨.init now, rfl, fun h => (by cases h), fun n h => (by cases h), fun h => h.elim⟩
  | @step l m hl hst ih =>
    obtain ⟨r, hh, hg, hf, ho⟩ := ih
    have hN : l.going = .nothing → ahead l = l.dog := fun k => by unfold ahead; rw [k]
    have hS : l.going = .sleep → ahead l = l.dog := fun k => by unfold ahead; rw [k]
    have hF : ∀ n, l.going = .fire n → ahead l = { l.dog with pc := .handler, log := .fire n :: l.dog.log } := fun n k => by unfold ahead; rw [k]
    cases hst with
    | other t hs hp _ =>
      cases hgo : l.going with
      | nothing =>
        rw [hN hgo] at r
        have r' := r.step hs
        refine ⟨?_, hh, fun k => (nomatch k), fun n k => (nomatch k), (inv_reach r').1.owner.1⟩
        exact r'
      | sleep =>
        rw [hS hgo] at r
        obtain ⟨h1, h2, h3⟩ := hg hgo
        have how := ho (by rw [h1]; trivial)
        have hpc := hp (.inl h1)
        have key : t.pc = .top ∧ t.terminate = false ∧ t.expiration = NEVER := by
          rcases step_inside hs how (.inl h1) hpc with k | ⟨n, _, k⟩ | ⟨_, k⟩ | ⟨k, _⟩
          · rw [k]; exact ⟨h1, h2, h3⟩
          · rw [k]; exact ⟨h1, h2, h3⟩
          · rw [k, h1] at hpc; exact (atTop_pc _ hpc).elim
          · rw [h1] at k; cases k
        have r' := r.step hs
        refine ⟨?_, hh, fun _ => key, fun n k => (nomatch k), (inv_reach r').1.owner.1⟩
        exact r'
      | fire n =>
        have h1 := hf n hgo
        have how := ho (by rw [h1]; trivial)
        have hpc := hp (.inr h1)
        rw [hF n hgo] at r
        rcases step_inside hs how (.inr h1) hpc with k | ⟨m, hm, k⟩ | ⟨k, _⟩ | ⟨_, k⟩
        · rw [k]
          exact ⟨r, hh, fun kk => (nomatch kk), fun _ _ => h1, ho⟩
        · rw [k]
          refine ⟨?_, hh, fun kk => ((nomatch kk)), fun _ _ => h1, fun _ => how⟩
          exact r.step (.tick _ m hm)
        · rw [h1] at k; cases k
        · rw [k, h1] at hpc; exact (atCheck_pc _ hpc).elim
    | top h1 h2 h3 =>
      rw [hN h2] at r
      obtain ⟨dog, handler, going⟩ := l
      cases h2
      have r' := r.step (.top _ h1)
      refine ⟨?_, hh, fun k => (nomatch k), fun n k => (nomatch k), (inv_reach r').1.owner.1⟩
      exact r'
    | test h1 h2 h3 =>
      have hgo : ∀ n, l.going ≠ .fire n := fun n k => by have := hf n k; rw [h1] at this; cases this
      refine ⟨?_, hh, fun _ => ⟨h1, h2, h3⟩, fun n k => (by cases k), ho⟩
      show Reach minimum l.dog
      cases hgo' : l.going with
      | nothing => rw [hN hgo'] at r; exact r
      | sleep => rw [hS hgo'] at r; exact r
      | fire n => exact (hgo n hgo').elim
    | sleep k =>
      obtain ⟨h1, h2, h3⟩ := hg k
      rw [hS k] at r
      have ht : atTop l.dog = { l.dog with pc := .idle, active := false, owner := none } := by
        unfold atTop
        rw [if_neg (by rw [h2]; decide), if_pos h3]
      exact ⟨by have := r.step (.top _ h1); rw [ht] at this; exact this, hh, fun k => (by cases k), fun n k => (by cases k), fun k => k.elim⟩
    | check h1 h2 h3 =>
      rw [hN h2] at r
      obtain ⟨dog, handler, going⟩ := l
      cases h2
      have r' := r.step (.check _ h1)
      refine ⟨?_, hh, fun k => (nomatch k), fun n k => (nomatch k), (inv_reach r').1.owner.1⟩
      exact r'
    | expired h1 hnew h2 =>
      rw [hN hnew] at r
      have r' := r.step (.check _ h1)
      rw [atCheck_handler h2] at r'
      exact ⟨r', hh, fun k => (by cases k), fun _ _ => h1, ho⟩
    | fire n k =>
      have h1 := hf n k
      rw [hF n k] at r
      exact ⟨r, hh, fun k => (by cases k), fun m k => (by cases k), fun _ => ho (by rw [h1]; trivial)⟩
    | late k _ => cases k
    | ends => exact ⟨r, rfl, hg, hf, ho⟩
    | start _ _ k => rw [hh] at k; cases k
    | stop k => rw [hh] at k; cases k

/-- **C50** for programs without handlers of late reactions, with every decision of the watchdog's thread and what it does then apart: the handler is called only when the watchdog has been started, and nothing
has happened to it since, and the time has come; and while the watchdog is started its thread does not sleep waiting for a start. -/
theorem C50_decisions_hold_partial {minimum : Int} {l : Late} (h : LateReach minimum false l) :
    (∀ later earlier physical, l.dog.log = later ++ .fire physical :: earlier →
      ∃ logical additional rest, earlier = .start logical additional :: rest ∧ logical + minimum + additional ≤ physical) ∧
    (l.dog.pc = .idle → ∀ logical additional rest, l.dog.log = .start logical additional :: rest → logical + minimum + additional = NEVER) := by
  obtain ⟨r, _, _, hf, _⟩ := late_reach h
  have hgo : (∃ n, l.going = .fire n ∧ ahead l = { l.dog with pc := .handler, log := .fire n :: l.dog.log }) ∨ ahead l = l.dog := by
    unfold ahead
    cases l.going with
    | nothing => exact .inr rfl
    | sleep => exact .inr rfl
    | fire n => exact .inl ⟨n, rfl, rfl⟩
  rcases hgo with ⟨n, k, e⟩ | e
  · rw [e] at r
    refine ⟨fun later earlier physical hl => ?_, fun hi => ?_⟩
    · exact C50_handler_only_when_due_partial r (.fire n :: later) earlier physical (by simp [hl])
    · rw [hf n k] at hi; cases hi
  · rw [e] at r
    exact ⟨fun later earlier physical hl => C50_handler_only_when_due_partial r later earlier physical hl, fun hi => (C50_start_not_missed r hi).1⟩

/-- **C50** is false of handlers of late reactions: they can be executed at the same time as the handler of a watchdog of the reactor. -/
theorem C50_not_excluding_late_handlers : ∃ l, LateReach 10 true l ∧ l.dog.pc = .handler ∧ l.handler = true := by
  have r := LateReach.init (minimum := 10) (allowed := true) 0
  have r := r.step (.other _ _ (.lock _ rfl) (by decide) (by decide))
  have r := r.step (.other _ _ (.start _ 5 0 (Or.inl rfl)) (by decide) (by decide))
  have r := r.step (.other _ _ (.unlock _ rfl) (by decide) (by decide))
  have r := r.step (.other _ _ (.tick _ 20 (by decide)) (by decide) (by decide))
  have r := r.step (.other _ _ (.enter _ (Or.inl rfl) rfl) (by decide) (by decide))
  have r := r.step (.top _ rfl rfl (Or.inr (by decide)))
  have r := r.step (.expired _ rfl rfl (by decide))
  have r := r.step (.fire _ 20 rfl)
  have r := r.step (.late _ rfl (by decide))
  exact ⟨_, r, rfl, rfl⟩

/-- **C50** is false of watchdogs that are started by handlers of late reactions: the watchdog's thread can miss the start; then it sleeps, nothing is going to wake it up, and the handler is not called however
late it gets. -/
theorem C50_not_started_by_late_handlers : ∃ l, LateReach 10 true l ∧ l.dog.pc = .idle ∧ l.dog.owner = none ∧ l.handler = false ∧ l.going = .nothing ∧
    l.dog.log = [.start 5 0] ∧ l.dog.expiration = 15 ∧ l.dog.now = 1000000 := by
  have r := LateReach.init (minimum := 10) (allowed := true) 0
  have r := r.step (.other _ _ (.enter _ (Or.inl rfl) rfl) (by decide) (by decide))
  have r := r.step (.test _ rfl rfl rfl)
  have r := r.step (.late _ rfl (by decide))
  have r := r.step (.start _ 5 0 rfl)
  have r := r.step (.ends _)
  have r := r.step (.sleep _ rfl)
  have r := r.step (.other _ _ (.tick _ 1000000 (by decide)) (by decide) (by decide))
  exact ⟨_, r, rfl, rfl, rfl, rfl, rfl, rfl, rfl⟩

/-- **C50** is false of watchdogs that are stopped by handlers of late reactions: the handler of the watchdog can be called after the stop. -/
theorem C50_not_stopped_by_late_handlers : ∃ l, LateReach 10 true l ∧ l.dog.pc = .handler ∧ l.dog.log = [.fire 20, .stop, .start 5 0] := by
  have r := LateReach.init (minimum := 10) (allowed := true) 0
  have r := r.step (.other _ _ (.lock _ rfl) (by decide) (by decide))
  have r := r.step (.other _ _ (.start _ 5 0 (Or.inl rfl)) (by decide) (by decide))
  have r := r.step (.other _ _ (.unlock _ rfl) (by decide) (by decide))
  have r := r.step (.other _ _ (.tick _ 20 (by decide)) (by decide) (by decide))
  have r := r.step (.other _ _ (.enter _ (Or.inl rfl) rfl) (by decide) (by decide))
  have r := r.step (.top _ rfl rfl (Or.inr (by decide)))
  have r := r.step (.expired _ rfl rfl (by decide))
  have r := r.step (.late _ rfl (by decide))
  have r := r.step (.stop _ rfl)
  have r := r.step (.fire _ 20 rfl)
  exact ⟨_, r, rfl, rfl⟩

/-- A handler is called in the model without handlers of late reactions. -/
example : ∃ l, LateReach 10 false l ∧ l.dog.log = [] ++ .fire 20 :: [.start 5 0] := by
  have r := LateReach.init (minimum := 10) (allowed := false) 0
  have r := r.step (.other _ _ (.lock _ rfl) (by decide) (by decide))
  have r := r.step (.other _ _ (.start _ 5 0 (Or.inl rfl)) (by decide) (by decide))
  have r := r.step (.other _ _ (.unlock _ rfl) (by decide) (by decide))
  have r := r.step (.other _ _ (.tick _ 20 (by decide)) (by decide) (by decide))
  have r := r.step (.other _ _ (.enter _ (Or.inl rfl) rfl) (by decide) (by decide))
  have r := r.step (.top _ rfl rfl (Or.inr (by decide)))
  have r := r.step (.expired _ rfl rfl (by decide))
  have r := r.step (.fire _ 20 rfl)
  exact ⟨_, r, rfl⟩

end ReactorC.Watchdog
