import Verif.Async.Ending

/-!
# C81: events of other threads and stop requests reach a program that waits

A program with threads that is not federated.  The worker that advances the tag sleeps until the time of the next event.  Meanwhile other threads schedule
events (`Step.schedule`), call `lf_request_stop` (`Step.requestOutside`), time passes and the operating system may end the sleep for no reason
(`Step.spurious`).  The theorems are about all executions, i.e. all states in `Reach`.
-/

namespace ReactorC.Async
open ReactorC.Level (MIN_SLEEP_DURATION)

/-! ## Events -/

/-- No tag is begun before its time (up to the 10 μs for which the runtime does not sleep), unless the program was started with the option `--fast`. -/
theorem C81_no_tag_begins_before_its_time {C : Config} (ok : C.Ok) {s : State} (r : Reach C s) (i : Nat)
    (t : Tag) (p : Int) (h : (t, p) ∈ (s.env i).log) : p ≤ s.now ∧ (C.fast = true ∨ t.time < p + MIN_SLEEP_DURATION) := by
  obtain ⟨h1, h2⟩ := (reach_inv ok r i).time (t, p) h
  refine ⟨h1, h2.imp id ?_⟩
  intro h
  dsimp only at h
  omega

/-- Tags are begun in order and each at most once, the runtime never ends with an error, and every event that was accepted is still to be processed at a
later tag or its tag has been begun. -/
theorem C81_events_are_processed_in_order_and_once {C : Config} (ok : C.Ok) {s : State} (r : Reach C s) (i : Nat) :
    ((s.env i).log.map Prod.fst).Pairwise (fun a b => b < a) ∧ (s.env i).pc ≠ .failed ∧
    (∀ t ∈ (s.env i).accepted, (t ∈ (s.env i).queue ∧ (s.env i).cur < t) ∨ t ∈ (s.env i).log.map Prod.fst) := by
  have h := reach_inv ok r i
  refine ⟨?_, h.ok, ?_⟩
  · rw [List.pairwise_map]
    exact h.sorted
  · intro t ht
    rcases h.kept t ht with h1 | ⟨p, h1⟩
    · exact .inl ⟨h1, h.later t h1⟩
    · exact .inr (List.mem_map.2 ⟨_, h1, rfl⟩)

/-- When an environment ends, each event it accepted has been processed unless it is later than the stop tag. -/
theorem C81_no_event_is_lost {C : Config} (ok : C.Ok) {s : State} (r : Reach C s) (i : Nat) (hx : (s.env i).pc = .exited)
    (t : Tag) (ha : t ∈ (s.env i).accepted) (hs : t ≤ (s.env i).stop) : t ∈ (s.env i).log.map Prod.fst := by
  rcases (C81_events_are_processed_in_order_and_once ok r i).2.2 t ha with ⟨-, h⟩ | h
  · exact absurd (le_trans hs ((reach_inv ok r i).exit hx)) (not_le.2 h)
  · exact h

/-- An event that is scheduled at the stop tag or before is accepted, whatever the worker is doing (so that it is processed,
`C81_events_are_processed_in_order_and_once`); an event after the stop tag is not. -/
theorem C81_events_up_to_the_stop_tag_are_accepted (e : Env) (t : Tag) :
    (t ≤ e.stop → (schedule e t).accepted = t :: e.accepted ∧ (schedule e t).queue = t :: e.queue) ∧
    (e.stop < t → (schedule e t).accepted = e.accepted ∧ (schedule e t).queue = e.queue) := by
  have hs : ∀ e : Env, (signal e).accepted = e.accepted ∧ (signal e).queue = e.queue := by
    intro e
    unfold signal
    split <;> exact ⟨rfl, rfl⟩
  unfold schedule
  refine ⟨fun h => ?_, fun h => ?_⟩
  · rw [if_neg (not_lt.2 h)]
    exact hs _
  · rw [if_pos h]
    exact hs _

/-- No lost wake-ups: in every state, the worker of the first environment, if it sleeps and has not been signalled, sleeps exactly until the earlier of the
stop tag and the earliest event, whatever was scheduled or requested while it slept.  Before a stop is requested this holds for all environments. -/
theorem C81_wakeups_are_not_lost {C : Config} (ok : C.Ok) {s : State} (r : Reach C s) (i : Nat) (hi : i = 0 ∨ s.req = .idle)
    (u : Int) (hu : (s.env i).pc = .waiting u false) :
    u ≤ (s.env i).stop.time ∧ (∀ t ∈ (s.env i).queue, u ≤ t.time) ∧
    (u = (s.env i).stop.time ∨ (∃ t ∈ (s.env i).queue, u = t.time) ∨ u = FOREVER) := by
  have h := reach_alert ok r i (hi.imp id fun h => by rw [h]; trivial) u hu
  subst h
  refine ⟨time_mono (nextTag_le_stop _), fun t ht => time_mono (nextTag_le_mem ht), ?_⟩
  rw [nextTag_eq]
  rcases min_choice (s.env i).stop (earliest (s.env i).queue) with h | h
  · rw [h]
    exact .inl rfl
  · rw [h]
    rcases earliest_mem (s.env i).queue with h | h
    · exact .inr (.inl ⟨_, h, rfl⟩)
    · rw [h]
      exact .inr (.inr rfl)

/-- When the time of an event has come, the sleep ends and the next step of the worker begins the tag of the earliest event (or the stop tag if that is
earlier), unless the environment has passed its stop tag already. -/
theorem C81_due_events_are_begun {C : Config} (ok : C.Ok) {s : State} (r : Reach C s) (i : Nat) (hn : i < C.n)
    (hi : i = 0 ∨ s.req = .idle) (u : Int) (w : Bool) (hu : (s.env i).pc = .waiting u w)
    (t : Tag) (ht : t ∈ (s.env i).queue ∨ t = (s.env i).stop) (hd : t.time ≤ s.now) :
    (∃ s', Own C i s s') ∧
    ∀ s', Own C i s s' → (s'.env i).pc = .working ∧
      ((s.env i).stop ≤ (s.env i).cur ∨
        ((s.env i).cur < (s'.env i).cur ∧ (s'.env i).cur ≤ t ∧ (s'.env i).log = ((s'.env i).cur, s.now) :: (s.env i).log)) := by
  have inv := reach_inv ok r i
  have hle : nextTag (s.env i) ≤ t := by
    rcases ht with ht | rfl
    · exact nextTag_le_mem ht
    · exact nextTag_le_stop _
  have hnow : (nextTag (s.env i)).time ≤ s.now := Int.le_trans (time_mono hle) hd
  have hlt : C.fast = true ∨ (nextTag (s.env i)).time - s.now < MIN_SLEEP_DURATION := .inr (by unfold MIN_SLEEP_DURATION; omega)
  have hp : (proceed s.now (s.env i)).pc = .working ∧
      ((s.env i).stop ≤ (s.env i).cur ∨
        ((s.env i).cur < (proceed s.now (s.env i)).cur ∧ (proceed s.now (s.env i)).cur ≤ t ∧
          (proceed s.now (s.env i)).log = ((proceed s.now (s.env i)).cur, s.now) :: (s.env i).log)) := by
    rcases proceed_cases inv with ⟨h, e⟩ | ⟨h, e⟩
    · rw [e]
      exact ⟨rfl, .inl h⟩
    · rw [e]
      exact ⟨rfl, .inr ⟨h, hle, rfl⟩⟩
  refine ⟨?_, ?_⟩
  · cases w with
    | true => exact ⟨_, .woken hn hu⟩
    | false =>
        have h := reach_alert ok r i (hi.imp id fun h => by rw [h]; trivial) u hu
        exact ⟨_, .timeout hn hu (h ▸ hnow)⟩
  · intro s' st
    cases st with
    | finish h1 h2 h3 => rw [hu] at h2; cases h2
    | woken h1 h2 =>
        dsimp only
        rw [Function.update_self]
        have : tryWait C s.now (s.env i) = proceed s.now (s.env i) := by
          unfold tryWait
          dsimp only
          rw [if_pos hlt]
        rw [this]
        exact hp
    | timeout h1 h2 h3 =>
        dsimp only
        rw [Function.update_self]
        exact hp

/-! ## Stops -/

/-- In every program: shutdown reactions are executed at most once in each environment, and if so at the stop tag or later; an environment ends at its stop
tag or later; stop tags are never moved to a later tag and tags never go back. -/
theorem C81_shutdown_at_most_once {C : Config} (ok : C.Ok) {s s' : State} (r : Reach C s) (st : Step C s s') (i : Nat) :
    ((s.env i).shutdown = 0 ∨ ((s.env i).shutdown = 1 ∧ (s.env i).stop ≤ (s.env i).cur)) ∧
    ((s.env i).pc = .exited → (s.env i).stop ≤ (s.env i).cur) ∧
    (s'.env i).stop ≤ (s.env i).stop ∧ (s.env i).cur ≤ (s'.env i).cur :=
  ⟨(reach_inv ok r i).down, (reach_inv ok r i).exit, (step_mono st (reach_inv ok r) i).2, (step_mono st (reach_inv ok r) i).1⟩

/-- With one environment, if only reactions call `lf_request_stop`: the program never goes beyond the stop tag, it ends exactly at the stop tag, and it has
then executed the shutdown reactions exactly once.  Missing, and false: several environments, and other threads that request the stop
(`C81_not_shutdown_when_another_thread_stops`, `C81_not_shutdown_with_enclaves`). -/
theorem C81_ends_at_the_stop_tag_after_shutdown_partial {C : Config} (ok : C.Ok) (hn : C.n = 1) (ho : C.outside = false)
    {s : State} (r : Reach C s) :
    (s.env 0).cur ≤ (s.env 0).stop ∧ (∀ q ∈ (s.env 0).log, q.1 ≤ (s.env 0).stop) ∧
    ((s.env 0).pc = .exited → (s.env 0).cur = (s.env 0).stop ∧ (s.env 0).shutdown = 1) := by
  obtain ⟨-, p1, p2⟩ := reach_proper ok hn ho r
  have inv := reach_inv ok r 0
  refine ⟨p1, ?_, ?_⟩
  · obtain ⟨p, l, hl⟩ := inv.head
    have hs := inv.sorted
    intro q hq
    rw [hl] at hq hs
    rcases List.mem_cons.1 hq with rfl | hq
    · exact p1
    · exact le_of_lt (lt_of_lt_of_le ((List.pairwise_cons.1 hs).1 q hq) p1)
  · intro hx
    have h := inv.exit hx
    exact ⟨le_antisymm p1 h, by rw [p2, if_pos h]⟩

/-- With one environment, a stop that anyone requests ends the program soon: once `lf_request_stop` has returned, the worker does at most four more steps,
whatever other threads schedule and however long it was to sleep, each of these steps can be done without waiting for time to pass, and it ends after them.
Missing, and false: several environments (`C81_not_all_enclaves_are_woken`). -/
theorem C81_stop_requests_end_the_program_partial {C : Config} (ok : C.Ok) (hn : C.n = 1) {s : State} (r : Reach C s)
    (hd : s.req = .done) {k : Nat} {s' : State} (h : Run C s k s') :
    k ≤ 4 ∧ (k = 4 → (s'.env 0).pc = .exited) ∧ ((s'.env 0).pc ≠ .exited → ∃ s'', Own C 0 s' s'') := by
  have r' := h.reach r
  obtain ⟨hd', hk⟩ := run_rank ok hn r hd h
  have hb := rank_le s.latest (s.env 0)
  refine ⟨by omega, ?_, fun hx => has_step ok hn r' hd' hx⟩
  intro h4
  have h0 : rank s'.latest (s'.env 0) = 0 := by omega
  cases hp : (s'.env 0).pc with
  | exited => rfl
  | failed => exact absurd hp (reach_inv ok r' 0).ok
  | working =>
      unfold rank at h0
      rw [hp] at h0
      dsimp only at h0
      split at h0
      · omega
      · split at h0 <;> omega
  | waiting u w =>
      unfold rank at h0
      rw [hp] at h0
      dsimp only at h0
      omega

/-! ## What is false -/

/-- One environment, `keepalive`, and a thread that calls `lf_request_stop`. -/
def plain : Config where
  n := 1
  fast := false
  keepalive := true
  enclaves := false
  start := 0
  stop := FOREVER_TAG
  outside := true

/-- Two enclaves. -/
def two : Config where
  n := 2
  fast := false
  keepalive := true
  enclaves := true
  start := 0
  stop := FOREVER_TAG
  outside := false

theorem plain_ok : plain.Ok := ⟨by decide, by decide, by decide⟩
theorem two_ok : two.Ok := ⟨by decide, by decide, by decide⟩

/-- The shutdown reactions can be omitted: another thread calls `lf_request_stop`, which looks at the current tag; before it sets the stop tag, the worker
begins the tag of an event.  The tag barrier that is to prevent this is looked at in federated programs only.  The program processes a tag after its stop tag
and ends without executing the shutdown reactions. -/
theorem C81_not_shutdown_when_another_thread_stops :
    ∃ s, Reach plain s ∧ (s.env 0).pc = .exited ∧ (s.env 0).shutdown = 0 ∧ (s.env 0).stop < (s.env 0).cur := by
  obtain ⟨s, r, h⟩ := run_exists (C := plain) (now := 0)
    (os := [.schedule 0 ⟨1000000, 0⟩, .finish 0, .requestOutside, .gather, .tick 1000000, .timeout 0, .set, .finish 0, .finish 0])
    (fun s => decide ((s.env 0).pc = .exited ∧ (s.env 0).shutdown = 0 ∧ (s.env 0).stop < (s.env 0).cur)) (by decide) (by decide +kernel)
  exact ⟨s, r, of_decide_eq_true h⟩

/-- With enclaves the same happens when a reaction requests the stop: the other enclave begins a tag in between, ends, and never executes its shutdown
reactions. -/
theorem C81_not_shutdown_with_enclaves :
    ∃ s, Reach two s ∧ s.req = .done ∧ (s.env 1).pc = .exited ∧ (s.env 1).shutdown = 0 := by
  obtain ⟨s, r, h⟩ := run_exists (C := two) (now := 0)
    (os := [.schedule 1 ⟨1000000, 0⟩, .finish 1, .request 0, .gather, .gather, .set, .tick 1000000, .timeout 1, .set, .finish 1, .finish 1])
    (fun s => decide (s.req = .done ∧ (s.env 1).pc = .exited ∧ (s.env 1).shutdown = 0)) (by decide) (by decide +kernel)
  exact ⟨s, r, of_decide_eq_true h⟩

/-- With enclaves, those other than the first are not woken by `lf_request_stop`, because it signals the condition variable of the first environment each
time: an enclave sleeps on until the end of time although its stop tag is in the past, and nothing its worker can do ends that before. -/
theorem C81_not_all_enclaves_are_woken :
    ∃ s, Reach two s ∧ s.req = .done ∧ (s.env 1).stop.time ≤ s.now ∧ (s.env 1).pc = .waiting FOREVER false ∧
      ∀ s', Own two 1 s s' → FOREVER ≤ s.now := by
  obtain ⟨s, r, h⟩ := run_exists (C := two) (now := 0) (os := [.finish 1, .request 0, .gather, .gather, .set, .set])
    (fun s => decide (s.req = .done ∧ (s.env 1).stop.time ≤ s.now ∧ (s.env 1).pc = .waiting FOREVER false)) (by decide) (by decide +kernel)
  have h := of_decide_eq_true h
  refine ⟨s, r, h.1, h.2.1, h.2.2, ?_⟩
  intro s' st
  cases st with
  | finish h1 h2 h3 => rw [h.2.2] at h2; cases h2
  | woken h1 h2 => rw [h.2.2] at h2; cases h2
  | timeout h1 h2 h3 => rw [h.2.2] at h2; cases h2; exact h3

/-- With `--fast`, `keepalive` does not keep a program alive: whenever the event queue is empty and there is no timeout, the next step of the worker begins
the last tag there is and executes the shutdown reactions there. -/
theorem C81_not_kept_alive_when_fast {C : Config} (ok : C.Ok) (hf : C.fast = true) {s s' : State} (r : Reach C s) (i : Nat)
    (hk : C.keepalive = true) (hp : (s.env i).pc = .working) (hq : (s.env i).queue = []) (hs : (s.env i).stop = FOREVER_TAG)
    (hc : (s.env i).cur < FOREVER_TAG) (st : Own C i s s') :
    (s'.env i).cur = FOREVER_TAG ∧ (s'.env i).shutdown = 1 ∧ (s'.env i).pc = .working := by
  have inv := reach_inv ok r i
  cases st with
  | woken h1 h2 => rw [hp] at h2; cases h2
  | timeout h1 h2 h3 => rw [hp] at h2; cases h2
  | finish h1 h2 h3 =>
      dsimp only
      rw [Function.update_self]
      have hnx : nextTag (s.env i) = FOREVER_TAG := by
        rw [nextTag_eq, hq, hs]
        exact min_self _
      have hst : starving C (s.env i) = false := by simp [starving, hk]
      have hd : (s.env i).shutdown = 0 := by
        rcases inv.down with h | ⟨-, h⟩
        · exact h
        · rw [hs] at h
          exact absurd hc (not_lt.2 h)
      have hb : (begin_ C s.now s.latest (s.env i)).1 = proceed s.now (s.env i) := by
        unfold begin_
        rw [if_neg (fun h => absurd hc (not_lt.2 (hs ▸ h.2))), hst]
        unfold tryWait
        simp [hf]
      rw [hb]
      rcases proceed_cases inv with ⟨h, -⟩ | ⟨-, e⟩
      · rw [hs] at h
        exact absurd hc (not_lt.2 h)
      · rw [e]
        dsimp only
        rw [hnx, hs, hd, if_pos (le_refl _)]
        exact ⟨rfl, rfl, rfl⟩

/-! ## Examples -/

/-- A thread schedules an event for 2 ms while the worker sleeps until 5 ms: it is woken, sleeps again, and begins both tags at their times; a reaction stops
the program. -/
example : ∃ s, Reach plain s ∧ (s.env 0).pc = .exited ∧ (s.env 0).shutdown = 1 ∧
    (s.env 0).log = [(⟨5000000, 1⟩, 5000000), (⟨5000000, 0⟩, 5000000), (⟨2000000, 0⟩, 2000007), (⟨0, 0⟩, 0)] := by
  obtain ⟨s, r, h⟩ := run_exists (C := plain) (now := 0)
    (os := [.schedule 0 ⟨5000000, 0⟩, .finish 0, .tick 1000000, .schedule 0 ⟨2000000, 0⟩, .woken 0, .spurious 0, .tick 2000007, .timeout 0, .finish 0,
      .tick 5000000, .timeout 0, .request 0, .gather, .set, .finish 0, .finish 0, .finish 0])
    (fun s => decide ((s.env 0).pc = .exited ∧ (s.env 0).shutdown = 1 ∧
      (s.env 0).log = [(⟨5000000, 1⟩, 5000000), (⟨5000000, 0⟩, 5000000), (⟨2000000, 0⟩, 2000007), (⟨0, 0⟩, 0)])) (by decide) (by decide +kernel)
  exact ⟨s, r, of_decide_eq_true h⟩

/-- `C81_wakeups_are_not_lost`: the worker sleeps until the event that was scheduled while it slept. -/
example : ∃ s, Reach plain s ∧ (s.env 0).pc = .waiting 2000000 false ∧ (s.env 0).queue = [⟨2000000, 0⟩, ⟨5000000, 0⟩] := by
  obtain ⟨s, r, h⟩ := run_exists (C := plain) (now := 0)
    (os := [.schedule 0 ⟨5000000, 0⟩, .finish 0, .tick 1000000, .schedule 0 ⟨2000000, 0⟩, .woken 0])
    (fun s => decide ((s.env 0).pc = .waiting 2000000 false ∧ (s.env 0).queue = [⟨2000000, 0⟩, ⟨5000000, 0⟩])) (by decide) (by decide +kernel)
  exact ⟨s, r, of_decide_eq_true h⟩

/-- `C81_due_events_are_begun`: its hypotheses hold at the time of that event. -/
example : ∃ s, Reach plain s ∧ (s.env 0).pc = .waiting 2000000 false ∧ ⟨2000000, 0⟩ ∈ (s.env 0).queue ∧ (2000000 : Int) ≤ s.now := by
  obtain ⟨s, r, h⟩ := run_exists (C := plain) (now := 0)
    (os := [.schedule 0 ⟨5000000, 0⟩, .finish 0, .tick 1000000, .schedule 0 ⟨2000000, 0⟩, .woken 0, .tick 2000001])
    (fun s => decide ((s.env 0).pc = .waiting 2000000 false ∧ ⟨2000000, 0⟩ ∈ (s.env 0).queue ∧ (2000000 : Int) ≤ s.now)) (by decide) (by decide +kernel)
  exact ⟨s, r, of_decide_eq_true h⟩

/-- `C81_no_event_is_lost` and `C81_ends_at_the_stop_tag_after_shutdown_partial`: a program with a timeout where only reactions stop, and an event at the timeout. -/
example : ∃ s, Reach { plain with outside := false, stop := ⟨3000000, 0⟩ } s ∧ (s.env 0).pc = .exited ∧ (s.env 0).shutdown = 1 ∧
    (⟨3000000, 0⟩ : Tag) ∈ (s.env 0).accepted ∧ (s.env 0).cur = ⟨3000000, 0⟩ := by
  obtain ⟨s, r, h⟩ := run_exists (C := { plain with outside := false, stop := ⟨3000000, 0⟩ }) (now := 0)
    (os := [.finish 0, .schedule 0 ⟨3000000, 0⟩, .woken 0, .tick 3000000, .timeout 0, .finish 0, .finish 0])
    (fun s => decide ((s.env 0).pc = .exited ∧ (s.env 0).shutdown = 1 ∧
      (⟨3000000, 0⟩ : Tag) ∈ (s.env 0).accepted ∧ (s.env 0).cur = ⟨3000000, 0⟩)) (by decide) (by decide +kernel)
  exact ⟨s, r, of_decide_eq_true h⟩

/-- `C81_stop_requests_end_the_program_partial`: a worker that sleeps until the end of time when another thread stops the program. -/
example : ∃ s, Reach plain s ∧ s.req = .done ∧ (s.env 0).pc = .waiting FOREVER true := by
  obtain ⟨s, r, h⟩ := run_exists (C := plain) (now := 0) (os := [.finish 0, .tick 7000000, .requestOutside, .gather, .set])
    (fun s => decide (s.req = .done ∧ (s.env 0).pc = .waiting FOREVER true)) (by decide) (by decide +kernel)
  exact ⟨s, r, of_decide_eq_true h⟩

/-- `C81_not_kept_alive_when_fast`: its hypotheses hold at the start. -/
example : (init { plain with fast := true } 0 |>.env 0).queue = [] ∧ (init { plain with fast := true } 0 |>.env 0).stop = FOREVER_TAG ∧
    (init { plain with fast := true } 0 |>.env 0).cur < FOREVER_TAG ∧
    ∃ s', Own { plain with fast := true } 0 (init { plain with fast := true } 0) s' :=
  ⟨rfl, rfl, by decide, _, .finish (by decide) rfl id⟩

end ReactorC.Async
