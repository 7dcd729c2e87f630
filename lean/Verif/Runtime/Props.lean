import Verif.Runtime.Cause
import Verif.Runtime.Demo

/-!
# C13-C17: the main loop

`Exec` is any execution of the loop (any program, any reaction bodies, any clock readings, any tie
breaking in the queues); `Good` additionally keeps to the documented domain (no 64-bit overflow, a
microstep left, physical actions in the future). The vocabulary is in `Verif.Runtime.Spec`; logs
list the latest entry first.
-/

set_option linter.unusedVariables false

namespace ReactorC.Runtime
open ReactorC ReactorC.Sched

/-! ## C13 -/

/-- C13: in every execution the visited tags are strictly increasing and the latest is the current
tag. -/
theorem C13_tags_strictly_increase {P : Prog} {start duration : Int} {ls : List Label} {s : St}
    (h : Exec P start duration ls s) :
    (tagsOf s.log).Pairwise (fun later earlier => earlier < later) ∧
      (tagsOf s.log).head? = some s.env.cur :=
  ⟨(exec_UInv h).tags, (exec_UInv h).tag⟩

/-- C13: in every execution an event is processed exactly at its own tag, which is a tag the
execution visited. -/
theorem C13_event_processed_at_its_tag {P : Prog} {start duration : Int} {ls : List Label} {s : St}
    (h : Exec P start duration ls s) {g : Tag} {e : Event} (hp : Entry.popped g e ∈ s.log) :
    g = e.tag ∧ e.tag ∈ tagsOf s.log := by
  obtain ⟨h1, h2⟩ := (exec_UInv h).popped_at g e hp
  exact ⟨h1, h1 ▸ h2⟩

/-- C13: within the domain the runtime never exits with an error. -/
theorem C13_never_aborts {P : Prog} {start duration : Int} (wf : WF P start duration)
    {ls : List Label} {s : St} (h : Good P start duration ls s) : s.phase ≠ .aborted :=
  (good_inv wf h).alive

/-- C13: no event is processed twice. -/
theorem C13_event_processed_at_most_once {P : Prog} {start duration : Int} (wf : WF P start duration)
    {ls : List Label} {s : St} (h : Good P start duration ls s) :
    ((poppedOf s.log).map Event.id).Nodup := by
  have h' := (good_inv wf h).all_ids_nodup
  rw [List.map_append] at h'
  exact (List.nodup_append.1 h').2.1

/-- C13: only queued events are processed, unchanged in identity, tag and trigger. -/
theorem C13_only_queued_events_processed {P : Prog} {start duration : Int} (wf : WF P start duration)
    {ls : List Label} {s : St} (h : Good P start duration ls s) {e : Event}
    (he : e ∈ poppedOf s.log) :
    ∃ e' ∈ insertedOf s.log, e'.id = e.id ∧ e'.tag = e.tag ∧ e'.trigger = e.trigger := by
  have h1 : key e ∈ (insertedOf s.log).map key :=
    (good_inv wf h).conserve.mem_iff.2 (List.mem_map.2 ⟨e, by simp [he], rfl⟩)
  obtain ⟨e', he', hk⟩ := List.mem_map.1 h1
  simp only [key, Prod.mk.injEq] at hk
  exact ⟨e', he', hk.1, hk.2.1, hk.2.2⟩

/-- C13: no event is lost. An event whose tag has been passed (or reached, once the events of the
current tag have been taken) has been processed. -/
theorem C13_no_event_lost {P : Prog} {start duration : Int} (wf : WF P start duration)
    {ls : List Label} {s : St} (h : Good P start duration ls s) {e : Event}
    (he : e ∈ insertedOf s.log)
    (hle : e.tag < s.env.cur ∨ (s.phase ≠ .popping ∧ e.tag = s.env.cur)) :
    ∃ e' ∈ poppedOf s.log, e'.id = e.id ∧ e'.tag = e.tag ∧ e'.trigger = e.trigger := by
  have inv := good_inv wf h
  have h1 : key e ∈ (s.env.q ++ poppedOf s.log).map key :=
    inv.conserve.mem_iff.1 (List.mem_map.2 ⟨e, he, rfl⟩)
  obtain ⟨e', he', hk⟩ := List.mem_map.1 h1
  simp only [key, Prod.mk.injEq] at hk
  rcases List.mem_append.1 he' with hq | hp
  · exfalso
    rcases hle with hlt | ⟨hph, heq⟩
    · have := inv.q_now e' hq
      rw [hk.2.1] at this
      exact Tag.lt_irrefl _ (Tag.lt_of_lt_of_le hlt this)
    · have := inv.q_future hph e' hq
      rw [hk.2.1, heq] at this
      exact Tag.lt_irrefl _ this
  · exact ⟨e', hp, hk.1, hk.2.1, hk.2.2⟩

/-- C13: when execution has ended, every event queued with a tag up to the stop tag has been
processed. -/
theorem C13_all_processed_at_end {P : Prog} {start duration : Int} (wf : WF P start duration)
    {ls : List Label} {s : St} (h : Good P start duration ls s) (hs : s.phase = .stopped) {e : Event}
    (he : e ∈ insertedOf s.log) (hle : e.tag ≤ s.env.stop) :
    ∃ e' ∈ poppedOf s.log, e'.id = e.id ∧ e'.tag = e.tag ∧ e'.trigger = e.trigger := by
  have inv := good_inv wf h
  refine C13_no_event_lost wf h he ?_
  rw [← inv.stopped hs] at hle
  rcases Tag.lt_or_eq_of_le hle with h' | h'
  · exact Or.inl h'
  · exact Or.inr ⟨by rw [hs]; decide, h'⟩

/-- C13: nothing after the stop tag is processed: every visited tag is at most the stop tag. -/
theorem C13_nothing_after_stop {P : Prog} {start duration : Int} (wf : WF P start duration)
    {ls : List Label} {s : St} (h : Good P start duration ls s) :
    ∀ g ∈ tagsOf s.log, g ≤ s.env.stop := by
  have inv := good_inv wf h
  obtain ⟨hp, hh⟩ := C13_tags_strictly_increase h.exec
  intro g hg
  cases htags : tagsOf s.log with
  | nil => rw [htags] at hg; simp at hg
  | cons a b =>
    rw [htags] at hg hh hp
    simp at hh
    subst hh
    rcases List.mem_cons.1 hg with rfl | hg
    · exact inv.stop
    · exact Tag.le_trans (Tag.le_of_lt ((List.pairwise_cons.1 hp).1 g hg)) inv.stop

/-- The hypotheses are met by a complete run with four tags and two processed events. -/
example : ∃ ls s, WF demo 100 15 ∧ Good demo 100 15 ls s ∧ Exec demo 100 15 ls s ∧ s.phase = .stopped ∧
    tagsOf s.log = [⟨115, 0⟩, ⟨110, 0⟩, ⟨103, 0⟩, ⟨100, 0⟩] ∧
    (poppedOf s.log).map Event.id = [0, 1] := by
  obtain ⟨ls, h⟩ := demo_good
  obtain ⟨f1, f2, _, _, _, _, _, _, f3⟩ := demo_facts
  exact ⟨ls, demoEnd, demo_wf, h, h.exec, f1, f2, f3⟩

/-- C13 needs the domain: with assertions disabled (`NDEBUG`) and a physical clock behind logical time, an action
scheduled on a physical action puts an event before the current tag, and the runtime exits with an
error when it tries to advance. -/
theorem C13_past_event_aborts :
    ∃ ls s, Exec { demo with debug := false } 100 15 ls s ∧ s.phase = .aborted := by
  have h : ∃ s, runAny { demo with debug := false } (init { demo with debug := false } 100 15)
      [.start 0 100, .call 2 0 none 40, .finish [] 0, .start 3 0, .finish [] 0, .endStep, .next]
      = some s ∧ s.phase = .aborted := ⟨_, rfl, rfl⟩
  obtain ⟨s, h1, h2⟩ := h
  obtain ⟨ls, hls⟩ := exec_of_runAny _ .init h1
  exact ⟨ls, s, hls, h2⟩

/-! ## C14 -/

/-- C14: no reaction runs without a cause recorded at the same tag (an event, a timer, startup,
shutdown, or an output produced by another reaction). Every program, every execution. -/
theorem C14_no_untriggered_reaction {P : Prog} {start duration : Int} {ls : List Label} {s : St}
    (h : Exec P start duration ls s) {g : Tag} {r : Nat} {k : Kind} {p : Int}
    (hr : Entry.run g r k p ∈ s.log) : Caused P s.log g r :=
  (exec_UInv h).run_caused g r k p hr

/-- C14: at every tag each reaction runs at most once. -/
theorem C14_at_most_once_per_tag {P : Prog} {start duration : Int} (top : Topological P)
    (sole : SoleEnabler P) {ls : List Label} {s : St} (h : Exec P start duration ls s) (g : Tag) :
    (runsAt g s.log).Nodup :=
  ((exec_RInv top sole h).runs_ok g).once

/-- C14: at every tag reactions run in precedence order: no reaction runs after one that it
(transitively) precedes. -/
theorem C14_precedence_order {P : Prog} {start duration : Int} (top : Topological P)
    (sole : SoleEnabler P) {ls : List Label} {s : St} (h : Exec P start duration ls s) (g : Tag) :
    (runsAt g s.log).Pairwise (fun later earlier => ¬ Precedes P later earlier) :=
  ((exec_RInv top sole h).runs_ok g).order

/-- C14: without chain optimization, reactions run in order of their index. -/
theorem C14_index_order {P : Prog} {start duration : Int} (top : Topological P)
    (nochain : ∀ d, P.lastEnabling d = none) {ls : List Label} {s : St}
    (h : Exec P start duration ls s) (g : Tag) :
    (runsAt g s.log).Pairwise (fun later earlier => P.index earlier ≤ P.index later) := by
  have sole : SoleEnabler P := by
    intro d r hd; rw [nochain d] at hd; cases hd
  exact ((exec_RInv top sole h).runs_ok g).index nochain

/-- C14: every caused reaction runs exactly once at its tag, as soon as that tag is over. -/
theorem C14_every_triggered_reaction_runs {P : Prog} {start duration : Int} (top : Topological P)
    (sole : SoleEnabler P) {ls : List Label} {s : St} (h : Exec P start duration ls s) {g : Tag}
    {r : Nat} (hc : Caused P s.log g r)
    (over : g ≠ s.env.cur ∨ s.phase = .waiting ∨ s.phase = .stopped) :
    (runsAt g s.log).count r = 1 := by
  have inv := exec_RInv top sole h
  have hmem : r ∈ runsAt g s.log ∨ (g = s.env.cur ∧ r ∈ s.rq) := by
    rcases hc with ⟨x, hx, hc⟩ | ⟨r', hr'⟩
    · exact inv.trig x hx g r hc
    · exact inv.outs g r' r hr'
  rcases hmem with hm | ⟨hg, hrq⟩
  · exact List.count_eq_one_of_mem ((inv.runs_ok g).once) hm
  · exfalso
    rcases over with h' | h' | h'
    · exact h' hg
    · rw [inv.quiet (by rw [h']; decide) (by rw [h']; decide)] at hrq; simp at hrq
    · rw [inv.quiet (by rw [h']; decide) (by rw [h']; decide)] at hrq; simp at hrq

/-- The hypotheses are met; at (100,0) reactions 0, then 1 (executed immediately as sole
downstream), then 3 run. -/
example : Topological demo ∧ SoleEnabler demo ∧ ∃ ls s, Exec demo 100 15 ls s ∧
    runsAt ⟨100, 0⟩ s.log = [3, 1, 0] ∧ s.phase = .stopped := by
  obtain ⟨ls, h⟩ := demo_good
  exact ⟨demo_topological, demo_sole, ls, demoEnd, h.exec, demo_facts.2.2.2.1, demo_facts.1⟩

example : Topological { demo with lastEnabling := fun _ => none } ∧
    ∀ d, ({ demo with lastEnabling := fun _ => none } : Prog).lastEnabling d = none :=
  ⟨demo_topological, fun _ => rfl⟩

/-- C14 needs the contract on `last_enabling_reaction`: if a reaction marked as having a unique
enabling reaction is also triggered otherwise, it runs twice at the same tag, because it is executed immediately without
checking whether it is queued. -/
theorem C14_runs_twice_without_contract :
    ∃ P : Prog, Topological P ∧ ∃ ls s, Exec P 100 15 ls s ∧ runsAt ⟨100, 0⟩ s.log = [1, 1, 0] := by
  refine ⟨{ demo with startup := [1] }, demo_topological, ?_⟩
  have h : ∃ s, runAny { demo with startup := [1] } (init { demo with startup := [1] } 100 15)
      [.start 0 100, .finish [1] 100, .finish [] 0, .start 1 100] = some s ∧
      runsAt ⟨100, 0⟩ s.log = [1, 1, 0] := ⟨_, rfl, by decide⟩
  obtain ⟨s, h1, h2⟩ := h
  obtain ⟨ls, hls⟩ := exec_of_runAny _ .init h1
  exact ⟨ls, s, hls, h2⟩

/-! ## C15 -/

/-- C15: at any point of the execution a timer with offset `o` and period `p > 0` has fired exactly at
`start + o`, `start + o + p`, ..., each once and in order. -/
theorem C15_fires_at_multiples {P : Prog} {start duration : Int} (wf : WF P start duration)
    {ls : List Label} {s : St} (h : Good P start duration ls s) {t : Nat} (ht : t ∈ P.timers) :
    ∃ k : Nat, (firesOf t s.log).reverse = (List.range k).map (fun i : Nat =>
      (⟨start + (P.trigs t).offset + i * (P.trigs t).period, 0⟩ : Tag)) ∧
      ((P.trigs t).period = 0 → k ≤ 1) := by
  obtain ⟨k, h1, h2, _⟩ := good_AllT wf h t ht
  exact ⟨k, by rw [h1]; simp [fireList], h2⟩

/-- The next firing lies beyond what has been processed. -/
theorem timer_next_beyond {P : Prog} {start duration : Int} (wf : WF P start duration)
    {ls : List Label} {s : St} (h : Good P start duration ls s) {t : Nat} (ht : t ∈ P.timers) :
    ∃ k, firesOf t s.log = fireList start (P.trigs t) k ∧ ((P.trigs t).period = 0 → k ≤ 1) ∧
      ∀ g, nextFire start (P.trigs t) k = some g →
        s.env.cur ≤ g ∧ (s.phase ≠ .popping → s.env.cur < g) ∧
        (s.phase = .stopped → s.env.stop < g) := by
  have inv := good_inv wf h
  obtain ⟨k, h1, h2, h3⟩ := good_AllT wf h t ht
  refine ⟨k, h1, h2, ?_⟩
  intro g hg
  rcases h3 with h3 | ⟨h3, h4⟩
  · rw [hg] at h3
    have hm : g ∈ pendOf t s.env.q := by rw [h3]; simp
    simp only [pendOf, List.mem_map, List.mem_filter] at hm
    obtain ⟨e, ⟨he, _⟩, rfl⟩ := hm
    refine ⟨inv.q_now e he, fun hp => inv.q_future hp e he, ?_⟩
    intro hs
    rw [← inv.stopped hs]
    exact inv.q_future (by rw [hs]; decide) e he
  · have := h4 g hg
    have hlt := Tag.lt_of_le_of_lt inv.stop this
    exact ⟨Tag.le_of_lt hlt, fun _ => hlt, fun _ => this⟩

/-- C15: when execution has ended, a periodic timer has fired at exactly those multiples that are
not after the stop tag. -/
theorem C15_no_firing_missed {P : Prog} {start duration : Int} (wf : WF P start duration)
    {ls : List Label} {s : St} (h : Good P start duration ls s) (hs : s.phase = .stopped)
    {t : Nat} (ht : t ∈ P.timers) (hp : 0 < (P.trigs t).period) (i : Nat) :
    (⟨start + (P.trigs t).offset + i * (P.trigs t).period, 0⟩ : Tag) ∈ firesOf t s.log ↔
      (⟨start + (P.trigs t).offset + i * (P.trigs t).period, 0⟩ : Tag) ≤ s.env.stop := by
  have inv := good_inv wf h
  obtain ⟨k, h1, h2, h3⟩ := timer_next_beyond wf h ht
  have hcur := inv.stopped hs
  have htime := inv.time
  have hnf : nextFire start (P.trigs t) k = some (if start + (P.trigs t).offset + k * (P.trigs t).period < FOREVER
      then ⟨start + (P.trigs t).offset + k * (P.trigs t).period, 0⟩ else FOREVER_TAG) := by
    unfold nextFire; rw [if_neg (by omega)]
  obtain ⟨_, _, hb⟩ := h3 _ hnf
  have hb := hb hs
  constructor
  · intro hm
    -- a visited tag
    have hlt : i < k := by
      rw [h1] at hm
      simp only [fireList, List.mem_reverse, List.mem_map, List.mem_range, Tag.mk.injEq, and_true] at hm
      obtain ⟨j, hj, he⟩ := hm
      have : (j : Int) * (P.trigs t).period = i * (P.trigs t).period := by omega
      have := Int.eq_of_mul_eq_mul_right (by omega) this
      omega
    -- it was fired, hence at a visited tag
    have hv : ∀ g ∈ firesOf t s.log, g ≤ s.env.stop := by
      intro g hg
      apply C13_nothing_after_stop wf h
      simp only [firesOf, List.mem_filterMap] at hg
      obtain ⟨x, hx, hxg⟩ := hg
      cases x with
      | timerAtStart g' t' =>
        simp only at hxg
        split at hxg
        · simp only [Option.some.injEq] at hxg
          subst hxg
          have : ∀ g t', Entry.timerAtStart g t' ∈ s.log → g ∈ tagsOf s.log :=
            timerAtStart_tag h.exec
          exact this _ _ hx
        · cases hxg
      | popped g' e =>
        simp only at hxg
        split at hxg
        · simp only [Option.some.injEq] at hxg
          subst hxg
          exact ((exec_UInv h.exec).popped_at _ _ hx).2
        · cases hxg
      | _ => simp at hxg
    exact hv _ hm
  · intro hle
    rw [h1]
    simp only [fireList, List.mem_reverse, List.mem_map, List.mem_range, Tag.mk.injEq, and_true]
    refine ⟨i, ?_, rfl⟩
    by_contra hik
    have hki : (k : Int) * (P.trigs t).period ≤ i * (P.trigs t).period :=
      Int.mul_le_mul_of_nonneg_right (by omega) (by omega)
    split at hb
    · have : (⟨start + (P.trigs t).offset + i * (P.trigs t).period, 0⟩ : Tag) <
          ⟨start + (P.trigs t).offset + k * (P.trigs t).period, 0⟩ := Tag.lt_of_le_of_lt hle hb
      rw [Tag.lt_def] at this
      simp only at this
      omega
    · rename_i hge
      rw [← hcur] at hle
      rw [Tag.le_def] at hle
      simp only at hle
      omega

/-- C15: when execution has ended, a timer with period 0 has fired exactly once, at `start + offset`,
unless that is after the stop tag. -/
theorem C15_one_shot {P : Prog} {start duration : Int} (wf : WF P start duration)
    {ls : List Label} {s : St} (h : Good P start duration ls s) (hs : s.phase = .stopped)
    {t : Nat} (ht : t ∈ P.timers) (hp : (P.trigs t).period = 0) :
    ((⟨start + (P.trigs t).offset, 0⟩ : Tag) ≤ s.env.stop →
      firesOf t s.log = [⟨start + (P.trigs t).offset, 0⟩]) ∧
    (firesOf t s.log = [⟨start + (P.trigs t).offset, 0⟩] ∨ firesOf t s.log = []) := by
  obtain ⟨k, h1, h2, h3⟩ := timer_next_beyond wf h ht
  have hk := h2 hp
  have hk' : k = 0 ∨ k = 1 := by omega
  rcases hk' with rfl | rfl
  · have hnf : nextFire start (P.trigs t) 0 = some ⟨start + (P.trigs t).offset, 0⟩ := by
      simp [nextFire, (wf.timer_offset t ht).2]
    obtain ⟨_, _, hb⟩ := h3 _ hnf
    refine ⟨fun hle => ?_, Or.inr (by rw [h1]; rfl)⟩
    exact absurd (Tag.lt_of_le_of_lt hle (hb hs)) (Tag.lt_irrefl _)
  · have : firesOf t s.log = [⟨start + (P.trigs t).offset, 0⟩] := by
      rw [h1]; simp [fireList]
    exact ⟨fun _ => this, Or.inl this⟩

/-- Timer 0 of the example (offset 0, period 10, stop at 115) fires at 100 and 110. -/
example : ∃ ls s, Good demo 100 15 ls s ∧ s.phase = .stopped ∧ 0 ∈ demo.timers ∧
    0 < (demo.trigs 0).period ∧ firesOf 0 s.log = [⟨110, 0⟩, ⟨100, 0⟩] := by
  obtain ⟨ls, h⟩ := demo_good
  exact ⟨ls, demoEnd, h, demo_facts.1, by decide, by decide, demo_facts.2.2.1⟩

/-! ## C16 -/

/-- C16: no step of any execution moves the stop tag later. -/
theorem C16_stop_tag_never_later {P : Prog} {s s' : St} {l : Label}
    (h : step P s l = some s') : s'.env.stop ≤ s.env.stop := step_stop_le h

/-- C16, but for the last microstep (see `C16_request_stop_wraps`): after `lf_request_stop` at `(t, m)` the stop tag is `(t, m+1)` or the earlier existing one. -/
theorem C16_request_stop_partial {P : Prog} {s s' : St} (hm : s.env.cur.microstep < UINT_MAX)
    (h : step P s .requestStop = some s') :
    s'.env.cur = s.env.cur ∧
    s'.env.stop = if (⟨s.env.cur.time, s.env.cur.microstep + 1⟩ : Tag) < s.env.stop
      then ⟨s.env.cur.time, s.env.cur.microstep + 1⟩ else s.env.stop := by
  simp only [step] at h
  split at h
  · simp only [Option.some.injEq] at h
    subst h
    refine ⟨by simp, ?_⟩
    have hst : stopSoon s.env = ⟨s.env.cur.time, s.env.cur.microstep + 1⟩ := by
      have : wrapU32 (s.env.cur.microstep + 1) = s.env.cur.microstep + 1 := by
        simp only [wrapU32, UINT_MAX] at *; omega
      rw [stopSoon, this]
    rw [← hst]
    rcases setStop_cases s.env (stopSoon s.env) with ⟨h1, h2⟩ | ⟨h1, h2⟩
    · rw [if_pos h1]; simp only [h2]
    · rw [if_neg (Tag.not_lt.2 h1)]; simp only [h2]
  · cases h

/-- C16: execution ends exactly at the stop tag, where the shutdown reactions were triggered once
and nowhere else. -/
theorem C16_ends_at_stop_tag {P : Prog} {start duration : Int} (wf : WF P start duration)
    {ls : List Label} {s : St} (h : Good P start duration ls s) (hs : s.phase = .stopped) :
    s.env.cur = s.env.stop ∧ shutdownsOf s.log = [s.env.stop] := by
  have inv := good_inv wf h
  have hc := inv.stopped hs
  refine ⟨hc, ?_⟩
  rcases inv.shut with ⟨_, h2⟩ | ⟨h1, _⟩
  · rw [h2, hc]
  · rw [hc] at h1; exact absurd h1 (Tag.lt_irrefl _)

/-- C16: before the end, shutdown has been triggered only if the current tag is the stop tag. -/
theorem C16_shutdown_only_at_stop {P : Prog} {start duration : Int} (wf : WF P start duration)
    {ls : List Label} {s : St} (h : Good P start duration ls s) {g : Tag}
    (hg : g ∈ shutdownsOf s.log) : g = s.env.stop ∧ s.env.cur = s.env.stop := by
  rcases (good_inv wf h).shut with ⟨h1, h2⟩ | ⟨_, h2⟩
  · rw [h2] at hg
    simp only [List.mem_singleton] at hg
    exact ⟨hg.trans h1, h1⟩
  · rw [h2] at hg; simp at hg

/-- C16: each shutdown reaction runs exactly once at the stop tag. -/
theorem C16_shutdown_reactions_run_once {P : Prog} {start duration : Int} (wf : WF P start duration)
    (top : Topological P) (sole : SoleEnabler P) {ls : List Label} {s : St}
    (h : Good P start duration ls s) (hs : s.phase = .stopped) {r : Nat} (hr : r ∈ P.shutdown) :
    (runsAt s.env.stop s.log).count r = 1 := by
  obtain ⟨h1, h2⟩ := C16_ends_at_stop_tag wf h hs
  refine C14_every_triggered_reaction_runs top sole h.exec (Or.inl ⟨.shutdown s.env.stop, ?_, .shutdown hr⟩)
    (Or.inr (Or.inr hs))
  have : s.env.stop ∈ shutdownsOf s.log := by rw [h2]; simp
  simp only [shutdownsOf, List.mem_filterMap] at this
  obtain ⟨x, hx, hxg⟩ := this
  cases x <;> simp at hxg
  subst hxg
  exact hx

example : ∃ ls s, Good demo 100 15 ls s ∧ s.phase = .stopped ∧ 4 ∈ demo.shutdown ∧
    runsAt ⟨115, 0⟩ s.log = [4] := by
  obtain ⟨ls, h⟩ := demo_good
  exact ⟨ls, demoEnd, h, demo_facts.1, by decide, demo_facts.2.2.2.2.2.1⟩

/-- A stop request during the first step of the example moves the stop tag to (100,1). -/
example : ∃ s s', Good demo 100 15 [.start 0 100] s ∧ s.env.cur.microstep < UINT_MAX ∧
    step demo s .requestStop = some s' ∧ s'.env.stop = ⟨100, 1⟩ := by
  refine ⟨_, _, .step .init (l := .start 0 100) rfl trivial (by decide), by decide, rfl, by decide⟩

/-- C16 fails at the last microstep: a stop requested at microstep `UINT_MAX` before the stop tag
sets a stop tag *before* the current tag, so that the next step ends execution without triggering
the shutdown reactions. -/
theorem C16_request_stop_wraps {P : Prog} {s : St} (hph : s.phase = .reacting)
    (hm : s.env.cur.microstep = UINT_MAX) (hs : s.env.cur < s.env.stop) :
    ∃ s', step P s .requestStop = some s' ∧ s'.env.stop < s'.env.cur ∧
      (s.rq = [] → s.exec = none → ∃ s'', step P s' .endStep = some s'' ∧ s''.phase = .stopped ∧
        s''.log = s.log) := by
  have hst : stopSoon s.env = ⟨s.env.cur.time, 0⟩ := by
    simp only [stopSoon, hm]; rfl
  have hlt : stopSoon s.env < s.env.cur := by
    rw [hst, Tag.lt_def]; right; exact ⟨rfl, by rw [hm]; simp [UINT_MAX]⟩
  rcases setStop_cases s.env (stopSoon s.env) with ⟨h1, h2⟩ | ⟨h1, h2⟩
  · refine ⟨{ s with env := { s.env with stop := stopSoon s.env } }, ?_, hlt, ?_⟩
    · simp [step, hph, h2]
    · intro hrq hex
      refine ⟨{ s with env := { s.env with stop := stopSoon s.env }, phase := .stopped }, ?_, rfl, rfl⟩
      have : lf_tag_compare s.env.cur (stopSoon s.env) ≥ 0 := by
        rw [ge_iff_le, cmp_ge_zero]; exact Tag.le_of_lt hlt
      simp [step, hph, hrq, hex, this]
  · exact absurd (Tag.lt_trans (Tag.lt_of_lt_of_le hs h1) hlt) (Tag.lt_irrefl _)

/-! ## C17 -/

/-- The specification: a reaction with deadline `d ≥ 0` is on time iff `d ≠ 0` and the physical time
read is at most logical time plus `d`; one without deadline always is. -/
def OnTime (P : Prog) (g : Tag) (r : Nat) (phys : Int) : Prop :=
  P.deadline r < 0 ∨ (P.deadline r ≠ 0 ∧ phys ≤ g.time + P.deadline r)

/-- C17: in every execution, each invocation of a reaction runs the body iff it is on time, the
deadline handler iff it is late and there is a handler, and nothing iff it is late without handler;
provided logical time plus deadline fits in 64 bits. -/
theorem C17_deadline_selection {P : Prog} {start duration : Int} (top : Topological P)
    (sole : SoleEnabler P) {ls : List Label} {s : St} (h : Exec P start duration ls s) {g : Tag}
    {r : Nat} {k : Kind} {phys : Int} (hr : Entry.run g r k phys ∈ s.log)
    (fits : 0 ≤ P.deadline r → IsI64 (g.time + P.deadline r)) :
    (k = .body ↔ OnTime P g r phys) ∧
    (k = .handler ↔ ¬ OnTime P g r phys ∧ P.hasHandler r = true) ∧
    (k = .skipped ↔ ¬ OnTime P g r phys ∧ P.hasHandler r = false) := by
  have hk := (exec_RInv top sole h).kind g r k phys hr
  unfold invocation at hk
  unfold OnTime
  by_cases hd : 0 ≤ P.deadline r
  · rw [wrap64_id (fits hd)] at hk
    split at hk
    · rename_i hc
      have hnot : ¬ (P.deadline r < 0 ∨ (P.deadline r ≠ 0 ∧ phys ≤ g.time + P.deadline r)) := by omega
      split at hk <;> rename_i hh <;> subst hk <;> simp [hnot, hh]
    · rename_i hc
      subst hk
      have : P.deadline r < 0 ∨ (P.deadline r ≠ 0 ∧ phys ≤ g.time + P.deadline r) := by omega
      simp [this]
  · rw [if_neg (by omega)] at hk
    subst hk
    have : P.deadline r < 0 ∨ (P.deadline r ≠ 0 ∧ phys ≤ g.time + P.deadline r) := by omega
    simp [this]

/-- Reaction 1 (deadline 5) runs its body at 100 when the clock reads 105 and its handler at 110
when it reads 120. -/
example : ∃ ls s, Exec demo 100 15 ls s ∧ Entry.run ⟨100, 0⟩ 1 .body 105 ∈ s.log ∧
    Entry.run ⟨110, 0⟩ 1 .handler 120 ∈ s.log ∧ IsI64 ((110 : Int) + demo.deadline 1) := by
  obtain ⟨ls, h⟩ := demo_good
  exact ⟨ls, demoEnd, h.exec, demo_facts.2.2.2.2.2.2.1, demo_facts.2.2.2.2.2.2.2.1,
    by constructor <;> decide⟩

end ReactorC.Runtime
