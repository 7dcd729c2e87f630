import Verif.Leave.Ending
import Verif.Leave.Grants
import Verif.Fed.NextEvent
import Verif.Start.Props

/-!
# C82: federates that leave or crash, the end of the RTI and what it tells

Statements about bytes: what a federate sends is cut anywhere by a crash (`List.take k`).
-/

set_option linter.unusedSimpArgs false
set_option linter.unusedVariables false

namespace ReactorC.Leave
open ReactorC.Net

/-! ## Every point at which a federate may crash -/

/-- Specification: `ms` are complete messages none of which says that the federate leaves. -/
def Talk (big : Bool) (ms : List (List Byte)) : Prop := ∀ m ∈ ms, IsMessage rtiReads big m ∧ ¬ Leaves m

/-- **C82** Whatever messages a federate sends, and at whatever byte it crashes: the RTI handles exactly the messages that have
arrived completely, in order.  If the crash falls between two messages, the thread of the federate ends; if it falls within a
message, the whole RTI ends with an error. -/
theorem C82_every_crash_point (big : Bool) {ms : List (List Byte)} (hm : Talk big ms) {k : Nat} (hk : k ≤ ms.flatten.length) :
    ∃ before part, ms.flatten.take k = before.flatten ++ part ∧
      ((part = [] ∧ (∃ after, ms = before ++ after) ∧
          federate_info_thread_TCP big (ms.flatten.take k) = (before, .closed)) ∨
       (part ≠ [] ∧ (∃ m after x, ms = before ++ m :: after ∧ x ≠ [] ∧ m = part ++ x) ∧
          federate_info_thread_TCP big (ms.flatten.take k) = (before, .fatal))) := by
  obtain ⟨before, part, h1, h2⟩ := cut ms k hk
  refine ⟨before, part, h1, ?_⟩
  unfold federate_info_thread_TCP
  rw [h1]
  rcases h2 with ⟨rfl, after, rfl⟩ | ⟨hp, m, after, x, rfl, hx, hmx⟩
  · exact .inl ⟨rfl, ⟨after, rfl⟩, rtiListen_messages (fun m h => hm m (List.mem_append_left _ h)) rfl _ (by simp)⟩
  · have hmm := hm m (List.mem_append_right _ List.mem_cons_self)
    exact .inr ⟨hp, ⟨m, after, x, rfl, hx, hmx⟩, rtiListen_messages (fun m h => hm m (List.mem_append_left _ h))
      (rtiNext_part hmm.1 hmx hp hx) _ (by simp)⟩

/-- **C82** A federate that resigns or says that it failed after its last message is understood so, whatever may follow. -/
theorem C82_farewells_are_understood (big : Bool) {ms : List (List Byte)} (hm : Talk big ms) (rest : List Byte) :
    federate_info_thread_TCP big (ms.flatten ++ MSG_TYPE_RESIGN :: rest) = (ms, .resigned) ∧
    federate_info_thread_TCP big (ms.flatten ++ MSG_TYPE_FAILED :: rest) = (ms, .failed) :=
  ⟨rtiListen_messages hm (rtiNext_resign big rest) _ (by simp), rtiListen_messages hm (rtiNext_failed big rest) _ (by simp)⟩

/-- A next event tag and a tagged message with two bytes of payload for federate 1. -/
def demoNet : List Byte := MSG_TYPE_NEXT_EVENT_TAG :: List.replicate 12 0#8
def demoMsg : List Byte := MSG_TYPE_TAGGED_MESSAGE :: ([0#8, 0#8, 1#8, 0#8, 2#8, 0#8, 0#8, 0#8] ++ List.replicate 12 0#8 ++ [7#8, 8#8])

theorem demo_talk : Talk false [demoNet, demoMsg] := by
  intro m h
  simp only [List.mem_cons, List.not_mem_nil, or_false] at h
  rcases h with rfl | rfl
  · exact ⟨.inr ⟨_, _, by decide, by decide, rfl⟩, by unfold Leaves; decide⟩
  · refine ⟨.inl ⟨[0#8, 0#8, 1#8, 0#8, 2#8, 0#8, 0#8, 0#8] ++ List.replicate 12 0#8, [7#8, 8#8], by decide, by decide, by decide⟩,
      by unfold Leaves; decide⟩

/-- The crash points are all there: 13 bytes for the first message, 23 for the second. -/
example : [demoNet, demoMsg].flatten.length = 36 ∧
    federate_info_thread_TCP false ([demoNet, demoMsg].flatten.take 13) = ([demoNet], .closed) ∧
    federate_info_thread_TCP false ([demoNet, demoMsg].flatten.take 35) = ([demoNet], .fatal) ∧
    federate_info_thread_TCP false ([demoNet, demoMsg].flatten.take 36) = ([demoNet, demoMsg], .closed) := by decide +kernel

/-! ## The end of the RTI -/

variable {F : Federation} {k : Nat} {s : State}

/-- **C82** The RTI comes to its end: whatever the federates send, provided that each connection ends some time, in whatever
order the threads do their work, there is a bound on the number of steps, and as long as the RTI has not ended, some thread
can do a step. -/
theorem C82_the_rti_ends (F : Federation) : ∃ bound, ∀ k s, Reach F k s →
    k ≤ bound ∧ ((∃ c, s.main = .exited c) ∨ ∃ t, Step F s t) :=
  ⟨togo F (init F), fun k s r => ⟨by have := reach_togo r; omega, has_step (reach_inv r)⟩⟩

/-- **C82** If a federate says that it failed, the exit code of the RTI is not 0. -/
theorem C82_reported_failures_reach_the_exit_code_partial (r : Reach F k s) {c : Nat} (hc : s.main = .exited c) {i : Nat} (hi : i < F.n)
    {ms : List (List Byte)} (hm : Talk F.big ms) {rest : List Byte} (hs : F.stream i = ms.flatten ++ MSG_TYPE_FAILED :: rest) :
    c ≠ 0 := by
  have v := reach_inv r
  rcases v.exited c hc with ⟨h1, h2, _⟩ | ⟨h1, _⟩
  · have hsome := h1 i hi
    cases he : s.ended i with
    | none => rw [he] at hsome; cases hsome
    | some e =>
      obtain ⟨_, k1, _⟩ := v.how i e he
      obtain ⟨ns, k2, k3⟩ := v.read i
      obtain ⟨_, k4⟩ := same_end k2 hm k1 (rtiNext_failed F.big rest) (by rw [← k3, hs])
      have : s.error = true := v.error.2 ⟨i, by rw [he, k4]⟩
      rw [this] at h2
      rw [h2]; decide
  · rw [h1]; decide

/-- **C82** If the exit code of the RTI is 0, then every federate has resigned, or its connection was closed between two
messages; none said that it failed, and nobody was told that the RTI failed. -/
theorem C82_exit_code_zero (r : Reach F k s) (hc : s.main = .exited 0) : (∀ j, s.told j = false) ∧ ∀ i, i < F.n →
    ∃ ms, Talk F.big ms ∧ (F.stream i = ms.flatten ∨ ∃ rest, F.stream i = ms.flatten ++ MSG_TYPE_RESIGN :: rest) := by
  have v := reach_inv r
  rcases v.exited 0 hc with ⟨h1, h2, h3⟩ | ⟨h1, _⟩
  · refine ⟨h3, fun i hi => ?_⟩
    have hsome := h1 i hi
    cases he : s.ended i with
    | none => rw [he] at hsome; cases hsome
    | some e =>
      obtain ⟨_, k1, kf⟩ := v.how i e he
      obtain ⟨ns, k2, k3⟩ := v.read i
      refine ⟨ns, k2, ?_⟩
      rcases rtiNext_inr k1 with ⟨_, q⟩ | q | ⟨_, q⟩ | ⟨q, _⟩
      · left; rw [k3, q, List.append_nil]
      · exact absurd q kf
      · right
        cases ht : s.todo i with
        | nil => rw [ht] at q; cases q
        | cons a l =>
          rw [ht] at q
          have : a = MSG_TYPE_RESIGN := by simpa using q
          exact ⟨l, by rw [k3, ht, this]⟩
      · exfalso
        have : s.error = true := v.error.2 ⟨i, by rw [he, q]⟩
        rw [this] at h2; cases h2
  · cases h1

/-- **C82** If a federate crashes within a message, the federation does not go on: the RTI ends with exit code 1, and each
federate has left before or is told. -/
theorem C82_crash_within_a_message_ends_the_federation (r : Reach F k s) {c : Nat} (hc : s.main = .exited c) {i : Nat}
    (hi : i < F.n) {ms : List (List Byte)} (hm : Talk F.big ms) {m part x : List Byte} (hmsg : IsMessage rtiReads F.big m)
    (hp : part ≠ []) (hx : x ≠ []) (hpx : m = part ++ x) (hs : F.stream i = ms.flatten ++ part) :
    c = 1 ∧ ∀ j, j < F.n → (∃ e, s.ended j = some e) ∨ s.told j = true := by
  have v := reach_inv r
  rcases v.exited c hc with ⟨h1, _, _⟩ | ⟨h1, h2⟩
  · exfalso
    have hsome := h1 i hi
    cases he : s.ended i with
    | none => rw [he] at hsome; cases hsome
    | some e =>
      obtain ⟨_, k1, kf⟩ := v.how i e he
      obtain ⟨ns, k2, k3⟩ := v.read i
      obtain ⟨_, k4⟩ := same_end k2 hm k1 (rtiNext_part hmsg hpx hp hx) (by rw [← k3, hs])
      exact kf k4
  · refine ⟨h1, fun j hj => ?_⟩
    cases he : s.ended j with
    | some e => exact .inl ⟨e, rfl⟩
    | none => right; rw [h2 j, he]; simp [hj]

/-- **C82** Nobody is told that the RTI failed and goes on at the RTI: who is told was connected, and the exit code is 1. -/
theorem C82_told_only_at_an_abnormal_end (r : Reach F k s) {j : Nat} (h : s.told j = true) :
    s.main = .exited 1 ∧ j < F.n ∧ s.ended j = none := by
  have v := reach_inv r
  cases hm : s.main with
  | joining k' => have := (v.joining k' hm).2.2 j; rw [h] at this; cases this
  | exited c =>
    rcases v.exited c hm with ⟨_, _, h3⟩ | ⟨h1, h2⟩
    · rw [h3 j] at h; cases h
    · rw [h2 j] at h
      simp only [Bool.and_eq_true, decide_eq_true_eq, Option.isNone_iff_eq_none] at h
      exact ⟨by rw [h1], h.1, h.2⟩

/-- **C82** The RTI ends in the middle only if a federate has gone in the middle of a message, or if it has to write to a federate that has crashed
and whose end it has not noticed yet: who is known to have left is not written to. -/
theorem C82_noticed_crashes_end_nobody {t : State} (hs : Step F s t) (hm : s.main = .joining k) (hk : k < F.n) (he : t.main = .exited 1) :
    (∃ i, i < F.n ∧ s.ended i = none ∧ rtiNext F.big (s.todo i) = .inr .fatal) ∨ ∃ d, F.crashes d = true ∧ s.ended d = none := by
  cases hs with
  | handle k i m rest h1 => dsimp only at he; rw [h1] at he; cases he
  | undeliverable k i d m rest h1 h2 h3 h4 h5 h6 =>
    refine Or.inr ⟨d, h6, ?_⟩
    unfold writesTo at h5
    split at h5
    · dsimp only at h5
      split at h5
      · rename_i h7
        cases h5
        exact h7
      · cases h5
    · split at h5
      · cases h5
        exact h3
      · cases h5
  | left k i e h1 => dsimp only at he; rw [h1] at he; cases he
  | fatal k i h1 h2 h3 h4 => exact Or.inl ⟨i, h2, h3, h4⟩
  | join k h1 => cases he
  | finish h1 => rw [hm] at h1; cases h1; exact absurd hk (Nat.lt_irrefl _)

/-! ## Runs -/

/-- Federate 0 reports a next event tag and crashes; federate 1 resigns. -/
def crashDemo : Federation :=
  { n := 2, big := false, stream := fun i => if i = 0 then demoNet else [MSG_TYPE_RESIGN], crashes := fun i => decide (i = 0) }

/-- **C82** Crashes are not reported: a federate crashes, and the exit code of the RTI is 0 nevertheless. -/
theorem C82_not_crashes_reach_the_exit_code : ∃ k s, Reach crashDemo k s ∧ crashDemo.crashes 0 = true ∧ s.main = .exited 0 := by
  have r0 : Reach crashDemo _ _ := .init
  have r1 := r0.step (.handle _ 0 0 demoNet [] rfl (by decide) rfl (by decide +kernel))
  have r2 := r1.step (.left _ 0 0 .closed rfl (by decide) rfl (by decide +kernel) (by decide))
  have r3 := r2.step (.left _ 0 1 .resigned rfl (by decide) rfl (by decide +kernel) (by decide))
  have r4 := r3.step (.join _ 0 rfl (by decide) (by decide))
  have r5 := r4.step (.join _ 1 rfl (by decide) (by decide))
  exact ⟨_, _, r5.step (.finish _ rfl), rfl, rfl⟩

/-- Federate 0 sends a message to federate 1, which has crashed. -/
def sendDemo : Federation :=
  { n := 3, big := false
    stream := fun i => if i = 0 then demoMsg ++ [MSG_TYPE_RESIGN] else if i = 1 then [] else demoNet ++ [MSG_TYPE_RESIGN]
    crashes := fun i => decide (i = 1) }

/-- **C82** A message to a federate that has crashed is not just dropped: if the RTI has not noticed the crash, it ends, with
exit code 1, and all others are told to end, also those that have nothing to do with it.  If it has noticed it, the message is
dropped, and the exit code is 0. -/
theorem C82_not_messages_to_crashed_federates_are_dropped :
    (∃ k s, Reach sendDemo k s ∧ s.main = .exited 1 ∧ s.told 0 = true ∧ s.told 2 = true) ∧
    ∃ k s, Reach sendDemo k s ∧ s.main = .exited 0 ∧ ∀ j, s.told j = false := by
  constructor
  · have r0 : Reach sendDemo _ _ := .init
    have r1 := r0.step (.undeliverable _ 0 0 1 demoMsg [MSG_TYPE_RESIGN] rfl (by decide) rfl (by decide +kernel)
      (by decide +kernel) rfl)
    exact ⟨_, _, r1, rfl, rfl, rfl⟩
  · have r0 : Reach sendDemo _ _ := .init
    have r1 := r0.step (.left _ 0 1 .closed rfl (by decide) rfl (by decide +kernel) (by decide))
    have r2 := r1.step (.handle _ 0 0 demoMsg [MSG_TYPE_RESIGN] rfl (by decide) rfl (by decide +kernel))
    have r3 := r2.step (.left _ 0 0 .resigned rfl (by decide) rfl (by decide +kernel) (by decide))
    have r4 := r3.step (.handle _ 0 2 demoNet [MSG_TYPE_RESIGN] rfl (by decide) rfl (by decide +kernel))
    have r5 := r4.step (.left _ 0 2 .resigned rfl (by decide) rfl (by decide +kernel) (by decide))
    have r6 := r5.step (.join _ 0 rfl (by decide) (by decide))
    have r7 := r6.step (.join _ 1 rfl (by decide) (by decide))
    have r8 := r7.step (.join _ 2 rfl (by decide) (by decide))
    exact ⟨_, _, r8.step (.finish _ rfl), rfl, fun _ => rfl⟩

/-- The hypotheses of `C82_noticed_crashes_end_nobody` are met, by the second case. -/
example : ∃ s t, Step sendDemo s t ∧ s.main = .joining 0 ∧ t.main = .exited 1 ∧ rtiNext sendDemo.big (s.todo 2) ≠ .inr .fatal :=
  ⟨init sendDemo, _, .undeliverable _ 0 0 1 demoMsg [MSG_TYPE_RESIGN] rfl (by decide) rfl (by decide +kernel) (by decide +kernel) rfl, rfl, rfl,
    by decide +kernel⟩

/-- Federate 0 crashes within a message. -/
def brokenDemo : Federation :=
  { n := 2
    big := false
    stream := fun i => if i = 0 then demoNet.take 5 else [MSG_TYPE_RESIGN]
    crashes := fun _ => false }

/-- The hypotheses of `C82_crash_within_a_message_ends_the_federation` are met. -/
example : ∃ k s, Reach brokenDemo k s ∧ s.main = .exited 1 ∧ s.told 1 = true := by
  have r1 := (Reach.init (F := brokenDemo)).step (.fatal _ 0 0 rfl (by decide) rfl (by decide +kernel))
  exact ⟨_, _, r1, rfl, rfl⟩

/-! ## The federates -/

/-- **C82** Whatever the RTI sends to a federate and wherever it stops: if the RTI says that it failed, or ends within a
message, the federate ends with an error. -/
theorem C82_federates_that_are_told_end (big : Bool) {ms : List (List Byte)}
    (hm : ∀ m ∈ ms, IsMessage fedReads big m ∧ Accepted m) (rest : List Byte) :
    listen_to_rti_TCP big (ms.flatten ++ MSG_TYPE_FAILED :: rest) = (ms, .exits) ∧
    ∀ m part x, IsMessage fedReads big m → part ≠ [] → x ≠ [] → m = part ++ x →
      listen_to_rti_TCP big (ms.flatten ++ part) = (ms, .exits) :=
  ⟨fedListen_messages hm (fedNext_failed big rest) _ (by simp), fun m part x h1 h2 h3 h4 =>
    fedListen_messages hm (fedNext_part h1 h4 h2 h3) _ (by simp)⟩

/-- A grant and a provisional grant. -/
example : ∀ m ∈ [MSG_TYPE_TAG_ADVANCE_GRANT :: List.replicate 12 0#8, MSG_TYPE_PROVISIONAL_TAG_ADVANCE_GRANT :: List.replicate 12 0#8],
    IsMessage fedReads false m ∧ Accepted m := by
  intro m h
  simp only [List.mem_cons, List.not_mem_nil, or_false] at h
  rcases h with rfl | rfl
  · exact ⟨.inr ⟨_, _, by decide, by decide, rfl⟩, ⟨_, rfl, by decide, by decide⟩⟩
  · exact ⟨.inr ⟨_, _, by decide, by decide, rfl⟩, ⟨_, rfl, by decide, by decide⟩⟩

/-- **C82** If the RTI goes away between two messages without saying so (its machine or its process is killed), the federate
does not end: the thread that listens returns, no grant comes any more, and a federate with upstream federates whose next
event is later than what it was granted waits for a grant for ever: whatever events it gets from elsewhere, later than what it
was granted, however often it looks, `lf_send_next_event_tag` does not return. -/
theorem C82_not_federates_end_without_the_rti (big : Bool) {ms : List (List Byte)}
    (hm : ∀ m ∈ ms, IsMessage fedReads big m ∧ Accepted m) :
    listen_to_rti_TCP big ms.flatten = (ms, .returns) ∧
    ∀ (fed : Fed.Config) (granted : Tag) (o : Fed.Obs) (later : List Fed.Obs), fed.hasUpstream = true →
      (∀ x ∈ o :: later, x.lastTAG = granted ∧ granted < x.head) →
      (Fed.lf_send_next_event_tag fed true o.head o later).ret = none := by
  refine ⟨?_, fun fed g o later hu => ?_⟩
  · have := fedListen_messages hm (s := []) (e := .returns) rfl (ms.flatten.length + 1) (by simp)
    rw [List.append_nil] at this
    exact this
  have hw : ∀ (l : List Fed.Obs) (t : Tag), g < t → (∀ x ∈ l, x.lastTAG = g ∧ g < x.head) → (Fed.waitForTAG t l).ret = none := by
    intro l
    induction l with
    | nil => intro t _ _; rfl
    | cons x l ih =>
      intro t ht hl
      obtain ⟨h1, h2⟩ := hl x List.mem_cons_self
      have := ih t ht (fun y hy => hl y (List.mem_cons_of_mem _ hy))
      unfold Fed.waitForTAG
      rw [if_neg (by
        rw [h1, cmp_ge_zero, cmp_ge_zero]
        rintro (k | k)
        · exact absurd k (Tag.not_le.2 h2)
        · exact absurd k (Tag.not_le.2 ht))]
      split
      · exact this
      · exact this
  induction later generalizing o with
  | nil =>
    intro hl
    obtain ⟨h1, h2⟩ := hl o List.mem_cons_self
    unfold Fed.lf_send_next_event_tag
    rw [if_neg (by rw [hu]; simp), if_neg (by rw [h1, cmp_ge_zero]; exact Tag.not_le.2 h2)]
    split
    · rfl
    · rw [if_neg (by rw [hu]; simp)]; rfl
  | cons o' later ih =>
    intro hl
    obtain ⟨h1, h2⟩ := hl o List.mem_cons_self
    have hl' : ∀ x ∈ o' :: later, x.lastTAG = g ∧ g < x.head := fun x hx => hl x (List.mem_cons_of_mem _ hx)
    unfold Fed.lf_send_next_event_tag
    rw [if_neg (by rw [hu]; simp), if_neg (by rw [h1, cmp_ge_zero]; exact Tag.not_le.2 h2)]
    split
    · exact ih o' hl'
    · rw [if_neg (by rw [hu]; simp)]
      exact hw _ _ h2 hl'

/-- A federate that was granted 5 and waits for 9; meanwhile an event at 7 comes in. -/
example : (Fed.lf_send_next_event_tag ⟨true, true, -1⟩ true ⟨9, 0⟩ ⟨⟨9, 0⟩, ⟨5, 0⟩, 0⟩
    [⟨⟨7, 0⟩, ⟨5, 0⟩, 3⟩, ⟨⟨7, 0⟩, ⟨5, 0⟩, 8⟩]).ret = none := by decide +kernel

end ReactorC.Leave
