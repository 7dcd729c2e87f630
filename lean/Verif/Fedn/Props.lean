import Verif.Fedn.Limit
import Verif.Fedn.Runs

/-!
# C60: what federates promise to the RTI, and messages in time, in a whole federation

The model is Verif.Fedn.Model: the RTI and the federates as they are in the code.  `Reach C s` says that the federation `C` can
be in the state `s`.  `(s.fed i).cur` is the tag that the federate `i` has reached, `(s.sys.rti.out i)` is everything the RTI has
sent to `i`, in order, of which `i` has read the first `(s.fed i).taken`.

The property as a whole, "no federate gets a message for a tag it has reached already", is not true of the code: the theorems at
the end are runs in which it fails.  The theorems before them say that these are the only ways: `Config.Calm` excludes exactly
the circumstances of the first three.
-/

namespace ReactorC.Fedn
open ReactorC
open ReactorC.Rti (Topology Down Up Sys Sane put)

/-- Everything that federates do is allowed by the protocol that the theorems about the RTI (C24, C25, C26) presuppose:
what the RTI sees of a federation is a behavior of Verif.Rti.System. -/
theorem C60_federates_keep_the_protocol_partial {C : Config} (hO : C.Ok) (hC : C.Calm) {s : State} (h : Reach C s) :
    Rti.Reach C.T C.start s.sys := (h.inv hO hC).sys

/-- What a federate sends is not earlier than the promise that follows from the next event tags it has sent and the messages it
has received since: `s.sys.net i` is raised by next event tags and lowered by messages only.  And it is after the last tag that
the federate has reported complete. -/
theorem C60_promises_are_kept_partial {C : Config} (hO : C.Ok) (hC : C.Calm) {s : State} (h : Reach C s) {i d : Nat} {w : Int}
    (hs : pre C s (.send i d w)) : s.sys.net i ≤ (s.fed i).cur ∧ s.sys.done i < (s.fed i).cur := by
  obtain ⟨hi, hd, hw, h1, h2, h3, h4⟩ := hs
  have hf := ((h.inv hO hC).good i hi).inv (by rw [h1]; simp)
  refine ⟨?_, ?_⟩
  · have := (hf.causes 0 h2).2 (hasDown_of hd hw)
    rwa [due_zero] at this
  · rw [hf.ltc]; exact hf.ltcLt (.inr h1)

/-- The next message that a federate reads is later than the tag that it has reached, except that, after a provisional grant of
exactly that tag, it may be at that tag. -/
theorem C60_messages_in_time_partial {C : Config} (hO : C.Ok) (hC : C.Calm) {s : State} (h : Reach C s) {i : Nat}
    (hi : i < C.T.n) (hs : (s.fed i).started = true) (hg : (s.fed i).pc ≠ .gone) {m : Tag}
    (hm : (s.sys.rti.out i)[(s.fed i).taken]? = some (.msg m)) :
    (s.fed i).cur < m ∨
      (m = (s.fed i).cur ∧ (s.fed i).lastTAG = m ∧ (s.fed i).prov = true ∧ Down.ptag m ∈ s.sys.rti.out i) :=
  next_message hO (h.inv hO hC).sys (((h.inv hO hC).good i hi).inv hg) hm hs

/-- Without zero-delay cycles, the next message is always later than the tag that the federate has reached. -/
theorem C60_messages_in_time_without_cycles_partial {C : Config} (hO : C.Ok) (hC : C.Calm)
    (hN : ¬ ∃ u, Rti.OnZeroDelayCycle C.T u) {s : State} (h : Reach C s) {i : Nat} (hi : i < C.T.n)
    (hs : (s.fed i).started = true) (hg : (s.fed i).pc ≠ .gone) {m : Tag}
    (hm : (s.sys.rti.out i)[(s.fed i).taken]? = some (.msg m)) : (s.fed i).cur < m := by
  have hI := h.inv hO hC
  rcases C60_messages_in_time_partial hO hC h hi hs hg hm with k | ⟨_, _, _, k⟩
  · exact k
  · exact absurd (Rti.reach_cycle hO.topology hO.down hO.start hO.finite hI.sys k) hN

/-- Without zero-delay cycles, no federate ever finds a message tardy. -/
theorem C60_never_tardy_partial {C : Config} (hO : C.Ok) (hC : C.Calm) (hN : ¬ ∃ u, Rti.OnZeroDelayCycle C.T u) {s : State}
    (h : Reach C s) {i : Nat} (hi : i < C.T.n) : (s.fed i).fault ≠ some .tardy :=
  ((h.inv hO hC).good i hi).tardy hN

/-- No federate that has upstream federates gets a provisional grant that it rejects. -/
theorem C60_no_rejected_grant_partial {C : Config} (hO : C.Ok) (hC : C.Calm) {s : State} (h : Reach C s) {i : Nat}
    (hi : i < C.T.n) (hu : C.T.up i ≠ []) : (s.fed i).fault ≠ some .badGrant :=
  ((h.inv hO hC).good i hi).badGrant (hasUp_iff.2 hu)

/-- A federate with upstream federates does not get ahead of its grants: the tag that it has reached is not later than a tag that
the RTI has granted, finally or provisionally, and that it has read. -/
theorem C60_reached_was_granted_partial {C : Config} (hO : C.Ok) (hC : C.Calm) {s : State} (h : Reach C s) {i : Nat}
    (hi : i < C.T.n) (hu : C.T.up i ≠ []) (hs : (s.fed i).started = true) (hg : (s.fed i).pc ≠ .gone) :
    ∃ g, (s.fed i).cur ≤ g ∧ (Down.tag g ∈ (s.sys.rti.out i).take (s.fed i).taken ∨
      Down.ptag g ∈ (s.sys.rti.out i).take (s.fed i).taken) := by
  have hf := ((h.inv hO hC).good i hi).inv hg
  have hl := hf.granted hs (hasUp_iff.2 hu)
  refine ⟨_, hl, ?_⟩
  rcases hf.last with k | ⟨_, k⟩ | ⟨_, k⟩
  · exfalso
    rw [k] at hl
    have := hf.start
    have h0 := hO.start
    have hN : NEVER_TAG.time = -9223372036854775808 := rfl
    tag_omega
  · exact .inl k
  · exact .inr k

/-- A federate does not go past its stop tag, which is not later than its timeout. -/
theorem C60_reached_within_stop_partial {C : Config} (hO : C.Ok) (hC : C.Calm) {s : State} (h : Reach C s) {i : Nat}
    (hi : i < C.T.n) (hg : (s.fed i).pc ≠ .gone) : (s.fed i).cur ≤ (s.fed i).stop ∧ (s.fed i).stop ≤ C.timeout i :=
  have hf := ((h.inv hO hC).good i hi).inv hg
  ⟨hf.curStop, hf.stopTimeout⟩

/-- With one timeout for all federates and without requested stops, no message comes in for a tag after the stop tag at a
federate that has reached its stop tag. -/
theorem C60_no_message_after_timeout_partial {C : Config} (hO : C.Ok) (hC : C.Calm) (hs : C.stops = false) {τ : Tag}
    (hτ : ∀ i < C.T.n, C.timeout i = τ) {s : State} (h : Reach C s) {i : Nat} (hi : i < C.T.n) :
    (s.fed i).fault ≠ some .badIndex := noBadIndex hO hC hs hτ h i hi

/-! ## The hypotheses are met -/

/-- In the program `line`, federates get to tags after the start and a message is on its way to 1 that is about to be read. -/
example : line.Ok ∧ line.Calm ∧ ∃ s, Reach line s ∧ decide ((s.fed 2).cur = ⟨103, 0⟩ ∧ (s.fed 1).taken = 0 ∧
    (s.sys.rti.out 1) = [.msg ⟨100, 0⟩, .tag ⟨100, 0⟩]) = true :=
  ⟨line_ok, line_calm, run_exists (l := lineRun.dropLast) (by decide +kernel)⟩

/-- The program `line` has no zero-delay cycle and one timeout. -/
example : (¬ ∃ u, Rti.OnZeroDelayCycle line.T u) ∧ line.stops = false ∧ ∀ i < line.T.n, line.timeout i = ⟨1000, 0⟩ := by
  refine ⟨?_, rfl, fun _ _ => rfl⟩
  let rank : Nat → Nat := fun i => if i = 1 then 0 else if i = 0 then 1 else 2
  have edge : ∀ i u w, (u, w) ∈ line.T.up i → rank i < rank u := by
    intro i u w h
    simp only [line, lineT, rank] at h ⊢
    repeat' split at h
    all_goals simp at h
    all_goals rw [h.1]; subst_vars; decide
  have path : ∀ e u ws, Rti.Path line.T (fun _ => true) e u ws → rank e < rank u := by
    intro e u ws h
    induction h with
    | last u w _ h => exact edge e u w h
    | step u i w ws _ h _ ih => exact Nat.lt_trans ih (edge i u w h)
  rintro ⟨u, ws, h, _⟩
  exact Nat.lt_irrefl _ (path u u ws h)

/-- In the program `line`, federate 2 can send at a tag after the start. -/
example : ∃ s, Reach line s ∧ decide (pre line s (.send 2 0 5) ∧ (s.fed 2).cur = ⟨107, 0⟩) = true :=
  run_exists (l := lineRun.take 14 ++ [.schedule 2 4 ⟨⟨107, 0⟩, some 0⟩, .complete 2 true, .ask 2, .ask 2, .advance 2])
    (by decide +kernel)

/-- In the program `line`, federate 0 has started when a message is the next that it reads. -/
example : ∃ s, Reach line s ∧ decide ((s.fed 0).started = true ∧ (s.fed 0).cur = ⟨100, 0⟩ ∧
    (s.sys.rti.out 0)[(s.fed 0).taken]? = some (.msg ⟨105, 0⟩)) = true :=
  run_exists (l := [.begin 2, .ask 2, .begin 0, .ask 0, .handle 0, .handle 2, .take 0 false false, .wake 0, .send 2 0 5,
    .handle 2]) (by decide +kernel)

theorem ring_ok : ring.Ok := by
  refine ⟨⟨by decide, fun i u w h => ?_, fun i u w h => ?_⟩, fun i j h => ?_, by decide, by decide, ?_, ?_, ?_, by decide, ?_⟩
  · simp only [ring] at h ⊢
    repeat' split at h
    all_goals simp at h
    all_goals omega
  · simp only [ring] at h
    have : IsI64 NEVER := by decide
    repeat' split at h
    all_goals simp at h
    all_goals rw [h.2]; exact this
  · simp only [ring] at h ⊢
    repeat' split at h
    all_goals simp at h
    all_goals omega
  · intro i; show (⟨100, 0⟩ : Tag) ≤ ⟨1000, 0⟩; decide
  · intro i e he; cases he
  · intro i d hd
    simp only [ring] at hd
    split at hd
    · simp at hd; omega
    · cases hd
  · intro h; cases h

/-- In a zero-delay cycle, the exception occurs: the next message is at the tag that the federate has reached, with a provisional
grant. -/
theorem C60_message_at_provisional_tag : ring.Ok ∧ ring.Calm ∧ ∃ s, Reach ring s ∧ (s.fed 1).started = true ∧
    (s.fed 1).pc ≠ .gone ∧ (s.sys.rti.out 1)[(s.fed 1).taken]? = some (.msg (s.fed 1).cur) := by
  refine ⟨ring_ok, ⟨rfl, rfl, .inl rfl⟩, ?_⟩
  obtain ⟨s, h, k⟩ := run_exists (C := ring) (l := ringRun) (p := fun s => decide ((s.fed 1).started = true ∧
    (s.fed 1).pc ≠ .gone ∧ (s.sys.rti.out 1)[(s.fed 1).taken]? = some (.msg (s.fed 1).cur))) (by decide +kernel)
  exact ⟨s, h, of_decide_eq_true k⟩

/-! ## Where the property fails -/

/-- An event that is not at the start tag and comes in during the wait for the first grant makes the federate report it as its
next event, although its reactions to startup have yet to be executed.  A downstream federate is granted that tag, and the
message that a reaction to startup sends is tardy.  There is no zero-delay cycle, no stop, no physical action. -/
theorem C60_fails_by_early_wakeup : join.ties = false ∧ join.stops = false ∧
    ∃ s, Reach join s ∧ (s.fed 1).fault = some .tardy := by
  refine ⟨rfl, rfl, ?_⟩
  obtain ⟨s, h, k⟩ := run_exists (C := join) (l := joinRun) (p := fun s => decide ((s.fed 1).fault = some .tardy))
    (by decide +kernel)
  exact ⟨s, h, of_decide_eq_true k⟩

/-- A federate that has reported that it has no event before some tag executes its reactions to shutdown at an earlier stop tag,
once a stop has been requested; a message that such a reaction sends is too late. -/
theorem C60_fails_by_requested_stop : pair.early = false ∧ pair.ties = false ∧
    ∃ s, Reach pair s ∧ (s.fed 1).fault = some .tardy := by
  refine ⟨rfl, rfl, ?_⟩
  obtain ⟨s, h, k⟩ := run_exists (C := pair) (l := pairRun) (p := fun s => decide ((s.fed 1).fault = some .tardy))
    (by decide +kernel)
  exact ⟨s, h, of_decide_eq_true k⟩

/-- A next event tag `(t, 1)` may be reported when physical actions allow outputs from `(t, 0)` on. -/
theorem C60_fails_by_tie : tie.early = false ∧ tie.stops = false ∧
    ∃ s, Reach tie s ∧ (s.fed 1).fault = some .tardy := by
  refine ⟨rfl, rfl, ?_⟩
  obtain ⟨s, h, k⟩ := run_exists (C := tie) (l := tieRun) (p := fun s => decide ((s.fed 1).fault = some .tardy))
    (by decide +kernel)
  exact ⟨s, h, of_decide_eq_true k⟩

/-- With a requested stop, a message for a tag after the stop tag may come in at a federate that has reached its stop tag; the
handler then closes the socket with the index -1. -/
theorem C60_late_message_has_bad_index : late.Calm ∧ ∃ s, Reach late s ∧ (s.fed 1).fault = some .badIndex := by
  refine ⟨⟨rfl, rfl, .inr rfl⟩, ?_⟩
  obtain ⟨s, h, k⟩ := run_exists (C := late) (l := lateRun) (p := fun s => decide ((s.fed 1).fault = some .badIndex))
    (by decide +kernel)
  exact ⟨s, h, of_decide_eq_true k⟩

end ReactorC.Fedn
