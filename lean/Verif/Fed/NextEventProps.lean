import Verif.Fed.NextEvent
import Verif.Tag.Lemmas
import Mathlib.Data.List.Basic
import Mathlib.Tactic.Common

/-! # C51 and C58: the next event tag a federate reports, and the tags it advances to -/

namespace ReactorC.Fed

/-! ## Specification -/

/-- What happens to a federate while its main thread waits: physical time does not go back, and the tag of the next
event does not become later, since nobody else removes events from the queue and the stop tag is only ever moved
earlier. -/
def Legal (obs : List Obs) : Prop := obs.Pairwise (fun a b => b.head ≤ a.head ∧ a.now ≤ b.now)

/-- Without input from other federates, from physical time `now` on, with the next event at `head`, a federate may
still produce an output at tag `e`: as a consequence of an event already on its queue, or of a physical action triggered
at a physical time `p` from now on, which takes at least the given delay to reach an output. -/
def MayProduce (fed : Config) (head : Tag) (now : Int) (e : Tag) : Prop :=
  head ≤ e ∨ (0 ≤ fed.minDelay ∧ ∃ p, now ≤ p ∧ (⟨p + fed.minDelay, 0⟩ : Tag) ≤ e)

/-! ## Lemmas -/

theorem waitForTAG_sent {tag : Tag} {obs : List Obs} {m : Sent} (h : m ∈ (waitForTAG tag obs).sent) :
    ∃ o ∈ obs, m = ⟨o.head, o.head, o.now⟩ := by
  induction obs with
  | nil => simp [waitForTAG] at h
  | cons o rest ih =>
    unfold waitForTAG at h
    split at h
    · simp at h
    · split at h
      · simp only [List.mem_cons] at h
        rcases h with h | h
        · exact ⟨o, by simp, h⟩
        · obtain ⟨o', h1, h2⟩ := ih h
          exact ⟨o', by simp [h1], h2⟩
      · obtain ⟨o', h1, h2⟩ := ih h
        exact ⟨o', by simp [h1], h2⟩

theorem waitForTAG_ret {tag : Tag} {obs : List Obs} {g : Tag} {o : Obs} {rest : List Obs}
    (h : (waitForTAG tag obs).ret = some (g, o, rest)) (hh : ∀ o ∈ obs, o.head ≤ tag) :
    (∃ pre, obs = pre ++ o :: rest) ∧ g = o.lastTAG ∧ o.head ≤ g := by
  induction obs with
  | nil => simp [waitForTAG] at h
  | cons o' obs ih =>
    have ih := fun h => ih h (fun x hx => hh x (by simp [hx]))
    have hrec : (waitForTAG tag obs).ret = some (g, o, rest) →
        (∃ pre, o' :: obs = pre ++ o :: rest) ∧ g = o.lastTAG ∧ o.head ≤ g := by
      intro h
      obtain ⟨⟨pre, h1⟩, h2⟩ := ih h
      exact ⟨⟨o' :: pre, by simp [h1]⟩, h2⟩
    unfold waitForTAG at h
    split at h
    · rename_i hc
      simp at h
      obtain ⟨h1, h2, h3⟩ := h
      subst h2 h3
      refine ⟨⟨[], rfl⟩, h1.symm, ?_⟩
      rw [← h1]
      have := hh o' (by simp)
      rcases hc with hc | hc
      · exact (cmp_ge_zero _ _).1 hc
      · exact Tag.le_trans this ((cmp_ge_zero _ _).1 hc)
    · split at h
      · exact hrec h
      · exact hrec h

theorem bounded_false {fed : Config} {now : Int} {tag : Tag} (h : (bounded_NET fed now tag).1 ≠ true)
    (hd : fed.hasDownstream = true) (hm : 0 ≤ fed.minDelay) : tag.time ≤ now + fed.minDelay := by
  unfold bounded_NET at h
  rw [if_pos ⟨hm, hd⟩] at h
  split at h
  · simp at h
  · omega

theorem send_sent {fed : Config} {o : Obs} {rest : List Obs} (hl : Legal (o :: rest))
    {m : Sent} (h : m ∈ (lf_send_next_event_tag fed true o.head o rest).sent) :
    m.net = m.head ∧ (∃ o' ∈ o :: rest, m.head = o'.head ∧ m.now = o'.now) ∧
    (fed.hasDownstream = true → 0 ≤ fed.minDelay → m.net.time ≤ m.now + fed.minDelay) := by
  induction rest generalizing o with
  | nil =>
    unfold lf_send_next_event_tag at h
    split at h
    · simp at h
    split at h
    · simp at h
    split at h
    · simp at h
    rename_i h1 h2 h3
    have hb : (bounded_NET fed o.now o.head).1 ≠ true := fun hx => h3 ⟨rfl, hx⟩
    split at h
    · simp at h; subst h
      exact ⟨rfl, ⟨o, by simp, rfl, rfl⟩, bounded_false hb⟩
    · simp [waitForTAG] at h; subst h
      exact ⟨rfl, ⟨o, by simp, rfl, rfl⟩, bounded_false hb⟩
  | cons o' rest ih =>
    unfold lf_send_next_event_tag at h
    split at h
    · simp at h
    split at h
    · simp at h
    split at h
    · have hl' : Legal (o' :: rest) := (List.pairwise_cons.1 hl).2
      obtain ⟨h1, ⟨x, hx, h2⟩, h3⟩ := ih hl' h
      exact ⟨h1, ⟨x, List.mem_cons_of_mem _ hx, h2⟩, h3⟩
    rename_i h1 h2 h3
    have hb : (bounded_NET fed o.now o.head).1 ≠ true := fun hx => h3 ⟨rfl, hx⟩
    split at h
    · simp at h; subst h
      exact ⟨rfl, ⟨o, by simp, rfl, rfl⟩, bounded_false hb⟩
    · rw [List.mem_cons] at h
      rcases h with h | h
      · subst h
        exact ⟨rfl, ⟨o, by simp, rfl, rfl⟩, bounded_false hb⟩
      · obtain ⟨x, hx, hm⟩ := waitForTAG_sent h
        subst hm
        refine ⟨rfl, ⟨x, List.mem_cons_of_mem _ hx, rfl, rfl⟩, ?_⟩
        intro hd hmn
        have h4 := bounded_false hb hd hmn
        obtain ⟨h5, h6⟩ := (List.pairwise_cons.1 hl).1 x hx
        rw [Tag.le_def] at h5
        show x.head.time ≤ x.now + fed.minDelay
        omega

theorem send_ret {fed : Config} (hup : fed.hasUpstream = true) {o : Obs} {rest : List Obs} (hl : Legal (o :: rest))
    {g : Tag} {o' : Obs} {rest' : List Obs}
    (h : (lf_send_next_event_tag fed true o.head o rest).ret = some (g, o', rest')) :
    (∃ pre, o :: rest = pre ++ o' :: rest') ∧ g = o'.lastTAG ∧ o'.head ≤ g := by
  induction rest generalizing o with
  | nil =>
    unfold lf_send_next_event_tag at h
    simp only [hup] at h
    split at h
    · rename_i hc; simp at hc
    split at h
    · rename_i hc
      simp at h
      obtain ⟨h1, h2, h3⟩ := h
      subst h2 h3
      exact ⟨⟨[], rfl⟩, h1.symm, h1 ▸ (cmp_ge_zero _ _).1 hc⟩
    split at h
    · simp at h
    split at h
    · rename_i hc; simp at hc
    · simp [waitForTAG] at h
  | cons o1 rest ih =>
    unfold lf_send_next_event_tag at h
    simp only [hup] at h
    split at h
    · rename_i hc; simp at hc
    split at h
    · rename_i hc
      simp at h
      obtain ⟨h1, h2, h3⟩ := h
      subst h2 h3
      exact ⟨⟨[], rfl⟩, h1.symm, h1 ▸ (cmp_ge_zero _ _).1 hc⟩
    split at h
    · have hl' : Legal (o1 :: rest) := (List.pairwise_cons.1 hl).2
      obtain ⟨⟨pre, h1⟩, h2⟩ := ih hl' h
      exact ⟨⟨o :: pre, by simp [h1]⟩, h2⟩
    split at h
    · rename_i hc; simp at hc
    · obtain ⟨⟨pre, h1⟩, h2⟩ := waitForTAG_ret h (fun x hx => ((List.pairwise_cons.1 hl).1 x hx).1)
      exact ⟨⟨o :: pre, by simp [h1]⟩, h2⟩

theorem grantLoop_ret {fed : Config} (hup : fed.hasUpstream = true) {fuel : Nat} {next g : Tag} {o : Obs}
    {rest : List Obs} (hl : Legal (o :: rest)) (hg : g = o.lastTAG ∧ o.head ≤ g) {g' : Tag} {o' : Obs}
    {rest' : List Obs} (h : grantLoop fed fuel next (g, o, rest) = some (g', o', rest')) :
    (∃ pre, o :: rest = pre ++ o' :: rest') ∧ g' = o'.lastTAG ∧ o'.head ≤ g' := by
  induction fuel generalizing next g o rest with
  | zero => simp [grantLoop] at h
  | succ fuel ih =>
    unfold grantLoop at h
    split at h
    · split at h
      · simp at h
      · rename_i r hr
        obtain ⟨g1, o1, rest1⟩ := r
        obtain ⟨⟨pre, h1⟩, h2⟩ := send_ret hup hl hr
        have hl1 : Legal (o1 :: rest1) := by
          unfold Legal at hl ⊢
          rw [h1] at hl
          exact (List.pairwise_append.1 hl).2.1
        obtain ⟨⟨pre', h3⟩, h4⟩ := ih hl1 h2 h
        exact ⟨⟨pre ++ pre', by rw [h1, h3, List.append_assoc]⟩, h4⟩
    · simp at h
      obtain ⟨h1, h2, h3⟩ := h
      subst h1 h2 h3
      exact ⟨⟨[], rfl⟩, hg⟩

/-! ## Properties -/

/-- C51.  Every next event tag that `lf_send_next_event_tag` reports while it waits for a grant is the tag of the next
event at the moment of sending, and if the federate has downstream federates and a physical action that can cause an
output, its time is not later than the time of any output a physical action triggered from then on can cause. -/
theorem C51_reported_time_is_honest {fed : Config} {o : Obs} {rest : List Obs} (legal : Legal (o :: rest))
    {m : Sent} (sent : m ∈ (lf_send_next_event_tag fed true o.head o rest).sent) :
    m.net = m.head ∧ (fed.hasDownstream = true → ∀ e, MayProduce fed m.head m.now e → m.net.time ≤ e.time) := by
  obtain ⟨h1, _, h3⟩ := send_sent legal sent
  refine ⟨h1, ?_⟩
  intro hd e he
  rcases he with he | ⟨hm, p, hp, he⟩
  · rw [← h1, Tag.le_def] at he; omega
  · have := h3 hd hm
    rw [Tag.le_def] at he
    dsimp only at he
    omega

/-- C51, in part.  If moreover the reported tag has microstep 0, or its time is not the earliest possible time of a
physical action's output, the tag itself is honest.  Missing: the remaining case, for which it is false, see
`C51_reported_microstep_can_be_too_late`. -/
theorem C51_reported_tag_is_honest_partial {fed : Config} {o : Obs} {rest : List Obs} (legal : Legal (o :: rest))
    {m : Sent} (sent : m ∈ (lf_send_next_event_tag fed true o.head o rest).sent) (down : fed.hasDownstream = true)
    (step : m.net.microstep = 0 ∨ m.net.time ≠ m.now + fed.minDelay) (e : Tag)
    (may : MayProduce fed m.head m.now e) : m.net ≤ e := by
  obtain ⟨h1, _, h3⟩ := send_sent legal sent
  rcases may with he | ⟨hm, p, hp, he⟩
  · rw [h1]; exact he
  · have := h3 down hm
    rw [Tag.le_def] at he ⊢
    dsimp only at he
    omega

/-- A federate with upstream and downstream federates and a physical action with delay 5 to its output.  At physical
time 0 its next event is at 10: it does not report that yet.  At time 6 it does. -/
def demoFed : Config := ⟨true, true, 5⟩

def demoObs : List Obs := [⟨⟨10, 2⟩, NEVER_TAG, 6⟩, ⟨⟨9, 1⟩, NEVER_TAG, 7⟩, ⟨⟨9, 1⟩, ⟨9, 1⟩, 8⟩, ⟨⟨8, 0⟩, ⟨9, 1⟩, 9⟩]

example : Legal (⟨⟨10, 2⟩, NEVER_TAG, 0⟩ :: demoObs) ∧
    (lf_send_next_event_tag demoFed true ⟨10, 2⟩ ⟨⟨10, 2⟩, NEVER_TAG, 0⟩ demoObs).sent =
      [⟨⟨10, 2⟩, ⟨10, 2⟩, 6⟩, ⟨⟨9, 1⟩, ⟨9, 1⟩, 7⟩] ∧
    (lf_send_next_event_tag demoFed true ⟨10, 2⟩ ⟨⟨10, 2⟩, NEVER_TAG, 0⟩ demoObs).ret =
      some (⟨9, 1⟩, ⟨⟨9, 1⟩, ⟨9, 1⟩, 8⟩, [⟨⟨8, 0⟩, ⟨9, 1⟩, 9⟩]) := by
  refine ⟨?_, ?_, ?_⟩
  · unfold Legal demoObs; decide +kernel
  · decide +kernel
  · decide +kernel

/-- C51.  The tag of a physical action's output can be earlier than the reported tag: the next event is at (10, 2), and
at physical time 5 a federate whose physical action has delay 5 reports (10, 2), although the action, triggered at that
same time, causes an output at (10, 0). -/
theorem C51_reported_microstep_can_be_too_late :
    (⟨⟨10, 2⟩, ⟨10, 2⟩, 5⟩ : Sent) ∈
      (lf_send_next_event_tag demoFed true ⟨10, 2⟩ ⟨⟨10, 2⟩, NEVER_TAG, 5⟩ []).sent ∧
    MayProduce demoFed ⟨10, 2⟩ 5 ⟨10, 0⟩ ∧ (⟨10, 0⟩ : Tag) < ⟨10, 2⟩ := by
  refine ⟨by decide +kernel, ?_, by decide⟩
  exact Or.inr ⟨by decide, 5, by omega, by decide⟩

/-- C58.  A federate with upstream federates advances only as far as it was granted: if `_lf_next_locked` gets past the
request for a grant, every tag it may advance to afterwards, whatever happens until it does, is not later than the last
grant received. -/
theorem C58_advances_within_grant {fed : Config} (up : fed.hasUpstream = true) {fuel : Nat} {o : Obs}
    {obs : List Obs} (legal : Legal (o :: obs)) {grant : Tag} {o' : Obs} {rest : List Obs}
    (h : nextGrant fed fuel o obs = some (grant, o', rest)) :
    grant = o'.lastTAG ∧ ∀ n, advancesTo o' (rest.take n) ≤ o'.lastTAG := by
  unfold nextGrant at h
  split at h
  · simp at h
  · rename_i r hr
    obtain ⟨g1, o1, rest1⟩ := r
    obtain ⟨⟨pre, h1⟩, h2⟩ := send_ret up legal hr
    have hl1 : Legal (o1 :: rest1) := by
      unfold Legal at legal ⊢
      rw [h1] at legal
      exact (List.pairwise_append.1 legal).2.1
    obtain ⟨⟨pre', h3⟩, h4, h5⟩ := grantLoop_ret up hl1 h2 h
    have hl2 : Legal (o' :: rest) := by
      unfold Legal at hl1 ⊢
      rw [h3] at hl1
      exact (List.pairwise_append.1 hl1).2.1
    refine ⟨h4, ?_⟩
    intro n
    rw [← h4]
    unfold advancesTo
    cases hx : (rest.take n).getLast? with
    | none => exact h5
    | some x =>
      have hmem : x ∈ rest := List.mem_of_mem_take (List.mem_of_getLast? hx)
      exact Tag.le_trans ((List.pairwise_cons.1 hl2).1 x hmem).1 h5

/-- The federate above is granted (9, 1) and then advances to (8, 0), since an earlier event has arrived. -/
example : nextGrant demoFed 3 ⟨⟨10, 2⟩, NEVER_TAG, 0⟩ demoObs =
      some (⟨9, 1⟩, ⟨⟨9, 1⟩, ⟨9, 1⟩, 8⟩, [⟨⟨8, 0⟩, ⟨9, 1⟩, 9⟩]) ∧
    advancesTo ⟨⟨9, 1⟩, ⟨9, 1⟩, 8⟩ [⟨⟨8, 0⟩, ⟨9, 1⟩, 9⟩] = ⟨8, 0⟩ := by decide +kernel

end ReactorC.Fed
