import Verif.DecFed.Progress

/-!
# C76: a federation with decentralized coordination can always come to its end

`Step` (Verif.DecFed.Model) gives the steps of the federates, the connections and the clocks.  A federation is at its end when all federates have
executed the stop tag.  From every state that it can get into it can get there, and then it has executed what the program says.  A program is asked
to have a sequential execution that is done; and `lag` is asked to leave the time that a federate waits until it assumes a port to be absent.
-/

set_option linter.unusedVariables false

namespace ReactorC.DecFed
open ReactorC
open ReactorC.Rti (Topology Sane put put_same put_other)
open ReactorC.FedDet (Program Entry Event Inputs Out Fit Single present upTo Seq Done Exec Gen Quiet present_of present_some)
open ReactorC.Level (Config MIN_SLEEP_DURATION Small exempt blocks waitOver newKnown upd bump)
open ReactorC.Decentral (Ev Delivery due nextTag open_ raise release handle inTime good_inTime reach_timely dueBy)

/-- All federates have executed the stop tag. -/
def Ended (S : Setup) (g : State) : Prop :=
  ∀ i < S.P.T.n, (g.fed i).lv.phase = .running ∧ (g.fed i).lv.cur = S.P.stop ∧ g.fin i = true

/-- There is time: to wait until a port is assumed to be absent (up to 50 microseconds more than the offsets say), and until the largest time. -/
structure Setup.Room (S : Setup) : Prop where
  error : 1 ≤ S.error
  staa : ∀ i < S.P.T.n, ∀ p < (S.c i).n, (S.c i).sta + ((S.c i).port p).staa + 5 * MIN_SLEEP_DURATION ≤ S.lag i
  last : ∀ i < S.P.T.n, S.P.stop.time + S.lag i + MIN_SLEEP_DURATION < FOREVER

/-! ## Helpers -/

theorem add_le {a b : Int} (ha : 0 ≤ a) (ha' : a < FOREVER) (hb : NEVER < b) (h : a + b < FOREVER) : lf_time_add a b ≤ a + b := by
  have hN : NEVER = -9223372036854775808 := rfl
  have hF : FOREVER = 9223372036854775807 := rfl
  rw [lf_time_add_eq_satAdd ⟨by omega, by omega⟩ ⟨by omega, by omega⟩]
  unfold satAdd
  repeat' split
  all_goals omega

theorem staa_le {c : Config} (hw : Decentral.WF c) {t : Tag} {v lag : Int} (ht : 0 ≤ t.time) (ht' : t.time < FOREVER) (h1 : NEVER < v) (h2 : v < FOREVER)
    (h3 : c.sta + v + 5 * MIN_SLEEP_DURATION ≤ lag) (h4 : t.time + lag < FOREVER) : Level.staaUntil c t v ≤ t.time + lag := by
  have hN : NEVER = -9223372036854775808 := rfl
  have hF : FOREVER = 9223372036854775807 := rfl
  have hM : MIN_SLEEP_DURATION = 10000 := rfl
  have a1 := hw.lv.sta
  have a2 := hw.sta
  have e : lf_time_add v c.sta = v + c.sta := by
    rw [lf_time_add_eq_satAdd ⟨by omega, by omega⟩ ⟨by omega, by omega⟩]
    unfold satAdd
    repeat' split
    all_goals omega
  unfold Level.staaUntil
  rw [e]
  have := add_le (a := t.time) (b := v + c.sta) ht ht' (by omega) (by omega)
  dsimp only
  split <;> omega

theorem least (f : Nat → Int) : ∀ n, 0 < n → ∃ i < n, ∀ j < n, f i ≤ f j
  | 1, _ => ⟨0, by omega, fun j hj => by have : j = 0 := by omega
                                         subst this; omega⟩
  | n + 2, _ => by
    obtain ⟨i, hi, h⟩ := least f (n + 1) (by omega)
    by_cases c : f i ≤ f (n + 1)
    · refine ⟨i, by omega, fun j hj => ?_⟩
      by_cases e : j = n + 1
      · subst e; exact c
      · exact h j (by omega)
    · refine ⟨n + 1, by omega, fun j hj => ?_⟩
      by_cases e : j = n + 1
      · subst e; omega
      · have := h j (by omega); omega

variable {S : Setup} {rank : Nat → Nat} {g g' : State} {s : Seq Nat}

theorem tag_time {a b : Tag} (h : a ≤ b) : a.time ≤ b.time := by
  rw [Tag.le_def] at h; omega

/-- A federate that has something to do by now can do it, if nothing is on the way. -/
theorem go_duty (hS : S.Ok rank) (hs : Done S.P rank s) (hfit : Fit S.P.T S.P.stop) (hR : S.Room) (h : Inv S g) (hsent : Sent S g) (hk : Smalls S g)
    (hr : ∀ i < S.P.T.n, (g.fed i).reading = []) (hst : ∀ i < S.P.T.n, (g.fed i).lv.phase ≠ .atStart)
    (hq : ∀ d < S.P.T.n, ∀ p < (S.c d).n, g.chan d p = []) {i : Nat} (hi : i < S.P.T.n) {u : Tag} (hu : Duty S (g.fed i) (g.fin i) u)
    (hn : u.time + S.lag i ≤ (g.fed i).lv.now) : Closer S s g := by
  have L := h.fed i hi
  have hw := hS.wf i hi
  obtain ⟨hG, hN, hD⟩ := L.timely hS hi
  obtain ⟨u1, u2, u3⟩ := hu
  have hM : MIN_SLEEP_DURATION = 10000 := rfl
  have hNV : NEVER = -9223372036854775808 := rfl
  have l1 := hR.last i hi
  have l2 := hS.lag i hi
  have l3 := hw.lv.sta
  have l4 := hw.sta
  have hfirst := start_first hS hi
  cases hp : (g.fed i).lv.phase with
  | atStart => exact absurd hp (hst i hi)
  | waiting =>
    refine go_begin hr hi hp (.inr ?_)
    have : (S.c i).start ≤ u := by
      rcases u3 with ⟨e, k1, rfl⟩ | k | k | ⟨k, -⟩
      · exact (hG.ev e k1).1
      · rw [hfirst, k]; exact Tag.le_refl _
      · rw [k, ← L.stop]; exact hG.stop.1
      · rw [hp] at k; cases k
    have := tag_time this
    change (S.c i).startTime ≤ u.time at this
    omega
  | running =>
    have hcs := (L.run hp).1
    have hc0 := (hG.after (by rw [hp]; simp)).1
    have t0 := tag_time hc0
    have t1 := tag_time hcs
    have t2 := hw.lv.pos
    change (S.c i).startTime ≤ _ at t0
    have hcu : (g.fed i).lv.cur ≤ u := Tag.not_lt.1 fun k => u2 ⟨hp, .inl k⟩
    have t3 := tag_time hcu
    cases hf : g.fin i with
    | false =>
      by_cases hb : Free S g i
      · exact go_finish hr hS hs hfit h hsent hi hp hf hb (hq i hi)
      · have : ∃ p, p < (S.c i).n ∧ blocks (S.c i) (g.fed i).lv.cur (g.fed i).lv.known p = true := by
          by_contra k
          refine hb fun p hp => ?_
          cases hbp : blocks (S.c i) (g.fed i).lv.cur (g.fed i).lv.known p with
          | false => rfl
          | true => exact absurd ⟨p, hp, hbp⟩ k
        obtain ⟨p, hpn, hbp⟩ := this
        refine go_timeout hr hS h hk hi hpn hp hbp (.inr ?_)
        have := staa_le hw (t := (g.fed i).lv.cur) (v := ((S.c i).port p).staa) (lag := S.lag i) (by omega) hG.lv.curTime (hw.staa p hpn).1 (hw.staa p hpn).2
          (hR.staa i hi p hpn) (by omega)
        omega
    | true =>
      have hlt : (g.fed i).lv.cur < u := by
        rcases Tag.lt_or_eq_of_le hcu with k | k
        · exact k
        · exact absurd ⟨hp, .inr ⟨k.symm, hf⟩⟩ u2
      refine go_advance hr hS hs hfit h hi hp hf (Tag.lt_of_lt_of_le hlt u1) (.inr ?_)
      have hnu : nextTag (g.fed i) ≤ u := by
        rcases u3 with ⟨e, k1, rfl⟩ | k | k | ⟨-, k⟩
        · exact Decentral.nextTag_le _ k1
        · rw [k, ← hfirst] at hlt
          exact absurd hlt (Tag.not_lt.2 hc0)
        · rw [k, ← L.stop]; exact Decentral.nextTag_le_stop _
        · rw [k] at hlt; exact absurd hlt (Tag.lt_irrefl _)
      have t4 := tag_time hnu
      have t5 := tag_time u1
      have t6 := fit_time (h.next_fit hS hs hfit hi)
      have hadd := add_le (a := (nextTag (g.fed i)).time) (b := (S.c i).sta) t6.1 t6.2.1 (by omega) (by omega)
      unfold Decentral.waitUntilTime
      split
      · split <;> omega
      · omega

/-- A federate that has not executed the stop tag has to. -/
theorem duty_stop (h : Inv S g) {j : Nat} (hj : j < S.P.T.n)
    (hn : ¬ ((g.fed j).lv.phase = .running ∧ (g.fed j).lv.cur = S.P.stop ∧ g.fin j = true)) : Duty S (g.fed j) (g.fin j) S.P.stop := by
  refine ⟨Tag.le_refl _, fun k => ?_, .inr (.inr (.inl rfl))⟩
  rcases k.2 with k2 | k2
  · exact absurd k2 (Tag.not_lt.2 ((h.fed j hj).run k.1).1)
  · exact hn ⟨k.1, k2.1.symm, k2.2⟩

theorem go_on (hS : S.Ok rank) (hs : Done S.P rank s) (hfit : Fit S.P.T S.P.stop) (hR : S.Room) (hg : Reach S g) (hc : Calm S g)
    {T : Int} (hT : T + MIN_SLEEP_DURATION ≤ FOREVER) (he : ¬ (Ended S g ∧ ∀ i < S.P.T.n, T ≤ (g.fed i).lv.now)) : Closer S s g := by
  have h := hg.inv hS
  have hk := hg.smalls hS hs hfit
  have hsent := hg.sent hS
  by_cases hr : ∀ i < S.P.T.n, (g.fed i).reading = []
  · by_cases hst : ∀ i < S.P.T.n, (g.fed i).lv.phase ≠ .atStart
    · by_cases hq : ∀ d < S.P.T.n, ∀ p < (S.c d).n, g.chan d p = []
      · by_contra no
        have hduty : ∀ i < S.P.T.n, ∀ u, Duty S (g.fed i) (g.fin i) u → (g.fed i).lv.now + 1 ≤ u.time + S.lag i := by
          intro i hi u hu
          by_contra k
          exact no (go_duty hS hs hfit hR h hsent hk hr hst hq hi hu (by omega))
        have e4 := hR.error
        have tick : ∀ i, i < S.P.T.n → (∀ j < S.P.T.n, (g.fed i).lv.now ≤ (g.fed j).lv.now) → (g.fed i).lv.now + 1 + MIN_SLEEP_DURATION ≤ FOREVER → False := by
          intro i hi hl hb
          refine no (go_tick hr h hi hb ⟨fun j hj => ?_, hduty i hi, fun p hp it hit => ?_⟩)
          · have := hl j hj
            omega
          · rw [hq i hi p hp] at hit; cases hit
        by_cases hE : Ended S g
        · have hj : ∃ j, j < S.P.T.n ∧ (g.fed j).lv.now < T := by
            by_contra k
            refine he ⟨hE, fun i hi => ?_⟩
            by_contra k2
            exact k ⟨i, hi, by omega⟩
          obtain ⟨j, hj, hjT⟩ := hj
          obtain ⟨i, hi, hl⟩ := least (fun i => (g.fed i).lv.now) S.P.T.n (by omega)
          have e2 := hl j hj
          exact tick i hi hl (by omega)
        · have hj : ∃ j, j < S.P.T.n ∧ ¬ ((g.fed j).lv.phase = .running ∧ (g.fed j).lv.cur = S.P.stop ∧ g.fin j = true) := by
            by_contra k
            refine hE fun i hi => ?_
            by_contra k2
            exact k ⟨i, hi, k2⟩
          obtain ⟨j, hj, hjn⟩ := hj
          have hd := duty_stop h hj hjn
          obtain ⟨i, hi, hl⟩ := least (fun i => (g.fed i).lv.now) S.P.T.n (by omega)
          have e1 := hduty j hj _ hd
          have e2 := hl j hj
          have e3 := hR.last j hj
          exact tick i hi hl (by omega)
      · have : ∃ d p, d < S.P.T.n ∧ p < (S.c d).n ∧ g.chan d p ≠ [] := by
          by_contra k
          refine hq fun d hd p hp => ?_
          by_contra k2
          exact k ⟨d, p, hd, hp, k2⟩
        obtain ⟨d, p, hd, hp, k⟩ := this
        exact go_chan hS h hk hst hr hd hp k
    · have : ∃ i, i < S.P.T.n ∧ (g.fed i).lv.phase = .atStart := by
        by_contra k
        exact hst fun i hi k2 => k ⟨i, hi, k2⟩
      obtain ⟨i, hi, k⟩ := this
      exact go_start hS h hc hi k (hr i hi)
  · have : ∃ i, i < S.P.T.n ∧ (g.fed i).reading ≠ [] := by
      by_contra k
      refine hr fun i hi => ?_
      by_contra k2
      exact k ⟨i, hi, k2⟩
    obtain ⟨i, hi, k⟩ := this
    exact go_read hS h hk hc hi k

theorem Reach.trans (h : Reach S g) (st : Relation.ReflTransGen (Step S) g g') : Reach S g' := by
  induction st with
  | refl => exact h
  | tail _ st ih => exact .step ih st

theorem to_the_end (hS : S.Ok rank) (hs : Done S.P rank s) (hfit : Fit S.P.T S.P.stop) (hR : S.Room) (hg : Reach S g) (hc : Calm S g)
    {T : Int} (hT : T + MIN_SLEEP_DURATION ≤ FOREVER) :
    ∃ g', Relation.ReflTransGen (Step S) g g' ∧ Ended S g' ∧ ∀ i < S.P.T.n, T ≤ (g'.fed i).lv.now := by
  generalize hm : M S s g = m
  induction m using lt_wf.induction generalizing g with
  | _ m ih =>
    by_cases he : Ended S g ∧ ∀ i < S.P.T.n, T ≤ (g.fed i).lv.now
    · exact ⟨g, .refl, he⟩
    · obtain ⟨g1, k1, k2, k3⟩ := go_on hS hs hfit hR hg hc hT he
      rw [hm] at k3
      obtain ⟨g', k4, k5⟩ := ih _ k3 (hg.trans k1) k2 rfl
      exact ⟨g', k1.trans k4, k5⟩

/-! ## The properties -/

/-- **C76** A federate whose clock shows a time after that of the stop tag and its lag has executed the stop tag, and what the program says and nothing
else. -/
theorem C76_ended_when_the_time_has_passed_partial (hS : S.Ok rank) (hs : Done S.P rank s) (hg : Reach S g) {i : Nat} (hi : i < S.P.T.n)
    (ht : S.P.stop.time + S.lag i < (g.fed i).lv.now) :
    (g.fed i).lv.phase = .running ∧ (g.fed i).lv.cur = S.P.stop ∧ g.fin i = true ∧ g.log i = s.log i := by
  have h := hg.inv hS
  have key : (g.fed i).lv.phase = .running ∧ (g.fed i).lv.cur = S.P.stop ∧ g.fin i = true := by
    by_contra k
    have := (h.fed i hi).duty _ (duty_stop h hi k)
    omega
  exact ⟨key.1, key.2.1, key.2.2, C76_federation_computes_all_partial hS hg hs.1 hs.2 hi key.1 key.2.1 key.2.2⟩

/-- **C76** The bounds that are assumed do not stop time: from every state that the federation can get into, there is a way to the end, at which each
federate has executed what the program says and nothing else, and to any time after it: no federate waits for another for ever, and no wait for a port
or a clock is in the way.  Part: in the state no message for the start tag must be coming in at a federate between the start time and its start. -/
theorem C76_the_end_can_be_reached_partial (hS : S.Ok rank) (hs : Done S.P rank s) (hfit : Fit S.P.T S.P.stop) (hR : S.Room) (hg : Reach S g)
    (hc : Calm S g) {T : Int} (hT : T + MIN_SLEEP_DURATION ≤ FOREVER) :
    ∃ g', Relation.ReflTransGen (Step S) g g' ∧ Ended S g' ∧ (∀ i < S.P.T.n, T ≤ (g'.fed i).lv.now) ∧ ∀ i < S.P.T.n, g'.log i = s.log i := by
  obtain ⟨g', k1, k2, k3⟩ := to_the_end hS hs hfit hR hg hc hT
  refine ⟨g', k1, k2, k3, fun i hi => ?_⟩
  obtain ⟨a, b, c⟩ := k2 i hi
  exact C76_federation_computes_all_partial hS (hg.trans k1) hs.1 hs.2 hi a b c

/-- **C76** In particular from the initial state, for all clocks. -/
theorem C76_the_end_can_be_reached_from_the_start_partial (hS : S.Ok rank) (hs : Done S.P rank s) (hfit : Fit S.P.T S.P.stop) (hR : S.Room)
    {now : Nat → Int} (h1 : ∀ i, Single (S.P.init i)) (h2 : ∀ i < S.P.T.n, now i + MIN_SLEEP_DURATION ≤ FOREVER ∧ now i ≤ S.P.start + S.lag i ∧
      ∀ j < S.P.T.n, now i ≤ now j + S.error) {T : Int} (hT : T + MIN_SLEEP_DURATION ≤ FOREVER) :
    ∃ g, Relation.ReflTransGen (Step S) (init S now) g ∧ Ended S g ∧ (∀ i < S.P.T.n, T ≤ (g.fed i).lv.now) ∧ ∀ i < S.P.T.n, g.log i = s.log i :=
  C76_the_end_can_be_reached_partial hS hs hfit hR (.init now h1 h2) (fun d hd k => by cases k) hT

/-! ## The hypotheses are met -/

theorem ping_room {sta lag1 : Int} (h1 : 610000 ≤ sta) (h2 : sta + 50000 ≤ lag1) (h3 : lag1 + 510000 ≤ 2000000) : (pingS sta lag1).Room where
  error := by simp [pingS]
  staa i hi p hp := by
    have hM : MIN_SLEEP_DURATION = 10000 := rfl
    have hi2 : i = 0 ∨ i = 1 := by have : i < 2 := hi; omega
    rcases hi2 with rfl | rfl <;> simp [pingS] <;> omega
  last i hi := by
    have hM : MIN_SLEEP_DURATION = 10000 := rfl
    have hF : FOREVER = 9223372036854775807 := rfl
    have hs : (pingS sta lag1).P.stop.time = 12000000 := rfl
    have hi2 : i = 0 ∨ i = 1 := by have : i < 2 := hi; omega
    rw [hs]
    rcases hi2 with rfl | rfl <;> simp [pingS] <;> omega

/-- `ping` can come to its end, and a year later; and when it has, the clock shows a time after the stop tag and the lag. -/
example : ∃ g, Reach (pingS 650000 1100000) g ∧ Ended (pingS 650000 1100000) g ∧ saw (g.log 0) = saw0 ∧ saw (g.log 1) = saw1 ∧
    (pingS 650000 1100000).P.stop.time + (pingS 650000 1100000).lag 1 < (g.fed 1).lv.now := by
  obtain ⟨s, hs, h0, h1⟩ := ping_done
  have hfit : Fit (pingS 650000 1100000).P.T (pingS 650000 1100000).P.stop := by
    refine ⟨.inr ⟨?_, ?_, ?_⟩, ?_⟩ <;> decide
  have hn := ping_now (sta := 650000) (lag1 := 1100000) (by decide)
  obtain ⟨g, k1, k2, k4, k3⟩ := C76_the_end_can_be_reached_from_the_start_partial (S := pingS 650000 1100000) (ping_ok (by decide) (by decide) (by decide)) hs hfit
    (ping_room (by decide) (by decide) (by decide)) ping_single hn (T := 31536000000000000) (by decide)
  refine ⟨g, (Reach.init now0 ping_single hn).trans k1, k2, by rw [k3 0 (by decide)]; exact h0, by rw [k3 1 (by decide)]; exact h1, ?_⟩
  have e1 : (pingS 650000 1100000).P.stop.time = 12000000 := rfl
  have e2 : (pingS 650000 1100000).lag 1 = 1100000 := rfl
  have := k4 1 (by decide)
  omega

end ReactorC.DecFed
