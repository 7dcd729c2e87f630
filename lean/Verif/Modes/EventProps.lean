import Verif.Modes.EventInv
import Verif.Modes.Run

/-!
# C47: events of inactive modes are suspended and resumed; the rest of C46 and C59
-/

namespace ReactorC.Modes
open ReactorC ReactorC.Sched

theorem flatProg_ok : flatProg.Ok := ⟨fun _ _ _ h => (by cases h), fun i h => (by simp only [flatProg] at *; omega)⟩

theorem flatProg_start : flatProg.StartOk :=
  ⟨by decide, fun _ _ _ => (by simp only [flatProg]; omega)⟩

theorem flatProg_timers : flatProg.TimersOk := by
  refine ⟨fun _ _ _ => (by simp only [flatProg]; omega), by decide, by decide, ?_, ?_, ?_, ?_⟩ <;>
  · intro t
    simp only [flatProg]
    split <;> simp

theorem nestedProg_ok (p : Nat) (hp : p < 2) : (nestedProg p).Ok := by
  refine ⟨?_, ?_⟩
  · intro i q hi h
    simp only [nestedProg] at *
    split at h
    · cases h
    · cases h; rw [if_pos hp]; omega
  · intro i hi
    simp only [nestedProg] at *
    split <;> simp <;> omega

theorem nestedProg_timers (p : Nat) : (nestedProg p).TimersOk := by
  refine ⟨?_, (by intro t h; cases h), List.nodup_nil, ?_, ?_, ?_, ?_⟩
  · intro t md h
    simp only [nestedProg] at *
    split <;> omega
  all_goals intro t h; cases h

/-! ## C46: the event queue -/

/-- No event of an inactive mode is in the event queue, so no event of an inactive mode is ever delivered. -/
theorem C46_queue_has_active_events_only {P : Prog} (ok : P.Ok) (tok : P.TimersOk) {y : Sys} (h : Reach P y)
    {ev : Event} (hev : ev ∈ y.st.e.env.q) {t md : Nat} (ht : ev.trigger = some t) (hm : P.tmode t = some md) :
    IsActive P y.st.m.current md := by
  have i := reach_EInv ok tok h
  have := i.act ev hev
  unfold evMode at this
  rw [ht] at this
  simp only [hm] at this
  exact (i.flags.act md (tok.own t md hm)).1 this

/-! ## C47 -/

/-- When a mode becomes inactive, its pending events are suspended at the current time. -/
theorem C47_leaving_suspends {P : Prog} (ok : P.Ok) (tok : P.TimersOk) {y : Sys} (h : Reach P y) {t md : Nat}
    (ht : P.tmode t = some md) (hn : (target P y.st.m.next y.st.m.change (P.owner md)).map Prod.fst ≠ some md)
    (hi : ¬ IsActive P (process P y.st).m.current md) :
    ofT (some t) (process P y.st).e.env.q = [] ∧
    (suspT t (process P y.st).e.suspended).Perm
      ((ofT (some t) y.st.e.env.q).map (fun ev => ⟨ev, y.st.e.env.cur.time⟩) ++ suspT t y.st.e.suspended) := by
  have i := reach_EInv ok tok h
  obtain ⟨q, l, o, o2, o3⟩ := process_trig ok tok y.st i.flags i.good i.now ht i.act
  obtain ⟨s1, s2⟩ := o.stays hn
  have hna : ¬ (process P y.st).m.active md = true := by
    rw [(process_flags ok i.flags).act md (tok.own t md ht)]; exact hi
  rw [if_neg hna] at o2 o3
  rw [s1, s2] at o3
  refine ⟨o2, ?_⟩
  rw [o3]
  exact (List.reverse_perm _).append_right _

/-- Suspended events stay suspended, unchanged, until the mode is entered. -/
theorem C47_suspended_until_entered {P : Prog} (ok : P.Ok) (tok : P.TimersOk) {y : Sys} (h : Reach P y) {t md : Nat}
    (ht : P.tmode t = some md) (hn : (target P y.st.m.next y.st.m.change (P.owner md)).map Prod.fst ≠ some md)
    {x : Susp} (hx : x ∈ y.st.e.suspended) (hxt : x.ev.trigger = some t) : x ∈ (process P y.st).e.suspended := by
  have i := reach_EInv ok tok h
  obtain ⟨q, l, o, o2, o3⟩ := process_trig ok tok y.st i.flags i.good i.now ht i.act
  obtain ⟨_, s2⟩ := o.stays hn
  have hx' : x ∈ l := by rw [s2]; exact mem_suspT.2 ⟨hx, hxt⟩
  refine ((mem_suspT (t := t)).1 ?_).1
  rw [o3]
  split
  · exact hx'
  · exact List.mem_append_right _ hx'

theorem flat_entered {P : Prog} (ok : P.Ok) {s : St} (f : Flags P s.m) {md : Nat} {ch : Change} (hmd : P.owner md < P.n)
    (hp : P.parent (P.owner md) = none) (htg : target P s.m.next s.m.change (P.owner md) = some (md, ch)) :
    (process P s).m.active md = true := by
  rw [flat_active (process_flags ok f) hmd hp, (process_cur ok s f hmd).1]
  unfold goesTo; rw [htg]

theorem inactive_nil {P : Prog} {y : Sys} (i : EInv P y) {t md : Nat} (ht : P.tmode t = some md)
    (hi : y.st.m.active md = false) : ofT (some t) y.st.e.env.q = [] := by
  rw [List.eq_nil_iff_forall_not_mem]
  intro ev hev
  obtain ⟨h1, h2⟩ := mem_ofT.1 hev
  have := i.act ev h1
  unfold evMode at this
  rw [h2] at this
  simp only [ht] at this
  replace this : y.st.m.active md = true := this
  rw [hi] at this; cases this

/-- When a mode is entered with history, the suspended events of a trigger, and no others, are scheduled with the
remaining delays they had when they were suspended, with their payloads.

Missing for the full property, which is false: modes of modal reactors inside of modes (`C47_nested_history_forgets_events`,
`C47_nested_event_lost`); a trigger with the spacing policy drop or replace, for which two suspended events at the same time
are merged. -/
theorem C47_history_keeps_remaining_delay_partial {P : Prog} (ok : P.Ok) (tok : P.TimersOk) {y : Sys} (h : Reach P y)
    {t md : Nat} (ht : P.tmode t = some md) (hp : P.parent (P.owner md) = none) (hpol : (P.trigs t).policy = .defer)
    (htg : target P y.st.m.next y.st.m.change (P.owner md) = some (md, .history_transition))
    (hi : ¬ IsActive P y.st.m.current md)
    (hst : ∀ x ∈ suspT t y.st.e.suspended, y.st.e.env.cur.time + (x.ev.tag.time - x.at_) < y.st.e.env.stop.time) :
    ((ofT (some t) (process P y.st).e.env.q).map key).Perm
      ((suspT t y.st.e.suspended).map (fun x => (x.ev.token, y.st.e.env.cur.time + (x.ev.tag.time - x.at_)))) ∧
    suspT t (process P y.st).e.suspended = [] := by
  have i := reach_EInv ok tok h
  have hmd := tok.own t md ht
  have hna : y.st.m.active md = false := by
    rw [Bool.eq_false_iff, ne_eq, i.flags.act md hmd]; exact hi
  obtain ⟨q, l, o, o2, o3⟩ := process_trig ok tok y.st i.flags i.good i.now ht i.act
  have hact := flat_entered ok i.flags hmd hp htg
  rw [if_pos hact] at o2 o3
  have hl : l = [] := o.gone (by rw [htg]; rfl)
  refine ⟨?_, o3.trans hl⟩
  have hcur : y.st.m.current (P.owner md) ≠ md := by
    rw [ne_eq, ← flat_active i.flags hmd hp, hna]; simp
  have hat : ∀ x ∈ suspT t y.st.e.suspended,
      x.at_ = (if y.st.m.deact md ≠ 0 then y.st.m.deact md else y.st.start) := by
    intro x hx
    obtain ⟨h1, h2⟩ := mem_suspT.1 hx
    exact (i.flat x h1 md (by unfold evMode; rw [h2]; exact ht) hp).2
  have htime : ∀ x ∈ suspT t y.st.e.suspended, (resumeTag y.st.start y.st.m md y.st.e.env.cur x.ev).time =
      y.st.e.env.cur.time + (x.ev.tag.time - x.at_) := by
    intro x hx
    unfold resumeTag
    simp only []
    rw [← hat x hx]
  have hk := (o.history _ htg (by simp) hcur hpol).2 (fun x hx => ⟨?_, by rw [htime x hx]; exact hst x hx⟩)
  · rw [o2, hk, inactive_nil i ht hna, List.map_nil, List.append_nil]
    refine (List.reverse_perm _).trans ?_
    rw [List.map_congr_left (fun x hx => by rw [htime x hx])]
  · have h1 := hat x hx
    have h2 := i.past x (mem_suspT.1 hx).1
    unfold resumeTag
    simp only []
    rw [← h1, Tag.lt_def]
    simp only []
    have h3 := i.now.2.2
    by_cases hr : x.ev.tag.time - x.at_ = 0
    · right
      rw [if_pos hr]
      simp only [wrapU32, UINT_MAX] at *
      omega
    · left; omega

/-- When a mode is entered with a reset, the suspended events of its actions are discarded.

Missing for the full property, which is false: modes of modal reactors inside of modes; a mode that is entered from itself
(`C47_self_reset_keeps_events`). -/
theorem C47_reset_discards_events_partial {P : Prog} (ok : P.Ok) (tok : P.TimersOk) {y : Sys} (h : Reach P y)
    {t md : Nat} (ht : P.tmode t = some md) (hp : P.parent (P.owner md) = none) (hti : (P.trigs t).isTimer = false)
    (htg : target P y.st.m.next y.st.m.change (P.owner md) = some (md, .reset_transition))
    (hi : ¬ IsActive P y.st.m.current md) :
    ofT (some t) (process P y.st).e.env.q = [] ∧ suspT t (process P y.st).e.suspended = [] := by
  have i := reach_EInv ok tok h
  have hmd := tok.own t md ht
  have hna : y.st.m.active md = false := by
    rw [Bool.eq_false_iff, ne_eq, i.flags.act md hmd]; exact hi
  obtain ⟨q, l, o, o2, o3⟩ := process_trig ok tok y.st i.flags i.good i.now ht i.act
  have hact := flat_entered ok i.flags hmd hp htg
  rw [if_pos hact] at o2 o3
  exact ⟨by rw [o2, o.resetAction htg hti, inactive_nil i ht hna], o3.trans (o.gone (by rw [htg]; rfl))⟩

/-- As long as its next occurrence cannot be after the stop tag, a periodic timer in a mode has exactly one pending event,
which is suspended while the mode is not active. -/
theorem C47_one_pending_event_per_timer {P : Prog} (ok : P.Ok) (tok : P.TimersOk) {y : Sys} (h : Reach P y)
    {t md : Nat} (htm : t ∈ P.timers) (hper : 0 < (P.trigs t).period) (ht : P.tmode t = some md)
    (hp : P.parent (P.owner md) = none)
    (hst : y.st.e.env.cur.time + max (P.trigs t).offset (P.trigs t).period < y.st.e.env.stop.time) :
    (IsActive P y.st.m.current md →
      (ofT (some t) y.st.e.env.q).length = 1 ∧ suspT t y.st.e.suspended = []) ∧
    (¬ IsActive P y.st.m.current md →
      ofT (some t) y.st.e.env.q = [] ∧ (suspT t y.st.e.suspended).length = 1) := by
  have i := reach_EInv ok tok h
  have hmd := tok.own t md ht
  have hc := (i.count t md htm hper ht hp).resolve_right (by omega)
  refine ⟨fun hi => ?_, fun hi => ?_⟩
  · have hnil : suspT t y.st.e.suspended = [] := by
      rw [List.eq_nil_iff_forall_not_mem]
      intro x hx
      obtain ⟨h1, h2⟩ := mem_suspT.1 hx
      have := (i.flat x h1 md (by unfold evMode; rw [h2]; exact ht) hp).1
      rw [(i.flags.act md hmd).2 hi] at this
      cases this
    rw [hnil] at hc
    exact ⟨hc, hnil⟩
  · have hna : y.st.m.active md = false := by
      rw [Bool.eq_false_iff, ne_eq, i.flags.act md hmd]; exact hi
    have hnil := inactive_nil i ht hna
    rw [hnil] at hc
    exact ⟨hnil, by simpa using hc⟩

/-- When a mode is entered with a reset, each of its periodic timers starts anew: its only pending event is one offset
ahead.

Missing for the full property, which is false: modes of modal reactors inside of modes; a mode that is entered from itself
(`C47_self_reset_keeps_events`); timers whose next occurrence would be after the stop tag
(`C47_timer_beyond_stop_is_not_restarted`). -/
theorem C47_reset_restarts_timers_partial {P : Prog} (ok : P.Ok) (tok : P.TimersOk) {y : Sys} (h : Reach P y)
    {t md : Nat} (htm : t ∈ P.timers) (hper : 0 < (P.trigs t).period) (ht : P.tmode t = some md)
    (hp : P.parent (P.owner md) = none)
    (htg : target P y.st.m.next y.st.m.change (P.owner md) = some (md, .reset_transition))
    (hi : ¬ IsActive P y.st.m.current md)
    (hst : y.st.e.env.cur.time + max (P.trigs t).offset (P.trigs t).period < y.st.e.env.stop.time) :
    (ofT (some t) (process P y.st).e.env.q).map key = [(none, y.st.e.env.cur.time + (P.trigs t).offset)] ∧
    suspT t (process P y.st).e.suspended = [] := by
  have i := reach_EInv ok tok h
  have hmd := tok.own t md ht
  have hti := tok.are t htm
  obtain ⟨hnil, hone⟩ := (C47_one_pending_event_per_timer ok tok h htm hper ht hp hst).2 hi
  obtain ⟨q, l, o, o2, o3⟩ := process_trig ok tok y.st i.flags i.good i.now ht i.act
  have hact := flat_entered ok i.flags hmd hp htg
  rw [if_pos hact] at o2 o3
  refine ⟨?_, o3.trans (o.gone (by rw [htg]; rfl))⟩
  have hs := i.stop
  rw [o2, (o.resetTimer htg hti).2 (by omega) (by omega), hnil, hone, if_neg (by omega)]
  rfl

/-- A timer without period fires one offset after a mode has been entered with a reset; but events that were suspended are
turned into further ones, so that it may fire more than once (`C47_one_shot_timer_fires_twice`). -/
theorem C47_reset_starts_one_shot_timers_partial {P : Prog} (ok : P.Ok) (tok : P.TimersOk) {y : Sys} (h : Reach P y)
    {t md : Nat} (htm : t ∈ P.timers) (hper : (P.trigs t).period = 0) (ht : P.tmode t = some md)
    (hp : P.parent (P.owner md) = none)
    (htg : target P y.st.m.next y.st.m.change (P.owner md) = some (md, .reset_transition))
    (hi : ¬ IsActive P y.st.m.current md)
    (hst : y.st.e.env.cur.time + (P.trigs t).offset < y.st.e.env.stop.time) :
    (ofT (some t) (process P y.st).e.env.q).map key =
      List.replicate (1 + (suspT t y.st.e.suspended).length) (none, y.st.e.env.cur.time + (P.trigs t).offset) ∧
    suspT t (process P y.st).e.suspended = [] := by
  have i := reach_EInv ok tok h
  have hmd := tok.own t md ht
  have hti := tok.are t htm
  have hna : y.st.m.active md = false := by
    rw [Bool.eq_false_iff, ne_eq, i.flags.act md hmd]; exact hi
  obtain ⟨q, l, o, o2, o3⟩ := process_trig ok tok y.st i.flags i.good i.now ht i.act
  have hact := flat_entered ok i.flags hmd hp htg
  rw [if_pos hact] at o2 o3
  refine ⟨?_, o3.trans (o.gone (by rw [htg]; rfl))⟩
  have hs := i.stop
  rw [o2, (o.resetTimer htg hti).2 (by omega) hst, inactive_nil i ht hna, if_pos hper,
    List.count_eq_one_of_mem tok.nodup htm, Nat.add_comm]
  simp

/-! ### State variables -/

theorem resetVars_other {md var : Nat} (l : List (Nat × Nat × Int)) (vars : Nat → Int)
    (h : ∀ v, (md, var, v) ∉ l) : resetVars md l vars var = vars var := by
  induction l generalizing vars with
  | nil => rfl
  | cons a l ih =>
    obtain ⟨mode, x, v⟩ := a
    unfold resetVars
    rw [ih _ (fun v hv => h v (List.mem_cons_of_mem _ hv))]
    split
    · rename_i hm
      by_cases hx : var = x
      · subst hm; subst hx; exact absurd List.mem_cons_self (h v)
      · exact upd_ne _ _ hx
    · rfl

theorem resetVars_hit {md var : Nat} {v : Int} (l : List (Nat × Nat × Int)) (vars : Nat → Int)
    (hd : (l.map (fun x => x.2.1)).Nodup) (h : (md, var, v) ∈ l) : resetVars md l vars var = v := by
  induction l generalizing vars with
  | nil => cases h
  | cons a l ih =>
    obtain ⟨mode, x, w⟩ := a
    rw [List.map_cons, List.nodup_cons] at hd
    unfold resetVars
    rcases List.mem_cons.1 h with h | h
    · simp only [Prod.mk.injEq] at h
      obtain ⟨rfl, rfl, rfl⟩ := h
      rw [if_pos rfl, resetVars_other l _ (fun v' hv => hd.1 (List.mem_map.2 ⟨_, hv, rfl⟩))]
      simp
    · exact ih _ hd.2 h

/-- The state variables registered for automatic reset get their initial values exactly when their mode is entered with a
reset. -/
theorem C47_variables_are_reset {P : Prog} (ok : P.Ok) (tok : P.TimersOk) {y : Sys} (h : Reach P y)
    (hd : (P.resets.map (fun x => x.2.1)).Nodup) {md var : Nat} {v : Int} (hv : (md, var, v) ∈ P.resets)
    (hmd : P.owner md < P.n) :
    (process P y.st).e.vars var =
      if target P y.st.m.next y.st.m.change (P.owner md) = some (md, .reset_transition) then v else y.st.e.vars var := by
  have i := reach_EInv ok tok h
  have hproc : (process P y.st).e.vars = (loop1 P y.st P.n).2.1.vars := by
    unfold process
    simp only []
    split
    · exact (addDummy_same _ _).2.1
    · rfl
  have key : ∀ k, k ≤ P.n → (loop1 P y.st k).2.1.vars var =
      if P.owner md < k ∧ target P y.st.m.next y.st.m.change (P.owner md) = some (md, .reset_transition) then v
      else y.st.e.vars var := by
    intro k
    induction k with
    | zero => intro _; rw [if_neg (by omega)]; rfl
    | succ k ih =>
      intro hk
      have ih := ih (by omega)
      have fr := loop1_frame ok tok y.st i.flags i.good i.now k (by omega)
      have hx := loop1_next ok y.st i.flags (k := k) (by omega)
      rw [loop1_events]
      generalize (loop1 P y.st (k + 1)).1 = m at *
      have hkeep : P.owner md ≠ k ∨ target P y.st.m.next y.st.m.change (P.owner md) ≠ some (md, .reset_transition) →
          (enter P y.st.start m k (loop1 P y.st k).2.1).vars var = (loop1 P y.st k).2.1.vars var := by
        intro hne
        cases hy : m.next k with
        | none => unfold enter; rw [hy]
        | some md' =>
          have en := enter_eff tok (start := y.st.start) hy fr.good (fr.now i.now)
          rw [en.vars]
          split
          · rename_i hr
            apply resetVars_other
            intro v' hv'
            have : md' = md := by
              have := hd
              have e1 : (md', var, v') = (md, var, v) := by
                by_contra hne'
                have hp := List.inj_on_of_nodup_map hd hv' hv rfl
                exact hne' hp
              exact (Prod.mk.inj e1).1
            rw [hy, hr, this] at hx
            have ho := target_owner ok i.flags (by omega) hx.symm
            rcases hne with hne | hne
            · exact hne ho
            · rw [ho] at hne; exact hne hx.symm
          · rfl
      by_cases hc : P.owner md = k ∧ target P y.st.m.next y.st.m.change (P.owner md) = some (md, .reset_transition)
      · rw [if_pos ⟨by omega, hc.2⟩]
        have hx' := hx
        rw [← hc.1, hc.2] at hx'
        cases hy : m.next k with
        | none => rw [hc.1, hy] at hx'; cases hx'
        | some md' =>
          rw [hc.1, hy] at hx'
          simp only [Option.map_some, Option.some.injEq, Prod.mk.injEq] at hx'
          have en := enter_eff tok (start := y.st.start) hy fr.good (fr.now i.now)
          rw [en.vars, if_pos hx'.2, hx'.1]
          exact resetVars_hit _ _ hd hv
      · have hne : P.owner md ≠ k ∨ target P y.st.m.next y.st.m.change (P.owner md) ≠ some (md, .reset_transition) := by
          by_contra hcon
          rw [not_or, not_not, not_not] at hcon
          exact hc hcon
        rw [hkeep hne, ih]
        have hiff : (P.owner md < k ∧ target P y.st.m.next y.st.m.change (P.owner md) = some (md, .reset_transition)) ↔
            (P.owner md < k + 1 ∧ target P y.st.m.next y.st.m.change (P.owner md) = some (md, .reset_transition)) := by
          rcases hne with hne | hne
          · constructor <;> rintro ⟨a, b⟩ <;> exact ⟨by omega, b⟩
          · constructor <;> rintro ⟨a, b⟩ <;> exact absurd b hne
        simp only [hiff]
  rw [hproc, key P.n (Nat.le_refl _)]
  simp only [hmd, true_and]

/-! ## Examples -/

/-- In `flatProg` the action is scheduled for 110 with a payload; the mode is left at 103 and asked for again at 120. -/
def leaveAndReturn (ch : Change) : List Op :=
  [.sched 1 ⟨110, 0⟩ (some 7), .proc, .adv ⟨103, 0⟩, .set 1 .history_transition, .proc, .adv ⟨103, 1⟩, .proc, .adv ⟨105, 0⟩,
    .proc, .adv ⟨106, 0⟩, .proc, .adv ⟨109, 0⟩, .proc, .adv ⟨113, 0⟩, .proc, .adv ⟨117, 0⟩, .proc, .adv ⟨120, 0⟩, .set 0 ch]

/-- `C47_history_keeps_remaining_delay_partial`: the action and the timer, suspended at 103, resume at 127 and 122. -/
example : ∃ y, Reach flatProg y ∧
    decide (target flatProg y.st.m.next y.st.m.change 0 = some (0, .history_transition) ∧
      y.st.m.active 0 = false ∧
      (suspT 1 y.st.e.suspended).map (fun x => (x.ev.token, x.ev.tag.time, x.at_)) = [(some 7, 110, 103)] ∧
      (ofT (some 1) (process flatProg y.st).e.env.q).map key = [(some 7, 127)] ∧
      (ofT (some 0) (process flatProg y.st).e.env.q).map key = [(none, 122)] ∧
      y.st.m.active 1 = true ∧ (process flatProg y.st).m.active 1 = false ∧
      (suspT 3 (process flatProg y.st).e.suspended).map (fun x => (x.ev.tag.time, x.at_)) = [(121, 120)]) = true :=
  run_witness (leaveAndReturn .history_transition) ⟨1000, 0⟩ _ (by decide) (by decide +kernel)

/-- `C47_reset_discards_events_partial`, `C47_reset_restarts_timers_partial`: the action is forgotten, the timer starts
anew. -/
example : ∃ y, Reach flatProg y ∧
    decide (target flatProg y.st.m.next y.st.m.change 0 = some (0, .reset_transition) ∧
      y.st.m.active 0 = false ∧ (suspT 1 y.st.e.suspended).length = 1 ∧
      (ofT (some 1) (process flatProg y.st).e.env.q).map key = [] ∧
      (ofT (some 0) (process flatProg y.st).e.env.q).map key = [(none, 125)]) = true :=
  run_witness (leaveAndReturn .reset_transition) ⟨1000, 0⟩ _ (by decide) (by decide +kernel)

/-- `C47_variables_are_reset`, `C59`: mode 1 is entered with a reset. -/
example : ∃ y, Reach flatProg y ∧
    decide (y.st.e.vars 0 = 42 ∧ y.starts = [1, 0] ∧ y.resets = [2] ∧ shutdown flatProg y.st.m = [3, 4] ∧
      y.st.m.active 1 = true) = true :=
  run_witness [.set 1 .reset_transition, .proc, .adv ⟨100, 1⟩] ⟨1000, 0⟩ _ (by decide) (by decide +kernel)

/-! ## Where the code does not do what is expected -/

/-- A modal reactor inside of a mode that is left and entered again with history: its current mode is active again, but the
events of that mode stay suspended. -/
theorem C47_nested_history_forgets_events : ∃ y, Reach (nestedProg 0) y ∧
    decide (y.st.m.active 2 = true ∧ ofT (some 0) y.st.e.env.q = [] ∧
      (suspT 0 y.st.e.suspended).map (fun x => (x.ev.tag.time, x.at_)) = [(110, 100)] ∧
      y.st.e.env.cur = ⟨500, 0⟩) = true :=
  run_witness [.sched 0 ⟨110, 0⟩ none, .set 1 .history_transition, .proc, .adv ⟨100, 1⟩, .proc, .adv ⟨105, 0⟩,
    .set 0 .history_transition, .proc, .adv ⟨105, 1⟩, .proc, .adv ⟨500, 0⟩] ⟨1000, 0⟩ _ (by decide) (by decide +kernel)

/-- Such an event is lost if the inner mode is left and entered again with history after the time the event was scheduled
for: at 112, 28 before it is due, the outer mode is left; at 150 the event is neither pending nor suspended. -/
theorem C47_nested_event_lost : ∃ y, Reach (nestedProg 0) y ∧
    decide (y.st.m.active 2 = true ∧ y.st.e.env.q = [] ∧ y.st.e.suspended = [] ∧
      y.st.e.env.cur = ⟨150, 0⟩) = true :=
  run_witness [.proc, .adv ⟨112, 0⟩, .sched 0 ⟨140, 0⟩ none, .set 1 .history_transition, .proc, .adv ⟨112, 1⟩, .proc,
    .adv ⟨120, 0⟩, .set 0 .history_transition, .proc, .adv ⟨145, 0⟩, .set 3 .history_transition, .proc, .adv ⟨145, 1⟩, .proc,
    .adv ⟨150, 0⟩, .set 2 .history_transition, .proc] ⟨1000, 0⟩ _ (by decide) (by decide +kernel)

/-- A mode entered from itself with a reset keeps its pending events, and its timer is not restarted. -/
theorem C47_self_reset_keeps_events : ∃ y, Reach flatProg y ∧
    decide (target flatProg y.st.m.next y.st.m.change 0 = some (0, .reset_transition) ∧ y.st.e.env.cur = ⟨103, 0⟩ ∧
      (ofT (some 1) (process flatProg y.st).e.env.q).map key = [(some 7, 110)] ∧
      (ofT (some 0) (process flatProg y.st).e.env.q).map key = [(none, 105)]) = true :=
  run_witness [.sched 1 ⟨110, 0⟩ (some 7), .proc, .adv ⟨103, 0⟩, .set 0 .reset_transition] ⟨1000, 0⟩ _ (by decide)
    (by decide +kernel)

/-- A timer without period in a mode that is not active at the start fires twice when the mode is first entered with a
reset. -/
theorem C47_one_shot_timer_fires_twice : ∃ y, Reach flatProg y ∧
    decide ((ofT (some 2) y.st.e.env.q).map Event.tag = [⟨103, 1⟩, ⟨103, 0⟩]) = true :=
  run_witness [.set 1 .reset_transition, .proc] ⟨1000, 0⟩ _ (by decide) (by decide +kernel)

/-- Three events of an action at three microsteps of a time resume at two tags: two of them are at the same tag. -/
theorem C47_resumed_events_collide : ∃ y, Reach flatProg y ∧
    decide ((ofT (some 1) y.st.e.env.q).map Event.tag = [⟨112, 1⟩, ⟨112, 1⟩, ⟨112, 0⟩]) = true :=
  run_witness [.sched 1 ⟨110, 0⟩ none, .sched 1 ⟨110, 1⟩ none, .sched 1 ⟨110, 2⟩ none, .set 1 .history_transition, .proc,
    .adv ⟨100, 1⟩, .proc, .adv ⟨102, 0⟩, .set 0 .history_transition, .proc] ⟨1000, 0⟩ _ (by decide) (by decide +kernel)

/-- A periodic timer whose next occurrence is after the stop tag is not restarted by a reset, although it would fire before
the stop tag. -/
theorem C47_timer_beyond_stop_is_not_restarted : ∃ y, Reach flatProg y ∧
    decide (y.st.m.active 0 = true ∧ y.st.e.env.cur = ⟨107, 0⟩ ∧ y.st.e.env.stop = ⟨114, 0⟩ ∧
      ofT (some 0) y.st.e.env.q = [] ∧ suspT 0 y.st.e.suspended = []) = true :=
  run_witness [.proc, .adv ⟨105, 0⟩, .set 1 .history_transition, .proc, .adv ⟨105, 1⟩, .proc, .adv ⟨107, 0⟩,
    .set 0 .reset_transition, .proc] ⟨114, 0⟩ _ (by decide) (by decide +kernel)

/-- A modal reactor inside of a mode that is first entered with history: the startup reactions of its initial mode are not
triggered although it is active, and neither are its shutdown reactions. -/
theorem C59_nested_history_skips_startup : ∃ y, Reach (nestedProg 1) y ∧
    decide (y.st.m.active 2 = true ∧ y.seen 2 = true ∧ y.starts = [] ∧ y.done = false ∧
      shutdown (nestedProg 1) y.st.m = [] ∧ y.st.e.env.cur = ⟨500, 0⟩) = true :=
  run_witness [.set 1 .history_transition, .proc, .adv ⟨100, 1⟩, .proc, .adv ⟨500, 0⟩] ⟨1000, 0⟩ _ (by decide)
    (by decide +kernel)

/-- `C46` in a nested program: the outer reactor leaves mode 0 with the inner one inside, then returns with a reset. -/
example : ∃ y, Reach (nestedProg 0) y ∧
    decide (y.st.m.active 2 = false ∧ y.st.m.current 1 = 3 ∧
      target (nestedProg 0) y.st.m.next y.st.m.change 1 = some (2, .reset_transition) ∧
      (process (nestedProg 0) y.st).m.active 2 = true ∧ (process (nestedProg 0) y.st).m.active 3 = false) = true :=
  run_witness [.set 3 .history_transition, .set 1 .history_transition, .proc, .adv ⟨100, 1⟩, .set 0 .reset_transition]
    ⟨1000, 0⟩ _ (by decide) (by decide +kernel)

end ReactorC.Modes
