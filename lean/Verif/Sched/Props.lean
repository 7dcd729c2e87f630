import Verif.Sched.Lemmas

/-!
# Properties C10, C11, C12, C23: scheduling events

Statements use `requested`, `CallOk`, `FirstFree` and `Hist` of `Verif.Sched.Spec`.
-/

set_option linter.unusedSimpArgs false
set_option linter.unusedVariables false

namespace ReactorC.Sched
open ReactorC

/-- No two pending events have the same trigger and tag. -/
def NoDup (q : List Event) : Prop :=
  q.Pairwise (fun a b => ¬ (a.trigger = b.trigger ∧ a.tag = b.tag))

/-- A sample environment used in the non-vacuity examples: current tag (100, 2), stop tag
(1000, 0), trigger 0 has a pending event at (100, 3) holding token 7. -/
def sampleEnv : Env where
  cur := ⟨100, 2⟩
  stop := ⟨1000, 0⟩
  q := [⟨0, ⟨100, 3⟩, some 0, some 7⟩]
  last := fun t => if t = 0 then ⟨100, 3⟩ else if t = 1 then ⟨90, 0⟩ else NEVER_TAG
  handle := 1
  rc := fun k => if k = 7 then 1 else 0

/-- Sample triggers: 0 a logical action without minimum spacing, 1 a logical action with minimum
spacing 50 and policy drop, 2 likewise with policy defer, 3 a physical action, 4 replace. -/
def sampleTrigs : Nat → Trigger
  | 0 => ⟨false, false, 0, 0, .defer⟩
  | 1 => ⟨false, false, 5, 50, .drop⟩
  | 2 => ⟨false, false, 5, 50, .defer⟩
  | 3 => ⟨false, true, 0, 0, .defer⟩
  | 4 => ⟨false, false, 0, 50, .replace⟩
  | _ => ⟨false, false, 0, 0, .defer⟩

theorem sample_ok0 : CallOk sampleTrigs sampleEnv 0 0 0 := by
  constructor <;> simp +decide [sampleTrigs, sampleEnv, FOREVER, UINT_MAX]

theorem sample_ok1 : CallOk sampleTrigs sampleEnv 1 3 0 := by
  constructor <;> simp +decide [sampleTrigs, sampleEnv, FOREVER, UINT_MAX]

theorem sample_ok3 : CallOk sampleTrigs sampleEnv 3 0 101 := by
  constructor <;> simp +decide [sampleTrigs, sampleEnv, FOREVER, UINT_MAX]

/-! ## C10 -/

/-- C10: an event created by a schedule call lies strictly after the current tag and not after the
stop tag, and not before the requested tag. -/
theorem C10_schedule_strictly_future_partial {debug : Bool} {trigs : Nat → Trigger} {env : Env} {t : Nat}
    {extra phys : Int} {tok : Option Nat} {id : Nat}
    (ok : CallOk trigs env t extra phys) (fresh : ∀ e ∈ env.q, e.id ≠ id) :
    ∀ e ∈ (lf_schedule_trigger debug trigs env (some t) extra tok phys id).1.q, e.id = id →
      e.trigger = some t ∧ e.token = tok ∧ env.cur < e.tag ∧ e.tag ≤ env.stop ∧
      requested env.cur (trigs t) extra phys ≤ e.tag := by
  intro e he hid
  obtain ⟨ho, _, _⟩ := schedule_outcome (debug := debug) (tok := tok) (id := id) ok
  cases ho with
  | dropped hq hl _ => rw [hq] at he; exact absurd hid (fresh e he)
  | replaced found h1 h2 h3 h4 h5 h6 h7 hq hl =>
    rw [hq] at he
    obtain ⟨e0, he0, rfl⟩ := List.mem_map.1 he
    exfalso; refine fresh e0 he0 ?_
    split at hid <;> exact hid
  | queued g hq hl hs hc hr _ _ _ =>
    rw [hq] at he
    rcases List.mem_cons.1 he with rfl | he
    · exact ⟨rfl, rfl, hc, hs, hr⟩
    · exact absurd hid (fresh e he)

example : ∃ e ∈ (lf_schedule_trigger true sampleTrigs sampleEnv (some 0) 0 none 0 9).1.q,
    e.id = 9 ∧ e.tag = ⟨100, 4⟩ :=
  ⟨⟨9, ⟨100, 4⟩, some 0, none⟩, by decide, rfl, rfl⟩

example : ∃ e ∈ (lf_schedule_trigger true sampleTrigs sampleEnv (some 3) 0 none 101 9).1.q,
    e.id = 9 ∧ e.tag = ⟨101, 0⟩ :=
  ⟨⟨9, ⟨101, 0⟩, some 3, none⟩, by decide, rfl, rfl⟩

/-- C10: an action without minimum spacing is scheduled exactly at the first tag, at or after the
requested one and at the requested time, at which it has no event yet, and is discarded exactly
when that tag is after the stop tag. -/
theorem C10_schedule_exact {debug : Bool} {trigs : Nat → Trigger} {env : Env} {t : Nat}
    {extra phys : Int} {tok : Option Nat} {id : Nat}
    (ok : CallOk trigs env t extra phys) (hp : (trigs t).period ≤ 0) (hs : env.cur ≤ env.stop) :
    ∃ g, FirstFree env.q t (requested env.cur (trigs t) extra phys) g ∧
      (lf_schedule_trigger debug trigs env (some t) extra tok phys id).1.q =
        if g ≤ env.stop then ⟨id, g, some t, tok⟩ :: env.q else env.q := by
  obtain ⟨ho, _, _⟩ := schedule_outcome (debug := debug) (tok := tok) (id := id) ok
  cases ho with
  | dropped hq hl h =>
    rcases h with h | ⟨f, hf, hff, _⟩ | ⟨h, _⟩ | ⟨h, _⟩
    · exact absurd hs (Tag.not_le.2 h)
    · exact ⟨f, hff, by rw [hq, if_neg (Tag.not_le.2 hf)]⟩
    · omega
    · omega
  | replaced found h1 _ _ _ _ _ _ _ _ => omega
  | queued g hq hl hs hc hr hf _ _ => exact ⟨g, hf hp, by rw [hq, if_pos hs]⟩

example : (sampleTrigs 0).period ≤ 0 ∧ sampleEnv.cur ≤ sampleEnv.stop ∧
    CallOk sampleTrigs sampleEnv 0 0 0 := ⟨by decide, by decide, sample_ok0⟩

/-- C10 at the boundary of `CallOk`: a physical action whose requested tag is exactly the current tag
(microstep 0) gets the next microstep, unless that is after the stop tag. -/
theorem C10_physical_action_at_current_tag {debug : Bool} {trigs : Nat → Trigger} {env : Env}
    {t : Nat} {extra phys : Int} {tok : Option Nat} {id : Nat}
    (ha : (trigs t).isTimer = false) (hphys : (trigs t).isPhysical = true)
    (hp : (trigs t).period ≤ 0) (hs : env.cur ≤ env.stop)
    (h0 : 0 ≤ (trigs t).offset) (hd : (trigs t).offset + max 0 extra ≤ FOREVER)
    (hc0 : 0 ≤ env.cur.time ∧ env.cur.time ≤ FOREVER)
    (heq : requested env.cur (trigs t) extra phys = env.cur)
    (hfree : ∀ e ∈ env.q, e.trigger = some t → e.tag ≠ env.cur) :
    (lf_schedule_trigger debug trigs env (some t) extra tok phys id).1.q =
      if (⟨env.cur.time, 1⟩ : Tag) ≤ env.stop then ⟨id, ⟨env.cur.time, 1⟩, some t, tok⟩ :: env.q
      else env.q := by
  simp only [requested, hphys, if_true] at heq
  have ht : phys + ((trigs t).offset + max 0 extra) = env.cur.time := by rw [← heq]
  have hm : env.cur.microstep = 0 := by rw [← heq]
  have hF : FOREVER = 9223372036854775807 := rfl
  have hext : (if extra < 0 then 0 else extra) = max 0 extra := by split <;> omega
  have hw : wrap64 (max 0 extra + (trigs t).offset) = (trigs t).offset + max 0 extra := by
    unfold wrap64; omega
  have hw2 : wrap64 (phys + ((trigs t).offset + max 0 extra)) = env.cur.time := by
    unfold wrap64; omega
  have hq : (incRef env tok).q = env.q := by unfold incRef; split <;> rfl
  have hcu : (incRef env tok).cur = env.cur := by unfold incRef; split <;> rfl
  have hst : (incRef env tok).stop = env.stop := by unfold incRef; split <;> rfl
  have hint : intendedTag debug (incRef env tok) (trigs t) (max 0 extra) phys = env.cur := by
    simp only [intendedTag, ha, hphys, if_true, hw, hw2, Bool.false_eq_true, if_false]
    rw [← hm]
  have hnone : findEv env.q t env.cur = none := by
    simp only [findEv, List.find?_eq_none, decide_eq_true_eq]
    rintro e he ⟨h1, h2⟩
    exact hfree e he h1 h2
  have hw1 : wrapU32 (env.cur.microstep + 1) = 1 := by rw [hm]; rfl
  have hnot : afterStop env env.cur = false := by
    simp only [afterStop, decide_eq_false_iff_not, cmp_gt_zero]
    exact Tag.not_lt.2 hs
  have hcmp : lf_tag_compare env.cur env.cur = 0 := by rw [cmp_eq_zero]
  have hnl : ¬ (debug = true ∧ env.cur.time < env.cur.time) := by omega
  unfold lf_schedule_trigger
  simp only [hnot, Bool.false_eq_true, if_false, hext, hint, hp, if_true, hq, hnone,
    Option.isSome_none, finishSchedule, hcu, hnl, hcmp, hw1, afterStop, hst, cmp_gt_zero,
    decide_eq_true_eq, Tag.not_lt.2 hs]
  by_cases hgo : (⟨env.cur.time, 1⟩ : Tag) ≤ env.stop
  · rw [if_pos hgo, if_neg (Tag.not_lt.2 hgo)]
  · rw [if_neg hgo, if_pos (Tag.not_le.1 hgo)]
    simp only [doneUsing]
    split <;> exact hq

/-- Non-vacuity: a physical action at (100, 0) when the clock reads 100. -/
example : let env : Env := { sampleEnv with cur := ⟨100, 0⟩, q := [] }
    requested env.cur (sampleTrigs 3) 0 100 = env.cur ∧
    (lf_schedule_trigger true sampleTrigs env (some 3) 0 none 100 9).1.q =
      [⟨9, ⟨100, 1⟩, some 3, none⟩] := by decide

/-- C10, violated for physical actions: when the physical clock reads the current logical time (or
the debug build clamps to it) at a microstep greater than zero, the call queues an event
*before* the current tag. -/
theorem C10_physical_action_in_past :
    ∃ e ∈ (lf_schedule_trigger true sampleTrigs sampleEnv (some 3) 0 none 100 9).1.q,
      e.id = 9 ∧ e.tag < sampleEnv.cur :=
  ⟨⟨9, ⟨100, 0⟩, some 3, none⟩, by decide, rfl, by decide⟩

/-- C10, violated without assertions (`NDEBUG`) when physical time is behind logical time (as with
`-fast true`): the event is queued at an earlier *time* than the current one. -/
theorem C10_physical_action_in_past_ndebug :
    ∃ e ∈ (lf_schedule_trigger false sampleTrigs sampleEnv (some 3) 0 none 40 9).1.q,
      e.id = 9 ∧ e.tag.time < sampleEnv.cur.time :=
  ⟨⟨9, ⟨40, 0⟩, some 3, none⟩, by decide, rfl, by decide⟩

/-- C10 for events scheduled at an explicit tag (network messages): once execution has started, a
new event lies strictly after the current tag and not after the stop tag, provided a microstep is
left. -/
theorem C10_schedule_at_tag_future {trigs : Nat → Trigger} {env : Env} {t : Nat} {tag : Tag}
    {tok : Option Nat} {id : Nat} (hm : tag.microstep < UINT_MAX)
    (fresh : ∀ e ∈ env.q, e.id ≠ id) :
    ∀ e ∈ (lf_schedule_at_tag trigs true env t tag tok id).1.q, e.id = id →
      env.cur < e.tag ∧ e.tag ≤ env.stop ∧ tag ≤ e.tag := by
  intro e he hid
  unfold lf_schedule_at_tag at he
  split at he
  · exact absurd hid (fresh e he)
  · rename_i hc
    have hc' : env.cur < tag := by
      rw [cmp_le_zero] at hc; simp at hc; exact Tag.not_le.1 hc
    simp only [] at he
    split at he
    · exact absurd hid (fresh e (by simpa using he))
    · rename_i hst
      have hst' : tag ≤ env.stop := by
        rw [Bool.not_eq_true, afterStop_eq_false] at hst; simpa using hst
      split at he
      · rename_i found hf
        split at he
        · exfalso; revert he; split <;> intro he <;> exact absurd hid (fresh e (by simpa using he))
        · exfalso
          have : ∃ e0 ∈ env.q, e.id = e0.id := by
            revert he; simp only [replaceToken]
            split <;> intro he <;> simp at he <;> obtain ⟨e0, he0, rfl⟩ := he <;>
              refine ⟨e0, he0, ?_⟩ <;> split <;> rfl
          obtain ⟨e0, he0, h⟩ := this
          exact fresh e0 he0 (by rw [← h]; exact hid)
        · split at he
          · exact absurd hid (fresh e (by simpa using he))
          · rename_i hst2
            rw [Bool.not_eq_true, afterStop_eq_false] at hst2
            have hw : wrapU32 (tag.microstep + 1) = tag.microstep + 1 := by
              simp only [wrapU32, UINT_MAX] at *; omega
            rw [hw] at hst2 he
            simp at he
            rcases he with rfl | he
            · refine ⟨?_, by simpa using hst2, ?_⟩ <;> tag_omega
            · exact absurd hid (fresh e he)
      · simp at he
        rcases he with rfl | he
        · exact ⟨hc', hst', Tag.le_refl _⟩
        · exact absurd hid (fresh e he)

example : (lf_schedule_at_tag sampleTrigs true sampleEnv 0 ⟨200, 0⟩ none 9).1.q.length = 2 := by
  decide

/-! ## C12 and the invariant of histories -/

/-- Invariant of histories. -/
structure HistInv (trigs : Nat → Trigger) (env : Env) : Prop where
  nodup : NoDup env.q
  future : ∀ e ∈ env.q, env.cur < e.tag
  last : ∀ e ∈ env.q, ∀ t, e.trigger = some t → 0 < (trigs t).period →
    e.tag ≤ env.last t ∧ (env.last t).time ≠ NEVER

theorem map_token_pairwise {q : List Event} (f : Event → Event)
    (hf : ∀ e, (f e).trigger = e.trigger ∧ (f e).tag = e.tag) (h : NoDup q) : NoDup (q.map f) := by
  unfold NoDup
  rw [List.pairwise_map]
  refine List.Pairwise.imp ?_ h
  intro a b hab
  rw [(hf a).1, (hf a).2, (hf b).1, (hf b).2]
  exact hab

theorem HistInv.step {debug trigs env} (inv : HistInv trigs env) (op : Op)
    (legal : op.Legal trigs env) : HistInv trigs (op.apply debug trigs env) := by
  cases op with
  | advance g =>
    simp only [Op.apply, Op.Legal] at *
    refine ⟨inv.nodup.filter _, ?_, ?_⟩
    · intro e he; simp at he; exact he.2
    · intro e he t ht hp; simp at he; exact inv.last e he.1 t ht hp
  | schedule t extra tok phys id =>
    obtain ⟨ok, fresh⟩ := legal
    simp only [Op.apply]
    obtain ⟨ho, hcur, hstop⟩ := schedule_outcome (debug := debug) (tok := tok) (id := id) ok
    generalize (lf_schedule_trigger debug trigs env (some t) extra tok phys id).1 = env' at *
    cases ho with
    | dropped hq hl _ =>
      refine ⟨by rw [hq]; exact inv.nodup, by rw [hq, hcur]; exact inv.future, ?_⟩
      rw [hq, hl]; exact inv.last
    | replaced found h1 h2 h3 h4 h5 h6 h7 hq hl =>
      refine ⟨?_, ?_, ?_⟩
      · rw [hq]; apply map_token_pairwise _ _ inv.nodup
        intro e; split <;> simp
      · rw [hq, hcur]; intro e he
        obtain ⟨e0, he0, rfl⟩ := List.mem_map.1 he
        have := inv.future e0 he0
        split <;> exact this
      · rw [hq, hl]; intro e he
        obtain ⟨e0, he0, rfl⟩ := List.mem_map.1 he
        have := inv.last e0 he0
        split <;> exact this
    | queued g hq hl hs hc hr hff h1 h2 =>
      have hnew : 0 < (trigs t).period → (∀ e ∈ env.q, e.trigger = some t → e.tag.time < g.time) := by
        intro hp e he ht
        obtain ⟨hle, hn⟩ := inv.last e he t ht hp
        obtain ⟨ha, hb⟩ := h1 hp hn
        have hg : (env.last t).time < g.time := by
          by_cases hearly : (requested env.cur (trigs t) extra phys).time <
              (env.last t).time + (trigs t).period
          · rw [(ha hearly).1]; simp; omega
          · rw [hb (by omega)]; omega
        rw [Tag.le_def] at hle; omega
      refine ⟨?_, ?_, ?_⟩
      · rw [hq]
        refine List.Pairwise.cons ?_ inv.nodup
        rintro e he ⟨e1, e2⟩
        simp only at e1 e2
        by_cases hp : (trigs t).period ≤ 0
        · exact (hff hp).2.2.1 e he e1.symm e2.symm
        · have := hnew (by omega) e he e1.symm
          rw [← e2] at this; omega
      · rw [hq, hcur]; intro e he
        rcases List.mem_cons.1 he with rfl | he
        · exact hc
        · exact inv.future e he
      · rw [hq, hl]; intro e he t' ht hp
        rcases List.mem_cons.1 he with rfl | he'
        · simp only [Option.some.injEq] at ht
          subst ht
          simp only [if_true]
          refine ⟨Tag.le_refl _, ?_⟩
          have := ok.cur_time.1
          rw [Tag.lt_def] at hc
          simp only [NEVER]; omega
        · by_cases htt : t' = t
          · subst htt
            simp only [if_true]
            have h3 := hnew hp e he' ht
            refine ⟨Or.inl h3, ?_⟩
            have := inv.future e he'
            have h4 := ok.cur_time.1
            rw [Tag.lt_def] at this
            simp only [NEVER]; omega
          · simp only [htt, if_false]; exact inv.last e he' t' ht hp

theorem Hist.inv {debug trigs t env₀ env log} (h : Hist debug trigs t env₀ env log)
    (inv : HistInv trigs env₀) : HistInv trigs env := by
  induction h with
  | nil => exact inv
  | snoc op _ legal ih => exact ih.step op legal

/-- C12 (and C10) over whole executions: starting from an empty event queue, after any history of
schedule calls on actions and tag advances, no two pending events have the same trigger and the
same tag, and every pending event is strictly in the future. -/
theorem C12_no_duplicate_pending_events_partial {debug : Bool} {trigs : Nat → Trigger} {t : Nat}
    {env₀ env : Env} {log : List Tag} (h : Hist debug trigs t env₀ env log) (h0 : env₀.q = []) :
    env.q.Pairwise (fun a b => ¬ (a.trigger = b.trigger ∧ a.tag = b.tag)) ∧
    ∀ e ∈ env.q, env.cur < e.tag := by
  have := h.inv ⟨by rw [h0]; exact List.Pairwise.nil, by rw [h0]; simp, by rw [h0]; simp⟩
  exact ⟨this.nodup, this.future⟩

/-- Non-vacuity: a history scheduling the same action twice at the same tag, then advancing. -/
example : ∃ env log, Hist true sampleTrigs 0 { sampleEnv with q := [] } env log ∧
    env.q.map Event.tag = [⟨100, 4⟩] ∧ env.cur = ⟨100, 3⟩ ∧ log = [⟨100, 4⟩, ⟨100, 3⟩] := by
  refine ⟨_, _, .snoc (.advance ⟨100, 3⟩) (.snoc (.schedule 0 0 none 0 2)
    (.snoc (.schedule 0 0 none 0 1) .nil ⟨?_, ?_⟩) ⟨?_, ?_⟩) ?_, ?_, ?_, ?_⟩
  · constructor <;> simp +decide [sampleTrigs, sampleEnv, FOREVER, UINT_MAX]
  · simp
  · constructor <;> simp +decide [sampleTrigs, sampleEnv, FOREVER, UINT_MAX, Op.apply]
  · decide
  · change _ < _; decide
  · decide
  · rfl
  · decide

/-- C12, violated outside the domain: a physical action scheduled twice while the physical clock
reads exactly the current time at microstep 0 yields two pending events with the same tag. -/
theorem C12_physical_action_duplicate :
    let env0 : Env := { sampleEnv with cur := ⟨100, 0⟩, q := [] }
    let env1 := (lf_schedule_trigger true sampleTrigs env0 (some 3) 0 none 100 1).1
    let env2 := (lf_schedule_trigger true sampleTrigs env1 (some 3) 0 none 100 2).1
    env2.q = [⟨2, ⟨100, 1⟩, some 3, none⟩, ⟨1, ⟨100, 1⟩, some 3, none⟩] := by
  decide

/-- C12, violated by `_lf_schedule_at_tag`, whose conflict handling adds one microstep only: three
messages with the same tag yield two pending events with the same trigger and tag. -/
theorem C12_schedule_at_tag_duplicate :
    let env0 : Env := { sampleEnv with q := [] }
    let s := fun (env : Env) id => (lf_schedule_at_tag sampleTrigs true env 0 ⟨200, 0⟩ none id).1
    ((s (s (s env0 1) 2) 3).q.map fun e => (e.trigger, e.tag)) =
      [(some 0, ⟨200, 1⟩), (some 0, ⟨200, 1⟩), (some 0, ⟨200, 0⟩)] := by
  decide

/-! ## C11 -/

/-- Every logged event is at most the trigger's `last`, which is the latest logged tag. -/
theorem Hist.log_head {debug trigs t env₀ env log} (h : Hist debug trigs t env₀ env log)
    (h0 : (env₀.last t).time = NEVER) (hp : 0 < (trigs t).period) :
    (log = [] → (env.last t).time = NEVER) ∧
    (∀ g ∈ log.head?, env.last t = g ∧ g.time ≠ NEVER) ∧
    log.Pairwise (fun later earlier => earlier.time + (trigs t).period ≤ later.time) := by
  induction h with
  | nil => simp [h0]
  | @snoc env log op hist legal ih =>
    obtain ⟨ih1, ih2, ih3⟩ := ih
    cases op with
    | advance g => simpa [Op.inserted, Op.apply] using ⟨ih1, ih2, ih3⟩
    | schedule t' extra tok phys id =>
      obtain ⟨ok, fresh⟩ := legal
      obtain ⟨ho, hcur, hstop⟩ := schedule_outcome (debug := debug) (tok := tok) (id := id) ok
      simp only [Op.inserted, Op.apply]
      generalize (lf_schedule_trigger debug trigs env (some t') extra tok phys id).1 = env' at *
      have hold : env.q.filter (fun e => decide (e.id = id)) = [] := by
        rw [List.filter_eq_nil_iff]; intro e he; simp; exact fresh e he
      cases ho with
      | dropped hq hl _ =>
        rw [hq, hl, hold]; simpa using ⟨ih1, ih2, ih3⟩
      | replaced found h1 h2 h3 h4 h5 h6 h7 hq hl =>
        have : env'.q.filter (fun e => decide (e.id = id)) = [] := by
          rw [List.filter_eq_nil_iff, hq]; intro e he
          obtain ⟨e0, he0, rfl⟩ := List.mem_map.1 he
          have := fresh e0 he0
          split <;> simpa using this
        rw [hl, this]; simpa using ⟨ih1, ih2, ih3⟩
      | queued g hq hl hs hc hr hff h1 h2 =>
        by_cases htt : t' = t
        · subst htt
          have hgN : g.time ≠ NEVER := by
            have := ok.cur_time.1
            rw [Tag.lt_def] at hc
            simp only [NEVER]; omega
          rw [hq, hl]
          simp only [if_true, List.filter_cons, decide_true, hold, List.map_cons, List.map_nil,
            List.singleton_append]
          refine ⟨by simp, by simpa using hgN, ?_⟩
          refine List.Pairwise.cons ?_ ih3
          intro a ha
          cases log with
          | nil => simp at ha
          | cons b rest =>
            obtain ⟨hb1, hb2⟩ := ih2 b (by simp)
            have hba : a.time ≤ b.time := by
              rcases List.mem_cons.1 ha with rfl | ha
              · omega
              · have := (List.pairwise_cons.1 ih3).1 a ha; omega
            obtain ⟨hx, hy⟩ := h1 hp (by rw [hb1]; exact hb2)
            rw [hb1] at hx hy
            by_cases hearly : (requested env.cur (trigs t') extra phys).time <
                b.time + (trigs t').period
            · rw [(hx hearly).1]; simp; omega
            · rw [hy (by omega)]; omega
        · rw [hl]
          have htt' : t ≠ t' := fun h => htt h.symm
          simpa [htt, htt'] using ⟨ih1, ih2, ih3⟩

/-- C11: in every history, any two events queued for an action with a minimum spacing are at
least that far apart in time. -/
theorem C11_min_spacing {debug : Bool} {trigs : Nat → Trigger} {t : Nat} {env₀ env : Env}
    {log : List Tag} (h : Hist debug trigs t env₀ env log) (h0 : (env₀.last t).time = NEVER)
    (hp : 0 < (trigs t).period) :
    log.Pairwise (fun later earlier => earlier.time + (trigs t).period ≤ later.time) :=
  (h.log_head h0 hp).2.2

/-- Non-vacuity: two calls on an action with spacing 50 and policy defer. -/
example : ∃ env log, Hist true sampleTrigs 2 sampleEnv env log ∧
    log = [⟨155, 0⟩, ⟨105, 0⟩] := by
  refine ⟨_, _, .snoc (.schedule 2 0 none 0 2)
    (.snoc (.schedule 2 0 none 0 1) .nil ⟨?_, ?_⟩) ⟨?_, ?_⟩, ?_⟩
  · constructor <;> simp +decide [sampleTrigs, sampleEnv, FOREVER, UINT_MAX]
  · decide
  · constructor <;> simp +decide [sampleTrigs, sampleEnv, FOREVER, UINT_MAX, Op.apply]
  · decide
  · decide

/-- An event is too early: a previous event was scheduled and the requested time is less than the
minimum spacing after it. -/
def TooEarly (trigs : Nat → Trigger) (env : Env) (t : Nat) (extra phys : Int) : Prop :=
  0 < (trigs t).period ∧ (env.last t).time ≠ NEVER ∧
    (requested env.cur (trigs t) extra phys).time < (env.last t).time + (trigs t).period

/-- C11, policy drop: an event requested too early is not queued and nothing else changes. -/
theorem C11_drop {debug : Bool} {trigs : Nat → Trigger} {env : Env} {t : Nat}
    {extra phys : Int} {tok : Option Nat} {id : Nat}
    (ok : CallOk trigs env t extra phys) (hpol : (trigs t).policy = .drop)
    (he : TooEarly trigs env t extra phys) :
    (lf_schedule_trigger debug trigs env (some t) extra tok phys id).1.q = env.q ∧
    (lf_schedule_trigger debug trigs env (some t) extra tok phys id).1.last = env.last := by
  obtain ⟨hp, hn, hearly⟩ := he
  obtain ⟨ho, _, _⟩ := schedule_outcome (debug := debug) (tok := tok) (id := id) ok
  cases ho with
  | dropped hq hl _ => exact ⟨hq, hl⟩
  | replaced found h1 h2 h3 h4 _ _ _ _ _ => rw [hpol] at h4; cases h4
  | queued g hq hl hs hc hr _ h1 _ => exact absurd hpol ((h1 hp hn).1 hearly).2.1

example : TooEarly sampleTrigs sampleEnv 1 3 0 := by
  simp +decide [TooEarly, sampleTrigs, sampleEnv, requested]

/-- C11, policy replace, previous event still pending: its payload becomes the new one (each
event with that trigger and tag being the found one, by C12); nothing is added, and no tag
changes. -/
theorem C11_replace_pending {debug : Bool} {trigs : Nat → Trigger} {env : Env} {t : Nat}
    {extra phys : Int} {tok : Option Nat} {id : Nat}
    (ok : CallOk trigs env t extra phys) (hpol : (trigs t).policy = .replace)
    (he : TooEarly trigs env t extra phys) (hs : env.cur ≤ env.stop)
    (hpend : ∃ e ∈ env.q, e.trigger = some t ∧ e.tag = env.last t)
    (hstop : (⟨(env.last t).time + (trigs t).period, 0⟩ : Tag) ≤ env.stop) :
    ∃ found ∈ env.q, found.trigger = some t ∧ found.tag = env.last t ∧
    (lf_schedule_trigger debug trigs env (some t) extra tok phys id).1.q =
      env.q.map (fun e => if e.id = found.id then { e with token := tok } else e) ∧
    (lf_schedule_trigger debug trigs env (some t) extra tok phys id).1.last = env.last := by
  obtain ⟨hp, hn, hearly⟩ := he
  obtain ⟨ho, _, _⟩ := schedule_outcome (debug := debug) (tok := tok) (id := id) ok
  cases ho with
  | dropped hq hl h =>
    rcases h with h | ⟨f, _, _, h⟩ | ⟨_, _, _, h | h⟩ | ⟨_, _, h | h⟩
    · exact absurd hs (Tag.not_le.2 h)
    · omega
    · rw [hpol] at h; cases h
    · exact absurd hstop (Tag.not_le.2 h)
    · exact absurd h hn
    · omega
  | replaced found h1 h2 h3 h4 h5 h6 h7 hq hl => exact ⟨found, h5, h6, h7, hq, hl⟩
  | queued g hq hl hs hc hr _ h1 _ =>
    obtain ⟨e, he, h2, h3⟩ := hpend
    exact absurd h3 (((h1 hp hn).1 hearly).2.2 hpol e he h2)

example : ∃ env : Env, CallOk sampleTrigs env 4 0 0 ∧ TooEarly sampleTrigs env 4 0 0 ∧
    (∃ e ∈ env.q, e.trigger = some 4 ∧ e.tag = env.last 4) ∧
    (⟨(env.last 4).time + 50, 0⟩ : Tag) ≤ env.stop := by
  refine ⟨{ sampleEnv with q := [⟨0, ⟨110, 0⟩, some 4, some 7⟩], last := fun _ => ⟨110, 0⟩ },
    ?_, ?_, ?_, ?_⟩
  · constructor <;> simp +decide [sampleTrigs, sampleEnv, FOREVER, UINT_MAX]
  · simp +decide [TooEarly, sampleTrigs, sampleEnv, requested]
  · simp
  · decide

/-- C11, policy defer, or policy replace after the previous event has been handled: the event is
queued exactly at the previous event's time plus the minimum spacing, unless that is after the
stop tag. -/
theorem C11_defer {debug : Bool} {trigs : Nat → Trigger} {env : Env} {t : Nat}
    {extra phys : Int} {tok : Option Nat} {id : Nat}
    (ok : CallOk trigs env t extra phys)
    (hpol : (trigs t).policy = .defer ∨ ((trigs t).policy = .replace ∧
      ∀ e ∈ env.q, e.trigger = some t → e.tag ≠ env.last t))
    (he : TooEarly trigs env t extra phys) (hs : env.cur ≤ env.stop) :
    let g : Tag := ⟨(env.last t).time + (trigs t).period, 0⟩
    (lf_schedule_trigger debug trigs env (some t) extra tok phys id).1.q =
      if g ≤ env.stop then ⟨id, g, some t, tok⟩ :: env.q else env.q := by
  obtain ⟨hp, hn, hearly⟩ := he
  obtain ⟨ho, _, _⟩ := schedule_outcome (debug := debug) (tok := tok) (id := id) ok
  have hnd : (trigs t).policy ≠ .drop := by rcases hpol with h | ⟨h, _⟩ <;> rw [h] <;> decide
  cases ho with
  | dropped hq hl h =>
    rcases h with h | ⟨f, _, _, h⟩ | ⟨_, _, _, h | h⟩ | ⟨_, _, h | h⟩
    · exact absurd hs (Tag.not_le.2 h)
    · omega
    · exact absurd h hnd
    · simp only; rw [hq, if_neg (Tag.not_le.2 h)]
    · exact absurd h hn
    · omega
  | replaced found h1 h2 h3 h4 h5 h6 h7 hq hl =>
    rcases hpol with h | ⟨_, h⟩
    · rw [h] at h4; cases h4
    · exact absurd h7 (h found h5 h6)
  | queued g hq hl hs hc hr _ h1 _ =>
    obtain ⟨hg, _, _⟩ := (h1 hp hn).1 hearly
    subst hg
    simp only; rw [hq, if_pos hs]

example : ∃ env : Env, CallOk sampleTrigs env 2 0 0 ∧ TooEarly sampleTrigs env 2 0 0 ∧
    env.cur ≤ env.stop := by
  refine ⟨{ sampleEnv with last := fun _ => ⟨90, 0⟩ }, ?_, ?_, ?_⟩
  · constructor <;> simp +decide [sampleTrigs, sampleEnv, FOREVER, UINT_MAX]
  · simp +decide [TooEarly, sampleTrigs, sampleEnv, requested]
  · decide

/-- C11: an event that is not too early is queued exactly at the requested tag, unless that is
after the stop tag. -/
theorem C11_not_early {debug : Bool} {trigs : Nat → Trigger} {env : Env} {t : Nat}
    {extra phys : Int} {tok : Option Nat} {id : Nat}
    (ok : CallOk trigs env t extra phys) (hp : 0 < (trigs t).period)
    (he : ¬ TooEarly trigs env t extra phys) (hs : env.cur ≤ env.stop) :
    let g := requested env.cur (trigs t) extra phys
    (lf_schedule_trigger debug trigs env (some t) extra tok phys id).1.q =
      if g ≤ env.stop then ⟨id, g, some t, tok⟩ :: env.q else env.q := by
  obtain ⟨ho, _, _⟩ := schedule_outcome (debug := debug) (tok := tok) (id := id) ok
  cases ho with
  | dropped hq hl h =>
    rcases h with h | ⟨f, _, _, h⟩ | ⟨h1, h2, h3, _⟩ | ⟨_, h, _⟩
    · exact absurd hs (Tag.not_le.2 h)
    · omega
    · exact absurd ⟨h1, h2, h3⟩ he
    · simp only; rw [hq, if_neg (Tag.not_le.2 h)]
  | replaced found h1 h2 h3 h4 h5 h6 h7 hq hl => exact absurd ⟨h1, h2, h3⟩ he
  | queued g hq hl hs hc hr _ h1 h2 =>
    have hg : g = requested env.cur (trigs t) extra phys := by
      by_cases hn : (env.last t).time = NEVER
      · exact h2 hp hn
      · refine (h1 hp hn).2 ?_
        by_contra hlt; exact he ⟨hp, hn, by omega⟩
    subst hg
    simp only; rw [hq, if_pos hs]

example : CallOk sampleTrigs sampleEnv 2 3 0 ∧ ¬ TooEarly sampleTrigs sampleEnv 2 3 0 := by
  constructor
  · constructor <;> simp +decide [sampleTrigs, sampleEnv, FOREVER, UINT_MAX]
  · simp +decide [TooEarly, sampleTrigs, sampleEnv, requested, NEVER_TAG]

end ReactorC.Sched
