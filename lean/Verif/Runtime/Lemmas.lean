import Verif.Runtime.Spec
import Verif.Sched.Lemmas

/-! Helper lemmas about the main loop. -/

set_option linter.unusedSimpArgs false
set_option linter.unusedVariables false

namespace ReactorC.Runtime
open ReactorC ReactorC.Sched

theorem minTag_eq_none {q : List Event} : minTag q = none ↔ q = [] := by
  cases q with
  | nil => simp [minTag]
  | cons e q => simp only [minTag]; split <;> simp; split <;> simp

theorem minTag_spec {q : List Event} {g : Tag} (h : minTag q = some g) :
    (∃ e ∈ q, e.tag = g) ∧ ∀ e ∈ q, g ≤ e.tag := by
  induction q generalizing g with
  | nil => simp [minTag] at h
  | cons e q ih =>
    simp only [minTag] at h
    split at h
    · rename_i hn
      rw [minTag_eq_none] at hn
      subst hn
      simp at h; subst h
      simp [Tag.le_refl]
    · rename_i g' hg'
      obtain ⟨⟨e', he', ht⟩, hle⟩ := ih hg'
      split at h
      · rename_i hc
        rw [cmp_le_zero] at hc
        simp at h; subst h
        refine ⟨⟨e, by simp, rfl⟩, ?_⟩
        intro x hx
        rcases List.mem_cons.1 hx with rfl | hx
        · exact Tag.le_refl _
        · exact Tag.le_trans hc (hle x hx)
      · rename_i hc
        rw [cmp_le_zero, Tag.not_le] at hc
        simp at h; subst h
        refine ⟨⟨e', by simp [he'], ht⟩, ?_⟩
        intro x hx
        rcases List.mem_cons.1 hx with rfl | hx
        · exact Tag.le_of_lt hc
        · exact hle x hx

/-- The effect of a schedule call, up to payloads and reference counts. -/
def SchedEffect (env env' : Env) (id t : Nat) : Prop :=
  env'.cur = env.cur ∧ env'.stop = env.stop ∧
  ((∃ f : Event → Event, (∀ e, (f e).id = e.id ∧ (f e).tag = e.tag ∧ (f e).trigger = e.trigger) ∧
      env'.q = env.q.map f) ∨
   (∃ g tok, env'.q = ⟨id, g, some t, tok⟩ :: env.q ∧ env.cur < g ∧ g ≤ env.stop))

theorem effect_of_callOk {debug trigs env t extra tok phys id}
    (ok : CallOk trigs env t extra phys) :
    SchedEffect env (lf_schedule_trigger debug trigs env (some t) extra tok phys id).1 id t := by
  obtain ⟨ho, h1, h2⟩ := schedule_outcome (debug := debug) (tok := tok) (id := id) ok
  refine ⟨h1, h2, ?_⟩
  cases ho with
  | dropped hq _ _ => exact Or.inl ⟨fun e => e, by simp, by simpa using hq⟩
  | replaced found _ _ _ _ _ _ _ hq _ =>
    refine Or.inl ⟨_, ?_, hq⟩
    intro e; split <;> simp
  | queued g hq _ hs hc _ _ _ _ => exact Or.inr ⟨g, tok, hq, hc, hs⟩

/-- Rescheduling a timer. -/
theorem timer_schedule {debug : Bool} {trigs : Nat → Trigger} {env : Env} {t id : Nat}
    (ht : (trigs t).isTimer = true) (hph : (trigs t).isPhysical = false)
    (hp : 0 < (trigs t).period) (hc : 0 ≤ env.cur.time ∧ env.cur.time < FOREVER)
    (hs : env.cur ≤ env.stop) :
    ∃ g : Tag, g = (if env.cur.time + (trigs t).period < FOREVER
      then ⟨env.cur.time + (trigs t).period, 0⟩ else FOREVER_TAG) ∧
    (lf_schedule_trigger debug trigs env (some t) (trigs t).period none 0 id).1.cur = env.cur ∧
    (lf_schedule_trigger debug trigs env (some t) (trigs t).period none 0 id).1.stop = env.stop ∧
    env.cur < g ∧
    (lf_schedule_trigger debug trigs env (some t) (trigs t).period none 0 id).1.q =
      if g ≤ env.stop then ⟨id, g, some t, none⟩ :: env.q else env.q := by
  let g : Tag := if env.cur.time + (trigs t).period < FOREVER
      then ⟨env.cur.time + (trigs t).period, 0⟩ else FOREVER_TAG
  refine ⟨g, rfl, ?_⟩
  have hint : intendedTag debug env (trigs t) (trigs t).period 0 = g ∧ env.cur < g := by
    simp only [intendedTag, ht, hph, if_true, Bool.false_eq_true, if_false]
    rcases lf_delay_tag_cases env.cur (trigs t).period with ⟨h, _⟩ | ⟨h1, h2, h3, h4⟩ |
      ⟨h1, h2, h3, h4⟩ | ⟨h1, h2, h3, h4⟩
    · exfalso; rcases h with h | h
      · rw [h] at hc; simp only [NEVER] at hc; omega
      · omega
    · have hg : g = FOREVER_TAG := if_neg (by omega)
      rw [h4, hg]
      have : ¬ (debug = true ∧ FOREVER_TAG.time < env.cur.time) := by
        simp only [FOREVER_TAG]; omega
      rw [if_neg this]
      exact ⟨rfl, Or.inl hc.2⟩
    · omega
    · have hg : g = ⟨env.cur.time + (trigs t).period, 0⟩ := if_pos h3
      rw [h4, hg]
      have : ¬ (debug = true ∧ env.cur.time + (trigs t).period < env.cur.time) := by omega
      simp only [this, if_false]
      refine ⟨trivial, Or.inl ?_⟩
      simp; omega
  have hr : (lf_schedule_trigger debug trigs env (some t) (trigs t).period none 0 id).1 =
      (finishSchedule debug env t g none id).1 := by
    unfold lf_schedule_trigger
    rw [if_neg (by rw [afterStop_eq_true]; exact Tag.not_lt.2 hs)]
    have hneg : ¬ (trigs t).period < 0 := by omega
    have hle : ¬ (trigs t).period ≤ 0 := by omega
    have hinc : incRef env none = env := rfl
    simp only [hneg, if_false, hle, ht, hinc, hint.1, Bool.true_eq_false, false_and]
  rw [hr, finishSchedule_future hint.2]
  split
  · rename_i h
    rw [afterStop_eq_true] at h
    refine ⟨rfl, rfl, hint.2, ?_⟩
    rw [if_neg (Tag.not_le.2 h)]; rfl
  · rename_i h
    rw [Bool.not_eq_true, afterStop_eq_false] at h
    refine ⟨rfl, rfl, hint.2, ?_⟩
    rw [if_pos h]

theorem setStop_le (env : Env) (t : Tag) : (setStopTag env t).stop ≤ env.stop := by
  unfold setStopTag; split
  · rename_i h; rw [cmp_lt_zero] at h; exact Tag.le_of_lt h
  · exact Tag.le_refl _

theorem setStop_cases (env : Env) (t : Tag) :
    (t < env.stop ∧ setStopTag env t = { env with stop := t }) ∨
    (env.stop ≤ t ∧ setStopTag env t = env) := by
  unfold setStopTag; split
  · rename_i h; rw [cmp_lt_zero] at h; exact Or.inl ⟨h, rfl⟩
  · rename_i h; rw [cmp_lt_zero, Tag.not_lt] at h; exact Or.inr ⟨h, rfl⟩

@[simp] theorem setStop_cur (env : Env) (t : Tag) : (setStopTag env t).cur = env.cur := by
  unfold setStopTag; split <;> rfl
@[simp] theorem setStop_q (env : Env) (t : Tag) : (setStopTag env t).q = env.q := by
  unfold setStopTag; split <;> rfl
@[simp] theorem setStop_last (env : Env) (t : Tag) : (setStopTag env t).last = env.last := by
  unfold setStopTag; split <;> rfl

theorem stopSoon_gt {env : Env} (h : env.cur.microstep < UINT_MAX) : env.cur < stopSoon env := by
  rw [Tag.lt_def]
  simp only [stopSoon, wrapU32, UINT_MAX] at *
  right; exact ⟨trivial, by omega⟩

theorem planNext_spec (P : Prog) (env : Env) :
    (planNext P env).1.cur = env.cur ∧ (planNext P env).1.q = env.q ∧
    (planNext P env).1.last = env.last ∧
    (planNext P env).2 ≤ (planNext P env).1.stop ∧
    (∀ e ∈ env.q, (planNext P env).2 ≤ e.tag) ∧
    ((planNext P env).1.stop = env.stop ∨ (planNext P env).1.stop = stopSoon env) := by
  unfold planNext
  split
  · rename_i h
    rw [minTag_eq_none] at h
    refine ⟨?_, ?_, ?_, ?_, by simp [h], ?_⟩
    · split <;> simp
    · split <;> simp
    · split <;> simp
    · simp only
      generalize (if P.keepalive = true then env else setStopTag env (stopSoon env)) = env1
      split
      · exact Tag.le_refl _
      · rename_i h2; rw [Bool.not_eq_true, afterStop_eq_false] at h2; exact h2
    · simp only; split
      · exact Or.inl rfl
      · rcases setStop_cases env (stopSoon env) with ⟨_, h⟩ | ⟨_, h⟩ <;> rw [h]
        · exact Or.inr rfl
        · exact Or.inl rfl
  · rename_i g h
    obtain ⟨_, hle⟩ := minTag_spec h
    refine ⟨rfl, rfl, rfl, ?_, ?_, Or.inl rfl⟩
    · simp only; split
      · exact Tag.le_refl _
      · rename_i h2; rw [Bool.not_eq_true, afterStop_eq_false] at h2; exact h2
    · intro e he
      simp only; split
      · rename_i h2; rw [afterStop_eq_true] at h2
        exact Tag.le_trans (Tag.le_of_lt h2) (hle e he)
      · exact hle e he

/-- In the domain, `next` moves strictly forward. -/
theorem planNext_future {P : Prog} {env : Env} (hs : env.cur < env.stop)
    (hq : ∀ e ∈ env.q, env.cur < e.tag) (hm : env.cur.microstep < UINT_MAX)
    (ht : env.cur.time < FOREVER) :
    env.cur < (planNext P env).2 ∧ env.cur < (planNext P env).1.stop := by
  have hst : env.cur < (planNext P env).1.stop := by
    rcases (planNext_spec P env).2.2.2.2.2 with h | h <;> rw [h]
    · exact hs
    · exact stopSoon_gt hm
  refine ⟨?_, hst⟩
  have hF : env.cur < FOREVER_TAG := Or.inl ht
  unfold planNext at hst ⊢
  split
  · rename_i h
    simp only [h] at hst
    simp only
    generalize (if P.keepalive = true then env else setStopTag env (stopSoon env)) = env1 at *
    split
    · exact hst
    · exact hF
  · rename_i g h
    obtain ⟨⟨e, he, rfl⟩, _⟩ := minTag_spec h
    simp only
    split
    · exact hs
    · exact hq e he

theorem advanceFails_false {P : Prog} {env : Env} {g : Tag} (hc : env.cur < g)
    (hq : ∀ e ∈ env.q, g ≤ e.tag) : advanceFails P env g = false := by
  unfold advanceFails
  rw [Bool.or_eq_false_iff]
  constructor
  · rw [Bool.and_eq_false_iff]; right
    split
    · rename_i m h
      obtain ⟨⟨e, he, rfl⟩, _⟩ := minTag_spec h
      have := hq e he
      simp [cmp_gt_zero, Tag.not_lt, this]
  
    · rfl
  · simp [cmp_lt_zero, hc]

theorem advance_of_not_fails {P : Prog} {env : Env} {g : Tag}
    (h : advanceFails P env g = false) : env.cur < g := by
  unfold advanceFails at h
  rw [Bool.or_eq_false_iff] at h
  have := h.2
  simp [cmp_lt_zero] at this
  exact this

@[simp] theorem tagsOf_append (a b : List Entry) : tagsOf (a ++ b) = tagsOf a ++ tagsOf b := by
  simp [tagsOf]
@[simp] theorem poppedOf_append (a b : List Entry) : poppedOf (a ++ b) = poppedOf a ++ poppedOf b := by
  simp [poppedOf]
@[simp] theorem insertedOf_append (a b : List Entry) :
    insertedOf (a ++ b) = insertedOf a ++ insertedOf b := by simp [insertedOf]
@[simp] theorem shutdownsOf_append (a b : List Entry) :
    shutdownsOf (a ++ b) = shutdownsOf a ++ shutdownsOf b := by simp [shutdownsOf]
@[simp] theorem firesOf_append (t) (a b : List Entry) :
    firesOf t (a ++ b) = firesOf t a ++ firesOf t b := by simp [firesOf]

theorem map_inserted_logs (es : List Event) :
    tagsOf (es.map Entry.inserted) = [] ∧ poppedOf (es.map Entry.inserted) = [] ∧
    shutdownsOf (es.map Entry.inserted) = [] ∧ insertedOf (es.map Entry.inserted) = es ∧
    ∀ t, firesOf t (es.map Entry.inserted) = [] := by
  induction es with
  | nil => simp [tagsOf, poppedOf, shutdownsOf, insertedOf, firesOf]
  | cons e es ih =>
    obtain ⟨h1, h2, h3, h4, h5⟩ := ih
    simp only [tagsOf, poppedOf, shutdownsOf, insertedOf, firesOf, List.map_cons,
      List.filterMap_cons] at *
    exact ⟨h1, h2, h3, by rw [h4], h5⟩

theorem map_output_logs (g : Tag) (r : Nat) (outs : List Nat) :
    tagsOf (outs.map (Entry.output g r)) = [] ∧ poppedOf (outs.map (Entry.output g r)) = [] ∧
    shutdownsOf (outs.map (Entry.output g r)) = [] ∧ insertedOf (outs.map (Entry.output g r)) = [] ∧
    (∀ t, firesOf t (outs.map (Entry.output g r)) = []) ∧
    (∀ g', runsAt g' (outs.map (Entry.output g r)) = []) := by
  induction outs with
  | nil => simp [tagsOf, poppedOf, shutdownsOf, insertedOf, firesOf, runsAt]
  | cons e es ih =>
    simp only [tagsOf, poppedOf, shutdownsOf, insertedOf, firesOf, runsAt, List.map_cons,
      List.filterMap_cons] at *
    exact ih

@[simp] theorem runsAt_append (g) (a b : List Entry) :
    runsAt g (a ++ b) = runsAt g a ++ runsAt g b := by simp [runsAt]

end ReactorC.Runtime
