import Verif.Sched.Spec
import Verif.Tag.Lemmas
import Mathlib.Data.List.Basic
import Mathlib.Data.List.Nodup
import Mathlib.Data.List.Perm.Subperm

/-! Helper lemmas about the scheduling model. -/

set_option linter.unusedSimpArgs false
set_option linter.unusedVariables false

namespace ReactorC.Sched
open ReactorC

@[simp] theorem doneUsing_cur (env tok) : (doneUsing env tok).cur = env.cur := by
  cases tok <;> rfl
@[simp] theorem doneUsing_stop (env tok) : (doneUsing env tok).stop = env.stop := by
  cases tok <;> rfl
@[simp] theorem doneUsing_q (env tok) : (doneUsing env tok).q = env.q := by
  cases tok <;> rfl
@[simp] theorem doneUsing_last (env tok) : (doneUsing env tok).last = env.last := by
  cases tok <;> rfl
@[simp] theorem incRef_cur (env tok) : (incRef env tok).cur = env.cur := by
  cases tok <;> rfl
@[simp] theorem incRef_stop (env tok) : (incRef env tok).stop = env.stop := by
  cases tok <;> rfl
@[simp] theorem incRef_q (env tok) : (incRef env tok).q = env.q := by
  cases tok <;> rfl
@[simp] theorem incRef_last (env tok) : (incRef env tok).last = env.last := by
  cases tok <;> rfl
@[simp] theorem incRef_handle (env tok) : (incRef env tok).handle = env.handle := by
  cases tok <;> rfl

theorem afterStop_eq_true (env t) : afterStop env t = true ↔ env.stop < t := by
  simp [afterStop, cmp_gt_zero]

theorem afterStop_eq_false (env t) : afterStop env t = false ↔ t ≤ env.stop := by
  rw [← Tag.not_lt, ← afterStop_eq_true]; simp

theorem afterStop_congr {env env' : Env} (h : env.stop = env'.stop) (t) :
    afterStop env t = afterStop env' t := by simp [afterStop, h]

theorem findEv_some {q t tag e} (h : findEv q t tag = some e) :
    e ∈ q ∧ e.trigger = some t ∧ e.tag = tag := by
  unfold findEv at h
  have h1 := List.find?_some h
  have h2 := List.mem_of_find?_eq_some h
  simp at h1
  exact ⟨h2, h1.1, h1.2⟩

theorem findEv_none {q t tag} (h : (findEv q t tag).isSome = false) :
    ∀ e ∈ q, e.trigger = some t → e.tag ≠ tag := by
  intro e he ht hg
  rw [findEv] at h
  simp [List.find?_eq_none] at h
  exact h e he ht hg

theorem findEv_isSome {q t tag} : (findEv q t tag).isSome = true ↔
    ∃ e ∈ q, e.trigger = some t ∧ e.tag = tag := by
  constructor
  · intro h
    obtain ⟨e, he⟩ := Option.isSome_iff_exists.1 h
    exact ⟨e, findEv_some he⟩
  · rintro ⟨e, he, ht, hg⟩
    by_contra hn
    exact findEv_none (by simpa using hn) e he ht hg

/-- Without wrap-around, `nextFree` stays at the same time, moves up, and, when there is
enough fuel, ends at a tag not used by the trigger. -/
theorem nextFree_spec (q : List Event) (t : Nat) :
    ∀ (n : Nat) (tag : Tag), tag.microstep + n ≤ UINT_MAX →
      (nextFree q t tag n).time = tag.time ∧
      tag.microstep ≤ (nextFree q t tag n).microstep ∧
      (nextFree q t tag n).microstep ≤ tag.microstep + n ∧
      (∀ m, tag.microstep ≤ m → m < (nextFree q t tag n).microstep →
        ∃ e ∈ q, e.trigger = some t ∧ e.tag = ⟨tag.time, m⟩) ∧
      ((nextFree q t tag n).microstep < tag.microstep + n →
        ∀ e ∈ q, e.trigger = some t → e.tag ≠ nextFree q t tag n) := by
  intro n
  induction n with
  | zero => intro tag h; simp [nextFree]; intro m h1 h2; omega
  | succ n ih =>
    intro tag h
    unfold nextFree
    split
    · rename_i hf
      have hw : wrapU32 (tag.microstep + 1) = tag.microstep + 1 := by
        simp only [wrapU32, UINT_MAX] at *; omega
      rw [hw]
      obtain ⟨h1, h2, h3, h4, h5⟩ := ih ⟨tag.time, tag.microstep + 1⟩ (by simp; omega)
      simp only at h1 h2 h3 h4 h5
      refine ⟨h1, by omega, by omega, ?_, ?_⟩
      · intro m hm1 hm2
        rcases Nat.eq_or_lt_of_le hm1 with he | he
        · subst he; obtain ⟨e, he1, he2, he3⟩ := findEv_isSome.1 hf
          exact ⟨e, he1, he2, he3⟩
        · exact h4 m (by omega) hm2
      · intro hm; exact h5 (by omega)
    · rename_i hf
      refine ⟨rfl, Nat.le_refl _, by omega, ?_, ?_⟩
      · intro m h1 h2; omega
      · intro _ ; exact findEv_none (by simpa using hf)

/-- Pigeonhole: a list of length `n` cannot contain events at more than `n` distinct microsteps. -/
theorem range_le_length (q : List Event) (time : Int) (a k : Nat)
    (h : ∀ m, a ≤ m → m < a + k → ∃ e ∈ q, e.tag = ⟨time, m⟩) : k ≤ q.length := by
  have hsub : (List.range' a k).Subperm (q.map (fun e => e.tag.microstep)) := by
    apply (List.nodup_range').subperm
    intro m hm
    rw [List.mem_range'_1] at hm
    obtain ⟨e, he, ht⟩ := h m hm.1 hm.2
    exact List.mem_map.2 ⟨e, he, by rw [ht]⟩
  simpa using hsub.length_le

/-- The conflict loop ends at a tag not used by the trigger. -/
theorem nextFree_free (q : List Event) (t : Nat) (tag : Tag)
    (h : tag.microstep + q.length + 1 ≤ UINT_MAX) :
    (nextFree q t tag (q.length + 1)).time = tag.time ∧
    tag.microstep ≤ (nextFree q t tag (q.length + 1)).microstep ∧
    (nextFree q t tag (q.length + 1)).microstep ≤ tag.microstep + q.length ∧
    FirstFree q t tag (nextFree q t tag (q.length + 1)) := by
  obtain ⟨h1, h2, h3, h4, h5⟩ := nextFree_spec q t (q.length + 1) tag (by omega)
  have hk := range_le_length q tag.time tag.microstep
    ((nextFree q t tag (q.length + 1)).microstep - tag.microstep) (by
      intro m ha hb
      obtain ⟨e, he, _, hg⟩ := h4 m ha (by omega)
      exact ⟨e, he, hg⟩)
  exact ⟨h1, h2, by omega, h1, h2, h5 (by omega), h4⟩

/-- `finishSchedule` on a tag strictly after the current one. -/
theorem finishSchedule_future {debug env t i tok id} (hi : env.cur < i) :
    finishSchedule debug env t i tok id =
      if afterStop env i then (doneUsing env tok, 0)
      else ({ env with
              last := fun j => if j = t then i else env.last j
              q := ⟨id, i, some t, tok⟩ :: env.q
              handle := bumpHandle env.handle }, env.handle) := by
  have h1 : ¬ (debug = true ∧ i.time < env.cur.time) := by
    rw [Tag.lt_def] at hi; omega
  have h2 : ¬ lf_tag_compare i env.cur = 0 := by
    rw [cmp_eq_zero]; intro h; rw [h] at hi; exact Tag.lt_irrefl _ hi
  simp only [finishSchedule, h1, if_false, h2]

/-- In the documented domain the model's intended tag is the requested one, strictly after the
current tag. -/
theorem intended_eq_requested {debug trigs env t extra phys} (ok : CallOk trigs env t extra phys) :
    intendedTag debug env (trigs t) (if extra < 0 then 0 else extra) phys =
      requested env.cur (trigs t) extra phys ∧ env.cur < requested env.cur (trigs t) extra phys ∧
      (requested env.cur (trigs t) extra phys).time < FOREVER ∧
      (requested env.cur (trigs t) extra phys).microstep + env.q.length + 1 ≤ UINT_MAX := by
  obtain ⟨ha, hc, hm, ho, hd, hp, hs⟩ := ok
  obtain ⟨x, hx, hx0⟩ : ∃ x, x = max 0 extra ∧ 0 ≤ x := ⟨_, rfl, by omega⟩
  have hx1 : (if extra < 0 then (0:Int) else extra) = x := by
    split <;> omega
  unfold intendedTag requested
  rw [hx1]
  rw [← hx] at hd hp ⊢
  clear hx hx1
  have hw : wrap64 (x + (trigs t).offset) = (trigs t).offset + x := by
    rw [wrap64_id (by simp only [IsI64, NEVER, FOREVER] at *; omega)]; omega
  simp only [ha, Bool.false_eq_true, if_false, hw]
  by_cases hph : (trigs t).isPhysical = true
  · simp only [hph, if_true]
    obtain ⟨p1, p2⟩ := hp hph
    have hw2 : wrap64 (phys + ((trigs t).offset + x)) = phys + ((trigs t).offset + x) := by
      rw [wrap64_id (by simp only [IsI64, NEVER, FOREVER] at *; omega)]
    rw [hw2]
    exact ⟨rfl, Or.inl p1, p2, by omega⟩
  · simp only [hph, if_false, Bool.false_eq_true]
    have hd0 : 0 ≤ (trigs t).offset + x := by omega
    generalize (trigs t).offset + x = d at *
    rcases lf_delay_tag_cases env.cur d with ⟨h, _⟩ | ⟨h1, h2, h3, h4⟩ | ⟨h1, h2, h3, h4⟩ |
      ⟨h1, h2, h3, h4⟩
    · exfalso; rcases h with h | h
      · rw [h] at hc; simp only [NEVER] at hc; omega
      · omega
    · omega
    · rw [h4, if_pos h2]
      have hw3 : wrapU32 (env.cur.microstep + 1) = env.cur.microstep + 1 := by
        simp only [wrapU32, UINT_MAX] at *; omega
      rw [hw3]
      simp only [Int.lt_irrefl, and_false, if_false]
      refine ⟨trivial, ?_, hc.2, by omega⟩
      rw [Tag.lt_def]; simp
    · rw [h4, if_neg (by omega : ¬ d = 0)]
      have : ¬ (debug = true ∧ env.cur.time + d < env.cur.time) := by omega
      simp only [this, if_false]
      refine ⟨trivial, ?_, h3, by omega⟩
      rw [Tag.lt_def]; simp; omega

/-- What one call on an action does, in the documented domain. -/
inductive Outcome (trigs : Nat → Trigger) (env : Env) (t : Nat) (req : Tag) (tok : Option Nat)
    (id : Nat) (env' : Env) : Prop
  /-- nothing is queued -/
  | dropped : env'.q = env.q → env'.last = env.last → 
      (env.stop < env.cur ∨
       (∃ f, env.stop < f ∧ FirstFree env.q t req f ∧ (trigs t).period ≤ 0) ∨
       (0 < (trigs t).period ∧ (env.last t).time ≠ NEVER ∧
          req.time < (env.last t).time + (trigs t).period ∧
          ((trigs t).policy = .drop ∨ env.stop < ⟨(env.last t).time + (trigs t).period, 0⟩)) ∨
       (0 < (trigs t).period ∧ env.stop < req ∧ ((env.last t).time = NEVER ∨
          (env.last t).time + (trigs t).period ≤ req.time))) → Outcome trigs env t req tok id env'
  /-- the payload of the pending event is replaced -/
  | replaced (found : Event) : 0 < (trigs t).period → (env.last t).time ≠ NEVER →
      req.time < (env.last t).time + (trigs t).period → (trigs t).policy = .replace →
      found ∈ env.q → found.trigger = some t → found.tag = env.last t →
      env'.q = env.q.map (fun e => if e.id = found.id then { e with token := tok } else e) →
      env'.last = env.last → Outcome trigs env t req tok id env'
  /-- an event is queued at tag `g` -/
  | queued (g : Tag) : env'.q = ⟨id, g, some t, tok⟩ :: env.q →
      env'.last = (fun j => if j = t then g else env.last j) → g ≤ env.stop → env.cur < g →
      req ≤ g →
      ((trigs t).period ≤ 0 → FirstFree env.q t req g) →
      (0 < (trigs t).period → (env.last t).time ≠ NEVER →
        (req.time < (env.last t).time + (trigs t).period →
          g = ⟨(env.last t).time + (trigs t).period, 0⟩ ∧ (trigs t).policy ≠ .drop ∧
          ((trigs t).policy = .replace → ∀ e ∈ env.q, e.trigger = some t → e.tag ≠ env.last t)) ∧
        ((env.last t).time + (trigs t).period ≤ req.time → g = req)) →
      (0 < (trigs t).period → (env.last t).time = NEVER → g = req) →
      Outcome trigs env t req tok id env'

theorem schedule_outcome {debug trigs env t extra tok phys id}
    (ok : CallOk trigs env t extra phys) :
    Outcome trigs env t (requested env.cur (trigs t) extra phys) tok id
      (lf_schedule_trigger debug trigs env (some t) extra tok phys id).1 ∧
    (lf_schedule_trigger debug trigs env (some t) extra tok phys id).1.cur = env.cur ∧
    (lf_schedule_trigger debug trigs env (some t) extra tok phys id).1.stop = env.stop := by
  obtain ⟨hreq, hfut, hF, hms⟩ := intended_eq_requested (debug := debug) ok
  have hreq' : intendedTag debug (incRef env tok) (trigs t) (if extra < 0 then 0 else extra) phys =
      requested env.cur (trigs t) extra phys := by
    rw [← hreq]; simp [intendedTag]
  unfold lf_schedule_trigger
  split
  · rename_i hs
    rw [afterStop_eq_true] at hs
    refine ⟨.dropped (by simp) (by simp) (Or.inl hs), by simp, by simp⟩
  · simp only [hreq', incRef_q, incRef_last]
    generalize hR : requested env.cur (trigs t) extra phys = R at *
    split
    · rename_i hper
      split
      · rename_i hf
        obtain ⟨f1, f2, f3, f4⟩ := nextFree_free env.q t R hms
        generalize nextFree env.q t R (env.q.length + 1) = g at *
        have hle : R ≤ g := by rw [Tag.le_def]; omega
        split
        · rename_i hst
          rw [afterStop_eq_true] at hst
          refine ⟨.dropped (by simp) (by simp) (Or.inr (Or.inl ⟨g, by simpa using hst, f4, hper⟩)),
            by simp, by simp⟩
        · rename_i hst
          rw [Bool.not_eq_true, afterStop_eq_false] at hst
          refine ⟨.queued g rfl rfl (by simpa using hst) (Tag.lt_of_lt_of_le hfut hle) hle
            (fun _ => f4) (fun h => by omega) (fun h => by omega), by simp, by simp⟩
      · rename_i hf
        rw [finishSchedule_future (by simpa using hfut)]
        have hff : FirstFree env.q t R R :=
          ⟨rfl, Nat.le_refl _, findEv_none (by simpa using hf), fun m h1 h2 => by omega⟩
        split
        · rename_i hst
          rw [afterStop_eq_true] at hst
          refine ⟨.dropped (by simp) (by simp)
            (Or.inr (Or.inl ⟨R, by simpa using hst, hff, hper⟩)), by simp, by simp⟩
        · rename_i hst
          rw [Bool.not_eq_true, afterStop_eq_false] at hst
          refine ⟨.queued R (by simp) (by simp) (by simpa using hst) hfut (Tag.le_refl _)
            (fun _ => hff) (fun h => by omega)
            (fun h => by omega), by simp, by simp⟩
    · rename_i hper
      have hper' : 0 < (trigs t).period := by omega
      split
      · rename_i hl
        have hl2 : 0 ≤ (env.last t).time ∧ (env.last t).time + (trigs t).period ≤ FOREVER :=
          (ok.spacing hper').resolve_left hl.2
        have hw : wrap64 ((env.last t).time + (trigs t).period) =
            (env.last t).time + (trigs t).period := by
          rw [wrap64_id (by simp only [IsI64, NEVER, FOREVER] at *; omega)]
        rw [hw]
        split
        · rename_i hearly
          have hfin : env.cur < (⟨(env.last t).time + (trigs t).period, 0⟩ : Tag) ∧
              R ≤ (⟨(env.last t).time + (trigs t).period, 0⟩ : Tag) := by
            rw [Tag.lt_def, Tag.le_def]; rw [Tag.lt_def] at hfut; simp only; omega
          have key : ∀ (hpol : (trigs t).policy ≠ .drop)
              (hrep : (trigs t).policy = .replace → ∀ e ∈ env.q, e.trigger = some t → e.tag ≠ env.last t),
              Outcome trigs env t R tok id (finishSchedule debug (incRef env tok) t
                ⟨(env.last t).time + (trigs t).period, 0⟩ tok id).1 ∧
              (finishSchedule debug (incRef env tok) t
                ⟨(env.last t).time + (trigs t).period, 0⟩ tok id).1.cur = env.cur ∧
              (finishSchedule debug (incRef env tok) t
                ⟨(env.last t).time + (trigs t).period, 0⟩ tok id).1.stop = env.stop := by
            intro hpol hrep
            rw [finishSchedule_future (by simpa using hfin.1)]
            split
            · rename_i hst
              rw [afterStop_eq_true] at hst
              refine ⟨.dropped (by simp) (by simp) (Or.inr (Or.inr (Or.inl ⟨hper', hl.2,
                by omega, Or.inr (by simpa using hst)⟩))), by simp, by simp⟩
            · rename_i hst
              rw [Bool.not_eq_true, afterStop_eq_false] at hst
              refine ⟨.queued _ (by simp) (by simp) (by simpa using hst) hfin.1 hfin.2
                (fun h => by omega) (fun _ _ => ⟨fun _ => ⟨rfl, hpol, hrep⟩, fun h => by omega⟩)
                (fun _ h => absurd h hl.2), by simp, by simp⟩
          split
          · rename_i hpol
            refine ⟨.dropped (by simp) (by simp) (Or.inr (Or.inr (Or.inl ⟨hper', hl.2,
                by omega, Or.inl hpol⟩))), by simp, by simp⟩
          · rename_i hpol
            split
            · rename_i found hfound
              obtain ⟨g1, g2, g3⟩ := findEv_some hfound
              refine ⟨.replaced found hper' hl.2 (by omega) hpol g1 g2 g3 ?_ ?_, ?_, ?_⟩
              all_goals simp only [replaceToken]; split <;> simp
            · rename_i hnone
              exact key (by rw [hpol]; decide) (fun _ => findEv_none (by simp [hnone]))
          · rename_i hpol
            exact key (by rw [hpol]; decide) (by rw [hpol]; intro h; cases h)
        · rename_i hearly
          rw [finishSchedule_future (by simpa using hfut)]
          split
          · rename_i hst
            rw [afterStop_eq_true] at hst
            refine ⟨.dropped (by simp) (by simp) (Or.inr (Or.inr (Or.inr ⟨hper', by simpa using hst,
              Or.inr (by omega)⟩))), by simp, by simp⟩
          · rename_i hst
            rw [Bool.not_eq_true, afterStop_eq_false] at hst
            refine ⟨.queued R (by simp) (by simp) (by simpa using hst) hfut (Tag.le_refl _)
              (fun h => by omega) (fun _ _ => ⟨fun h => by omega, fun _ => rfl⟩)
              (fun _ h => absurd h hl.2), by simp, by simp⟩
      · rename_i hl
        have hl' : (env.last t).time = NEVER := by
          by_contra hne; exact hl ⟨ok.action, hne⟩
        rw [finishSchedule_future (by simpa using hfut)]
        split
        · rename_i hst
          rw [afterStop_eq_true] at hst
          refine ⟨.dropped (by simp) (by simp) (Or.inr (Or.inr (Or.inr ⟨hper', by simpa using hst,
            Or.inl hl'⟩))), by simp, by simp⟩
        · rename_i hst
          rw [Bool.not_eq_true, afterStop_eq_false] at hst
          refine ⟨.queued R (by simp) (by simp) (by simpa using hst) hfut (Tag.le_refl _)
            (fun h => by omega) (fun _ h => absurd hl' h) (fun _ _ => rfl), by simp, by simp⟩

end ReactorC.Sched
