import Verif.Sched.Props

/-!
# Property C23: scheduling calls keep token reference counts equal to the number of holders
-/

set_option linter.unusedSimpArgs false
set_option linter.unusedVariables false

namespace ReactorC.Sched
open ReactorC

/-- Number of pending events holding token `k`. -/
def holders (q : List Event) (k : Nat) : Nat := q.countP (fun e => decide (e.token = some k))

/-- The reference count of every token changed by exactly as much as its number of holders. -/
def Balanced (env env' : Env) : Prop :=
  ∀ k, env'.rc k + holders env.q k = env.rc k + holders env'.q k

theorem doneUsing_incRef_rc (env : Env) (tok : Option Nat) :
    (doneUsing (incRef env tok) tok).rc = env.rc := by
  cases tok with
  | none => rfl
  | some k => funext j; simp only [doneUsing, incRef]; split <;> simp_all

theorem nextFree_time (q : List Event) (t : Nat) (n : Nat) (tag : Tag) :
    (nextFree q t tag n).time = tag.time := by
  induction n generalizing tag with
  | zero => rfl
  | succ n ih => unfold nextFree; split <;> simp [ih]

theorem balanced_incRef_cons (env env' : Env) (tok : Option Nat) (id : Nat) (g : Tag) (t : Nat)
    (hq : env'.q = ⟨id, g, some t, tok⟩ :: env.q) (hrc : env'.rc = (incRef env tok).rc) :
    Balanced env env' := by
  intro k
  rw [hq, hrc]
  cases tok with
  | none => simp [holders, incRef]
  | some j =>
    by_cases h : k = j
    · subst h; simp [holders, incRef]; omega
    · have h' : ¬ j = k := fun h' => h h'.symm
      simp [holders, incRef, h, h']

theorem balanced_same (env env' : Env) (hq : env'.q = env.q) (hrc : env'.rc = env.rc) :
    Balanced env env' := by
  intro k; rw [hq, hrc]

theorem finishSchedule_balanced (debug : Bool) (env : Env) (t : Nat) (i : Tag) (tok : Option Nat)
    (id : Nat) : Balanced env (finishSchedule debug (incRef env tok) t i tok id).1 := by
  have h : ∃ g, finishSchedule debug (incRef env tok) t i tok id =
      if afterStop (incRef env tok) g then (doneUsing (incRef env tok) tok, 0)
      else ({ incRef env tok with
              last := fun j => if j = t then g else (incRef env tok).last j
              q := ⟨id, g, some t, tok⟩ :: (incRef env tok).q
              handle := bumpHandle (incRef env tok).handle }, (incRef env tok).handle) :=
    ⟨_, rfl⟩
  obtain ⟨g, hg⟩ := h
  rw [hg]
  split
  · exact balanced_same _ _ (by simp) (doneUsing_incRef_rc _ _)
  · exact balanced_incRef_cons _ _ tok id g t (by simp) rfl

theorem countP_map_replace (q : List Event) (found : Event) (tok : Option Nat) (k : Nat)
    (hmem : found ∈ q) (hnd : (q.map Event.id).Nodup) :
    (q.map (fun e => if e.id = found.id then { e with token := tok } else e)).countP
        (fun e => decide (e.token = some k)) + (if found.token = some k then 1 else 0) =
      q.countP (fun e => decide (e.token = some k)) + (if tok = some k then 1 else 0) := by
  induction q with
  | nil => simp at hmem
  | cons a q ih =>
    simp only [List.map_cons, List.nodup_cons, List.mem_map, not_exists, not_and] at hnd
    rcases List.mem_cons.1 hmem with rfl | hm
    · have hrest : q.map (fun e => if e.id = found.id then { e with token := tok } else e) = q := by
        conv_rhs => rw [← List.map_id q]
        apply List.map_congr_left
        intro e he
        rw [if_neg (hnd.1 e he)]; rfl
      simp only [List.map_cons, if_true, hrest, List.countP_cons, decide_eq_true_eq]
      omega
    · have hne : ¬ a.id = found.id := fun h => hnd.1 found hm h.symm
      have := ih hm hnd.2
      simp only [List.map_cons, hne, if_false, List.countP_cons] at *
      omega

/-- C23, for calls of `lf_schedule*`: whether the event is queued, dropped, deferred, replaces a
payload or is discarded because it is after the stop tag or has no destination, the reference
count of every token changes exactly with its number of holders, so the payload of a discarded
event is released.
Missing for the full property (both false, see the two theorems below): a conflicting
event moved past the stop tag, and a payload replaced by itself. -/
theorem C23_schedule_balances_references_partial {debug : Bool} {trigs : Nat → Trigger} {env : Env}
    {tr : Option Nat} {extra phys : Int} {tok : Option Nat} {id : Nat}
    (hs : env.cur ≤ env.stop) (hids : (env.q.map Event.id).Nodup)
    (hrc : ∀ k, holders env.q k ≤ env.rc k)
    (hsame : ∀ t, tr = some t → ∀ e ∈ env.q, e.trigger = some t → e.tag = env.last t →
      (trigs t).policy = .replace → e.token ≠ tok)
    (hstop : ∀ t, tr = some t → (trigs t).period ≤ 0 →
      ∀ e ∈ env.q, e.trigger = some t → e.tag.time < env.stop.time) :
    Balanced env (lf_schedule_trigger debug trigs env tr extra tok phys id).1 := by
  unfold lf_schedule_trigger
  rw [if_neg (by rw [afterStop_eq_true]; exact Tag.not_lt.2 hs)]
  cases tr with
  | none => exact balanced_same _ _ (by simp) (doneUsing_incRef_rc _ _)
  | some t =>
    simp only [incRef_q, incRef_last]
    generalize intendedTag debug (incRef env tok) (trigs t) (if extra < 0 then 0 else extra) phys = R
    split
    · rename_i hper
      split
      · rename_i hf
        obtain ⟨e, he, h1, h2⟩ := findEv_isSome.1 hf
        have hlt := hstop t rfl hper e he h1
        have htime := nextFree_time env.q t (env.q.length + 1) R
        rw [if_neg]
        · exact balanced_incRef_cons _ _ tok id _ t rfl rfl
        · rw [afterStop_eq_true, Tag.not_lt]
          left; rw [htime]; simp only [incRef_stop]; rw [← h2]; exact hlt
      · exact finishSchedule_balanced _ _ _ _ _ _
    · split
      · split
        · split
          · exact balanced_same _ _ (by simp) (doneUsing_incRef_rc _ _)
          · rename_i hpol
            split
            · rename_i found hfound
              obtain ⟨h1, h2, h3⟩ := findEv_some hfound
              have hne := hsame t rfl found h1 h2 h3 hpol
              intro k
              have hc := countP_map_replace env.q found tok k h1 hids
              have hk := hrc k
              have hpos : found.token = some k → 1 ≤ holders env.q k := by
                intro h
                apply List.countP_pos_iff.2
                exact ⟨found, h1, by simpa using h⟩
              simp only [replaceToken, ne_eq, hne, not_false_eq_true, if_true, doneUsing_q,
                incRef_q, holders] at hc hk hpos ⊢
              cases hft : found.token with
              | none =>
                rw [hft] at hc hne
                cases tok with
                | none => exact absurd rfl hne
                | some j =>
                  simp only [doneUsing, incRef] at *
                  by_cases hkj : k = j
                  · subst hkj; simp at hc ⊢; omega
                  · have : ¬ j = k := fun h => hkj h.symm
                    simp [hkj, this] at hc ⊢; omega
              | some i =>
                rw [hft] at hc hne hpos
                by_cases hki : k = i
                · subst hki
                  simp only [forall_const] at hpos
                  cases tok with
                  | none => simp [doneUsing, incRef] at hc ⊢; omega
                  | some j =>
                    have hkj : ¬ k = j := fun h => hne (by rw [h])
                    have hjk : ¬ j = k := fun h => hkj h.symm
                    simp [doneUsing, incRef, hkj, hjk] at hc ⊢; omega
                · have hik : ¬ i = k := fun h => hki h.symm
                  cases tok with
                  | none => simp [doneUsing, incRef, hki, hik] at hc ⊢; omega
                  | some j =>
                    by_cases hkj : k = j
                    · subst hkj; simp [doneUsing, incRef, hki, hik] at hc ⊢; omega
                    · have hjk : ¬ j = k := fun h => hkj h.symm
                      simp [doneUsing, incRef, hkj, hjk, hki, hik] at hc ⊢; omega
            · exact finishSchedule_balanced _ _ _ _ _ _
          · exact finishSchedule_balanced _ _ _ _ _ _
        · exact finishSchedule_balanced _ _ _ _ _ _
      · exact finishSchedule_balanced _ _ _ _ _ _

/-- Non-vacuity: dropping an event releases its token; the sample queue holds token 7. -/
example : (∀ k, holders sampleEnv.q k ≤ sampleEnv.rc k) ∧ holders sampleEnv.q 7 = 1 ∧
    (sampleEnv.q.map Event.id).Nodup ∧
    (lf_schedule_trigger true sampleTrigs sampleEnv (some 1) 3 (some 8) 0 9).1.rc 8 = 0 := by
  refine ⟨?_, by decide, by decide, by decide⟩
  intro k
  by_cases h : k = 7
  · subst h; decide
  · have : ¬ 7 = k := fun h' => h h'.symm
    simp [holders, sampleEnv, h, this]

/-- C23, violated: a conflicting event whose first free microstep is after the stop tag is
discarded without releasing its payload. -/
theorem C23_conflict_after_stop_leaks :
    let env : Env := { sampleEnv with stop := ⟨100, 3⟩ }
    let r := lf_schedule_trigger true sampleTrigs env (some 0) 0 (some 8) 0 9
    r.1.q = env.q ∧ env.rc 8 = 0 ∧ r.1.rc 8 = 1 := by
  decide

/-- C23, violated: replacing the payload of a pending event by the same token counts a reference
that nobody holds. -/
theorem C23_replace_by_same_token_leaks :
    let env : Env := { sampleEnv with q := [⟨0, ⟨110, 0⟩, some 4, some 7⟩], last := fun _ => ⟨110, 0⟩ }
    let r := lf_schedule_trigger true sampleTrigs env (some 4) 0 (some 7) 0 9
    holders r.1.q 7 = 1 ∧ env.rc 7 = 1 ∧ r.1.rc 7 = 2 := by
  decide

/-- C23, violated for `_lf_schedule_at_tag`: the same leak after the stop tag. -/
theorem C23_schedule_at_tag_after_stop_leaks :
    let env : Env := { sampleEnv with stop := ⟨100, 3⟩ }
    let r := lf_schedule_at_tag sampleTrigs true env 0 ⟨100, 3⟩ (some 8) 9
    r.1.q = env.q ∧ env.rc 8 = 0 ∧ r.1.rc 8 = 1 := by
  decide

end ReactorC.Sched
