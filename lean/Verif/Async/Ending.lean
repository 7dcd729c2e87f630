import Verif.Async.Inv

/-! # The end after a stop request, and executable steps -/

namespace ReactorC.Async
open ReactorC.Level (MIN_SLEEP_DURATION)

theorem begin_cur {C : Config} {now : Int} {l : Tag} {e : Env} (i : EInv C now e) : e.cur ≤ (begin_ C now l e).1.cur := by
  have ht : ∀ e' : Env, EInv C now e' → e'.cur = e.cur → e.cur ≤ (tryWait C now e').cur := by
    intro e' i' hc
    unfold tryWait
    dsimp only
    split
    · rcases proceed_cases i' with ⟨-, e1⟩ | ⟨h, e1⟩
      · rw [e1]
        exact le_of_eq hc.symm
      · rw [e1, ← hc]
        exact le_of_lt h
    · exact le_of_eq hc.symm
  unfold begin_
  split
  · exact le_refl _
  · dsimp only
    split
    · exact ht _ (setStop_inv i _) (setStop_same e _).1
    · exact ht _ i rfl

theorem tryWait_cur {C : Config} {now : Int} {e : Env} (i : EInv C now e) : e.cur ≤ (tryWait C now e).cur := by
  unfold tryWait
  dsimp only
  split
  · rcases proceed_cases i with ⟨-, e1⟩ | ⟨h, e1⟩
    · rw [e1]
    · rw [e1]
      exact le_of_lt h
  · exact le_refl _

theorem proceed_cur {C : Config} {now : Int} {e : Env} (i : EInv C now e) : e.cur ≤ (proceed now e).cur := by
  rcases proceed_cases i with ⟨-, e1⟩ | ⟨h, e1⟩
  · rw [e1]
  · rw [e1]
    exact le_of_lt h

theorem proceed_stop {C : Config} {now : Int} {e : Env} (i : EInv C now e) : (proceed now e).stop = e.stop := by
  rcases proceed_cases i with ⟨-, e1⟩ | ⟨h, e1⟩ <;> rw [e1]

theorem tryWait_stop {C : Config} {now : Int} {e : Env} (i : EInv C now e) : (tryWait C now e).stop = e.stop := by
  unfold tryWait
  dsimp only
  split
  · exact proceed_stop i
  · rfl

theorem begin_stop {C : Config} {now : Int} {l : Tag} {e : Env} (i : EInv C now e) : (begin_ C now l e).1.stop ≤ e.stop := by
  unfold begin_
  split
  · exact le_refl _
  · dsimp only
    split
    · rw [tryWait_stop (setStop_inv i _)]
      exact setStop_le _ _
    · rw [tryWait_stop i]

/-- With one environment, the tag a stop request found is not after the current tag. -/
def Behind (s : State) : Prop :=
  match s.req with
  | .idle => True
  | .gathering i m _ => i = 0 ∧ m ≤ (s.env 0).cur
  | .setting i m _ => i = 0 ∧ m ≤ (s.env 0).cur
  | .done => (s.env 0).stop ≤ bumped (s.env 0).cur

theorem behind_of_env {s s' : State} (h : Behind s) (hr : s'.req = s.req) (hc : (s.env 0).cur ≤ (s'.env 0).cur)
    (hs : (s'.env 0).stop ≤ (s.env 0).stop) : Behind s' := by
  unfold Behind at h ⊢
  rw [hr]
  cases hq : s.req with
  | idle => trivial
  | done =>
      simp only [hq] at h ⊢
      exact le_trans hs (le_trans h (bumped_mono hc))
  | gathering i m c =>
      simp only [hq] at h ⊢
      exact ⟨h.1, le_trans h.2 hc⟩
  | setting i m c =>
      simp only [hq] at h ⊢
      exact ⟨h.1, le_trans h.2 hc⟩

/-- No step moves the tag back or the stop tag forward. -/
theorem step_mono {C : Config} {s s' : State} (st : Step C s s') (h : ∀ j, EInv C s.now (s.env j)) (j : Nat) :
    (s.env j).cur ≤ (s'.env j).cur ∧ (s'.env j).stop ≤ (s.env j).stop := by
  have key : ∀ (f : Nat → Env) (i : Nat) (e : Env), ((f i).cur ≤ e.cur ∧ e.stop ≤ (f i).stop) →
      (f j).cur ≤ (Function.update f i e j).cur ∧ (Function.update f i e j).stop ≤ (f j).stop := by
    intro f i e he
    by_cases hj : j = i
    · subst hj
      rw [Function.update_self]
      exact he
    · rw [Function.update_of_ne hj]
      exact ⟨le_refl _, le_refl _⟩
  cases st with
  | own i st =>
      cases st with
      | finish h1 h2 h3 => exact key _ _ _ ⟨begin_cur (h i), begin_stop (h i)⟩
      | woken h1 h2 => exact key _ _ _ ⟨tryWait_cur (h i), le_of_eq (tryWait_stop (h i))⟩
      | timeout h1 h2 h3 => exact key _ _ _ ⟨proceed_cur (h i), le_of_eq (proceed_stop (h i))⟩
  | tick h1 => exact ⟨le_refl _, le_refl _⟩
  | spurious h1 h2 => exact key _ _ _ ⟨tryWait_cur (h _), le_of_eq (tryWait_stop (h _))⟩
  | schedule h1 h2 h3 => exact key _ _ _ ⟨le_of_eq (schedule_same _ _).1.symm, le_of_eq (schedule_same _ _).2.1⟩
  | request h1 h2 h3 => exact ⟨le_refl _, le_refl _⟩
  | requestOutside h1 h2 h3 => exact ⟨le_refl _, le_refl _⟩
  | gather h1 h2 => exact ⟨le_refl _, le_refl _⟩
  | @set i m c h1 h2 =>
      dsimp only
      have a := key s.env i (setStop (s.env i) (bumped m)) ⟨le_of_eq (setStop_same _ _).1.symm, setStop_le _ _⟩
      have b := key (Function.update s.env i (setStop (s.env i) (bumped m))) 0
        (signal (Function.update s.env i (setStop (s.env i) (bumped m)) 0))
        ⟨le_of_eq (signal_same _).1.symm, le_of_eq (signal_same _).2.1⟩
      exact ⟨le_trans a.1 b.1, le_trans b.2 a.2⟩

theorem step_behind {C : Config} (hn : C.n = 1) {s s' : State} (st : Step C s s')
    (h : ∀ j, EInv C s.now (s.env j)) (hs : NEVER < C.start) (w : Behind s) : Behind s' := by
  have hm0 := step_mono st h 0
  cases st with
  | own i st =>
      refine behind_of_env w ?_ hm0.1 hm0.2
      cases st <;> rfl
  | tick h1 => exact w
  | spurious h1 h2 => exact behind_of_env w rfl hm0.1 hm0.2
  | schedule h1 h2 h3 => exact behind_of_env w rfl hm0.1 hm0.2
  | request h1 h2 h3 =>
      refine ⟨rfl, le_trans ?_ (h 0).lo⟩
      rw [Tag.le_def]
      exact .inl hs
  | requestOutside h1 h2 h3 =>
      refine ⟨rfl, le_trans ?_ (h 0).lo⟩
      rw [Tag.le_def]
      exact .inl hs
  | @gather i m c h1 h2 =>
      unfold Behind at w ⊢
      rw [h1] at w
      dsimp only at w ⊢
      obtain ⟨rfl, hm⟩ := w
      unfold afterGather
      rw [hn]
      simp only [Nat.zero_add, lt_irrefl, if_false]
      refine ⟨trivial, ?_⟩
      split
      · exact le_refl _
      · exact hm
  | @set i m c h1 h2 =>
      unfold Behind at w
      rw [h1] at w
      dsimp only at w
      obtain ⟨rfl, hm⟩ := w
      unfold Behind afterSet
      rw [hn]
      simp only [Nat.zero_add, lt_irrefl, if_false]
      rw [Function.update_self, Function.update_self, (signal_same _).1, (signal_same _).2.1, (setStop_same _ _).1]
      refine le_trans ?_ (bumped_mono hm)
      unfold setStop
      split
      · exact le_refl _
      · rename_i hh
        exact not_lt.1 hh

theorem reach_behind {C : Config} (ok : C.Ok) (hn : C.n = 1) {s : State} (h : Reach C s) : Behind s := by
  induction h with
  | init hn => trivial
  | step r st ih => exact step_behind hn st (reach_inv ok r) ok.start ih

/-- How many steps the worker has still to do once a stop request has been served. -/
def rank (latest : Tag) (e : Env) : Nat :=
  match e.pc with
  | .waiting _ _ => 4
  | .working => if e.cur < e.stop then 3 else if latest = e.cur then 1 else 2
  | _ => 0

theorem rank_le (l : Tag) (e : Env) : rank l e ≤ 4 := by
  unfold rank
  split
  · omega
  · split
    · omega
    · split <;> omega
  · omega

theorem proceed_rank {C : Config} {now : Int} {e : Env} (i : EInv C now e) (hb : e.stop ≤ bumped e.cur) (l : Tag) :
    rank l (proceed now e) ≤ 2 := by
  rcases proceed_cases i with ⟨h, e1⟩ | ⟨h, e1⟩
  · rw [e1]
    unfold rank
    dsimp only
    rw [if_neg (not_lt.2 h)]
    split <;> omega
  · rw [e1]
    unfold rank
    dsimp only
    rw [if_neg (not_lt.2 (le_trans hb (le_bumped_of_lt h)))]
    split <;> omega

/-- The worker does not wait any more. -/
theorem not_waits {C : Config} {now : Int} {e : Env} (i : EInv C now e) (hb : e.stop ≤ bumped e.cur) :
    C.fast = true ∨ (nextTag e).time - now < MIN_SLEEP_DURATION := by
  obtain ⟨p, l, hl⟩ := i.head
  obtain ⟨h1, h2⟩ := i.time (e.cur, p) (by rw [hl]; simp)
  rcases h2 with h2 | h2
  · exact .inl h2
  · refine .inr ?_
    have h3 := time_mono (le_trans (nextTag_le_stop e) hb)
    unfold bumped at h3
    dsimp only at h1 h2 h3
    omega

theorem tryWait_rank {C : Config} {now : Int} {e : Env} (i : EInv C now e) (hb : e.stop ≤ bumped e.cur) (l : Tag) :
    rank l (tryWait C now e) ≤ 2 := by
  unfold tryWait
  dsimp only
  rw [if_pos (not_waits i hb)]
  exact proceed_rank i hb l

theorem begin_rank {C : Config} {now : Int} {l : Tag} {e : Env} (i : EInv C now e) (hb : e.stop ≤ bumped e.cur)
    (hp : e.pc = .working) : rank (begin_ C now l e).2 (begin_ C now l e).1 + 1 ≤ rank l e := by
  have hset : (if starving C e = true then setStop e (bumped e.cur) else e) = e := by
    split
    · unfold setStop
      rw [if_neg (not_lt.2 hb)]
    · rfl
  have hr : rank l e = if e.cur < e.stop then 3 else if l = e.cur then 1 else 2 := by
    unfold rank
    rw [hp]
  unfold begin_
  rw [hset]
  split
  · rename_i h
    rw [hr, if_neg (not_lt.2 h.2), if_pos h.1]
    exact Nat.le_refl _
  · rename_i h
    dsimp only
    by_cases hc : e.cur < e.stop
    · rw [hr, if_pos hc]
      have := tryWait_rank i hb e.cur
      omega
    · rw [hr, if_neg hc]
      have hl : l ≠ e.cur := fun hh => h ⟨hh, not_lt.1 hc⟩
      rw [if_neg hl]
      unfold tryWait
      dsimp only
      rw [if_pos (not_waits i hb)]
      rcases proceed_cases i with ⟨h1, e1⟩ | ⟨h1, e1⟩
      · rw [e1]
        unfold rank
        dsimp only
        rw [if_neg hc, if_pos rfl]
      · exact absurd (lt_of_lt_of_le h1 (nextTag_le_stop e)) hc

theorem signal_rank (l : Tag) (e : Env) : rank l (signal e) = rank l e := by
  obtain ⟨h1, h2, -, -, -, -⟩ := signal_same e
  rcases signal_pc e with h | ⟨u, w, h, h'⟩
  · unfold rank
    rw [h, h1, h2]
  · unfold rank
    rw [h, h']

theorem schedule_rank (l : Tag) (e : Env) (t : Tag) : rank l (schedule e t) = rank l e := by
  unfold schedule
  split
  · exact signal_rank l e
  · rw [signal_rank]
    rfl

/-- Executions, with the number of steps of the worker of the first environment. -/
inductive Run (C : Config) (s : State) : Nat → State → Prop
  | refl : Run C s 0 s
  | other {k : Nat} {s' s'' : State} : Run C s k s' → Step C s' s'' → Run C s k s''
  | own {k : Nat} {s' s'' : State} : Run C s k s' → Own C 0 s' s'' → Run C s (k + 1) s''

theorem Run.reach {C : Config} {s s' : State} {k : Nat} (r : Reach C s) (h : Run C s k s') : Reach C s' := by
  induction h with
  | refl => exact r
  | other _ st ih => exact .step ih st
  | own _ st ih => exact .step ih (.own 0 st)

theorem own_rank {C : Config} {s s' : State} (st : Own C 0 s s') (i : EInv C s.now (s.env 0))
    (hb : (s.env 0).stop ≤ bumped (s.env 0).cur) : s'.req = s.req ∧ rank s'.latest (s'.env 0) + 1 ≤ rank s.latest (s.env 0) := by
  cases st with
  | finish h1 h2 h3 =>
      refine ⟨rfl, ?_⟩
      dsimp only
      rw [Function.update_self]
      exact begin_rank i hb h2
  | woken h1 h2 =>
      refine ⟨rfl, ?_⟩
      dsimp only
      rw [Function.update_self]
      have := tryWait_rank i hb s.latest
      have e : rank s.latest (s.env 0) = 4 := by unfold rank; rw [h2]
      omega
  | timeout h1 h2 h3 =>
      refine ⟨rfl, ?_⟩
      dsimp only
      rw [Function.update_self]
      have := proceed_rank i hb s.latest
      have e : rank s.latest (s.env 0) = 4 := by unfold rank; rw [h2]
      omega

theorem step_rank {C : Config} (hn : C.n = 1) {s s' : State} (st : Step C s s') (i : EInv C s.now (s.env 0))
    (hb : (s.env 0).stop ≤ bumped (s.env 0).cur) (hd : s.req = .done) :
    s'.req = .done ∧ rank s'.latest (s'.env 0) ≤ rank s.latest (s.env 0) := by
  cases st with
  | own j st =>
      have hj : j = 0 := by cases st <;> omega
      subst hj
      obtain ⟨h1, h2⟩ := own_rank st i hb
      exact ⟨h1.trans hd, by omega⟩
  | tick h1 => exact ⟨hd, Nat.le_refl _⟩
  | @spurious j u h1 h2 =>
      obtain rfl : j = 0 := by omega
      refine ⟨hd, ?_⟩
      dsimp only
      rw [Function.update_self]
      have := tryWait_rank i hb s.latest
      have e : rank s.latest (s.env 0) = 4 := by unfold rank; rw [h2]
      omega
  | @schedule j t h1 h2 h3 =>
      obtain rfl : j = 0 := by omega
      refine ⟨hd, ?_⟩
      dsimp only
      rw [Function.update_self, schedule_rank]
  | request h1 h2 h3 => rw [hd] at h1; cases h1
  | requestOutside h1 h2 h3 => rw [hd] at h1; cases h1
  | gather h1 h2 => rw [hd] at h1; cases h1
  | set h1 h2 => rw [hd] at h1; cases h1

theorem run_rank {C : Config} (ok : C.Ok) (hn : C.n = 1) {s s' : State} {k : Nat} (r : Reach C s) (hd : s.req = .done)
    (h : Run C s k s') : s'.req = .done ∧ k + rank s'.latest (s'.env 0) ≤ rank s.latest (s.env 0) := by
  induction h with
  | refl => exact ⟨hd, by omega⟩
  | @other k s1 s2 h1 st ih =>
      have r1 := h1.reach r
      have hb := reach_behind ok hn r1
      unfold Behind at hb
      rw [ih.1] at hb
      obtain ⟨a, b⟩ := step_rank hn st (reach_inv ok r1 0) hb ih.1
      exact ⟨a, by omega⟩
  | @own k s1 s2 h1 st ih =>
      have r1 := h1.reach r
      have hb := reach_behind ok hn r1
      unfold Behind at hb
      rw [ih.1] at hb
      obtain ⟨a, b⟩ := own_rank st (reach_inv ok r1 0) hb
      exact ⟨a.trans ih.1, by omega⟩

/-- Once a stop request has been served, the worker does not sleep without having been signalled. -/
theorem reach_signalled {C : Config} (ok : C.Ok) (hn : C.n = 1) {s : State} (h : Reach C s) (hd : s.req = .done) (u : Int) :
    (s.env 0).pc ≠ .waiting u false := by
  induction h with
  | init hn => simp [init]
  | @step s s' r st ih =>
      have hb := reach_behind ok hn r
      unfold Behind at hb
      cases st with
      | own j st =>
          have hj : j = 0 := by cases st <;> omega
          subst hj
          have hq : s.req = .done := by cases st <;> exact hd
          rw [hq] at hb
          have h2 := (own_rank st (reach_inv ok r 0) hb).2
          have h3 := rank_le s.latest (s.env 0)
          intro hp
          have h4 : rank s'.latest (s'.env 0) = 4 := by unfold rank; rw [hp]
          omega
      | tick h1 => exact ih hd
      | @spurious j v h1 h2 =>
          obtain rfl : j = 0 := by omega
          dsimp only at hd
          rw [hd] at hb
          have h3 := tryWait_rank (reach_inv ok r 0) hb s.latest
          dsimp only
          rw [Function.update_self]
          intro hp
          have h4 : rank s.latest (tryWait C s.now (s.env 0)) = 4 := by unfold rank; rw [hp]
          omega
      | @schedule j t h1 h2 h3 =>
          obtain rfl : j = 0 := by omega
          dsimp only
          rw [Function.update_self]
          unfold schedule
          split
          · exact signal_not_false _ _
          · exact signal_not_false _ _
      | request h1 h2 h3 => cases hd
      | requestOutside h1 h2 h3 => cases hd
      | gather h1 h2 =>
          dsimp only at hd
          unfold afterGather at hd
          split at hd <;> cases hd
      | set h1 h2 =>
          dsimp only
          rw [Function.update_self]
          exact signal_not_false _ _

/-- A worker that has not returned has a step once a stop request has been served. -/
theorem has_step {C : Config} (ok : C.Ok) (hn : C.n = 1) {s : State} (r : Reach C s) (hd : s.req = .done)
    (h : (s.env 0).pc ≠ .exited) : ∃ s', Own C 0 s s' := by
  cases hp : (s.env 0).pc with
  | working => exact ⟨_, .finish (by omega) hp (by rw [hd]; exact id)⟩
  | waiting u w =>
      cases w with
      | true => exact ⟨_, .woken (by omega) hp⟩
      | false => exact absurd hp (reach_signalled ok hn r hd u)
  | exited => exact absurd hp h
  | failed => exact absurd hp (reach_inv ok r 0).ok

/-! ## Executable steps, for examples -/

/-- The names of the steps. -/
inductive Op
  | finish (i : Nat)
  | woken (i : Nat)
  | timeout (i : Nat)
  | tick (t : Int)
  | spurious (i : Nat)
  | schedule (i : Nat) (t : Tag)
  | request (i : Nat)
  | requestOutside
  | gather
  | set

/-- A step with a name. -/
def apply (C : Config) (s : State) : Op → Option State
  | .finish i =>
      if i < C.n ∧ (s.env i).pc = .working ∧ ¬ busy s.req i then
        some { s with
          env := Function.update s.env i (begin_ C s.now s.latest (s.env i)).1
          latest := (begin_ C s.now s.latest (s.env i)).2 }
      else none
  | .woken i =>
      match (s.env i).pc with
      | .waiting _ true => if i < C.n then some { s with env := Function.update s.env i (tryWait C s.now (s.env i)) } else none
      | _ => none
  | .timeout i =>
      match (s.env i).pc with
      | .waiting u _ => if i < C.n ∧ u ≤ s.now then some { s with env := Function.update s.env i (proceed s.now (s.env i)) } else none
      | _ => none
  | .tick t => if s.now ≤ t then some { s with now := t } else none
  | .spurious i =>
      match (s.env i).pc with
      | .waiting _ false => if i < C.n then some { s with env := Function.update s.env i (tryWait C s.now (s.env i)) } else none
      | _ => none
  | .schedule i t =>
      if i < C.n ∧ (s.env i).cur < t ∧ t ≤ FOREVER_TAG then some { s with env := Function.update s.env i (schedule (s.env i) t) } else none
  | .request i => if s.req = .idle ∧ i < C.n ∧ (s.env i).pc = .working then some { s with req := .gathering 0 NEVER_TAG (some i) } else none
  | .requestOutside => if s.req = .idle ∧ C.outside = true ∧ 0 < C.n then some { s with req := .gathering 0 NEVER_TAG none } else none
  | .gather =>
      match s.req with
      | .gathering i m c =>
          if i < C.n then some { s with req := afterGather C.n i (if m < (s.env i).cur then (s.env i).cur else m) c } else none
      | _ => none
  | .set =>
      match s.req with
      | .setting i m c =>
          if i < C.n then
            some { s with
              env := Function.update (Function.update s.env i (setStop (s.env i) (bumped m))) 0
                (signal (Function.update s.env i (setStop (s.env i) (bumped m)) 0))
              req := afterSet C.n i m c }
          else none
      | _ => none

theorem apply_step {C : Config} {s s' : State} {o : Op} (h : apply C s o = some s') : Step C s s' := by
  cases o with
  | finish i =>
      simp only [apply] at h
      split at h
      · rename_i hc
        cases h
        exact .own i (.finish hc.1 hc.2.1 hc.2.2)
      · cases h
  | woken i =>
      simp only [apply] at h
      split at h
      · rename_i hp
        split at h
        · rename_i hc
          cases h
          exact .own i (.woken hc hp)
        · cases h
      · cases h
  | timeout i =>
      simp only [apply] at h
      split at h
      · rename_i hp
        split at h
        · rename_i hc
          cases h
          exact .own i (.timeout hc.1 hp hc.2)
        · cases h
      · cases h
  | tick t =>
      simp only [apply] at h
      split at h
      · rename_i hc
        cases h
        exact .tick hc
      · cases h
  | spurious i =>
      simp only [apply] at h
      split at h
      · rename_i hp
        split at h
        · rename_i hc
          cases h
          exact .spurious hc hp
        · cases h
      · cases h
  | schedule i t =>
      simp only [apply] at h
      split at h
      · rename_i hc
        cases h
        exact .schedule hc.1 hc.2.1 hc.2.2
      · cases h
  | request i =>
      simp only [apply] at h
      split at h
      · rename_i hc
        cases h
        exact .request hc.1 hc.2.1 hc.2.2
      · cases h
  | requestOutside =>
      simp only [apply] at h
      split at h
      · rename_i hc
        cases h
        exact .requestOutside hc.1 hc.2.1 hc.2.2
      · cases h
  | gather =>
      simp only [apply] at h
      split at h
      · rename_i hp
        split at h
        · rename_i hc
          cases h
          exact .gather hp hc
        · cases h
      · cases h
  | set =>
      simp only [apply] at h
      split at h
      · rename_i hp
        split at h
        · rename_i hc
          cases h
          exact .set hp hc
        · cases h
      · cases h

/-- A sequence of steps. -/
def applyAll (C : Config) : State → List Op → Option State
  | s, [] => some s
  | s, o :: os => (apply C s o).bind fun s' => applyAll C s' os

theorem applyAll_reach {C : Config} {os : List Op} : ∀ {s s' : State}, Reach C s → applyAll C s os = some s' → Reach C s' := by
  induction os with
  | nil =>
      intro s s' r h
      cases h
      exact r
  | cons o os ih =>
      intro s s' r h
      simp only [applyAll] at h
      cases ha : apply C s o with
      | none => rw [ha] at h; cases h
      | some s1 =>
          rw [ha] at h
          exact ih (.step r (apply_step ha)) h

/-- A run ends in a reachable state for which a check succeeds. -/
theorem run_exists {C : Config} {now : Int} {os : List Op} (p : State → Bool) (hn : C.start ≤ now)
    (h : ((applyAll C (init C now) os).map p) = some true) : ∃ s, Reach C s ∧ p s = true := by
  cases ha : applyAll C (init C now) os with
  | none => rw [ha] at h; cases h
  | some s =>
      rw [ha] at h
      exact ⟨s, applyAll_reach (.init hn) ha, by simpa using h⟩

end ReactorC.Async
