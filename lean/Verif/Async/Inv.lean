import Verif.Async.Model
import Mathlib.Order.MinMax

/-! # Invariants -/

namespace ReactorC.Async
open ReactorC.Level (MIN_SLEEP_DURATION)

theorem earliest_le {q : List Tag} {t : Tag} (h : t ∈ q) : earliest q ≤ t := by
  induction q with
  | nil => simp at h
  | cons x q ih =>
      simp only [earliest, List.foldr_cons]
      rcases List.mem_cons.1 h with rfl | h
      · exact min_le_left _ _
      · exact le_trans (min_le_right _ _) (ih h)

theorem earliest_mem (q : List Tag) : earliest q ∈ q ∨ earliest q = FOREVER_TAG := by
  induction q with
  | nil => exact .inr rfl
  | cons x q ih =>
      simp only [earliest, List.foldr_cons]
      rcases min_choice x (q.foldr min FOREVER_TAG) with h | h
      · rw [h]
        exact .inl (by simp)
      · rw [h]
        rcases ih with ih | ih
        · exact .inl (List.mem_cons_of_mem _ ih)
        · exact .inr ih

theorem nextTag_eq (e : Env) : nextTag e = min e.stop (earliest e.queue) := by
  unfold nextTag
  split
  · rename_i h
    exact (min_eq_left (le_of_lt h)).symm
  · rename_i h
    exact (min_eq_right (not_lt.1 h)).symm

theorem nextTag_le_stop (e : Env) : nextTag e ≤ e.stop := by rw [nextTag_eq]; exact min_le_left _ _

theorem nextTag_le_mem {e : Env} {t : Tag} (h : t ∈ e.queue) : nextTag e ≤ t := by
  rw [nextTag_eq]
  exact le_trans (min_le_right _ _) (earliest_le h)

theorem le_nextTag {e : Env} {t : Tag} (h1 : t ≤ e.stop) (h2 : t ≤ earliest e.queue) : t ≤ nextTag e := by
  rw [nextTag_eq]
  exact le_min h1 h2

theorem time_mono {a b : Tag} (h : a ≤ b) : a.time ≤ b.time := by
  rw [Tag.le_def] at h
  omega

theorem lt_bumped (t : Tag) : t < bumped t := by
  rw [Tag.lt_def]
  exact .inr ⟨rfl, Nat.lt_succ_self _⟩

theorem le_bumped_of_lt {a b : Tag} (h : a < b) : bumped a ≤ b := by
  rw [Tag.lt_def] at h
  rw [Tag.le_def]
  unfold bumped
  dsimp only
  omega

theorem bumped_mono {a b : Tag} (h : a ≤ b) : bumped a ≤ bumped b := by
  rw [Tag.le_def] at h ⊢
  unfold bumped
  dsimp only
  omega

/-- What holds of each environment. -/
structure EInv (C : Config) (now : Int) (e : Env) : Prop where
  later : ∀ t ∈ e.queue, e.cur < t
  bound : e.stop ≤ FOREVER_TAG
  curb : e.cur ≤ FOREVER_TAG
  lo : (⟨C.start, 0⟩ : Tag) ≤ e.cur
  down : e.shutdown = 0 ∨ (e.shutdown = 1 ∧ e.stop ≤ e.cur)
  ok : e.pc ≠ .failed
  wait : ∀ u w, e.pc = .waiting u w → (nextTag e).time ≤ u
  exit : e.pc = .exited → e.stop ≤ e.cur
  sorted : e.log.Pairwise fun a b => b.1 < a.1
  head : ∃ p l, e.log = (e.cur, p) :: l
  kept : ∀ t ∈ e.accepted, t ∈ e.queue ∨ ∃ p, (t, p) ∈ e.log
  time : ∀ q ∈ e.log, q.2 ≤ now ∧ (C.fast = true ∨ q.1.time - q.2 < MIN_SLEEP_DURATION)

theorem le_earliest {C : Config} {now : Int} {e : Env} (i : EInv C now e) : e.cur ≤ earliest e.queue := by
  rcases earliest_mem e.queue with h | h
  · exact le_of_lt (i.later _ h)
  · rw [h]
    exact i.curb

/-- Unless the stop tag has passed, the next tag is later than the current one. -/
theorem cur_lt_next {C : Config} {now : Int} {e : Env} (i : EInv C now e) (h : ¬ (e.stop ≤ nextTag e ∧ e.stop ≤ e.cur)) :
    e.cur < nextTag e := by
  by_contra hc
  have hc := not_lt.1 hc
  rw [nextTag_eq] at h hc
  rcases min_choice e.stop (earliest e.queue) with hm | hm
  · rw [hm] at h hc
    exact h ⟨le_refl _, hc⟩
  · rw [hm] at h hc
    rcases earliest_mem e.queue with he | he
    · exact absurd (i.later _ he) (not_lt.2 hc)
    · rw [he] at h hc
      exact h ⟨i.bound, le_trans i.bound hc⟩

/-- The two outcomes of `proceed`. -/
theorem proceed_cases {C : Config} {now : Int} {e : Env} (i : EInv C now e) :
    (e.stop ≤ e.cur ∧ proceed now e = { e with pc := .working }) ∨
    (e.cur < nextTag e ∧ proceed now e =
      { e with
        cur := nextTag e
        queue := e.queue.filter (· ≠ nextTag e)
        pc := .working
        shutdown := if e.stop ≤ nextTag e then e.shutdown + 1 else e.shutdown
        log := (nextTag e, now) :: e.log }) := by
  unfold proceed
  dsimp only
  rw [if_neg (not_lt.2 (le_earliest i)), if_neg (not_lt.2 (nextTag_le_stop e))]
  split
  · rename_i h
    exact .inl ⟨h.2, rfl⟩
  · rename_i h
    have := cur_lt_next i h
    rw [if_neg (not_le.2 this)]
    exact .inr ⟨this, rfl⟩

theorem proceed_inv {C : Config} {now : Int} {e : Env} (i : EInv C now e)
    (ht : C.fast = true ∨ (nextTag e).time - now < MIN_SLEEP_DURATION) : EInv C now (proceed now e) := by
  rcases proceed_cases i with ⟨h, e1⟩ | ⟨h, e1⟩
  · rw [e1]
    exact { i with ok := by simp, wait := by simp, exit := by simp }
  · rw [e1]
    refine ⟨?_, i.bound, le_trans (nextTag_le_stop e) i.bound, le_trans i.lo (le_of_lt h), ?_, by simp, by simp, by simp, ?_,
      ⟨now, e.log, rfl⟩, ?_, ?_⟩
    · intro t ht
      obtain ⟨h1, h2⟩ := List.mem_filter.1 ht
      exact lt_of_le_of_ne (nextTag_le_mem h1) (by
        intro hh
        exact (of_decide_eq_true h2) hh.symm)
    · dsimp only
      rcases i.down with hd | ⟨-, hd⟩
      · rw [hd]
        split
        · rename_i hs
          exact .inr ⟨rfl, hs⟩
        · exact .inl rfl
      · exact absurd (lt_of_le_of_lt hd h) (not_lt.2 (nextTag_le_stop e))
    · refine List.pairwise_cons.2 ⟨?_, i.sorted⟩
      obtain ⟨p, l, hl⟩ := i.head
      intro q hq
      have hs := i.sorted
      rw [hl] at hq hs
      rcases List.mem_cons.1 hq with rfl | hq
      · exact h
      · exact lt_trans ((List.pairwise_cons.1 hs).1 q hq) h
    · intro t hta
      dsimp only
      rcases i.kept t hta with h1 | ⟨p, h1⟩
      · by_cases hn : t = nextTag e
        · exact .inr ⟨now, by simp [hn]⟩
        · exact .inl (List.mem_filter.2 ⟨h1, by simp [hn]⟩)
      · exact .inr ⟨p, List.mem_cons_of_mem _ h1⟩
    · intro q hq
      rcases List.mem_cons.1 hq with rfl | hq
      · exact ⟨Int.le_refl _, ht⟩
      · exact i.time q hq

theorem tryWait_inv {C : Config} {now : Int} {e : Env} (i : EInv C now e) : EInv C now (tryWait C now e) := by
  unfold tryWait
  dsimp only
  split
  · rename_i h
    exact proceed_inv i h
  · refine { i with ok := by simp, wait := ?_, exit := by simp }
    intro u w hu
    cases hu
    exact Int.le_refl _

theorem setStop_le (e : Env) (t : Tag) : (setStop e t).stop ≤ e.stop := by
  unfold setStop
  split
  · rename_i h
    exact le_of_lt h
  · exact le_refl _

theorem setStop_same (e : Env) (t : Tag) :
    (setStop e t).cur = e.cur ∧ (setStop e t).queue = e.queue ∧ (setStop e t).pc = e.pc ∧
      (setStop e t).shutdown = e.shutdown ∧ (setStop e t).log = e.log ∧ (setStop e t).accepted = e.accepted := by
  unfold setStop
  split <;> simp

theorem nextTag_setStop (e : Env) (t : Tag) : nextTag (setStop e t) ≤ nextTag e := by
  rw [nextTag_eq, nextTag_eq, (setStop_same e t).2.1]
  exact min_le_min (setStop_le e t) (le_refl _)

theorem setStop_inv {C : Config} {now : Int} {e : Env} (i : EInv C now e) (t : Tag) : EInv C now (setStop e t) := by
  obtain ⟨h1, h2, h3, h4, h5, h6⟩ := setStop_same e t
  refine ⟨?_, le_trans (setStop_le e t) i.bound, h1 ▸ i.curb, h1 ▸ i.lo, ?_, h3 ▸ i.ok, ?_, ?_, h5 ▸ i.sorted, ?_, ?_, h5 ▸ i.time⟩
  · rw [h1, h2]; exact i.later
  · rw [h1, h4]
    rcases i.down with h | ⟨ha, hb⟩
    · exact .inl h
    · exact .inr ⟨ha, le_trans (setStop_le e t) hb⟩
  · intro u w hu
    rw [h3] at hu
    exact Int.le_trans (time_mono (nextTag_setStop e t)) (i.wait u w hu)
  · intro hx
    rw [h3] at hx
    rw [h1]
    exact le_trans (setStop_le e t) (i.exit hx)
  · rw [h1, h5]; exact i.head
  · rw [h2, h5, h6]; exact i.kept

theorem begin_inv {C : Config} {now : Int} {l : Tag} {e : Env} (i : EInv C now e) : EInv C now (begin_ C now l e).1 := by
  unfold begin_
  split
  · rename_i h
    exact { i with ok := by simp, wait := by simp, exit := fun _ => h.2 }
  · dsimp only
    refine tryWait_inv ?_
    split
    · exact setStop_inv i _
    · exact i

theorem signal_same (e : Env) :
    (signal e).cur = e.cur ∧ (signal e).stop = e.stop ∧ (signal e).queue = e.queue ∧
      (signal e).shutdown = e.shutdown ∧ (signal e).log = e.log ∧ (signal e).accepted = e.accepted := by
  unfold signal
  split <;> simp

/-- What a signal does to the worker. -/
theorem signal_pc (e : Env) : (signal e).pc = e.pc ∨ ∃ u w, e.pc = .waiting u w ∧ (signal e).pc = .waiting u true := by
  unfold signal
  split
  · rename_i u w h
    exact .inr ⟨u, w, h, rfl⟩
  · exact .inl rfl

theorem signal_not_false (e : Env) (u : Int) : (signal e).pc ≠ .waiting u false := by
  unfold signal
  split
  · simp
  · rename_i h
    exact fun hh => h _ _ hh

theorem nextTag_signal (e : Env) : nextTag (signal e) = nextTag e := by
  rw [nextTag_eq, nextTag_eq, (signal_same e).2.1, (signal_same e).2.2.1]

theorem signal_inv {C : Config} {now : Int} {e : Env} (i : EInv C now e) : EInv C now (signal e) := by
  obtain ⟨h1, h2, h3, h4, h5, h6⟩ := signal_same e
  have hp := signal_pc e
  refine ⟨?_, h2 ▸ i.bound, h1 ▸ i.curb, h1 ▸ i.lo, ?_, ?_, ?_, ?_, h5 ▸ i.sorted, ?_, ?_, h5 ▸ i.time⟩
  · rw [h1, h3]; exact i.later
  · rw [h1, h2, h4]; exact i.down
  · rcases hp with h | ⟨u, w, -, h⟩
    · rw [h]; exact i.ok
    · rw [h]; simp
  · intro u w hu
    rw [nextTag_signal]
    rcases hp with h | ⟨u', w', h, h'⟩
    · exact i.wait u w (h ▸ hu)
    · rw [h'] at hu
      cases hu
      exact i.wait u w' h
  · intro hx
    rw [h1, h2]
    rcases hp with h | ⟨u', w', h, h'⟩
    · exact i.exit (h ▸ hx)
    · rw [h'] at hx
      cases hx
  · rw [h1, h5]; exact i.head
  · rw [h3, h5, h6]; exact i.kept

theorem schedule_inv {C : Config} {now : Int} {e : Env} (i : EInv C now e) {t : Tag} (h : e.cur < t) :
    EInv C now (schedule e t) := by
  unfold schedule
  split
  · exact signal_inv i
  · refine signal_inv { i with later := ?_, wait := ?_, kept := ?_ }
    · intro x hx
      rcases List.mem_cons.1 hx with rfl | hx
      · exact h
      · exact i.later x hx
    · intro u w hu
      refine Int.le_trans (time_mono ?_) (i.wait u w hu)
      rw [nextTag_eq, nextTag_eq]
      exact min_le_min (le_refl _) (min_le_right _ _)
    · intro x hx
      rcases List.mem_cons.1 hx with rfl | hx
      · exact .inl (by simp)
      · rcases i.kept x hx with h | h
        · exact .inl (List.mem_cons_of_mem _ h)
        · exact .inr h

theorem tick_inv {C : Config} {now t : Int} {e : Env} (i : EInv C now e) (h : now ≤ t) : EInv C t e :=
  { i with time := fun q hq => ⟨Int.le_trans (i.time q hq).1 h, (i.time q hq).2⟩ }

theorem init_inv {C : Config} (ok : C.Ok) {now : Int} (h : C.start ≤ now) (i : Nat) : EInv C now ((init C now).env i) := by
  have hle : (⟨C.start, 0⟩ : Tag) ≤ FOREVER_TAG := le_trans ok.le ok.stop
  refine ⟨by simp [init], ok.stop, hle, le_refl _, ?_, by simp [init], by simp [init], by simp [init],
    by simp [init], ⟨now, [], rfl⟩, by simp [init], ?_⟩
  · simp only [init]
    split
    · rename_i hs
      exact .inr ⟨rfl, hs⟩
    · exact .inl rfl
  · intro q hq
    simp only [init, List.mem_singleton] at hq
    subst hq
    refine ⟨Int.le_refl _, .inr ?_⟩
    unfold MIN_SLEEP_DURATION
    dsimp only
    omega

/-- The environments after a step, one at a time. -/
theorem update_all {P : Env → Prop} {f : Nat → Env} {i : Nat} {e : Env} (h : ∀ j, P (f j)) (he : P e) :
    ∀ j, P (Function.update f i e j) := by
  intro j
  by_cases hj : j = i
  · subst hj
    rw [Function.update_self]
    exact he
  · rw [Function.update_of_ne hj]
    exact h j

theorem own_inv {C : Config} {i : Nat} {s s' : State} (st : Own C i s s') (h : ∀ j, EInv C s.now (s.env j)) :
    s'.now = s.now ∧ ∀ j, EInv C s.now (s'.env j) := by
  cases st with
  | finish h1 h2 h3 => exact ⟨rfl, update_all h (begin_inv (h i))⟩
  | woken h1 h2 => exact ⟨rfl, update_all h (tryWait_inv (h i))⟩
  | timeout h1 h2 h3 =>
      refine ⟨rfl, update_all h (proceed_inv (h i) (.inr ?_))⟩
      have := (h i).wait _ _ h2
      unfold MIN_SLEEP_DURATION
      omega

theorem step_inv {C : Config} {s s' : State} (st : Step C s s') (h : ∀ j, EInv C s.now (s.env j)) :
    ∀ j, EInv C s'.now (s'.env j) := by
  cases st with
  | own i st =>
      obtain ⟨h1, h2⟩ := own_inv st h
      rw [h1]
      exact h2
  | tick h1 => exact fun j => tick_inv (h j) h1
  | spurious h1 h2 => exact update_all h (tryWait_inv (h _))
  | schedule h1 h2 h3 => exact update_all h (schedule_inv (h _) h2)
  | request h1 h2 h3 => exact h
  | requestOutside h1 h2 h3 => exact h
  | gather h1 h2 => exact h
  | @set i m c h1 h2 =>
      have := update_all h (i := i) (setStop_inv (h i) (bumped m))
      exact update_all this (signal_inv (this 0))

theorem reach_inv {C : Config} (ok : C.Ok) {s : State} (h : Reach C s) : ∀ j, EInv C s.now (s.env j) := by
  induction h with
  | init hn => exact fun j => init_inv ok hn j
  | step _ st ih => exact step_inv st ih

/-! ## Sleeping workers -/

/-- A worker that sleeps and has not been signalled sleeps until the time of the next event. -/
def Awake (e : Env) : Prop := ∀ u, e.pc = .waiting u false → (nextTag e).time = u

/-- Whether `lf_request_stop` has not reached its second loop. -/
def quiet : Req → Prop
  | .idle => True
  | .gathering _ _ _ => True
  | _ => False

theorem proceed_pc {C : Config} {now : Int} {e : Env} (i : EInv C now e) : (proceed now e).pc = .working := by
  rcases proceed_cases i with ⟨-, e1⟩ | ⟨-, e1⟩ <;> rw [e1]

theorem tryWait_awake {C : Config} {now : Int} {e : Env} (i : EInv C now e) : Awake (tryWait C now e) := by
  unfold tryWait
  dsimp only
  split
  · intro u hu
    rw [proceed_pc i] at hu
    cases hu
  · intro u hu
    cases hu
    rfl

theorem begin_awake {C : Config} {now : Int} {l : Tag} {e : Env} (i : EInv C now e) : Awake (begin_ C now l e).1 := by
  unfold begin_
  split
  · intro u hu
    cases hu
  · dsimp only
    refine tryWait_awake ?_
    split
    · exact setStop_inv i _
    · exact i

theorem signal_awake (e : Env) : Awake (signal e) := fun u hu => absurd hu (signal_not_false e u)

theorem schedule_awake (e : Env) (t : Tag) : Awake (schedule e t) := by
  unfold schedule
  split
  · exact signal_awake _
  · exact signal_awake _

/-- The invariant: it holds for all workers until a stop tag is set, and for the first one always. -/
def Alert (s : State) : Prop := ∀ i, i = 0 ∨ quiet s.req → Awake (s.env i)

theorem own_alert {C : Config} {i : Nat} {s s' : State} (st : Own C i s s') (h : ∀ j, EInv C s.now (s.env j)) (a : Alert s) :
    Alert s' := by
  have key : ∀ (f : Nat → Env) (e : Env), (∀ j, j = 0 ∨ quiet s.req → Awake (f j)) → Awake e →
      ∀ j, j = 0 ∨ quiet s.req → Awake (Function.update f i e j) := by
    intro f e hf he j hj
    by_cases hji : j = i
    · subst hji
      rw [Function.update_self]
      exact he
    · rw [Function.update_of_ne hji]
      exact hf j hj
  cases st with
  | finish h1 h2 h3 => exact key _ _ a (begin_awake (h i))
  | woken h1 h2 => exact key _ _ a (tryWait_awake (h i))
  | timeout h1 h2 h3 =>
      refine key _ _ a ?_
      intro u hu
      rw [proceed_pc (h i)] at hu
      cases hu

theorem step_alert {C : Config} {s s' : State} (st : Step C s s') (h : ∀ j, EInv C s.now (s.env j)) (a : Alert s) : Alert s' := by
  have key : ∀ (f : Nat → Env) (i : Nat) (e : Env), (∀ j, j = 0 ∨ quiet s.req → Awake (f j)) → Awake e →
      ∀ j, j = 0 ∨ quiet s.req → Awake (Function.update f i e j) := by
    intro f i e hf he j hj
    by_cases hji : j = i
    · subst hji
      rw [Function.update_self]
      exact he
    · rw [Function.update_of_ne hji]
      exact hf j hj
  cases st with
  | own i st => exact own_alert st h a
  | tick h1 => exact a
  | spurious h1 h2 => exact key _ _ _ a (tryWait_awake (h _))
  | schedule h1 h2 h3 => exact key _ _ _ a (schedule_awake _ _)
  | request h1 h2 h3 => exact fun i _ => a i (.inr (by rw [h1]; trivial))
  | requestOutside h1 h2 h3 => exact fun i _ => a i (.inr (by rw [h1]; trivial))
  | gather h1 h2 => exact fun i _ => a i (.inr (by rw [h1]; trivial))
  | set h1 h2 =>
      intro i hi
      rcases hi with rfl | hi
      · dsimp only
        rw [Function.update_self]
        exact signal_awake _
      · exfalso
        dsimp only at hi
        unfold afterSet at hi
        split at hi <;> exact hi

theorem reach_alert {C : Config} (ok : C.Ok) {s : State} (h : Reach C s) : Alert s := by
  induction h with
  | init hn => intro i _ u hu; simp [init] at hu
  | step r st ih => exact step_alert st (reach_inv ok r) ih

/-! ## Stop requests of reactions, with one environment -/

/-- Where `lf_request_stop` is, in programs with one environment where only reactions call it. -/
def Within (s : State) : Prop :=
  match s.req with
  | .idle => True
  | .gathering i m c => i = 0 ∧ c = some 0 ∧ m ≤ (s.env 0).cur ∧ (s.env 0).pc = .working
  | .setting i m c => i = 0 ∧ c = some 0 ∧ m = (s.env 0).cur ∧ (s.env 0).pc = .working
  | .done => True

/-- The stop tag is not before the current tag, and the shutdown reactions are executed at the stop tag. -/
def Proper (e : Env) : Prop := e.cur ≤ e.stop ∧ e.shutdown = if e.stop ≤ e.cur then 1 else 0

theorem proceed_proper {C : Config} {now : Int} {e : Env} (i : EInv C now e) (p : Proper e) : Proper (proceed now e) := by
  rcases proceed_cases i with ⟨-, e1⟩ | ⟨h, e1⟩
  · rw [e1]
    exact p
  · rw [e1]
    refine ⟨nextTag_le_stop e, ?_⟩
    dsimp only
    have : ¬ e.stop ≤ e.cur := not_le.2 (lt_of_lt_of_le h (nextTag_le_stop e))
    rw [p.2, if_neg this]

theorem tryWait_proper {C : Config} {now : Int} {e : Env} (i : EInv C now e) (p : Proper e) : Proper (tryWait C now e) := by
  unfold tryWait
  dsimp only
  split
  · exact proceed_proper i p
  · exact p

theorem setStop_proper {e : Env} (p : Proper e) : Proper (setStop e (bumped e.cur)) := by
  unfold setStop
  split
  · rename_i h
    refine ⟨le_of_lt (lt_bumped _), ?_⟩
    dsimp only
    rw [p.2, if_neg (not_le.2 (lt_trans (lt_bumped _) h)), if_neg (not_le.2 (lt_bumped _))]
  · exact p

theorem begin_proper {C : Config} {now : Int} {l : Tag} {e : Env} (i : EInv C now e) (p : Proper e) :
    Proper (begin_ C now l e).1 := by
  unfold begin_
  split
  · exact p
  · dsimp only
    split
    · exact tryWait_proper (setStop_inv i _) (setStop_proper p)
    · exact tryWait_proper i p

theorem signal_proper {e : Env} (p : Proper e) : Proper (signal e) := by
  obtain ⟨h1, h2, -, h4, -, -⟩ := signal_same e
  unfold Proper
  rw [h1, h2, h4]
  exact p

theorem schedule_proper {e : Env} {t : Tag} (p : Proper e) : Proper (schedule e t) := by
  unfold schedule
  split
  · exact signal_proper p
  · exact signal_proper (e := { e with queue := t :: e.queue, accepted := t :: e.accepted }) p

theorem schedule_same (e : Env) (t : Tag) :
    (schedule e t).cur = e.cur ∧ (schedule e t).stop = e.stop ∧ (schedule e t).shutdown = e.shutdown ∧
      (schedule e t).log = e.log := by
  unfold schedule
  split
  · obtain ⟨h1, h2, -, h4, h5, -⟩ := signal_same e
    exact ⟨h1, h2, h4, h5⟩
  · obtain ⟨h1, h2, -, h4, h5, -⟩ := signal_same { e with queue := t :: e.queue, accepted := t :: e.accepted }
    exact ⟨h1, h2, h4, h5⟩

theorem signal_working {e : Env} (h : e.pc = .working) : signal e = e := by
  unfold signal
  rw [h]

theorem schedule_working {e : Env} {t : Tag} (h : e.pc = .working) : (schedule e t).pc = .working := by
  unfold schedule
  split
  · rw [signal_working h]
    exact h
  · rw [signal_working (by exact h)]
    exact h

theorem within_of_env {s s' : State} (h : Within s) (hr : s'.req = s.req) (hc : (s'.env 0).cur = (s.env 0).cur)
    (hp : (s.env 0).pc = .working → (s'.env 0).pc = .working) : Within s' := by
  unfold Within at h ⊢
  rw [hr]
  cases hq : s.req with
  | idle => trivial
  | done => trivial
  | gathering i m c =>
      simp only [hq] at h ⊢
      rw [hc]
      exact ⟨h.1, h.2.1, h.2.2.1, hp h.2.2.2⟩
  | setting i m c =>
      simp only [hq] at h ⊢
      rw [hc]
      exact ⟨h.1, h.2.1, h.2.2.1, hp h.2.2.2⟩

theorem within_waiting {s s' : State} {u : Int} {w : Bool} (h : Within s) (hr : s'.req = s.req)
    (hp : (s.env 0).pc = .waiting u w) : Within s' := by
  unfold Within at h ⊢
  rw [hr]
  cases hq : s.req with
  | idle => trivial
  | done => trivial
  | gathering i m c => simp [hq, hp] at h
  | setting i m c => simp [hq, hp] at h

theorem within_not_busy {s s' : State} (h : Within s) (hr : s'.req = s.req) (hb : ¬ busy s.req 0) : Within s' := by
  unfold Within at h ⊢
  rw [hr]
  cases hq : s.req with
  | idle => trivial
  | done => trivial
  | gathering i m c =>
      simp only [hq] at h
      rw [hq] at hb
      exact absurd h.2.1 hb
  | setting i m c =>
      simp only [hq] at h
      rw [hq] at hb
      exact absurd h.2.1 hb

theorem step_proper {C : Config} (hn : C.n = 1) (ho : C.outside = false) {s s' : State} (st : Step C s s')
    (h : ∀ j, EInv C s.now (s.env j)) (hs : NEVER < C.start) (w : Within s) (p : Proper (s.env 0)) :
    Within s' ∧ Proper (s'.env 0) := by
  cases st with
  | own i st =>
      cases st with
      | finish h1 h2 h3 =>
          obtain rfl : i = 0 := by omega
          refine ⟨within_not_busy w rfl h3, ?_⟩
          dsimp only
          rw [Function.update_self]
          exact begin_proper (h 0) p
      | woken h1 h2 =>
          obtain rfl : i = 0 := by omega
          refine ⟨within_waiting w rfl h2, ?_⟩
          dsimp only
          rw [Function.update_self]
          exact tryWait_proper (h 0) p
      | timeout h1 h2 h3 =>
          obtain rfl : i = 0 := by omega
          refine ⟨within_waiting w rfl h2, ?_⟩
          dsimp only
          rw [Function.update_self]
          exact proceed_proper (h 0) p
  | tick h1 => exact ⟨w, p⟩
  | @spurious i u h1 h2 =>
      obtain rfl : i = 0 := by omega
      refine ⟨within_waiting w rfl h2, ?_⟩
      dsimp only
      rw [Function.update_self]
      exact tryWait_proper (h 0) p
  | @schedule i t h1 h2 h3 =>
      obtain rfl : i = 0 := by omega
      dsimp only
      refine ⟨within_of_env w rfl ?_ ?_, ?_⟩
      · dsimp only
        rw [Function.update_self]
        exact (schedule_same _ _).1
      · intro hp
        dsimp only
        rw [Function.update_self]
        exact schedule_working hp
      · rw [Function.update_self]
        exact schedule_proper p
  | @request i h1 h2 h3 =>
      obtain rfl : i = 0 := by omega
      refine ⟨?_, p⟩
      refine ⟨rfl, rfl, le_trans ?_ (h 0).lo, h3⟩
      rw [Tag.le_def]
      exact .inl hs
  | requestOutside h1 h2 h3 => rw [ho] at h2; cases h2
  | @gather i m c h1 h2 =>
      refine ⟨?_, p⟩
      unfold Within at w ⊢
      rw [h1] at w
      dsimp only at w ⊢
      obtain ⟨rfl, hc, hm, hp⟩ := w
      unfold afterGather
      rw [hn]
      simp only [Nat.zero_add, lt_irrefl, if_false]
      refine ⟨trivial, hc, ?_, hp⟩
      split
      · rfl
      · rename_i hlt
        exact le_antisymm hm (not_lt.1 hlt)
  | @set i m c h1 h2 =>
      unfold Within at w
      rw [h1] at w
      dsimp only at w
      obtain ⟨rfl, hc, hm, hp⟩ := w
      refine ⟨?_, ?_⟩
      · unfold Within afterSet
        rw [hn]
        simp
      · dsimp only
        rw [Function.update_self, Function.update_self]
        rw [hm]
        exact signal_proper (setStop_proper p)

theorem reach_proper {C : Config} (ok : C.Ok) (hn : C.n = 1) (ho : C.outside = false) {s : State} (h : Reach C s) :
    Within s ∧ Proper (s.env 0) := by
  induction h with
  | init hn =>
      exact ⟨trivial, ok.le, rfl⟩
  | step r st ih => exact step_proper hn ho st (reach_inv ok r) ok.start ih.1 ih.2

end ReactorC.Async
