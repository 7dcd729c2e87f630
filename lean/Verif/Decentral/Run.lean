import Verif.Decentral.Tardy

/-! # Executions by computation, for the examples -/

namespace ReactorC.Decentral

open ReactorC.Level (Config Port Phase MIN_SLEEP_DURATION Small bump upd exempt waitOver newKnown actualTag)

inductive Act
  | header (i : Nat) (g : Tag) (v : Nat)
  | complete (i : Nat) (g : Tag) (v : Nat)
  | absent (i : Nat) (g : Tag)
  | gone (i : Nat)
  | local_ (t : Tag) (v : Nat)
  | setStop (t : Tag)
  | clock (t : Int)
  | begin
  | start
  | wait
  | advance
  | arm (v : Int)
  | timeout (i : Nat) (u : Int)

instance (t : Tag) : Decidable (Small t) := by unfold Small; infer_instance
instance (s : State) (i : Nat) (g : Tag) : Decidable (InOrder s i g) := by unfold InOrder; infer_instance
instance (c : Config) (s : State) (i : Nat) (g : Tag) : Decidable (InTime c s i g) := by unfold InTime; infer_instance
instance (c : Config) (n u : Int) : Decidable (waitOver c n u) := by unfold waitOver; infer_instance
instance (s : State) (t : Tag) : Decidable (open_ s t) := by unfold open_; infer_instance

def guard_ (p : Prop) [Decidable p] (s : State) : Option State := if p then some s else none

theorem guard_some {p : Prop} [Decidable p] {s s' : State} (h : guard_ p s = some s') : p ∧ s = s' := by
  unfold guard_ at h
  split at h
  · rename_i hp; exact ⟨hp, by simpa using h⟩
  · cases h

def act (c : Config) (a : Assume) (s : State) : Act → Option State
  | .header i g v => guard_ (i < c.n ∧ (c.port i).physical = false ∧ c.start ≤ g ∧ g.time < FOREVER ∧
      g.microstep < UINT_MAX ∧ exempt c g i = false ∧ (∀ r ∈ s.reading, r.1 ≠ i) ∧ (a.ordered = true → InOrder s i g) ∧
      (a.timely = true → InTime c s i g))
      { raise s g with reading := (i, g, v) :: s.reading, said := upd s.said i g }
  | .complete i g v => guard_ ((i, g, v) ∈ s.reading ∧ Small (s.lv.known i) ∧
      (a.timely = true → s.lv.cur < g ∨ s.lv.now + MIN_SLEEP_DURATION ≤ g.time + c.sta + (c.port i).staa) ∧
      (a.calm = true → ¬ (s.lv.phase = .atStart ∧ g = c.start)) ∧
      (a.spaced = true → found s.q i g = true → found s.q i (bump g) = false))
      (release { handle c s i g v with reading := s.reading.erase (i, g, v) })
  | .absent i g => guard_ (i < c.n ∧ c.start ≤ g ∧ g.microstep < UINT_MAX ∧ (∀ r ∈ s.reading, r.1 ≠ i) ∧
      Small (s.lv.known i) ∧ (a.ordered = true → InOrder s i g) ∧ (a.timely = true → InTime c s i g))
      { s with lv := { Level.updatePort c s.lv i g with hist := .absent i g :: s.lv.hist }, said := upd s.said i g }
  | .gone i => guard_ (i < c.n ∧ (∀ r ∈ s.reading, r.1 ≠ i) ∧ Small (s.lv.known i))
      { s with lv := { Level.updatePort c s.lv i FOREVER_TAG with hist := .gone i :: s.lv.hist }, gone := upd s.gone i true }
  | .local_ t v => guard_ (s.lv.cur < t ∧ c.start ≤ t) { s with q := s.q ++ [⟨none, t, NEVER_TAG, v⟩] }
  | .setStop t => guard_ (s.lv.cur < t ∧ c.start ≤ t ∧ t ≤ s.stop) { s with stop := t }
  | .clock t => guard_ (s.lv.now ≤ t ∧ t + MIN_SLEEP_DURATION ≤ FOREVER) { s with lv := { s.lv with now := t } }
  | .begin => guard_ (s.lv.phase = .waiting ∧ waitOver c s.lv.now c.startTime)
      { s with lv := { s.lv with phase := .atStart, cur := c.start } }
  | .start => guard_ (s.lv.phase = .atStart ∧ open_ s c.start) (start_ c s (due s.q c.start))
  | .wait => guard_ (s.lv.phase = .running ∧ s.waited = none ∧ waitOver c s.lv.now (waitUntilTime c s (nextTag s)))
      { s with waited := some (nextTag s) }
  | .advance => guard_ (s.waited.isSome = true ∧ s.lv.cur < nextTag s ∧ (nextTag s).time < FOREVER ∧
      (nextTag s).microstep < UINT_MAX ∧ open_ s (nextTag s) ∧ s.lv.phase = .running)
      (Decentral.advance c s (nextTag s) (due s.q (nextTag s)))
  | .arm v => guard_ (s.lv.phase = .running)
      { s with lv := { s.lv with staaWait := some (s.lv.cur, v, Level.staaUntil c s.lv.cur v) } }
  | .timeout i u => guard_ (i < c.n ∧ s.lv.staaWait = some (s.lv.cur, (c.port i).staa, u) ∧ waitOver c s.lv.now u ∧
      s.lv.status i = .unknown ∧ Small (s.lv.known i))
      { s with
        lv := { Level.updatePort c { s.lv with status := upd s.lv.status i .absent } i s.lv.cur with
          hist := .timeout i s.lv.cur s.lv.now :: s.lv.hist } }

theorem act_step {c : Config} {a : Assume} {s s' : State} {x : Act} (h : act c a s x = some s') : Step c a s s' := by
  cases x with
  | header i g v =>
    obtain ⟨⟨h1, h2, h3, h4, h5, h6, h7, h8, h9⟩, rfl⟩ := guard_some h
    exact .header h1 h2 h3 h4 h5 h6 h7 h8 h9
  | complete i g v =>
    obtain ⟨⟨h1, h2, h3, h4, h5⟩, rfl⟩ := guard_some h
    exact .complete h1 h2 h3 h4 h5
  | absent i g =>
    obtain ⟨⟨h1, h2, h3, h4, h5, h6, h7⟩, rfl⟩ := guard_some h
    exact .absent h1 h2 h3 h4 h5 h6 h7
  | gone i =>
    obtain ⟨⟨h1, h2, h3⟩, rfl⟩ := guard_some h
    exact .gone h1 h2 h3
  | local_ t v =>
    obtain ⟨⟨h1, h2⟩, rfl⟩ := guard_some h
    exact .local_ h1 h2
  | setStop t =>
    obtain ⟨⟨h1, h2, h3⟩, rfl⟩ := guard_some h
    exact .setStop h1 h2 h3
  | clock t =>
    obtain ⟨⟨h1, h2⟩, rfl⟩ := guard_some h
    exact .clock h1 h2
  | begin =>
    obtain ⟨⟨h1, h2⟩, rfl⟩ := guard_some h
    exact .begin h1 h2
  | start =>
    obtain ⟨⟨h1, h2⟩, rfl⟩ := guard_some h
    exact .start h1 h2 (List.Perm.refl _)
  | wait =>
    obtain ⟨⟨h1, h2, h3⟩, rfl⟩ := guard_some h
    exact .wait h1 h2 h3
  | advance =>
    obtain ⟨⟨h1, h2, h3, h4, h5, h6⟩, rfl⟩ := guard_some h
    obtain ⟨p, hp⟩ := Option.isSome_iff_exists.1 h1
    exact .advance hp h2 h3 h4 h5 h6 (List.Perm.refl _)
  | arm v =>
    obtain ⟨h1, rfl⟩ := guard_some h
    exact .arm h1
  | timeout i u =>
    obtain ⟨⟨h1, h2, h3, h4, h5⟩, rfl⟩ := guard_some h
    exact .timeout h1 h2 h3 rfl h4 h5

/-- One action after the other. -/
def run (c : Config) (a : Assume) (s : State) : List Act → Option State
  | [] => some s
  | x :: xs => match act c a s x with
    | none => none
    | some s' => run c a s' xs

theorem run_reach {c : Config} {a : Assume} {s s' : State} (h : Reach c a s) (xs : List Act) (hr : run c a s xs = some s') :
    Reach c a s' := by
  induction xs generalizing s with
  | nil => simp only [run, Option.some.injEq] at hr; rw [← hr]; exact h
  | cons x xs ih =>
    unfold run at hr
    cases hx : act c a s x with
    | none => rw [hx] at hr; cases hr
    | some s1 => rw [hx] at hr; exact ih (.step h (act_step hx)) hr

/-- From the result of a computation to a reachable state. -/
theorem reach_of_run {c : Config} {a : Assume} {α : Type} (obs : State → α) (now : Int) (stop : Tag) (xs : List Act) (r : α)
    (h1 : now + MIN_SLEEP_DURATION ≤ FOREVER) (h2 : c.start ≤ stop) (h3 : stop.time ≤ FOREVER)
    (h : (run c a (init c now stop) xs).map obs = some r) : ∃ s, Reach c a s ∧ obs s = r := by
  cases hr : run c a (init c now stop) xs with
  | none => rw [hr] at h; cases h
  | some s =>
    rw [hr] at h
    simp only [Option.map_some, Option.some.injEq] at h
    exact ⟨s, run_reach (.init now stop h1 h2 h3) xs hr, h⟩

/-- The same with a second run, under other assumptions, from the state reached. -/
theorem reach_of_runs {α β : Type} {c : Config} {a b : Assume} (o1 : State → α) (o2 : State → β) (now : Int) (stop : Tag)
    (xs ys : List Act) (r1 : α) (r2 : β) (h1 : now + MIN_SLEEP_DURATION ≤ FOREVER) (h2 : c.start ≤ stop)
    (h3 : stop.time ≤ FOREVER)
    (h : (run c a (init c now stop) xs).map (fun s => (o1 s, (run c b s ys).map o2)) = some (r1, some r2)) :
    ∃ s s', Reach c a s ∧ o1 s = r1 ∧ run c b s ys = some s' ∧ o2 s' = r2 := by
  obtain ⟨s, hs, ho⟩ := reach_of_run (fun s => (o1 s, (run c b s ys).map o2)) now stop xs _ h1 h2 h3 h
  simp only [Prod.mk.injEq] at ho
  obtain ⟨h4, h5⟩ := ho
  cases hr : run c b s ys with
  | none => rw [hr] at h5; cases h5
  | some s' =>
    rw [hr] at h5
    exact ⟨s, s', hs, h4, hr, by simpa using h5⟩

end ReactorC.Decentral
