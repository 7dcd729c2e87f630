import Verif.Modes.Events

/-! # The effect of the transitions of one tag on the events of each trigger -/

namespace ReactorC.Modes
open ReactorC ReactorC.Sched

/-- The effect of entering a mode. -/
structure Ent (P : Prog) (md : Nat) (ch : Change) (e e' : Events) : Prop where
  cur : e'.env.cur = e.env.cur
  stop : e'.env.stop = e.env.stop
  good : Good e'
  other : ∀ o, (∀ t, o = some t → P.tmode t ≠ some md) → ofT o e'.env.q = ofT o e.env.q
  susp : e'.suspended = e.suspended.filter (fun x => evMode P x.ev ≠ some md)
  vars : e'.vars = if ch = .reset_transition then resetVars md P.resets e.vars else e.vars

theorem good_vars {e : Events} (g : Good e) (v : Nat → Int) : Good { e with vars := v } := ⟨g.ids, g.inj, g.future⟩

theorem enter_eff {P : Prog} (tok : P.TimersOk) {start : Int} {m : Modes} {i md : Nat} (hm : m.next i = some md)
    {e : Events} (g : Good e) (hn : Now e) : Ent P md (m.change i) e (enter P start m i e) := by
  unfold enter
  rw [hm]
  simp only []
  by_cases hr : m.change i = .reset_transition
  · simp only [hr, if_true]
    obtain ⟨a1, a2, _⟩ := resetTimers_spec tok md P.timers tok.are { e with vars := resetVars md P.resets e.vars }
      (good_vars g _) hn
    generalize resetTimers P md P.timers { e with vars := resetVars md P.resets e.vars } = e1 at *
    obtain ⟨b1, b2, b3⟩ := resumeLoop_eff tok (start := start) (m := m) (i := i) (md := md) e1.suspended a1.good
      (a1.now hn)
    generalize resumeLoop P start m i md e1.suspended e1 = r at *
    have hs : e1.suspended = e.suspended := a1.susp
    refine ⟨b1.cur.trans a1.cur, b1.stop.trans a1.stop, ⟨b1.good.ids, b1.good.inj, b1.good.future⟩, fun o ho => ?_, ?_, ?_⟩
    · exact (b1.other o ho).trans (a1.other o (fun t h hp => ho t h hp.1))
    · show r.2 = _
      rw [b3, hs]
    · exact b2.trans a2
  · simp only [hr, if_false]
    obtain ⟨b1, b2, b3⟩ := resumeLoop_eff tok (start := start) (m := m) (i := i) (md := md) e.suspended g hn
    generalize resumeLoop P start m i md e.suspended e = r at *
    exact ⟨b1.cur, b1.stop, ⟨b1.good.ids, b1.good.inj, b1.good.future⟩, fun o ho => b1.other o ho, b3,
      by rw [if_neg hr]; exact b2⟩

/-- Entering with a reset, for a timer of the mode. -/
theorem enter_reset_timer {P : Prog} (tok : P.TimersOk) {start : Int} {m : Modes} {i md : Nat} (hm : m.next i = some md)
    (hr : m.change i = .reset_transition) {t : Nat} (ht : P.tmode t = some md) (hti : (P.trigs t).isTimer = true)
    {e : Events} (g : Good e) (hn : Now e) :
    (∀ ev ∈ ofT (some t) (enter P start m i e).env.q, ev ∈ ofT (some t) e.env.q ∨
      ev.token = none ∧ ev.tag.time ≤ e.env.cur.time + (P.trigs t).offset) ∧
    (e.env.cur.time + (P.trigs t).offset < FOREVER → e.env.cur.time + (P.trigs t).offset < e.env.stop.time →
      (ofT (some t) (enter P start m i e).env.q).map key =
        List.replicate ((suspT t e.suspended).length + if (P.trigs t).period = 0 then P.timers.count t else 0)
          (none, e.env.cur.time + (P.trigs t).offset) ++ (ofT (some t) e.env.q).map key) := by
  unfold enter
  rw [hm]
  simp only [hr, if_true]
  obtain ⟨a1, a2, a3⟩ := resetTimers_spec tok md P.timers tok.are { e with vars := resetVars md P.resets e.vars }
    (good_vars g _) hn
  generalize resetTimers P md P.timers { e with vars := resetVars md P.resets e.vars } = e1 at *
  have hs : e1.suspended = e.suspended := a1.susp
  have hc : e1.env.cur = e.env.cur := a1.cur
  have hst : e1.env.stop = e.env.stop := a1.stop
  obtain ⟨b1, b2⟩ := resume_reset_timer tok (start := start) hr ht hti e1.suspended a1.good (a1.now hn)
  rw [hc] at b1 b2
  rw [hst] at b2
  rw [hs] at b1 b2 ⊢
  by_cases hp : (P.trigs t).period = 0
  · obtain ⟨c1, c2⟩ := a3 t ht hp hti
    refine ⟨fun ev hev => ?_, fun hF hS => ?_⟩
    · rcases b1 ev hev with h | h
      · exact c1 ev h
      · exact Or.inr h
    · rw [b2 hF hS, c2 hF hS, if_pos hp, List.replicate_add, List.append_assoc]
  · have ho : ofT (some t) e1.env.q = ofT (some t) e.env.q := a1.other (some t) (fun t' h hp' => by cases h; exact hp hp'.2)
    rw [ho] at b1 b2
    rw [if_neg hp, Nat.add_zero]
    exact ⟨b1, b2⟩

/-- Entering with a reset, for an action of the mode. -/
theorem enter_reset_action {P : Prog} (tok : P.TimersOk) {start : Int} {m : Modes} {i md : Nat} (hm : m.next i = some md)
    (hr : m.change i = .reset_transition) {t : Nat} (ht : P.tmode t = some md) (hti : (P.trigs t).isTimer = false)
    {e : Events} (g : Good e) (hn : Now e) : ofT (some t) (enter P start m i e).env.q = ofT (some t) e.env.q := by
  unfold enter
  rw [hm]
  simp only [hr, if_true]
  have hno : ∀ (l : List Nat), (∀ t' ∈ l, (P.trigs t').isTimer = true) → ∀ (e : Events), Good e → Now e →
      ofT (some t) (resetTimers P md l e).env.q = ofT (some t) e.env.q := by
    intro l
    induction l with
    | nil => intro _ e _ _; rfl
    | cons a l ih =>
      intro hl e g hn
      have hl' : ∀ t' ∈ l, (P.trigs t').isTimer = true := fun t' h => hl t' (List.mem_cons_of_mem _ h)
      have ha := hl a List.mem_cons_self
      unfold resetTimers
      split
      · rw [startTimer_eq]
        obtain ⟨s1, _, _⟩ := timerAt_spec tok g hn ha (tok.offset a ha)
        rw [ih hl' _ s1.good (s1.now hn)]
        refine s1.other (some t) (fun t' h h' => ?_)
        cases h
        rw [show t = a from h'] at hti
        rw [hti] at ha; cases ha
      · exact ih hl' e g hn
  obtain ⟨a1, _, _⟩ := resetTimers_spec tok md P.timers tok.are { e with vars := resetVars md P.resets e.vars }
    (good_vars g _) hn
  have hq := hno P.timers tok.are { e with vars := resetVars md P.resets e.vars } (good_vars g _) hn
  generalize resetTimers P md P.timers { e with vars := resetVars md P.resets e.vars } = e1 at *
  rw [resume_reset_action tok hr ht hti e1.suspended a1.good (a1.now hn), hq]

/-- Entering with history. -/
theorem enter_history {P : Prog} (tok : P.TimersOk) {start : Int} {m : Modes} {i md : Nat} (hm : m.next i = some md)
    (hr : m.change i ≠ .reset_transition) (hne : md ≠ m.current i) {t : Nat} (ht : P.tmode t = some md)
    (hp : (P.trigs t).policy = .defer) {e : Events} (g : Good e) (hn : Now e) :
    (∀ ev ∈ ofT (some t) (enter P start m i e).env.q, ev ∈ ofT (some t) e.env.q ∨
      ∃ x ∈ suspT t e.suspended, ev.token = x.ev.token ∧ ev.tag.time = (resumeTag start m md e.env.cur x.ev).time) ∧
    ((∀ x ∈ suspT t e.suspended, e.env.cur < resumeTag start m md e.env.cur x.ev ∧
        (resumeTag start m md e.env.cur x.ev).time < e.env.stop.time) →
      (ofT (some t) (enter P start m i e).env.q).map key =
        ((suspT t e.suspended).map (fun x => (x.ev.token, (resumeTag start m md e.env.cur x.ev).time))).reverse ++
          (ofT (some t) e.env.q).map key) := by
  unfold enter
  rw [hm]
  simp only [hr, if_false]
  exact resume_history tok hr hne ht hp e.suspended g hn

theorem enter_self {P : Prog} (tok : P.TimersOk) {start : Int} {m : Modes} {i md : Nat} (hm : m.next i = some md)
    (hr : m.change i ≠ .reset_transition) (hne : md = m.current i) {t : Nat} (ht : P.tmode t = some md)
    {e : Events} (g : Good e) (hn : Now e) : ofT (some t) (enter P start m i e).env.q = ofT (some t) e.env.q := by
  unfold enter
  rw [hm]
  simp only [hr, if_false]
  exact resume_self tok hr hne ht e.suspended g hn

theorem suspT_filter {P : Prog} {md md' t : Nat} (ht : P.tmode t = some md) (h : md' ≠ md) (l : List Susp) :
    suspT t (l.filter (fun x => evMode P x.ev ≠ some md')) = suspT t l := by
  unfold suspT
  rw [List.filter_filter]
  apply List.filter_congr
  intro x _
  by_cases hx : x.ev.trigger = some t
  · have : evMode P x.ev = some md := by unfold evMode; rw [hx]; exact ht
    simp [hx, this, Ne.symm h]
  · simp [hx]

theorem suspT_filter_self {P : Prog} {md t : Nat} (ht : P.tmode t = some md) (l : List Susp) :
    suspT t (l.filter (fun x => evMode P x.ev ≠ some md)) = [] := by
  unfold suspT
  rw [List.filter_filter, List.filter_eq_nil_iff]
  intro x _
  by_cases hx : x.ev.trigger = some t
  · have : evMode P x.ev = some md := by unfold evMode; rw [hx]; exact ht
    simp [this]
  · simp [hx]

/-- The events after the first loop over `k` reactors. -/
structure Frame (P : Prog) (s : St) (k : Nat) (e : Events) : Prop where
  cur : e.env.cur = s.e.env.cur
  stop : e.env.stop = s.e.env.stop
  good : Good e
  dummies : ofT none e.env.q = ofT none s.e.env.q
  top : ∀ t, P.tmode t = none → ofT (some t) e.env.q = ofT (some t) s.e.env.q
  sub : ∀ x ∈ e.suspended, x ∈ s.e.suspended

theorem loop1_next {P : Prog} (ok : P.Ok) (s : St) (f : Flags P s.m) {k : Nat} (hk : k < P.n) :
    ((loop1 P s (k + 1)).1.next k).map (fun md => (md, (loop1 P s (k + 1)).1.change k)) =
      target P s.m.next s.m.change k :=
  (loop1_spec ok s (k + 1) hk).done k (Nat.lt_succ_self k)

theorem loop1_events (P : Prog) (s : St) (k : Nat) :
    (loop1 P s (k + 1)).2.1 = enter P s.start (loop1 P s (k + 1)).1 k (loop1 P s k).2.1 := rfl

theorem Frame.now {P : Prog} {s : St} {k : Nat} {e : Events} (h : Frame P s k e) (hn : Now s.e) : Now e := by
  unfold Now; rw [h.cur]; exact hn

theorem loop1_frame {P : Prog} (ok : P.Ok) (tok : P.TimersOk) (s : St) (f : Flags P s.m) (g : Good s.e) (hn : Now s.e)
    (k : Nat) (hk : k ≤ P.n) : Frame P s k (loop1 P s k).2.1 := by
  induction k with
  | zero => exact ⟨rfl, rfl, g, rfl, fun _ _ => rfl, fun _ h => h⟩
  | succ k ih =>
    have i := ih (by omega)
    rw [loop1_events]
    generalize hm : (loop1 P s (k + 1)).1 = m
    cases hx : m.next k with
    | none =>
      have : enter P s.start m k (loop1 P s k).2.1 = (loop1 P s k).2.1 := by unfold enter; rw [hx]
      rw [this]
      exact ⟨i.cur, i.stop, i.good, i.dummies, i.top, i.sub⟩
    | some md =>
      have en := enter_eff tok (start := s.start) hx i.good (i.now hn)
      refine ⟨en.cur.trans i.cur, en.stop.trans i.stop, en.good, ?_, ?_, ?_⟩
      · rw [en.other none (fun t h => by cases h), i.dummies]
      · intro t ht
        rw [en.other (some t) (fun t' h => by cases h; rw [ht]; intro h'; cases h'), i.top t ht]
      · intro x hx'
        rw [en.susp] at hx'
        exact i.sub x (List.mem_filter.1 hx').1

/-- A reactor that does not enter mode `md` changes nothing for a trigger of `md`. -/
theorem loop1_other {P : Prog} (ok : P.Ok) (tok : P.TimersOk) (s : St) (f : Flags P s.m) (g : Good s.e) (hn : Now s.e)
    {t md : Nat} (ht : P.tmode t = some md) {k : Nat} (hk : k < P.n)
    (hne : (target P s.m.next s.m.change k).map Prod.fst ≠ some md) :
    ofT (some t) (loop1 P s (k + 1)).2.1.env.q = ofT (some t) (loop1 P s k).2.1.env.q ∧
    suspT t (loop1 P s (k + 1)).2.1.suspended = suspT t (loop1 P s k).2.1.suspended := by
  have i := loop1_frame ok tok s f g hn k (by omega)
  have hx := loop1_next ok s f hk
  rw [loop1_events]
  generalize (loop1 P s (k + 1)).1 = m at *
  cases hy : m.next k with
  | none =>
    have : enter P s.start m k (loop1 P s k).2.1 = (loop1 P s k).2.1 := by unfold enter; rw [hy]
    rw [this]; exact ⟨rfl, rfl⟩
  | some md' =>
    have hmd : md' ≠ md := by
      rintro rfl
      rw [← hx, hy] at hne
      exact hne rfl
    have en := enter_eff tok (start := s.start) hy i.good (i.now hn)
    refine ⟨?_, ?_⟩
    · exact en.other (some t) (fun t' h => by cases h; rw [ht]; intro h'; cases h'; exact hmd rfl)
    · rw [en.susp, suspT_filter ht hmd]

/-- For a trigger of mode `md`, only the reactor of `md` matters. -/
theorem loop1_trig {P : Prog} (ok : P.Ok) (tok : P.TimersOk) (s : St) (f : Flags P s.m) (g : Good s.e) (hn : Now s.e)
    {t md : Nat} (ht : P.tmode t = some md) (k : Nat) (hk : k ≤ P.n) :
    (k ≤ P.owner md → ofT (some t) (loop1 P s k).2.1.env.q = ofT (some t) s.e.env.q ∧
      suspT t (loop1 P s k).2.1.suspended = suspT t s.e.suspended) ∧
    (P.owner md < k → ofT (some t) (loop1 P s k).2.1.env.q = ofT (some t) (loop1 P s (P.owner md + 1)).2.1.env.q ∧
      suspT t (loop1 P s k).2.1.suspended = suspT t (loop1 P s (P.owner md + 1)).2.1.suspended) := by
  induction k with
  | zero => exact ⟨fun _ => ⟨rfl, rfl⟩, by omega⟩
  | succ k ih =>
    obtain ⟨i1, i2⟩ := ih (by omega)
    have hne : k ≠ P.owner md → (target P s.m.next s.m.change k).map Prod.fst ≠ some md := by
      intro h h'
      cases hx : target P s.m.next s.m.change k with
      | none => rw [hx] at h'; cases h'
      | some x =>
        rw [hx] at h'
        simp only [Option.map_some, Option.some.injEq] at h'
        have := target_owner ok f (by omega) (md := x.1) (ch := x.2) hx
        rw [h'] at this
        exact h this.symm
    refine ⟨fun h => ?_, fun h => ?_⟩
    · obtain ⟨o1, o2⟩ := loop1_other ok tok s f g hn ht (by omega) (hne (by omega))
      obtain ⟨j1, j2⟩ := i1 (by omega)
      exact ⟨o1.trans j1, o2.trans j2⟩
    · by_cases hk' : k = P.owner md
      · rw [hk']; exact ⟨rfl, rfl⟩
      · obtain ⟨o1, o2⟩ := loop1_other ok tok s f g hn ht (by omega) (hne hk')
        obtain ⟨j1, j2⟩ := i2 (by omega)
        exact ⟨o1.trans j1, o2.trans j2⟩

/-- The tag a suspended event gets does not depend on the requests. -/
theorem resumeTag_congr {m m' : Modes} (h : m.deact = m'.deact) (start : Int) (md : Nat) (cur : Tag) (ev : Event) :
    resumeTag start m md cur ev = resumeTag start m' md cur ev := by
  unfold resumeTag; rw [h]

/-- What the first loop does with the events of trigger `t` in mode `md`, by where the reactor of `md` goes. -/
structure Outcome1 (P : Prog) (s : St) (t md : Nat) (q : List Event) (l : List Susp) : Prop where
  stays : (target P s.m.next s.m.change (P.owner md)).map Prod.fst ≠ some md →
    q = ofT (some t) s.e.env.q ∧ l = suspT t s.e.suspended
  gone : (target P s.m.next s.m.change (P.owner md)).map Prod.fst = some md → l = []
  resetTimer : target P s.m.next s.m.change (P.owner md) = some (md, .reset_transition) → (P.trigs t).isTimer = true →
    (∀ ev ∈ q, ev ∈ ofT (some t) s.e.env.q ∨ ev.token = none ∧ ev.tag.time ≤ s.e.env.cur.time + (P.trigs t).offset) ∧
    (s.e.env.cur.time + (P.trigs t).offset < FOREVER → s.e.env.cur.time + (P.trigs t).offset < s.e.env.stop.time →
      q.map key = List.replicate ((suspT t s.e.suspended).length + if (P.trigs t).period = 0 then P.timers.count t else 0)
          (none, s.e.env.cur.time + (P.trigs t).offset) ++ (ofT (some t) s.e.env.q).map key)
  resetAction : target P s.m.next s.m.change (P.owner md) = some (md, .reset_transition) → (P.trigs t).isTimer = false →
    q = ofT (some t) s.e.env.q
  history : ∀ ch, target P s.m.next s.m.change (P.owner md) = some (md, ch) → ch ≠ .reset_transition →
    s.m.current (P.owner md) ≠ md → (P.trigs t).policy = .defer →
    (∀ ev ∈ q, ev ∈ ofT (some t) s.e.env.q ∨
      ∃ x ∈ suspT t s.e.suspended, ev.token = x.ev.token ∧
        ev.tag.time = (resumeTag s.start s.m md s.e.env.cur x.ev).time) ∧
    ((∀ x ∈ suspT t s.e.suspended, s.e.env.cur < resumeTag s.start s.m md s.e.env.cur x.ev ∧
        (resumeTag s.start s.m md s.e.env.cur x.ev).time < s.e.env.stop.time) →
      q.map key =
        ((suspT t s.e.suspended).map
          (fun x => (x.ev.token, (resumeTag s.start s.m md s.e.env.cur x.ev).time))).reverse ++
          (ofT (some t) s.e.env.q).map key)
  self : ∀ ch, target P s.m.next s.m.change (P.owner md) = some (md, ch) → ch ≠ .reset_transition →
    s.m.current (P.owner md) = md → q = ofT (some t) s.e.env.q

theorem loop1_outcome {P : Prog} (ok : P.Ok) (tok : P.TimersOk) (s : St) (f : Flags P s.m) (g : Good s.e) (hn : Now s.e)
    {t md : Nat} (ht : P.tmode t = some md) :
    Outcome1 P s t md (ofT (some t) (loop1 P s P.n).2.1.env.q) (suspT t (loop1 P s P.n).2.1.suspended) := by
  have hmd := tok.own t md ht
  obtain ⟨_, h2⟩ := loop1_trig ok tok s f g hn ht P.n (Nat.le_refl _)
  obtain ⟨h2, h3⟩ := h2 hmd
  obtain ⟨h1, _⟩ := loop1_trig ok tok s f g hn ht (P.owner md) (by omega)
  obtain ⟨h1, h1'⟩ := h1 (Nat.le_refl _)
  have fr := loop1_frame ok tok s f g hn (P.owner md) (by omega)
  have hx := loop1_next ok s f hmd
  have hev := loop1_events P s (P.owner md)
  have hsame := (loop1_spec ok s (P.owner md + 1) hmd).same
  have hcur : (loop1 P s (P.owner md + 1)).1.current = s.m.current := by rw [hsame]
  have hde : (loop1 P s (P.owner md + 1)).1.deact = s.m.deact := by rw [hsame]
  have hoth : (target P s.m.next s.m.change (P.owner md)).map Prod.fst ≠ some md →
      ofT (some t) (loop1 P s P.n).2.1.env.q = ofT (some t) s.e.env.q ∧
        suspT t (loop1 P s P.n).2.1.suspended = suspT t s.e.suspended := by
    intro hne
    obtain ⟨o1, o2⟩ := loop1_other ok tok s f g hn ht hmd hne
    exact ⟨h2.trans (o1.trans h1), h3.trans (o2.trans h1')⟩
  rw [hev] at h2 h3
  generalize (loop1 P s (P.owner md + 1)).1 = m at *
  generalize (loop1 P s (P.owner md)).2.1 = e at *
  have hn' : Now e := fr.now hn
  have hent : ∀ ch, target P s.m.next s.m.change (P.owner md) = some (md, ch) →
      m.next (P.owner md) = some md ∧ m.change (P.owner md) = ch := by
    intro ch h
    rw [← hx] at h
    cases hy : m.next (P.owner md) with
    | none => rw [hy] at h; cases h
    | some md' =>
      rw [hy] at h
      simp only [Option.map_some, Option.some.injEq, Prod.mk.injEq] at h
      exact ⟨by rw [h.1], h.2⟩
  refine ⟨hoth, ?_, ?_, ?_, ?_, ?_⟩
  · intro h
    cases hy : target P s.m.next s.m.change (P.owner md) with
    | none => rw [hy] at h; cases h
    | some x =>
      rw [hy] at h
      simp only [Option.map_some, Option.some.injEq] at h
      obtain ⟨e1, e2⟩ := hent x.2 (by rw [hy, ← h])
      have en := enter_eff tok (start := s.start) e1 fr.good hn'
      rw [h3, en.susp, suspT_filter_self ht]
  · intro h hti
    obtain ⟨e1, e2⟩ := hent _ h
    have := enter_reset_timer tok (start := s.start) e1 e2 ht hti fr.good hn'
    rw [← h2, fr.cur, fr.stop, h1, h1'] at this
    exact this
  · intro h hti
    obtain ⟨e1, e2⟩ := hent _ h
    have := enter_reset_action tok (start := s.start) e1 e2 ht hti fr.good hn'
    rw [h2, this, h1]
  · intro ch h hch hne hp
    obtain ⟨e1, e2⟩ := hent _ h
    have := enter_history tok (start := s.start) e1 (by rw [e2]; exact hch) (by rw [hcur]; exact Ne.symm hne) ht hp
      fr.good hn'
    rw [← h2, fr.cur, fr.stop, h1, h1'] at this
    simp only [resumeTag_congr hde] at this
    exact this
  · intro ch h hch he
    obtain ⟨e1, e2⟩ := hent _ h
    have := enter_self tok (start := s.start) e1 (by rw [e2]; exact hch) (by rw [hcur, he]) ht fr.good hn'
    rw [h2, this, h1]

/-! ## The whole function -/

theorem ofT_retract {P : Prog} {m : Modes} {e : Events} {t : Nat} :
    ofT (some t) (retract P m e).env.q = if isActive m (P.tmode t) = true then ofT (some t) e.env.q else [] := by
  unfold retract ofT
  simp only [List.filter_filter]
  by_cases h : isActive m (P.tmode t) = true
  · rw [if_pos h]
    apply List.filter_congr
    intro ev _
    by_cases hx : ev.trigger = some t
    · simp [hx, evMode, h]
    · simp [hx]
  · rw [if_neg h, List.filter_eq_nil_iff]
    intro ev _
    by_cases hx : ev.trigger = some t
    · simp [hx, evMode, h]
    · simp [hx]

theorem suspT_retract {P : Prog} {m : Modes} {e : Events} {t : Nat} :
    suspT t (retract P m e).suspended = if isActive m (P.tmode t) = true then suspT t e.suspended else
      ((ofT (some t) e.env.q).map (fun ev => (⟨ev, e.env.cur.time⟩ : Susp))).reverse ++ suspT t e.suspended := by
  unfold retract suspT
  simp only [List.filter_append, List.filter_reverse, List.filter_map, List.filter_filter]
  have key : ∀ q : List Event, q.filter (fun a => ((fun x : Susp => decide (x.ev.trigger = some t)) ∘
        fun ev => (⟨ev, e.env.cur.time⟩ : Susp)) a && decide (isActive m (evMode P a) = false)) =
      if isActive m (P.tmode t) = true then [] else ofT (some t) q := by
    intro q
    by_cases h : isActive m (P.tmode t) = true
    · rw [if_pos h, List.filter_eq_nil_iff]
      intro ev _
      by_cases hx : ev.trigger = some t
      · simp [hx, evMode, h]
      · simp [hx]
    · rw [if_neg h]
      apply List.filter_congr
      intro ev _
      by_cases hx : ev.trigger = some t
      · simp [hx, evMode, h]
      · simp [hx]
  rw [key]
  by_cases h : isActive m (P.tmode t) = true
  · rw [if_pos h, if_pos h]; rfl
  · rw [if_neg h, if_neg h]

theorem addDummy_same (m : Modes) (e : Events) : (addDummy m e).suspended = e.suspended ∧ (addDummy m e).vars = e.vars ∧
    (addDummy m e).env.cur = e.env.cur ∧ (addDummy m e).env.stop = e.env.stop ∧
    (∀ t, ofT (some t) (addDummy m e).env.q = ofT (some t) e.env.q) ∧
    (∀ ev ∈ (addDummy m e).env.q, ev ∈ e.env.q ∨ ev.trigger = none) := by
  unfold addDummy
  split
  · refine ⟨rfl, rfl, rfl, rfl, fun t => ?_, fun ev h => ?_⟩
    · unfold ofT; rw [List.filter_cons_of_neg (by simp)]
    · rcases List.mem_cons.1 h with rfl | h
      · exact Or.inr rfl
      · exact Or.inl h
  · exact ⟨rfl, rfl, rfl, rfl, fun _ => rfl, fun ev h => Or.inl h⟩

theorem addDummy_good {m : Modes} {e : Events} (g : Good e) : Good (addDummy m e) := by
  unfold addDummy
  split
  · refine ⟨?_, ?_, ?_⟩
    · intro a ha
      show a.id < e.nextId + 1
      rcases List.mem_cons.1 ha with rfl | ha
      · exact Nat.lt_succ_self _
      · have := g.ids a ha; omega
    · intro a ha b hb hab
      rcases List.mem_cons.1 ha with rfl | ha <;> rcases List.mem_cons.1 hb with rfl | hb
      · rfl
      · have := g.ids b hb; simp only at hab; omega
      · have := g.ids a ha; simp only at hab; omega
      · exact g.inj a ha b hb hab
    · intro a ha
      rcases List.mem_cons.1 ha with rfl | ha
      · exact Int.le_refl _
      · exact g.future a ha
  · exact g

theorem retract_good {P : Prog} {m : Modes} {e : Events} (g : Good e) : Good (retract P m e) := by
  refine ⟨?_, ?_, ?_⟩
  · intro a ha; exact g.ids a (List.mem_filter.1 ha).1
  · intro a ha b hb; exact g.inj a (List.mem_filter.1 ha).1 b (List.mem_filter.1 hb).1
  · intro a ha; exact g.future a (List.mem_filter.1 ha).1

/-- The events of trigger `t` in mode `md` after the transitions. -/
theorem process_trig {P : Prog} (ok : P.Ok) (tok : P.TimersOk) (s : St) (f : Flags P s.m) (g : Good s.e) (hn : Now s.e)
    {t md : Nat} (ht : P.tmode t = some md) (hq : ∀ ev ∈ s.e.env.q, isActive s.m (evMode P ev) = true) :
    ∃ q l, Outcome1 P s t md q l ∧
    ofT (some t) (process P s).e.env.q = (if (process P s).m.active md = true then q else []) ∧
    suspT t (process P s).e.suspended = (if (process P s).m.active md = true then l
      else (q.map (fun ev => (⟨ev, s.e.env.cur.time⟩ : Susp))).reverse ++ l) := by
  refine ⟨_, _, loop1_outcome ok tok s f g hn ht, ?_⟩
  have fr := loop1_frame ok tok s f g hn P.n (Nat.le_refl _)
  have htr := loop1_transition ok s P.n (Nat.le_refl _)
  have hmd := tok.own t md ht
  have hout := loop1_outcome ok tok s f g hn ht
  have hsame := (loop1_spec ok s P.n (Nat.le_refl _)).same
  unfold process
  simp only []
  by_cases hb : (loop1 P s P.n).2.2 = true
  · simp only [hb, if_true]
    obtain ⟨a1, _, _, _, a5, _⟩ := addDummy_same (loop2 P s.e.env.cur.time (loop1 P s P.n).1 P.n)
      (retract P (loop2 P s.e.env.cur.time (loop1 P s P.n).1 P.n) (loop1 P s P.n).2.1)
    rw [a5, a1, ofT_retract, suspT_retract, ht, fr.cur]
    exact ⟨rfl, rfl⟩
  · simp only [hb, if_false, Bool.false_eq_true]
    have hno : (target P s.m.next s.m.change (P.owner md)).map Prod.fst ≠ some md := by
      intro h
      apply hb
      rw [htr]
      refine ⟨P.owner md, hmd, ?_⟩
      cases hx : target P s.m.next s.m.change (P.owner md) with
      | none => rw [hx] at h; cases h
      | some x => rfl
    obtain ⟨o1, o2⟩ := hout.stays hno
    have hact : (loop1 P s P.n).1.active md = s.m.active md := by rw [hsame]
    rw [hact]
    by_cases ha : s.m.active md = true
    · rw [if_pos ha, if_pos ha]; exact ⟨rfl, rfl⟩
    · have hnil : ofT (some t) s.e.env.q = [] := by
        unfold ofT
        rw [List.filter_eq_nil_iff]
        intro ev hev hx
        have := hq ev hev
        simp only [decide_eq_true_iff] at hx
        unfold evMode at this
        rw [hx] at this
        simp only [ht, isActive] at this
        exact ha this
      rw [if_neg ha, if_neg ha, o1, hnil]
      exact ⟨rfl, by simp⟩

theorem process_good {P : Prog} (ok : P.Ok) (tok : P.TimersOk) (s : St) (f : Flags P s.m) (g : Good s.e) (hn : Now s.e)
    (hq : ∀ ev ∈ s.e.env.q, isActive s.m (evMode P ev) = true) :
    Good (process P s).e ∧ (process P s).e.env.cur = s.e.env.cur ∧ (process P s).e.env.stop = s.e.env.stop ∧
    (process P s).start = s.start ∧
    (∀ ev ∈ (process P s).e.env.q, isActive (process P s).m (evMode P ev) = true) ∧
    (∀ x ∈ (process P s).e.suspended, x ∈ s.e.suspended ∨
      x.at_ = s.e.env.cur.time ∧ x.at_ ≤ x.ev.tag.time ∧ isActive (process P s).m (evMode P x.ev) = false) := by
  have fr := loop1_frame ok tok s f g hn P.n (Nat.le_refl _)
  have htr := loop1_transition ok s P.n (Nat.le_refl _)
  have hsame := (loop1_spec ok s P.n (Nat.le_refl _)).same
  have hout := fun (t md : Nat) (ht : P.tmode t = some md) => loop1_outcome ok tok s f g hn ht
  unfold process
  simp only []
  by_cases hb : (loop1 P s P.n).2.2 = true
  · simp only [hb, if_true]
    obtain ⟨a1, _, a3, a4, _, a6⟩ := addDummy_same (loop2 P s.e.env.cur.time (loop1 P s P.n).1 P.n)
      (retract P (loop2 P s.e.env.cur.time (loop1 P s P.n).1 P.n) (loop1 P s P.n).2.1)
    refine ⟨addDummy_good (retract_good fr.good), a3.trans fr.cur, a4.trans fr.stop, trivial, ?_, ?_⟩
    · intro ev hev
      rcases a6 ev hev with h | h
      · unfold retract at h
        simpa using (List.mem_filter.1 h).2
      · unfold evMode; rw [h]; rfl
    · intro x hx
      rw [a1] at hx
      unfold retract at hx
      simp only [List.mem_append, List.mem_reverse, List.mem_map, List.mem_filter] at hx
      rcases hx with ⟨ev, ⟨h1, h2⟩, rfl⟩ | h
      · right
        have hf := fr.good.future ev h1
        rw [fr.cur] at hf ⊢
        exact ⟨rfl, hf, by simpa using h2⟩
      · exact Or.inl (fr.sub x h)
  · simp only [hb, if_false, Bool.false_eq_true]
    refine ⟨fr.good, fr.cur, fr.stop, trivial, ?_, fun x h => Or.inl (fr.sub x h)⟩
    intro ev hev
    have hact : (loop1 P s P.n).1.active = s.m.active := by rw [hsame]
    have hiso : ∀ o, isActive (loop1 P s P.n).1 o = isActive s.m o := by
      intro o; unfold isActive; rw [hact]
    rw [hiso]
    cases hx : ev.trigger with
    | none => unfold evMode; rw [hx]; rfl
    | some t =>
      cases hy : P.tmode t with
      | none => unfold evMode; rw [hx]; simp only [hy]; rfl
      | some md =>
        have hno : (target P s.m.next s.m.change (P.owner md)).map Prod.fst ≠ some md := by
          intro h
          apply hb
          rw [htr]
          refine ⟨P.owner md, tok.own t md hy, ?_⟩
          cases hz : target P s.m.next s.m.change (P.owner md) with
          | none => rw [hz] at h; cases h
          | some x => rfl
        obtain ⟨o1, _⟩ := (hout t md hy).stays hno
        have : ev ∈ ofT (some t) (loop1 P s P.n).2.1.env.q := mem_ofT.2 ⟨hev, hx⟩
        rw [o1] at this
        exact hq ev (mem_ofT.1 this).1

end ReactorC.Modes
