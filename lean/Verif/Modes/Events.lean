import Verif.Modes.ModeProps
import Verif.Sched.RefProps

/-! # How mode transitions and the passing of time change the event queue and the suspended events -/

namespace ReactorC.Modes
open ReactorC ReactorC.Sched

/-! ## Single calls of the scheduler -/

/-- Scheduling a timer: an event the given delay ahead, or none if that is after the stop tag. -/
theorem timer_sched {debug : Bool} {trigs : Nat → Trigger} {env : Env} {t : Nat} {extra : Int} {id : Nat}
    (ht : (trigs t).isTimer = true) (hp : (trigs t).isPhysical = false) (hx : 0 ≤ extra) (hc : 0 ≤ env.cur.time)
    (hf : env.cur.time < FOREVER) :
    let r := (lf_schedule_trigger debug trigs env (some t) extra none 0 id).1
    r.cur = env.cur ∧ r.stop = env.stop ∧
    ((r.q = env.q ∧ (env.cur.time + extra < FOREVER → env.stop.time ≤ env.cur.time + extra)) ∨
      ∃ g : Tag, r.q = ⟨id, g, some t, none⟩ :: env.q ∧ env.cur.time ≤ g.time ∧ g.time ≤ env.cur.time + extra ∧
        (env.cur.time + extra < FOREVER → g.time = env.cur.time + extra)) := by
  have hI : ∃ I : Tag, intendedTag debug env (trigs t) extra 0 = I ∧ env.cur.time ≤ I.time ∧
      I.time ≤ env.cur.time + extra ∧ (env.cur.time + extra < FOREVER → I.time = env.cur.time + extra) := by
    refine ⟨_, rfl, ?_⟩
    unfold intendedTag
    simp only [ht, hp, if_true, Bool.false_eq_true, if_false]
    have hn : ¬ (env.cur.time = NEVER ∨ extra < 0) := by
      simp only [NEVER]; omega
    unfold lf_delay_tag
    rw [if_neg hn]
    split
    · rename_i h
      have h1 : ¬ (debug = true ∧ FOREVER_TAG.time < env.cur.time) := by
        intro h'; have := h'.2; simp only [FOREVER_TAG] at this; omega
      rw [if_neg h1]
      simp only [FOREVER_TAG]
      omega
    · split
      · rename_i h0 h
        simp only [Int.lt_irrefl, and_false, if_false]
        omega
      · rename_i h0 h
        have h1 : ¬ (debug = true ∧ env.cur.time + extra < env.cur.time) := by omega
        rw [if_neg h1]
        exact ⟨by simp only []; omega, by simp only []; omega, fun _ => rfl⟩
  obtain ⟨I, hI0, hI1, hI2, hI3⟩ := hI
  have hfin : ∀ id, let r := (finishSchedule debug env t I none id).1
      r.cur = env.cur ∧ r.stop = env.stop ∧
      ((r.q = env.q ∧ (env.cur.time + extra < FOREVER → env.stop.time ≤ env.cur.time + extra)) ∨
      ∃ g : Tag, r.q = ⟨id, g, some t, none⟩ :: env.q ∧ env.cur.time ≤ g.time ∧ g.time ≤ env.cur.time + extra ∧
        (env.cur.time + extra < FOREVER → g.time = env.cur.time + extra)) := by
    intro id
    unfold finishSchedule
    have h1 : ¬ (debug = true ∧ I.time < env.cur.time) := by omega
    simp only [h1, if_false]
    generalize hg : (if lf_tag_compare I env.cur = 0 then (⟨I.time, wrapU32 (I.microstep + 1)⟩ : Tag) else I) = g
    have hgt : g.time = I.time := by rw [← hg]; split <;> rfl
    split
    · rename_i hs
      rw [afterStop_eq_true, Tag.lt_def] at hs
      refine ⟨by simp, by simp, Or.inl ⟨by simp, fun h => ?_⟩⟩
      have := hI3 h
      omega
    · exact ⟨rfl, rfl, Or.inr ⟨g, rfl, by omega, by omega, fun h => by have := hI3 h; omega⟩⟩
  unfold lf_schedule_trigger
  by_cases hs : afterStop env env.cur = true
  · simp only [hs, if_true]
    rw [afterStop_eq_true, Tag.lt_def] at hs
    exact ⟨by simp, by simp, Or.inl ⟨by simp, fun _ => by omega⟩⟩
  · have he : (if extra < 0 then 0 else extra) = extra := by rw [if_neg (by omega)]
    have hi : incRef env none = env := rfl
    simp only [hs, if_false, he, hi, hI0, Bool.false_eq_true]
    split
    · split
      · have hnt : (nextFree env.q t I (env.q.length + 1)).time = I.time := nextFree_time _ _ _ _
        generalize nextFree env.q t I (env.q.length + 1) = g at *
        split
        · rename_i h
          rw [afterStop_eq_true, Tag.lt_def] at h
          refine ⟨rfl, rfl, Or.inl ⟨rfl, fun h' => ?_⟩⟩
          have := hI3 h'
          omega
        · exact ⟨rfl, rfl, Or.inr ⟨g, rfl, by omega, by omega, fun h' => by have := hI3 h'; omega⟩⟩
      · exact hfin id
    · rw [if_neg (by simp [ht])]
      exact hfin id

/-- Rescheduling an event at a given tag. -/
theorem at_tag_sched {trigs : Nat → Trigger} {env : Env} {t : Nat} {tag : Tag} {tok : Option Nat} {id : Nat} :
    let r := (lf_schedule_at_tag trigs true env t tag tok id).1
    r.cur = env.cur ∧ r.stop = env.stop ∧
    (r.q = env.q ∨
      (∃ g : Tag, r.q = ⟨id, g, some t, tok⟩ :: env.q ∧ g.time = tag.time ∧ env.cur.time ≤ g.time) ∨
      (∃ found ∈ env.q, found.trigger = some t ∧ (trigs t).policy = .replace ∧
        r.q = env.q.map (fun e => if e.id = found.id then { e with token := tok } else e))) := by
  unfold lf_schedule_at_tag
  split
  · exact ⟨rfl, rfl, Or.inl rfl⟩
  · rename_i hc
    have hlt : env.cur < tag := by
      rw [← Tag.not_le, ← cmp_le_zero]
      intro h; exact hc ⟨h, rfl⟩
    have hle : env.cur.time ≤ tag.time := by rw [Tag.lt_def] at hlt; omega
    by_cases hs : afterStop (incRef env tok) tag = true
    · simp only [hs, if_true]
      exact ⟨by simp, by simp, Or.inl (by simp)⟩
    · simp only [hs, if_false, incRef_q, Bool.false_eq_true]
      cases hf : findEv env.q t tag with
      | some found =>
        obtain ⟨f1, f2, f3⟩ := findEv_some hf
        cases hpol : (trigs t).policy with
        | drop =>
          simp only []
          by_cases hx : found.token ≠ tok
          · rw [if_pos hx]; exact ⟨by simp, by simp, Or.inl (by simp)⟩
          · rw [if_neg hx]; exact ⟨by simp, by simp, Or.inl (by simp)⟩
        | replace =>
          simp only []
          refine ⟨?_, ?_, Or.inr (Or.inr ⟨found, f1, f2, trivial, ?_⟩)⟩ <;> unfold replaceToken <;> split <;> simp
        | defer =>
          simp only []
          by_cases hx : afterStop (incRef env tok) ⟨tag.time, wrapU32 (tag.microstep + 1)⟩ = true
          · rw [if_pos hx]; exact ⟨by simp, by simp, Or.inl (by simp)⟩
          · rw [if_neg hx]; exact ⟨by simp, by simp, Or.inr (Or.inl ⟨_, rfl, rfl, hle⟩)⟩
      | none => exact ⟨by simp, by simp, Or.inr (Or.inl ⟨tag, rfl, rfl, hle⟩)⟩

/-- In time and with the default policy, the event is queued. -/
theorem at_tag_queued {trigs : Nat → Trigger} {env : Env} {t : Nat} {tag : Tag} {tok : Option Nat} {id : Nat}
    (hp : (trigs t).policy = .defer) (hc : env.cur < tag) (hs : tag.time < env.stop.time) :
    ∃ g : Tag, (lf_schedule_at_tag trigs true env t tag tok id).1.q = ⟨id, g, some t, tok⟩ :: env.q ∧
      g.time = tag.time := by
  unfold lf_schedule_at_tag
  rw [if_neg (by rw [cmp_le_zero, Tag.le_def]; rw [Tag.lt_def] at hc; simp; omega)]
  have hst : ∀ m : Nat, afterStop (incRef env tok) ⟨tag.time, m⟩ = false := by
    intro m
    rw [afterStop_eq_false, Tag.le_def]
    left; simpa using hs
  have hst0 : afterStop (incRef env tok) tag = false := hst tag.microstep
  simp only [hst0, Bool.false_eq_true, if_false, incRef_q]
  cases findEv env.q t tag with
  | some found =>
    simp only [hp, hst, Bool.false_eq_true, if_false]
    exact ⟨_, rfl, rfl⟩
  | none => exact ⟨tag, rfl, rfl⟩

/-! ## Effects on the events of each trigger -/

theorem mem_ofT {o : Option Nat} {q : List Event} {ev : Event} : ev ∈ ofT o q ↔ ev ∈ q ∧ ev.trigger = o := by
  simp [ofT]

/-- The events have different identities and are not in the past. -/
structure Good (e : Events) : Prop where
  ids : ∀ a ∈ e.env.q, a.id < e.nextId
  inj : ∀ a ∈ e.env.q, ∀ b ∈ e.env.q, a.id = b.id → a = b
  future : ∀ a ∈ e.env.q, e.env.cur.time ≤ a.tag.time

/-- Only events of triggers with property `p` have been added or changed. -/
structure Eff (p : Nat → Prop) (e e' : Events) : Prop where
  cur : e'.env.cur = e.env.cur
  stop : e'.env.stop = e.env.stop
  susp : e'.suspended = e.suspended
  good : Good e'
  other : ∀ o, (∀ t, o = some t → ¬ p t) → ofT o e'.env.q = ofT o e.env.q

theorem Eff.refl {p : Nat → Prop} {e : Events} (g : Good e) : Eff p e e := ⟨rfl, rfl, rfl, g, fun _ _ => rfl⟩

theorem Eff.trans {p : Nat → Prop} {e e' e'' : Events} (h : Eff p e e') (h' : Eff p e' e'') : Eff p e e'' :=
  ⟨h'.cur.trans h.cur, h'.stop.trans h.stop, h'.susp.trans h.susp, h'.good,
    fun o ho => (h'.other o ho).trans (h.other o ho)⟩

theorem Eff.mono {p p' : Nat → Prop} {e e' : Events} (h : Eff p e e') (hp : ∀ t, p t → p' t) : Eff p' e e' :=
  ⟨h.cur, h.stop, h.susp, h.good, fun o ho => h.other o (fun t ht hpt => ho t ht (hp t hpt))⟩

theorem Eff.mem {p : Nat → Prop} {e e' : Events} (h : Eff p e e') {ev : Event} (hv : ev ∈ e'.env.q) :
    ev ∈ e.env.q ∨ ∃ t, ev.trigger = some t ∧ p t := by
  by_cases hx : ∃ t, ev.trigger = some t ∧ p t
  · exact Or.inr hx
  · left
    have := h.other ev.trigger (fun t ht hp => hx ⟨t, ht, hp⟩)
    exact (mem_ofT.1 (this ▸ mem_ofT.2 ⟨hv, rfl⟩)).1

theorem eff_same {e : Events} {env : Env} {t : Nat} (g : Good e) (hc : env.cur = e.env.cur) (hs : env.stop = e.env.stop)
    (hq : env.q = e.env.q) : Eff (· = t) e { e with env := env, nextId := e.nextId + 1 } := by
  refine ⟨hc, hs, rfl, ⟨?_, ?_, ?_⟩, fun o _ => by simp only [hq]⟩
  · intro a ha; simp only [hq] at ha; have := g.ids a ha; show a.id < e.nextId + 1; omega
  · simp only [hq]; exact g.inj
  · simp only [hq, hc]; exact g.future

theorem eff_cons {e : Events} {env : Env} {t : Nat} {tag : Tag} {tok : Option Nat} (g : Good e)
    (hc : env.cur = e.env.cur) (hs : env.stop = e.env.stop) (hq : env.q = ⟨e.nextId, tag, some t, tok⟩ :: e.env.q)
    (hf : e.env.cur.time ≤ tag.time) :
    Eff (· = t) e { e with env := env, nextId := e.nextId + 1 } := by
  refine ⟨hc, hs, rfl, ⟨?_, ?_, ?_⟩, ?_⟩
  · intro a ha
    simp only [hq, List.mem_cons] at ha
    show a.id < e.nextId + 1
    rcases ha with rfl | ha
    · exact Nat.lt_succ_self _
    · have := g.ids a ha; omega
  · simp only [hq, List.mem_cons]
    rintro a (rfl | ha) b (rfl | hb) hab
    · rfl
    · have := g.ids b hb; simp only at hab; omega
    · have := g.ids a ha; simp only at hab; omega
    · exact g.inj a ha b hb hab
  · simp only [hq, hc, List.mem_cons]
    rintro a (rfl | ha)
    · exact hf
    · exact g.future a ha
  · intro o ho
    have hne : ¬ (some t = o) := fun h => ho t h.symm rfl
    simp only [hq, ofT]
    rw [List.filter_cons_of_neg (by simpa using hne)]

theorem eff_replace {e : Events} {env : Env} {t : Nat} {found : Event} {tok : Option Nat} (g : Good e)
    (hc : env.cur = e.env.cur) (hs : env.stop = e.env.stop) (hf : found ∈ e.env.q) (ht : found.trigger = some t)
    (hq : env.q = e.env.q.map (fun x => if x.id = found.id then { x with token := tok } else x)) :
    Eff (· = t) e { e with env := env, nextId := e.nextId + 1 } := by
  let F : Event → Event := fun x => if x.id = found.id then { x with token := tok } else x
  have hid : ∀ a, (F a).id = a.id := by intro a; simp only [F]; split <;> rfl
  have htag : ∀ a, (F a).tag = a.tag := by intro a; simp only [F]; split <;> rfl
  have htr : ∀ a, (F a).trigger = a.trigger := by intro a; simp only [F]; split <;> rfl
  refine ⟨hc, hs, rfl, ⟨?_, ?_, ?_⟩, ?_⟩
  · intro a ha
    simp only [hq, List.mem_map] at ha
    obtain ⟨b, hb, rfl⟩ := ha
    have := g.ids b hb
    show (F b).id < e.nextId + 1
    rw [hid]; omega
  · simp only [hq, List.mem_map]
    rintro _ ⟨a, ha, rfl⟩ _ ⟨b, hb, rfl⟩ hab
    have : a.id = b.id := by
      have h1 := hid a; have h2 := hid b
      simp only [F] at h1 h2
      rw [← h1, ← h2]; exact hab
    rw [g.inj a ha b hb this]
  · simp only [hq, hc, List.mem_map]
    rintro _ ⟨a, ha, rfl⟩
    have := g.future a ha
    show e.env.cur.time ≤ (F a).tag.time
    rw [htag]; exact this
  · intro o ho
    have hno : o ≠ some t := fun h => ho t h rfl
    simp only [hq, ofT]
    have : ∀ l : List Event, (∀ a ∈ l, a ∈ e.env.q) →
        (l.map F).filter (fun ev => decide (ev.trigger = o)) = l.filter (fun ev => decide (ev.trigger = o)) := by
      intro l
      induction l with
      | nil => intro _; rfl
      | cons a l ih =>
        intro hl
        have ih' := ih (fun b hb => hl b (List.mem_cons_of_mem _ hb))
        rw [List.map_cons]
        by_cases hao : a.trigger = o
        · have hne : a.id ≠ found.id := by
            intro h
            have := g.inj a (hl a List.mem_cons_self) found hf h
            rw [this, ht] at hao
            exact hno hao.symm
          have hFa : F a = a := by simp only [F, if_neg hne]
          rw [hFa, List.filter_cons_of_pos (by simpa using hao), List.filter_cons_of_pos (by simpa using hao), ih']
        · rw [List.filter_cons_of_neg (by rw [htr]; simpa using hao), List.filter_cons_of_neg (by simpa using hao), ih']
    exact this _ (fun _ h => h)

/-- The state after a timer has been scheduled with the given delay. -/
def timerAt (P : Prog) (e : Events) (t : Nat) (extra : Int) : Events :=
  { e with
    env := (lf_schedule_trigger P.debug P.trigs e.env (some t) extra none 0 e.nextId).1
    nextId := e.nextId + 1 }

theorem startTimer_eq (P : Prog) (e : Events) (t : Nat) : startTimer P e t = timerAt P e t (P.trigs t).offset := rfl

/-- A tag at which executions of the model take place. -/
def Now (e : Events) : Prop := 0 < e.env.cur.time ∧ e.env.cur.time < FOREVER ∧ e.env.cur.microstep + 1 < UINT_MAX

theorem timerAt_spec {P : Prog} (tok : P.TimersOk) {e : Events} (g : Good e) (hn : Now e) {t : Nat} {extra : Int}
    (ht : (P.trigs t).isTimer = true) (hx : 0 ≤ extra) :
    Eff (· = t) e (timerAt P e t extra) ∧ (timerAt P e t extra).vars = e.vars ∧
    ((ofT (some t) (timerAt P e t extra).env.q = ofT (some t) e.env.q ∧
        (e.env.cur.time + extra < FOREVER → e.env.stop.time ≤ e.env.cur.time + extra)) ∨
      ∃ ev : Event, ofT (some t) (timerAt P e t extra).env.q = ev :: ofT (some t) e.env.q ∧ ev.token = none ∧
        ev.tag.time ≤ e.env.cur.time + extra ∧
        (e.env.cur.time + extra < FOREVER → ev.tag.time = e.env.cur.time + extra)) := by
  obtain ⟨h1, h2, h3⟩ := timer_sched (debug := P.debug) (trigs := P.trigs) (env := e.env) (t := t) (extra := extra)
    (id := e.nextId) ht (tok.logical t ht) hx (Int.le_of_lt hn.1) hn.2.1
  rcases h3 with ⟨h3, h4⟩ | ⟨tag, h3, h4, h5, h6⟩
  · exact ⟨eff_same g h1 h2 h3, rfl, Or.inl ⟨by unfold timerAt; rw [h3], h4⟩⟩
  · refine ⟨eff_cons g h1 h2 h3 h4, rfl, Or.inr ⟨⟨e.nextId, tag, some t, none⟩, ?_, rfl, h5, h6⟩⟩
    unfold timerAt ofT
    simp only [h3]
    rw [List.filter_cons_of_pos (by simp)]

theorem Eff.now {p : Nat → Prop} {e e' : Events} (h : Eff p e e') (hn : Now e) : Now e' := by
  unfold Now; rw [h.cur]; exact hn

/-- The timers without period. -/
theorem resetTimers_spec {P : Prog} (tok : P.TimersOk) (md : Nat) (l : List Nat) (hl : ∀ t ∈ l, (P.trigs t).isTimer = true)
    (e : Events) (g : Good e) (hn : Now e) :
    Eff (fun t => P.tmode t = some md ∧ (P.trigs t).period = 0) e (resetTimers P md l e) ∧
    (resetTimers P md l e).vars = e.vars ∧
    ∀ t, P.tmode t = some md → (P.trigs t).period = 0 → (P.trigs t).isTimer = true →
      (∀ ev ∈ ofT (some t) (resetTimers P md l e).env.q, ev ∈ ofT (some t) e.env.q ∨
        ev.token = none ∧ ev.tag.time ≤ e.env.cur.time + (P.trigs t).offset) ∧
      (e.env.cur.time + (P.trigs t).offset < FOREVER → e.env.cur.time + (P.trigs t).offset < e.env.stop.time →
      (ofT (some t) (resetTimers P md l e).env.q).map key =
        List.replicate (l.count t) (none, e.env.cur.time + (P.trigs t).offset) ++ (ofT (some t) e.env.q).map key) := by
  induction l generalizing e with
  | nil => exact ⟨Eff.refl g, rfl, fun t _ _ _ => ⟨fun ev h => Or.inl h, fun _ _ => by simp [resetTimers]⟩⟩
  | cons a l ih =>
    have hl' : ∀ t ∈ l, (P.trigs t).isTimer = true := fun t ht => hl t (List.mem_cons_of_mem _ ht)
    have ha := hl a List.mem_cons_self
    unfold resetTimers
    by_cases hc : (P.trigs a).period = 0 ∧ P.tmode a = some md
    · rw [if_pos hc, startTimer_eq]
      obtain ⟨s1, s2, s3⟩ := timerAt_spec tok g hn ha (tok.offset a ha)
      generalize timerAt P e a (P.trigs a).offset = e1 at *
      obtain ⟨i1, i2, i3⟩ := ih hl' e1 s1.good (s1.now hn)
      refine ⟨(s1.mono (fun t ht => by rw [show t = a from ht]; exact ⟨hc.2, hc.1⟩)).trans i1, i2.trans s2, ?_⟩
      intro t htm htp htt
      obtain ⟨i3, i4⟩ := i3 t htm htp htt
      rw [s1.cur, s1.stop] at i4
      rw [s1.cur] at i3
      by_cases hta : t = a
      · subst hta
        refine ⟨fun ev hev => ?_, fun hF hS => ?_⟩
        · rcases i3 ev hev with h | h
          · rcases s3 with ⟨s3, _⟩ | ⟨ev', s3, s4, s5, _⟩
            · rw [s3] at h; exact Or.inl h
            · rw [s3] at h
              rcases List.mem_cons.1 h with rfl | h
              · exact Or.inr ⟨s4, s5⟩
              · exact Or.inl h
          · exact Or.inr h
        · rcases s3 with ⟨_, s4⟩ | ⟨ev', s3, s4, _, s6⟩
          · have := s4 hF; omega
          · rw [i4 hF hS, s3, List.map_cons, List.count_cons_self,
              show key ev' = (none, e.env.cur.time + (P.trigs t).offset) by unfold key; rw [s4, s6 hF],
              List.replicate_succ', List.append_assoc]
            rfl
      · have ho : ofT (some t) e1.env.q = ofT (some t) e.env.q :=
          s1.other (some t) (fun t' h => by cases h; exact hta)
        rw [ho] at i3 i4
        rw [List.count_cons_of_ne (Ne.symm hta)]
        exact ⟨i3, i4⟩
    · rw [if_neg hc]
      obtain ⟨i1, i2, i3⟩ := ih hl' e g hn
      refine ⟨i1, i2, ?_⟩
      intro t htm htp htt
      rw [List.count_cons_of_ne (fun h => hc (by rw [h]; exact ⟨htp, htm⟩))]
      exact i3 t htm htp htt

/-! ## Suspended events of the mode being entered -/

theorem reactivate_eff {P : Prog} (tok : P.TimersOk) {start : Int} {m : Modes} {i md : Nat} {ev : Event} {t : Nat}
    (ht : ev.trigger = some t) {e : Events} (g : Good e) (hn : Now e) :
    Eff (· = t) e (reactivate P start m i md ev e) ∧ (reactivate P start m i md ev e).vars = e.vars := by
  unfold reactivate
  rw [ht]
  simp only []
  split
  · split
    · rename_i h
      rw [startTimer_eq]
      obtain ⟨h1, h2, _⟩ := timerAt_spec tok g hn h (tok.offset t h)
      exact ⟨h1, h2⟩
    · exact ⟨Eff.refl g, rfl⟩
  · split
    · obtain ⟨h1, h2, h3⟩ := at_tag_sched (trigs := P.trigs) (env := e.env) (t := t)
        (tag := resumeTag start m md e.env.cur ev) (tok := ev.token) (id := e.nextId)
      rcases h3 with h3 | ⟨tag, h3, _, h5⟩ | ⟨found, h3, h4, _, h5⟩
      · exact ⟨eff_same g h1 h2 h3, rfl⟩
      · exact ⟨eff_cons g h1 h2 h3 h5, rfl⟩
      · exact ⟨eff_replace g h1 h2 h3 h4 h5, rfl⟩
    · exact ⟨Eff.refl g, rfl⟩

theorem evMode_some {P : Prog} {ev : Event} {md : Nat} (h : evMode P ev = some md) :
    ∃ t, ev.trigger = some t ∧ P.tmode t = some md := by
  unfold evMode at h
  cases ht : ev.trigger with
  | none => rw [ht] at h; cases h
  | some t => rw [ht] at h; exact ⟨t, rfl, h⟩

theorem resumeLoop_eff {P : Prog} (tok : P.TimersOk) {start : Int} {m : Modes} {i md : Nat} (l : List Susp) {e : Events}
    (g : Good e) (hn : Now e) :
    Eff (fun t => P.tmode t = some md) e (resumeLoop P start m i md l e).1 ∧
    (resumeLoop P start m i md l e).1.vars = e.vars ∧
    (resumeLoop P start m i md l e).2 = l.filter (fun x => evMode P x.ev ≠ some md) := by
  induction l generalizing e with
  | nil => exact ⟨Eff.refl g, rfl, rfl⟩
  | cons x l ih =>
    unfold resumeLoop
    by_cases hx : evMode P x.ev = some md
    · obtain ⟨t, h1, h2⟩ := evMode_some hx
      rw [if_pos hx]
      obtain ⟨r1, r2⟩ := reactivate_eff tok (start := start) (m := m) (i := i) (md := md) h1 g hn
      obtain ⟨i1, i2, i3⟩ := ih r1.good (r1.now hn)
      refine ⟨(r1.mono (fun t' h => by rw [show t' = t from h]; exact h2)).trans i1, i2.trans r2, ?_⟩
      rw [i3, List.filter_cons_of_neg (by simpa using hx)]
    · rw [if_neg hx]
      obtain ⟨i1, i2, i3⟩ := ih g hn
      refine ⟨i1, i2, ?_⟩
      simp only [i3]
      rw [List.filter_cons_of_pos (by simpa using hx)]

theorem mem_suspT {t : Nat} {l : List Susp} {x : Susp} : x ∈ suspT t l ↔ x ∈ l ∧ x.ev.trigger = some t := by
  simp [suspT]

/-- One step of the loop as seen by one trigger: an event of another trigger makes no difference. -/
theorem resume_step {P : Prog} (tok : P.TimersOk) {start : Int} {m : Modes} {i md : Nat} {x : Susp} {l : List Susp}
    {e : Events} (g : Good e) (hn : Now e) {t : Nat} (ht : P.tmode t = some md) :
    (x.ev.trigger = some t ∧ suspT t (x :: l) = x :: suspT t l ∧
      resumeLoop P start m i md (x :: l) e =
        resumeLoop P start m i md l (reactivate P start m i md x.ev e)) ∨
    (x.ev.trigger ≠ some t ∧ suspT t (x :: l) = suspT t l ∧ ∃ e', Good e' ∧ Now e' ∧ e'.env.cur = e.env.cur ∧
      e'.env.stop = e.env.stop ∧
      ofT (some t) e'.env.q = ofT (some t) e.env.q ∧
      (resumeLoop P start m i md (x :: l) e).1 = (resumeLoop P start m i md l e').1) := by
  by_cases hxt : x.ev.trigger = some t
  · left
    refine ⟨hxt, ?_, ?_⟩
    · unfold suspT; rw [List.filter_cons_of_pos (by simpa using hxt)]
    · rw [resumeLoop, if_pos (show evMode P x.ev = some md by unfold evMode; rw [hxt]; exact ht)]
  · right
    refine ⟨hxt, ?_, ?_⟩
    · unfold suspT; rw [List.filter_cons_of_neg (by simpa using hxt)]
    · by_cases hx : evMode P x.ev = some md
      · obtain ⟨t', h1, h2⟩ := evMode_some hx
        obtain ⟨r1, _⟩ := reactivate_eff tok (start := start) (m := m) (i := i) (md := md) h1 g hn
        refine ⟨_, r1.good, r1.now hn, r1.cur, r1.stop, r1.other _ ?_, by rw [resumeLoop, if_pos hx]⟩
        intro t'' h3 h4
        cases h3
        rw [show t = t' from h4] at hxt
        exact hxt h1
      · exact ⟨e, g, hn, rfl, rfl, rfl, by rw [resumeLoop, if_neg hx]⟩

/-- With a reset, a suspended timer starts anew. -/
theorem resume_reset_timer {P : Prog} (tok : P.TimersOk) {start : Int} {m : Modes} {i md : Nat}
    (hr : m.change i = .reset_transition) {t : Nat} (ht : P.tmode t = some md) (hti : (P.trigs t).isTimer = true)
    (l : List Susp) {e : Events} (g : Good e) (hn : Now e) :
    (∀ ev ∈ ofT (some t) (resumeLoop P start m i md l e).1.env.q, ev ∈ ofT (some t) e.env.q ∨
      ev.token = none ∧ ev.tag.time ≤ e.env.cur.time + (P.trigs t).offset) ∧
    (e.env.cur.time + (P.trigs t).offset < FOREVER → e.env.cur.time + (P.trigs t).offset < e.env.stop.time →
      (ofT (some t) (resumeLoop P start m i md l e).1.env.q).map key =
        List.replicate (suspT t l).length (none, e.env.cur.time + (P.trigs t).offset) ++
          (ofT (some t) e.env.q).map key) := by
  induction l generalizing e with
  | nil => exact ⟨fun ev h => Or.inl h, fun _ _ => by simp [resumeLoop, suspT]⟩
  | cons x l ih =>
    rcases resume_step tok (start := start) (m := m) (i := i) (x := x) (l := l) g hn ht with
      ⟨h1, h2, h3⟩ | ⟨_, h2, e', g', hn', hc, hs, hq, h3⟩
    · rw [h3, h2]
      have hre : reactivate P start m i md x.ev e = timerAt P e t (P.trigs t).offset := by
        unfold reactivate; rw [h1]; simp only [hr, hti, if_true]; rfl
      rw [hre]
      obtain ⟨s1, _, s3⟩ := timerAt_spec tok g hn hti (tok.offset t hti)
      generalize timerAt P e t (P.trigs t).offset = e1 at *
      obtain ⟨i1, i2⟩ := ih s1.good (s1.now hn)
      rw [s1.cur, s1.stop] at i2
      rw [s1.cur] at i1
      refine ⟨fun ev hev => ?_, fun hF hS => ?_⟩
      · rcases i1 ev hev with h | h
        · rcases s3 with ⟨s3, _⟩ | ⟨ev', s3, s4, s5, _⟩
          · rw [s3] at h; exact Or.inl h
          · rw [s3] at h
            rcases List.mem_cons.1 h with rfl | h
            · exact Or.inr ⟨s4, s5⟩
            · exact Or.inl h
        · exact Or.inr h
      · rcases s3 with ⟨_, s4⟩ | ⟨ev', s3, s4, _, s6⟩
        · have := s4 hF; omega
        · rw [i2 hF hS, s3, List.map_cons, List.length_cons,
            show key ev' = (none, e.env.cur.time + (P.trigs t).offset) by unfold key; rw [s4, s6 hF],
            List.replicate_succ', List.append_assoc]
          rfl
    · obtain ⟨i1, i2⟩ := ih g' hn'
      rw [hc, hq] at i1 i2
      rw [hs] at i2
      rw [h3, h2]
      exact ⟨i1, i2⟩

/-- With a reset, suspended events of actions are dropped. -/
theorem resume_reset_action {P : Prog} (tok : P.TimersOk) {start : Int} {m : Modes} {i md : Nat}
    (hr : m.change i = .reset_transition) {t : Nat} (ht : P.tmode t = some md) (hti : (P.trigs t).isTimer = false)
    (l : List Susp) {e : Events} (g : Good e) (hn : Now e) :
    ofT (some t) (resumeLoop P start m i md l e).1.env.q = ofT (some t) e.env.q := by
  induction l generalizing e with
  | nil => rfl
  | cons x l ih =>
    rcases resume_step tok (start := start) (m := m) (i := i) (x := x) (l := l) g hn ht with
      ⟨h1, h2, h3⟩ | ⟨_, h2, e', g', hn', hc, hs, hq, h3⟩
    · have hre : reactivate P start m i md x.ev e = e := by
        unfold reactivate; rw [h1]; simp only [hr, hti, if_true, Bool.false_eq_true, if_false]
      rw [h3, hre]; exact ih g hn
    · rw [h3, ih g' hn', hq]

/-- With history, a suspended event is scheduled after the remaining delay. -/
theorem resume_history {P : Prog} (tok : P.TimersOk) {start : Int} {m : Modes} {i md : Nat}
    (hr : m.change i ≠ .reset_transition) (hne : md ≠ m.current i) {t : Nat} (ht : P.tmode t = some md)
    (hp : (P.trigs t).policy = .defer) (l : List Susp) {e : Events} (g : Good e) (hn : Now e) :
    (∀ ev ∈ ofT (some t) (resumeLoop P start m i md l e).1.env.q, ev ∈ ofT (some t) e.env.q ∨
      ∃ x ∈ suspT t l, ev.token = x.ev.token ∧ ev.tag.time = (resumeTag start m md e.env.cur x.ev).time) ∧
    ((∀ x ∈ suspT t l, e.env.cur < resumeTag start m md e.env.cur x.ev ∧
        (resumeTag start m md e.env.cur x.ev).time < e.env.stop.time) →
      (ofT (some t) (resumeLoop P start m i md l e).1.env.q).map key =
        ((suspT t l).map (fun x => (x.ev.token, (resumeTag start m md e.env.cur x.ev).time))).reverse ++
          (ofT (some t) e.env.q).map key) := by
  induction l generalizing e with
  | nil => exact ⟨fun ev h => Or.inl h, fun _ => by simp [resumeLoop, suspT]⟩
  | cons x l ih =>
    rcases resume_step tok (start := start) (m := m) (i := i) (x := x) (l := l) g hn ht with
      ⟨h1, h2, h3⟩ | ⟨_, h2, e', g', hn', hc, hs, hq, h3⟩
    · rw [h3, h2]
      obtain ⟨s1, _⟩ := reactivate_eff tok (start := start) (m := m) (i := i) (md := md) h1 g hn
      have hre : reactivate P start m i md x.ev e = { e with
          env := (lf_schedule_at_tag P.trigs true e.env t (resumeTag start m md e.env.cur x.ev) x.ev.token e.nextId).1
          nextId := e.nextId + 1 } := by
        unfold reactivate; rw [h1]; simp only [hr, if_false, hne, ne_eq, not_false_eq_true, if_true]
      have hqq : ofT (some t) (reactivate P start m i md x.ev e).env.q = ofT (some t) e.env.q ∨
          ∃ ev, ofT (some t) (reactivate P start m i md x.ev e).env.q = ev :: ofT (some t) e.env.q ∧
            ev.token = x.ev.token ∧ ev.tag.time = (resumeTag start m md e.env.cur x.ev).time := by
        obtain ⟨_, _, h⟩ := at_tag_sched (trigs := P.trigs) (env := e.env) (t := t)
          (tag := resumeTag start m md e.env.cur x.ev) (tok := x.ev.token) (id := e.nextId)
        rw [hre]
        rcases h with h | ⟨tag, h, h', _⟩ | ⟨found, _, _, h, _⟩
        · left; simp only [h]
        · right
          refine ⟨⟨e.nextId, tag, some t, x.ev.token⟩, ?_, rfl, h'⟩
          simp only [h, ofT]
          rw [List.filter_cons_of_pos (by simp)]
        · rw [hp] at h; cases h
      have hqf : e.env.cur < resumeTag start m md e.env.cur x.ev →
          (resumeTag start m md e.env.cur x.ev).time < e.env.stop.time →
          ∃ ev, ofT (some t) (reactivate P start m i md x.ev e).env.q = ev :: ofT (some t) e.env.q ∧
            ev.token = x.ev.token ∧ ev.tag.time = (resumeTag start m md e.env.cur x.ev).time := by
        intro hf1 hf2
        obtain ⟨tag, h, h'⟩ := at_tag_queued (trigs := P.trigs) (env := e.env) (t := t) (tok := x.ev.token)
          (id := e.nextId) hp hf1 hf2
        rw [hre]
        refine ⟨⟨e.nextId, tag, some t, x.ev.token⟩, ?_, rfl, h'⟩
        simp only [h, ofT]
        rw [List.filter_cons_of_pos (by simp)]
      generalize reactivate P start m i md x.ev e = e1 at *
      obtain ⟨i1, i2⟩ := ih s1.good (s1.now hn)
      rw [s1.cur, s1.stop] at i2
      rw [s1.cur] at i1
      refine ⟨fun ev hev => ?_, fun hx => ?_⟩
      · rcases i1 ev hev with h | ⟨x', h, h'⟩
        · rcases hqq with hqq | ⟨ev', hqq, h4⟩
          · rw [hqq] at h; exact Or.inl h
          · rw [hqq] at h
            rcases List.mem_cons.1 h with rfl | h
            · exact Or.inr ⟨x, List.mem_cons_self, h4⟩
            · exact Or.inl h
        · exact Or.inr ⟨x', List.mem_cons_of_mem _ h, h'⟩
      · obtain ⟨f1, f2⟩ := hx x List.mem_cons_self
        obtain ⟨ev', hqf, h4, h5⟩ := hqf f1 f2
        rw [i2 (fun x' hx' => hx x' (List.mem_cons_of_mem _ hx')), hqf, List.map_cons, List.map_cons,
          List.reverse_cons, List.append_assoc,
          show key ev' = (x.ev.token, (resumeTag start m md e.env.cur x.ev).time) by unfold key; rw [h4, h5]]
        rfl
    · obtain ⟨i1, i2⟩ := ih g' hn'
      rw [hc, hq] at i1 i2
      rw [hs] at i2
      rw [h3, h2]
      exact ⟨i1, i2⟩

/-- A mode entered from itself with history: nothing is scheduled. -/
theorem resume_self {P : Prog} (tok : P.TimersOk) {start : Int} {m : Modes} {i md : Nat}
    (hr : m.change i ≠ .reset_transition) (hne : md = m.current i) {t : Nat} (ht : P.tmode t = some md)
    (l : List Susp) {e : Events} (g : Good e) (hn : Now e) :
    ofT (some t) (resumeLoop P start m i md l e).1.env.q = ofT (some t) e.env.q := by
  induction l generalizing e with
  | nil => rfl
  | cons x l ih =>
    rcases resume_step tok (start := start) (m := m) (i := i) (x := x) (l := l) g hn ht with
      ⟨h1, h2, h3⟩ | ⟨_, h2, e', g', hn', hc, hs, hq, h3⟩
    · have hre : reactivate P start m i md x.ev e = e := by
        unfold reactivate; rw [h1]; simp only [hr, if_false, hne, ne_eq, not_true_eq_false]
      rw [h3, hre]; exact ih g hn
    · rw [h3, ih g' hn', hq]

end ReactorC.Modes
