import Verif.Decentral.Inv

/-! # The invariant that needs no assumptions -/

namespace ReactorC.Decentral

open ReactorC.Level (Config Port Phase MIN_SLEEP_DURATION Small bump upd exempt waitOver newKnown actualTag)

structure Gen (c : Config) (s : State) : Prop where
  lv : Level.Inv c s.lv
  time : s.lv.now + MIN_SLEEP_DURATION ≤ FOREVER
  after : s.lv.phase ≠ .waiting → c.start ≤ s.lv.cur ∧ (s.lv.phase = .atStart → s.lv.cur = c.start)
  req : s.requestors = s.reading.length
  ports : (s.reading.map (·.1)).Nodup
  pend : ∀ i g v, (i, g, v) ∈ s.reading → i < c.n ∧ (c.port i).physical = false ∧ c.start ≤ g ∧ g.time < FOREVER ∧
    g.microstep < UINT_MAX ∧ exempt c g i = false
  barrier : ∀ i g v, (i, g, v) ∈ s.reading → (s.lv.cur < g → s.horizon ≤ g) ∧ (g ≤ s.lv.cur → s.horizon ≤ bump s.lv.cur)
  ev : ∀ e ∈ s.q, c.start ≤ e.tag ∧ (s.lv.phase = .running → s.lv.cur < e.tag)
  net : ∀ e ∈ s.q, ∀ i, e.port = some i → e.intended ≤ e.tag ∧ c.start ≤ e.intended ∧ e.intended.microstep < UINT_MAX
  waits : ∀ p, s.waited = some p → nextTag s ≤ p ∧ s.lv.phase = .running
  out : ∀ d ∈ s.out, d.intended ≤ d.at_ ∧ (d.late = true ↔ d.intended < d.at_) ∧ d.at_ ≤ s.lv.cur
  early : s.lv.phase ≠ .running → s.out = []
  stop : c.start ≤ s.stop ∧ s.stop.time ≤ FOREVER

/-- The part of a step that concerns the ports. -/
theorem Gen.level {c : Config} (hw : WF c) {a : Assume} {s s' : State} (h : Gen c s) (st : Step c a s s') : Level.Inv c s'.lv := by
  have hl := h.lv
  have go : ∀ l, Level.Step c false s.lv l → Level.Inv c l := fun l hs => hl.step hw.lv hs
  cases st with
  | @header i g v hi hp hg hF hm hx hr ho ht =>
    obtain ⟨x, he, _⟩ := raise_cases s g hl.curMicro
    show Level.Inv c (raise s g).lv
    rw [he]; exact hl
  | @complete i g v hr hs ht hc hsp =>
    obtain ⟨hi, hp, hg, _⟩ := h.pend i g v hr
    obtain ⟨x, y, he, _⟩ := release_cases { handle c s i g v with reading := s.reading.erase (i, g, v) }
    obtain ⟨l, o, dr, la, hh, _⟩ := handle_cases c s i g v
    rw [he]
    show Level.Inv c (handle c s i g v).lv
    rw [hh]
    exact go _ (.message hi hp hg hs (fun h => (by cases h)))
  | @abort r hr =>
    obtain ⟨x, y, he, _⟩ := release_cases { s with reading := s.reading.erase r }
    rw [he]; exact hl
  | @absent i g hi hg hm hr hs ho ht => exact go _ (.absent hi hg hs (fun h => (by cases h)))
  | @gone i hi hr hs => exact go _ (.gone hw.dec hi hs)
  | local_ => exact hl
  | setStop => exact hl
  | @clock t ht _ => exact go _ (.clock ht)
  | begin hp _ => exact go _ (.begin hp)
  | @start l hp _ _ => exact (go _ (.run hp)).status _
  | wait => exact hl
  | @advance p l hwt hc hF hm ho hp hl' =>
    have hlate : ∀ tardy present, Level.Inv c (Level.nextTag c s.lv (nextTag s) tardy present) :=
      fun tardy present => go _ (.next hp hc hF hm (fun h => by
        rcases h with h | h
        · rw [hw.dec] at h; cases h
        · cases h))
    exact hlate _ _
  | @stall level hp => exact go _ (.stall hp)
  | @arm v hp => exact go _ (.arm hw.dec hp)
  | @timeout i t u hi hwt ho hc hst hs => exact go _ (.timeout hi hwt ho hc hst hs (fun h => (by cases h)))

theorem erase_map_nodup {l : List Msg} (h : (l.map (·.1)).Nodup) (r : Msg) : ((l.erase r).map (·.1)).Nodup :=
  h.sublist (List.erase_sublist.map _)

/-- Only one message of a port is being read. -/
theorem port_unique {l : List Msg} (h : (l.map (·.1)).Nodup) {x y : Msg} (hx : x ∈ l) (hy : y ∈ l) (hp : x.1 = y.1) : x = y := by
  induction l with
  | nil => cases hx
  | cons z l ih =>
    rw [List.map_cons, List.nodup_cons] at h
    rcases List.mem_cons.1 hx with rfl | hx'
    · rcases List.mem_cons.1 hy with rfl | hy'
      · rfl
      · exact absurd (List.mem_map.2 ⟨y, hy', hp.symm⟩) h.1
    · rcases List.mem_cons.1 hy with rfl | hy'
      · exact absurd (List.mem_map.2 ⟨x, hx', hp⟩) h.1
      · exact ih h.2 hx' hy'

/-- After a message has been handled, no other of its port is being read. -/
theorem erase_port {l : List Msg} (h : (l.map (·.1)).Nodup) {r : Msg} (hr : r ∈ l) : ∀ x ∈ l.erase r, x.1 ≠ r.1 := by
  intro x hx hp
  have hn : l.Nodup := List.Nodup.of_map _ h
  rw [hn.mem_erase_iff] at hx
  exact hx.1 (port_unique h hx.2 hr hp)

theorem nextTag_lv (s : State) (l : Level.State) : nextTag { s with lv := l } = nextTag s := rfl

theorem nextTag_append (s : State) (l : List Ev) (stop : Tag) (hs : stop ≤ s.stop) (s' : State) (hq : s'.q = s.q ++ l)
    (hst : s'.stop = stop) : nextTag s' ≤ nextTag s := by
  rcases nextTag_cases s with h | ⟨e, he, h⟩
  · rw [h]
    have := nextTag_le_stop s'
    rw [hst] at this
    exact Tag.le_trans this hs
  · rw [← h]
    exact nextTag_le s' (by rw [hq]; exact List.mem_append_left _ he)

theorem Gen.init {c : Config} (hw : WF c) (now : Int) (stop : Tag) (h : now + MIN_SLEEP_DURATION ≤ FOREVER)
    (hs : c.start ≤ stop) (hs' : stop.time ≤ FOREVER) : Gen c (Decentral.init c now stop) where
  lv := Level.Inv.init hw.lv now
  time := h
  after := fun h => absurd rfl h
  req := rfl
  ports := List.nodup_nil
  pend := fun _ _ _ h => (by cases h)
  barrier := fun _ _ _ h => (by cases h)
  ev := fun _ h => (by cases h)
  net := fun _ h => (by cases h)
  waits := fun _ h => (by cases h)
  out := fun _ h => (by cases h)
  early := fun _ => rfl
  stop := ⟨hs, hs'⟩

theorem delay_zero (t : Tag) (hF : t.time < FOREVER) (hN : NEVER < t.time) : lf_delay_tag t 0 = bump t := by
  rcases lf_delay_tag_cases t 0 with ⟨h, _⟩ | ⟨_, _, h, _⟩ | ⟨_, _, _, h⟩ | ⟨_, h, _⟩
  · rcases h with h | h <;> omega
  · omega
  · rw [h]; rfl
  · omega

/-- While a message is being read, the current tag does not get to its tag, or past the next microstep. -/
theorem advance_pending {c : Config} {s : State} (h : Gen c s) {t : Tag} (hc : s.lv.cur < t) (ho : open_ s t) {i : Nat} {g : Tag}
    {v : Nat} (hr : (i, g, v) ∈ s.reading) : t < g := by
  have hlt : t < s.horizon := by
    rcases ho with ho | ho
    · rw [h.req] at ho
      have := List.length_pos_of_mem hr
      omega
    · exact (cmp_lt_zero _ _).1 ho
  by_cases hg : s.lv.cur < g
  · exact Tag.lt_of_lt_of_le hlt ((h.barrier i g v hr).1 hg)
  · rw [Tag.not_lt] at hg
    have := Tag.lt_of_lt_of_le hlt ((h.barrier i g v hr).2 hg)
    rw [le_of_lt_bump h.lv.curMicro, ← Tag.not_lt] at this
    exact absurd hc this

theorem Gen.step {c : Config} (hw : WF c) {a : Assume} {s s' : State} (h : Gen c s) (st : Step c a s s') : Gen c s' := by
  have hlv := h.level hw st
  have hmic := h.lv.curMicro
  cases st with
  | @header i g v hi hp hg hF hm hx hr ho ht =>
    obtain ⟨x, he, h1, h2, h3⟩ := raise_cases s g hmic
    rw [he] at hlv ⊢
    refine ⟨hlv, h.time, h.after, ?_, ?_, ?_, ?_, h.ev, h.net, h.waits, h.out, h.early, h.stop⟩
    · show s.requestors + 1 = _; rw [h.req]; rfl
    · show (((i, g, v) :: s.reading).map (·.1)).Nodup
      rw [List.map_cons, List.nodup_cons]
      refine ⟨?_, h.ports⟩
      intro hmem
      obtain ⟨r, hr', hri⟩ := List.mem_map.1 hmem
      exact hr r hr' hri
    · intro j g' v' hj
      rcases List.mem_cons.1 hj with hj | hj
      · simp only [Prod.mk.injEq] at hj
        obtain ⟨rfl, rfl, rfl⟩ := hj
        exact ⟨hi, hp, hg, hF, hm, hx⟩
      · exact h.pend j g' v' hj
    · intro j g' v' hj
      rcases List.mem_cons.1 hj with hj | hj
      · simp only [Prod.mk.injEq] at hj
        obtain ⟨rfl, rfl, rfl⟩ := hj
        exact ⟨h1, h3⟩
      · rcases h2 with h2 | h2
        · exact ⟨fun hlt => Tag.le_trans h2 ((h.barrier j g' v' hj).1 hlt),
            fun hle => Tag.le_trans h2 ((h.barrier j g' v' hj).2 hle)⟩
        · refine ⟨fun hlt => ?_, fun _ => ?_⟩
          · show x ≤ g'; rw [h2]; exact (bump_le hmic).2 hlt
          · show x ≤ bump s.lv.cur; rw [h2]; exact Tag.le_refl _
  | @complete i g v hr hs ht hc hsp =>
    obtain ⟨hi, hp, hg, hgF, hgm, hx⟩ := h.pend i g v hr
    obtain ⟨x, y, he, hy, hxy⟩ := release_cases { handle c s i g v with reading := s.reading.erase (i, g, v) }
    obtain ⟨l, o, dr, la, hh, hcase⟩ := handle_cases c s i g v
    obtain ⟨m, sl, st', hl'⟩ := handleMessage_lv c s.lv i g (decide (s.last i < g))
    rw [he] at hlv ⊢
    have hq : ∀ e ∈ l, e.port = some i ∧ e.intended = g ∧ g ≤ e.tag ∧ (s.lv.phase = .running → s.lv.cur < e.tag) := by
      have hcur : s.lv.phase = .running → s.lv.cur < bump s.lv.cur := fun _ => lt_bump hmic
      rcases hcase with ⟨_, h1, _⟩ | ⟨_, _, ⟨h1, _⟩ | ⟨h2, h3, _, h1, _⟩ | ⟨h2, _, _, _, h1, _⟩ | ⟨h2, _, _, _, h1, _⟩⟩
      · rw [h1]; intro e he; cases he
      · rw [h1]; intro e he; cases he
      · rw [h1]
        intro e he
        rw [List.mem_singleton] at he
        subst he
        have hge := freeTag_ge s.q i s.q.length (lf_delay_tag s.lv.cur 0)
        rw [delay_zero s.lv.cur h.lv.curTime h.lv.curLow] at hge ⊢
        have := Tag.lt_of_lt_of_le (lt_bump hmic) hge
        exact ⟨rfl, rfl, Tag.le_trans h2 (Tag.le_of_lt this), fun _ => this⟩
      · rw [h1]
        intro e he
        rw [List.mem_singleton] at he
        subst he
        exact ⟨rfl, rfl, Tag.le_refl _, fun hp => by rw [← Tag.not_le]; exact fun hx => h2 ⟨hx, hp⟩⟩
      · rw [h1]
        intro e he
        rw [List.mem_singleton] at he
        subst he
        refine ⟨rfl, rfl, Tag.le_of_lt (lt_bump hgm), fun hp => ?_⟩
        have : s.lv.cur < g := by rw [← Tag.not_le]; exact fun hx => h2 ⟨hx, hp⟩
        exact Tag.lt_trans this (lt_bump hgm)
    have ho : ∀ d ∈ o, d.intended ≤ d.at_ ∧ (d.late = true ↔ d.intended < d.at_) ∧ d.at_ = s.lv.cur ∧
        s.lv.phase = .running := by
      rcases hcase with ⟨hn, _, h1, _⟩ | ⟨_, h1, _⟩
      · rw [h1]
        intro d hd
        rw [List.mem_singleton] at hd
        subst hd
        unfold now_ Level.handleMessageNow at hn
        simp only [Bool.and_eq_true, decide_eq_true_eq, cmp_eq_zero] at hn
        refine ⟨?_, by simp only [decide_eq_true_eq], rfl, hn.1.2⟩
        show g ≤ s.lv.cur
        rw [hn.1.1.1.1.2]; exact Tag.le_refl _
      · rw [h1]; intro d hd; cases hd
    have hcur : (handle c s i g v).lv.cur = s.lv.cur ∧ (handle c s i g v).lv.phase = s.lv.phase ∧
        (handle c s i g v).lv.now = s.lv.now := by rw [hh]; show _ ∧ _ ∧ _; rw [hl']; exact ⟨rfl, rfl, rfl⟩
    have hrest : (handle c s i g v).q = s.q ++ l ∧ (handle c s i g v).out = s.out ++ o ∧
        (handle c s i g v).stop = s.stop ∧ (handle c s i g v).waited = s.waited ∧
        (handle c s i g v).requestors = s.requestors ∧ (handle c s i g v).horizon = s.horizon := by
      rw [hh]; exact ⟨rfl, rfl, rfl, rfl, rfl, rfl⟩
    obtain ⟨hq1, hq2, hq3, hq4, hq5, hq6⟩ := hrest
    obtain ⟨hc1, hc2, hc3⟩ := hcur
    refine ⟨hlv, ?_, ?_, ?_, erase_map_nodup h.ports _, ?_, ?_, ?_, ?_, ?_, ?_, ?_, ?_⟩
    · show (handle c s i g v).lv.now + _ ≤ _; rw [hc3]; exact h.time
    · show (handle c s i g v).lv.phase ≠ _ → c.start ≤ (handle c s i g v).lv.cur ∧ ((handle c s i g v).lv.phase = _ → (handle c s i g v).lv.cur = _)
      rw [hc1, hc2]; exact h.after
    · show y = (s.reading.erase (i, g, v)).length
      rw [List.length_erase_of_mem hr, hy]
      show (handle c s i g v).requestors - 1 = _
      rw [hq5, h.req]
    · intro j g' v' hj; exact h.pend j g' v' (List.mem_of_mem_erase hj)
    · intro j g' v' hj
      have hne : y ≠ 0 := by
        rw [hy]
        show (handle c s i g v).requestors - 1 ≠ 0
        rw [hq5, h.req]
        have : 0 < (s.reading.erase (i, g, v)).length := List.length_pos_of_mem hj
        rw [List.length_erase_of_mem hr] at this
        omega
      show ((handle c s i g v).lv.cur < g' → x ≤ g') ∧ (g' ≤ (handle c s i g v).lv.cur → x ≤ bump (handle c s i g v).lv.cur)
      rw [hxy hne, hc1]
      show (s.lv.cur < g' → (handle c s i g v).horizon ≤ g') ∧ (_ → (handle c s i g v).horizon ≤ _)
      rw [hq6]
      exact h.barrier j g' v' (List.mem_of_mem_erase hj)
    · show ∀ e ∈ (handle c s i g v).q, c.start ≤ e.tag ∧ ((handle c s i g v).lv.phase = _ → (handle c s i g v).lv.cur < e.tag)
      rw [hq1, hc1, hc2]
      intro e he
      rcases List.mem_append.1 he with he | he
      · exact h.ev e he
      · obtain ⟨_, _, h3, h4⟩ := hq e he
        exact ⟨Tag.le_trans hg h3, h4⟩
    · show ∀ e ∈ (handle c s i g v).q, _
      rw [hq1]
      intro e he j hj
      rcases List.mem_append.1 he with he | he
      · exact h.net e he j hj
      · obtain ⟨_, h2, h3, _⟩ := hq e he
        rw [h2]; exact ⟨h3, hg, hgm⟩
    · show ∀ p, (handle c s i g v).waited = some p → _ ∧ (handle c s i g v).lv.phase = _
      rw [hq4, hc2]
      intro p hp
      refine ⟨Tag.le_trans ?_ (h.waits p hp).1, (h.waits p hp).2⟩
      exact nextTag_append s l s.stop (Tag.le_refl _) _ hq1 hq3
    · show ∀ d ∈ (handle c s i g v).out, _ ∧ _ ∧ _ ≤ (handle c s i g v).lv.cur
      rw [hq2, hc1]
      intro d hd
      rcases List.mem_append.1 hd with hd | hd
      · exact h.out d hd
      · obtain ⟨h1, h2, h3, _⟩ := ho d hd
        exact ⟨h1, h2, by rw [h3]; exact Tag.le_refl _⟩
    · show (handle c s i g v).lv.phase ≠ _ → (handle c s i g v).out = _
      rw [hq2, hc2]
      intro hne
      rw [h.early hne]
      cases o with
      | nil => rfl
      | cons d o => exact absurd (ho d List.mem_cons_self).2.2.2 hne
    · show c.start ≤ (handle c s i g v).stop ∧ (handle c s i g v).stop.time ≤ _
      rw [hq3]; exact h.stop
  | @abort r hr =>
    obtain ⟨x, y, he, hy, hxy⟩ := release_cases { s with reading := s.reading.erase r }
    rw [he] at hlv ⊢
    refine ⟨hlv, h.time, h.after, ?_, erase_map_nodup h.ports _, ?_, ?_, h.ev, h.net, h.waits, h.out, h.early, h.stop⟩
    · show y = (s.reading.erase r).length
      rw [List.length_erase_of_mem hr, hy]
      show s.requestors - 1 = _
      rw [h.req]
    · intro j g' v' hj; exact h.pend j g' v' (List.mem_of_mem_erase hj)
    · intro j g' v' hj
      have hne : y ≠ 0 := by
        rw [hy]
        show s.requestors - 1 ≠ 0
        rw [h.req]
        have : 0 < (s.reading.erase r).length := List.length_pos_of_mem hj
        rw [List.length_erase_of_mem hr] at this
        omega
      show (s.lv.cur < g' → x ≤ g') ∧ (g' ≤ s.lv.cur → x ≤ bump s.lv.cur)
      rw [hxy hne]
      exact h.barrier j g' v' (List.mem_of_mem_erase hj)
  | @absent i g hi hg hm hr hs ho ht =>
    obtain ⟨m, sl, hu⟩ := updatePort_lv c s.lv i g
    rw [hu] at hlv ⊢
    exact ⟨hlv, h.time, h.after, h.req, h.ports, h.pend, h.barrier, h.ev, h.net, h.waits, h.out, h.early, h.stop⟩
  | @gone i hi hr hs =>
    obtain ⟨m, sl, hu⟩ := updatePort_lv c s.lv i FOREVER_TAG
    rw [hu] at hlv ⊢
    exact ⟨hlv, h.time, h.after, h.req, h.ports, h.pend, h.barrier, h.ev, h.net, h.waits, h.out, h.early, h.stop⟩
  | @local_ t v hc hst =>
    refine ⟨hlv, h.time, h.after, h.req, h.ports, h.pend, h.barrier, ?_, ?_, ?_, h.out, h.early, h.stop⟩
    · intro e he
      rcases List.mem_append.1 he with he | he
      · exact h.ev e he
      · rw [List.mem_singleton] at he; subst he; exact ⟨hst, fun _ => hc⟩
    · intro e he i hi
      rcases List.mem_append.1 he with he | he
      · exact h.net e he i hi
      · rw [List.mem_singleton] at he; subst he; cases hi
    · intro p hp
      refine ⟨Tag.le_trans ?_ (h.waits p hp).1, (h.waits p hp).2⟩
      exact nextTag_append s _ s.stop (Tag.le_refl _) _ rfl rfl
  | @setStop t hc hst hle =>
    refine ⟨hlv, h.time, h.after, h.req, h.ports, h.pend, h.barrier, h.ev, h.net, ?_, h.out, h.early, ⟨hst, ?_⟩⟩
    rotate_left
    · have := h.stop.2; rw [Tag.le_def] at hle; show t.time ≤ _; omega
    intro p hp
    refine ⟨Tag.le_trans ?_ (h.waits p hp).1, (h.waits p hp).2⟩
    exact nextTag_append s [] t hle _ (by simp) rfl
  | @clock t ht hF =>
    exact ⟨hlv, hF, h.after, h.req, h.ports, h.pend, h.barrier, h.ev, h.net, h.waits, h.out, h.early, h.stop⟩
  | begin hp hwt =>
    have hle : s.lv.cur ≤ c.start := by
      rw [h.lv.curInit hp, Tag.le_def]
      have := hw.lv.sta
      show c.startTime - c.sta < c.startTime ∨ (c.startTime - c.sta = c.startTime ∧ _)
      by_cases h0 : c.sta = 0
      · right; exact ⟨by omega, Nat.le_refl _⟩
      · left; omega
    refine ⟨hlv, h.time, fun _ => ⟨Tag.le_refl _, fun _ => rfl⟩, h.req, h.ports, h.pend, ?_, ?_, h.net, ?_, ?_, ?_, h.stop⟩
    · intro j g v hj
      refine ⟨fun hlt => (h.barrier j g v hj).1 (Tag.lt_of_le_of_lt hle hlt), fun hle' => ?_⟩
      replace hle' : g ≤ c.start := hle'
      show s.horizon ≤ bump c.start
      have hb : c.start ≤ bump c.start := Tag.le_of_lt (lt_bump (Nat.zero_lt_succ _))
      rcases Tag.lt_or_eq_of_le hle with h1 | h1
      · exact Tag.le_trans ((h.barrier j g v hj).1 (Tag.lt_of_lt_of_le h1 (h.pend j g v hj).2.2.1)) (Tag.le_trans hle' hb)
      · rw [← h1]; exact (h.barrier j g v hj).2 (by rw [h1]; exact hle')
    · intro e he; exact ⟨(h.ev e he).1, fun hx => (by cases hx)⟩
    · intro p hp'; have := (h.waits p hp').2; rw [hp] at this; cases this
    · have : s.out = [] := h.early (by rw [hp]; simp)
      intro d hd
      replace hd : d ∈ s.out := hd
      rw [this] at hd; cases hd
    · intro _; exact h.early (by rw [hp]; simp)
  | @start l hp hop hperm =>
    have hcur : s.lv.cur = c.start := (h.after (by rw [hp]; simp)).2 hp
    have hdue : ∀ e, e ∈ l → e ∈ s.q ∧ e.tag = c.start := fun e he => (mem_due _ _ _).1 (hperm.mem_iff.1 he)
    refine ⟨hlv, h.time, ?_, h.req, h.ports, h.pend, h.barrier, ?_, ?_, ?_, ?_, ?_, h.stop⟩
    · intro _
      refine ⟨?_, fun hx => (by cases hx)⟩
      show c.start ≤ s.lv.cur
      rw [hcur]; exact Tag.le_refl _
    · intro e he
      obtain ⟨he, hne⟩ := (mem_rest _ _ _).1 he
      refine ⟨(h.ev e he).1, fun _ => ?_⟩
      show s.lv.cur < e.tag
      rw [hcur]
      rcases Tag.lt_or_eq_of_le (h.ev e he).1 with h1 | h1
      · exact h1
      · exact absurd h1.symm hne
    · intro e he; exact h.net e ((mem_rest _ _ _).1 he).1
    · intro p hp'; have := (h.waits p hp').2; rw [hp] at this; cases this
    · intro d hd
      rcases List.mem_append.1 hd with hd | hd
      · rw [h.early (by rw [hp]; simp)] at hd; cases hd
      · obtain ⟨e, he, h1, h2, h3, h4⟩ := pops_mem _ _ d hd
        obtain ⟨h5, h6⟩ := hdue e he
        have := (h.net e h5 _ h1).1
        refine ⟨?_, ?_, ?_⟩
        · rw [h2, h3, ← h6]; exact this
        · rw [h4, decide_eq_true_eq, h2, h3]
        · rw [h3]; show c.start ≤ s.lv.cur; rw [hcur]; exact Tag.le_refl _
    · intro hx; exact absurd rfl hx
  | wait hp hn hwt =>
    refine ⟨hlv, h.time, h.after, h.req, h.ports, h.pend, h.barrier, h.ev, h.net, ?_, h.out, h.early, h.stop⟩
    intro p hp'
    simp only [Option.some.injEq] at hp'
    rw [← hp']
    exact ⟨Tag.le_refl _, hp⟩
  | @advance p l hwt hc hF hm ho hp hperm =>
    have hdue : ∀ e, e ∈ l → e ∈ s.q ∧ e.tag = nextTag s := fun e he => (mem_due _ _ _).1 (hperm.mem_iff.1 he)
    refine ⟨hlv, h.time, ?_, h.req, h.ports, h.pend, ?_, ?_, ?_, ?_, ?_, ?_, h.stop⟩
    · intro _
      refine ⟨Tag.le_trans (h.after (by rw [hp]; simp)).1 (Tag.le_of_lt hc), fun hx => ?_⟩
      replace hx : s.lv.phase = .atStart := hx
      rw [hp] at hx; cases hx
    · intro j g v hj
      have hlate := advance_pending h hc ho hj
      exact ⟨fun hlt => (h.barrier j g v hj).1 (Tag.lt_trans hc hlt), fun hle => absurd hlate (by
        rw [Tag.not_lt]; exact hle)⟩
    · intro e he
      obtain ⟨he, hne⟩ := (mem_rest _ _ _).1 he
      refine ⟨(h.ev e he).1, fun _ => ?_⟩
      rcases Tag.lt_or_eq_of_le (nextTag_le s he) with h1 | h1
      · exact h1
      · exact absurd h1.symm hne
    · intro e he; exact h.net e ((mem_rest _ _ _).1 he).1
    · intro p' hp'; cases hp'
    · intro d hd
      rcases List.mem_append.1 hd with hd | hd
      · obtain ⟨h1, h2, h3⟩ := h.out d hd
        exact ⟨h1, h2, Tag.le_trans h3 (Tag.le_of_lt hc)⟩
      · obtain ⟨e, he, h1, h2, h3, h4⟩ := pops_mem _ _ d hd
        obtain ⟨h5, h6⟩ := hdue e he
        have := (h.net e h5 _ h1).1
        refine ⟨?_, ?_, ?_⟩
        · rw [h2, h3, ← h6]; exact this
        · rw [h4, decide_eq_true_eq, h2, h3]
        · rw [h3]; exact Tag.le_refl _
    · intro hx; exact absurd hp hx
  | @stall level hp =>
    have : (Level.stall s.lv level).cur = s.lv.cur ∧ (Level.stall s.lv level).phase = s.lv.phase ∧
        (Level.stall s.lv level).now = s.lv.now := by
      unfold Level.stall; split <;> exact ⟨rfl, rfl, rfl⟩
    obtain ⟨h1, h2, h3⟩ := this
    refine ⟨hlv, ?_, ?_, h.req, h.ports, h.pend, ?_, ?_, h.net, ?_, ?_, ?_, h.stop⟩
    · show (Level.stall s.lv level).now + _ ≤ _; rw [h3]; exact h.time
    · show (Level.stall s.lv level).phase ≠ _ → c.start ≤ (Level.stall s.lv level).cur ∧
        ((Level.stall s.lv level).phase = _ → (Level.stall s.lv level).cur = _); rw [h1, h2]; exact h.after
    · show ∀ i g v, _ → ((Level.stall s.lv level).cur < g → _) ∧ (g ≤ (Level.stall s.lv level).cur → _ ≤ bump (Level.stall s.lv level).cur); rw [h1]; exact h.barrier
    · show ∀ e ∈ s.q, _ ∧ ((Level.stall s.lv level).phase = _ → (Level.stall s.lv level).cur < _); rw [h1, h2]; exact h.ev
    · show ∀ p, _ → _ ∧ (Level.stall s.lv level).phase = _; rw [h2]; exact h.waits
    · show ∀ d ∈ s.out, _ ∧ _ ∧ _ ≤ (Level.stall s.lv level).cur; rw [h1]; exact h.out
    · show (Level.stall s.lv level).phase ≠ _ → _; rw [h2]; exact h.early
  | @arm v hp =>
    exact ⟨hlv, h.time, h.after, h.req, h.ports, h.pend, h.barrier, h.ev, h.net, h.waits, h.out, h.early, h.stop⟩
  | @timeout i t u hi hwt ho hc hst hs =>
    obtain ⟨m, sl, hu⟩ := updatePort_lv c { s.lv with status := upd s.lv.status i .absent } i s.lv.cur
    rw [hu] at hlv ⊢
    exact ⟨hlv, h.time, h.after, h.req, h.ports, h.pend, h.barrier, h.ev, h.net, h.waits, h.out, h.early, h.stop⟩

end ReactorC.Decentral
