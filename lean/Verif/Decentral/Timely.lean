import Verif.Decentral.Pops

/-! # What messages in time bring about: nothing is known about a port too early -/

namespace ReactorC.Decentral

open ReactorC.Level (Config Port Phase MIN_SLEEP_DURATION Small bump upd exempt waitOver newKnown actualTag)

/-! ## Times -/

theorem staa_over {c : Config} (hw : WF c) {i : Nat} (hi : i < c.n) {cur : Tag} (h1 : NEVER < cur.time) (h2 : cur.time < FOREVER)
    {now : Int} (hn : now + MIN_SLEEP_DURATION ≤ FOREVER) (ho : waitOver c now (Level.staaUntil c cur (c.port i).staa)) :
    cur.time + c.sta + (c.port i).staa < now + MIN_SLEEP_DURATION := by
  have hs := hw.staa i hi
  have hs0 := hw.lv.sta
  have hsF := hw.sta
  have ho : Level.staaUntil c cur (c.port i).staa - now < MIN_SLEEP_DURATION := by
    rcases ho with h | h
    · rw [hw.fast] at h; cases h
    · exact h
  have hN : NEVER < 0 := by decide
  have hF : FOREVER > 0 := by decide
  have e1 : lf_time_add (c.port i).staa c.sta = satAdd (c.port i).staa c.sta :=
    lf_time_add_eq_satAdd ⟨by omega, by omega⟩ ⟨by omega, by omega⟩
  have e2 : lf_time_add cur.time (satAdd (c.port i).staa c.sta) = satAdd cur.time (satAdd (c.port i).staa c.sta) :=
    lf_time_add_eq_satAdd ⟨by omega, by omega⟩ (satAdd_isI64 _ _)
  unfold Level.staaUntil at ho
  simp only [] at ho
  rw [e1, e2] at ho
  have hb : satAdd cur.time (satAdd (c.port i).staa c.sta) - now < MIN_SLEEP_DURATION := by
    unfold MIN_SLEEP_DURATION at ho ⊢
    split at ho <;> omega
  have k1 := satAdd_cases (c.port i).staa c.sta
  have k2 := satAdd_cases cur.time (satAdd (c.port i).staa c.sta)
  generalize satAdd cur.time (satAdd (c.port i).staa c.sta) = A at *
  generalize satAdd (c.port i).staa c.sta = B at *
  unfold MIN_SLEEP_DURATION NEVER FOREVER at *
  omega

theorem sta_over {c : Config} (hw : WF c) {t : Int} (h1 : 0 ≤ t) (h2 : t ≤ FOREVER) {now : Int}
    (hn : now + MIN_SLEEP_DURATION ≤ FOREVER) (ho : waitOver c now (lf_time_add t c.sta)) :
    t + c.sta < now + MIN_SLEEP_DURATION := by
  have hs0 := hw.lv.sta
  have hsF := hw.sta
  have ho : lf_time_add t c.sta - now < MIN_SLEEP_DURATION := by
    rcases ho with h | h
    · rw [hw.fast] at h; cases h
    · exact h
  have hN : NEVER < 0 := by decide
  have hF : FOREVER > 0 := by decide
  have e1 : lf_time_add t c.sta = satAdd t c.sta := lf_time_add_eq_satAdd ⟨by omega, by omega⟩ ⟨by omega, by omega⟩
  rw [e1] at ho
  have k1 := satAdd_cases t c.sta
  generalize satAdd t c.sta = A at *
  unfold MIN_SLEEP_DURATION NEVER FOREVER at *
  omega

theorem le_predTag {x p : Tag} (hx : x.microstep ≤ UINT_MAX) (h : x < p) : x ≤ predTag p := by
  unfold predTag
  rw [Tag.lt_def] at h
  rw [Tag.le_def]
  split <;> simp only [] <;> omega

theorem le_bump {x k : Tag} (h : x ≤ bump k) : x ≤ k ∨ x.time = k.time := by
  rw [Tag.le_def, Level.bump_time] at h
  rw [Tag.le_def]
  omega

/-! ## The invariant -/

/-- On a port, nothing new can come in time for the tag. -/
def Settled (c : Config) (s : State) (i : Nat) (x : Tag) : Prop :=
  x ≤ s.said i ∨ s.gone i = true ∨ x < c.start ∨ dueBy c i x < s.lv.now + MIN_SLEEP_DURATION

/-- The start time has not come, and there is no STA. -/
def Before (c : Config) (s : State) (x : Tag) : Prop := s.lv.phase = .waiting ∧ c.sta = 0 ∧ x.time ≤ c.startTime

structure Net (c : Config) (s : State) : Prop where
  known : ∀ i < c.n, ∀ x : Tag, x.microstep ≤ UINT_MAX → x ≤ s.lv.known i → Settled c s i x ∨ Before c s x
  past : ∀ i < c.n, ∀ x : Tag, x.microstep ≤ UINT_MAX → x < s.lv.cur → Settled c s i x
  waited : ∀ p, s.waited = some p → ∀ i < c.n, ∀ x : Tag, x.microstep ≤ UINT_MAX → x < p → Settled c s i x
  pend : ∀ i g v, (i, g, v) ∈ s.reading → s.said i = g ∧ s.lv.cur ≤ g ∧ s.gone i = false
  p1 : ∀ i g v, (i, g, v) ∈ s.reading → g ≤ s.lv.known i → dueBy c i g < s.lv.now + MIN_SLEEP_DURATION ∨ Before c s g
  p2 : ∀ i g v, (i, g, v) ∈ s.reading → s.lv.cur = g → s.lv.phase ≠ .waiting →
    s.lv.known i < g ∨ g.time + c.sta + (c.port i).staa < s.lv.now + MIN_SLEEP_DURATION
  p3 : ∀ i g v, (i, g, v) ∈ s.reading → g = c.start → s.lv.phase ≠ .running → s.lv.known i < g
  k0 : ∀ i < c.n, s.lv.phase ≠ .running → s.said i < c.start → s.gone i = false → s.lv.known i < c.start

theorem Settled.mono {c : Config} {s s' : State} {i : Nat} {x : Tag} (h : Settled c s i x) (hs : s.said i ≤ s'.said i)
    (hg : s.gone i = true → s'.gone i = true) (hn : s.lv.now ≤ s'.lv.now) : Settled c s' i x := by
  rcases h with h | h | h | h
  · exact Or.inl (Tag.le_trans h hs)
  · exact Or.inr (Or.inl (hg h))
  · exact Or.inr (Or.inr (Or.inl h))
  · refine Or.inr (Or.inr (Or.inr ?_)); omega

/-- What comes in order and in time is not settled. -/
theorem not_settled {c : Config} {s : State} {i : Nat} {g : Tag} (hs : c.start ≤ g) (ho : InOrder s i g) (ht : InTime c s i g) :
    ¬ Settled c s i g := by
  rintro (h | h | h | h)
  · rw [← Tag.not_lt] at h; exact h ho.1
  · rw [ho.2] at h; cases h
  · rw [← Tag.not_le] at h; exact h hs
  · unfold InTime at ht; omega

/-- If ports, clock, tag and phase stay as they are. -/
theorem Net.same {c : Config} {s s' : State} (h : Net c s) (h1 : s'.lv.known = s.lv.known) (h2 : s'.lv.now = s.lv.now)
    (h3 : s'.lv.cur = s.lv.cur) (h4 : s'.lv.phase = s.lv.phase) (h5 : s'.said = s.said) (h6 : s'.gone = s.gone)
    (h7 : ∀ r ∈ s'.reading, r ∈ s.reading)
    (h8 : ∀ p, s'.waited = some p → ∀ i < c.n, ∀ x : Tag, x.microstep ≤ UINT_MAX → x < p → Settled c s' i x) : Net c s' := by
  have hset : ∀ i x, Settled c s i x → Settled c s' i x := by
    intro i x hx; unfold Settled at hx ⊢; rw [h2, h5, h6]; exact hx
  have hbef : ∀ x, Before c s x → Before c s' x := by intro x hx; unfold Before at hx ⊢; rw [h4]; exact hx
  refine ⟨?_, ?_, h8, ?_, ?_, ?_, ?_, ?_⟩
  · rw [h1]; intro i hi x hx hk; exact (h.known i hi x hx hk).imp (hset i x) (hbef x)
  · rw [h3]; intro i hi x hx hk; exact hset i x (h.past i hi x hx hk)
  · rw [h3, h5, h6]; intro i g v hr; exact h.pend i g v (h7 _ hr)
  · rw [h1, h2]; intro i g v hr hk; exact (h.p1 i g v (h7 _ hr) hk).imp id (hbef g)
  · rw [h1, h2, h3, h4]; intro i g v hr; exact h.p2 i g v (h7 _ hr)
  · rw [h1, h4]; intro i g v hr; exact h.p3 i g v (h7 _ hr)
  · rw [h1, h4, h5, h6]; exact h.k0

/-- If what is known about a port changes. -/
theorem Net.port {c : Config} {s s' : State} (h : Net c s) {i : Nat} {k : Tag} (h1 : s'.lv.known = upd s.lv.known i k)
    (h2 : s'.lv.now = s.lv.now) (h3 : s'.lv.cur = s.lv.cur) (h4 : s'.lv.phase = s.lv.phase) (h5 : ∀ j, j ≠ i → s'.said j = s.said j)
    (h5' : s.said i ≤ s'.said i) (h6 : ∀ j, j ≠ i → s'.gone j = s.gone j) (h6' : s.gone i = true → s'.gone i = true)
    (h7 : ∀ r ∈ s'.reading, r ∈ s.reading) (h7' : ∀ r ∈ s'.reading, r.1 ≠ i) (h8 : s'.waited = s.waited)
    (h9 : i < c.n → ∀ x : Tag, x.microstep ≤ UINT_MAX → x ≤ k → Settled c s' i x ∨ Before c s' x)
    (h10 : s.lv.phase ≠ .running → s'.said i < c.start → s'.gone i = false → k < c.start) : Net c s' := by
  have hset : ∀ j x, Settled c s j x → Settled c s' j x := by
    intro j x hx
    by_cases hj : j = i
    · subst hj; exact hx.mono h5' h6' (by rw [h2]; exact Int.le_refl _)
    · unfold Settled at hx ⊢; rw [h2, h5 j hj, h6 j hj]; exact hx
  have hbef : ∀ x, Before c s x → Before c s' x := by intro x hx; unfold Before at hx ⊢; rw [h4]; exact hx
  have hk : ∀ j, j ≠ i → s'.lv.known j = s.lv.known j := by intro j hj; rw [h1]; unfold upd; rw [if_neg hj]
  have hki : s'.lv.known i = k := by rw [h1]; unfold upd; rw [if_pos rfl]
  refine ⟨?_, ?_, ?_, ?_, ?_, ?_, ?_, ?_⟩
  · intro j hj x hx hxk
    by_cases hji : j = i
    · subst hji; rw [hki] at hxk; exact h9 hj x hx hxk
    · rw [hk j hji] at hxk; exact (h.known j hj x hx hxk).imp (hset j x) (hbef x)
  · rw [h3]; intro j hj x hx hxk; exact hset j x (h.past j hj x hx hxk)
  · rw [h8]; intro p hp j hj x hx hxk; exact hset j x (h.waited p hp j hj x hx hxk)
  · rw [h3]; intro j g v hr; rw [h5 j (h7' _ hr), h6 j (h7' _ hr)]; exact h.pend j g v (h7 _ hr)
  · rw [h2]; intro j g v hr; rw [hk j (h7' _ hr)]; intro hx; exact (h.p1 j g v (h7 _ hr) hx).imp id (hbef g)
  · rw [h2, h3, h4]; intro j g v hr; rw [hk j (h7' _ hr)]; exact h.p2 j g v (h7 _ hr)
  · rw [h4]; intro j g v hr; rw [hk j (h7' _ hr)]; exact h.p3 j g v (h7 _ hr)
  · rw [h4]
    intro j hj hp
    by_cases hji : j = i
    · subst hji; rw [hki]; exact h10 hp
    · rw [hk j hji, h5 j hji, h6 j hji]; exact h.k0 j hj hp

theorem Net.init (c : Config) (hw : WF c) (now : Int) (stop : Tag) : Net c (Decentral.init c now stop) where
  known := by
    intro i _ x _ hx
    replace hx : x ≤ NEVER_TAG := hx
    left; right; right; left
    have h1 := hw.lv.pos
    rw [Tag.lt_def]; rw [Tag.le_def] at hx
    left
    show x.time < c.startTime
    have : NEVER_TAG.time < 0 := by decide
    omega
  past := by
    intro i _ x _ hx
    right; right; left
    have h1 := hw.lv.sta
    refine Tag.lt_of_lt_of_le hx ?_
    show (⟨c.startTime - c.sta, 0⟩ : Tag) ≤ ⟨c.startTime, 0⟩
    rw [Tag.le_def]; simp only []; omega
  waited := fun _ h => (by cases h)
  pend := fun _ _ _ h => (by cases h)
  p1 := fun _ _ _ h => (by cases h)
  p2 := fun _ _ _ h => (by cases h)
  p3 := fun _ _ _ h => (by cases h)
  k0 := by
    intro i _ _ _ _
    show NEVER_TAG < c.start
    have h1 := hw.lv.pos
    rw [Tag.lt_def]
    left
    show NEVER_TAG.time < c.startTime
    have : NEVER_TAG.time < 0 := by decide
    omega

/-! ## When a message in time is complete -/

/-- A message for the current tag is handled at once. -/
theorem now_current {c : Config} (hw : WF c) {s : State} (h : Gen c s) {i : Nat} {g : Tag} {v : Nat}
    (hr : (i, g, v) ∈ s.reading) (hl : s.last i = NEVER_TAG) (hp : s.lv.phase = .running) (hc : s.lv.cur = g)
    (hk : s.lv.known i < g) : now_ c s i g = true := by
  obtain ⟨hi, hph, hg, hgF, hgm, hx⟩ := h.pend i g v hr
  have href : Level.ref c s.lv = s.lv.cur := by unfold Level.ref; rw [if_neg (by rw [hp]; simp)]
  have hgr : Level.granted c (Level.ref c s.lv) s.lv.lastTAG s.lv.prov = false := by
    unfold Level.granted; rw [hw.dec]; rfl
  have hb : Level.blocks c (Level.ref c s.lv) s.lv.known i = true := by
    rw [href, Level.blocks_iff, hc]
    refine ⟨?_, hx, hk, hph⟩
    unfold Level.inTable; rw [hw.dec]; rfl
  have hle := h.lv.safe hgr i hi hb
  have hidx : (c.port i).level ≤ (c.port i).index := Nat.mod_le _ _
  unfold now_ Level.handleMessageNow
  simp only [Bool.and_eq_true, decide_eq_true_eq, cmp_eq_zero, gt_iff_lt, cmp_gt_zero, Bool.not_eq_true', ge_iff_le]
  refine ⟨⟨⟨⟨⟨by omega, hc.symm⟩, ?_⟩, hk⟩, hp⟩, hph⟩
  rw [hl]
  refine Tag.lt_of_lt_of_le ?_ hg
  have h1 := hw.lv.pos
  rw [Tag.lt_def]
  left
  show NEVER_TAG.time < c.startTime
  have : NEVER_TAG.time < 0 := by decide
  omega

/-- When the message is complete, either its tag is still to come, or it is the current one and the message is handled at
once, or the start time has not come. -/
theorem complete_cases {c : Config} (hw : WF c) {s : State} (h : Gen c s) (hn : Net c s) {i : Nat} {g : Tag} {v : Nat}
    (hr : (i, g, v) ∈ s.reading)
    (ht : s.lv.cur < g ∨ s.lv.now + MIN_SLEEP_DURATION ≤ g.time + c.sta + (c.port i).staa)
    (hc : ¬ (s.lv.phase = .atStart ∧ g = c.start)) :
    s.lv.cur < g ∨ (s.lv.cur = g ∧ s.lv.phase = .running ∧ s.lv.known i < g) ∨
      (s.lv.cur = g ∧ s.lv.phase = .waiting ∧ c.sta = 0 ∧ g = c.start ∧ s.lv.known i < g) := by
  obtain ⟨_, h2, _⟩ := hn.pend i g v hr
  rcases Tag.lt_or_eq_of_le h2 with h3 | h3
  · exact Or.inl h3
  · right
    cases hp : s.lv.phase with
    | running =>
      left
      refine ⟨h3, rfl, ?_⟩
      rcases hn.p2 i g v hr h3 (by rw [hp]; simp) with h4 | h4
      · exact h4
      · rcases ht with h5 | h5
        · rw [h3] at h5; exact absurd h5 (Tag.lt_irrefl _)
        · omega
    | atStart =>
      exfalso
      apply hc
      refine ⟨hp, ?_⟩
      rw [← h3]
      exact (h.after (by rw [hp]; simp)).2 hp
    | waiting =>
      right
      have h4 := h.lv.curInit hp
      have h5 := (h.pend i g v hr).2.2.1
      have hst := h3
      rw [h4] at hst
      rw [← hst, Tag.le_def] at h5
      replace h5 : c.startTime < c.startTime - c.sta ∨ (c.startTime = c.startTime - c.sta ∧ _) := h5
      by_cases h0 : c.sta = 0
      · have : g = c.start := by rw [← hst, h0]; unfold Config.start; simp
        exact ⟨h3, rfl, h0, this, hn.p3 i g v hr this (by rw [hp]; simp)⟩
      · have := hw.lv.sta
        omega

/-- What is known about a port after a message in time. -/
theorem complete_known {c : Config} (hw : WF c) {s : State} (h : Gen c s) (hn : Net c s) {i : Nat} {g : Tag} {v : Nat}
    (hr : (i, g, v) ∈ s.reading) (hl : s.last i = NEVER_TAG)
    (ht : s.lv.cur < g ∨ s.lv.now + MIN_SLEEP_DURATION ≤ g.time + c.sta + (c.port i).staa)
    (hc : ¬ (s.lv.phase = .atStart ∧ g = c.start)) {k : Tag}
    (hk : k = newKnown s.lv.cur (s.lv.known i)
      (if Level.handleMessageNow c s.lv i g (decide (s.last i < g)) then g else actualTag c s.lv i g)) :
    ∀ x : Tag, x.microstep ≤ UINT_MAX → x ≤ k → Settled c s i x ∨ Before c s x := by
  obtain ⟨hi, hph, hg, hgF, hgm, hx⟩ := h.pend i g v hr
  have hsaid := (hn.pend i g v hr).1
  have hrec : decide (lf_tag_compare g (s.last i) > 0) = decide (s.last i < g) := by
    rw [decide_eq_decide, gt_iff_lt, cmp_gt_zero]
  have hle : ∀ x : Tag, x ≤ g → Settled c s i x := fun x hx => Or.inl (by rw [hsaid]; exact hx)
  intro x hxm hxk
  rcases complete_cases hw h hn hr ht hc with h1 | ⟨h1, h2, h3⟩ | ⟨h1, h2, h3, h4, h5⟩
  · -- the tag is still to come
    have hno : ¬ Level.handleMessageNow c s.lv i g (decide (s.last i < g)) = true := by
      unfold Level.handleMessageNow
      simp only [Bool.and_eq_true, decide_eq_true_eq, cmp_eq_zero]
      rintro ⟨⟨⟨⟨⟨_, h2⟩, _⟩, _⟩, _⟩, _⟩
      rw [h2] at h1; exact Tag.lt_irrefl _ h1
    have hat : actualTag c s.lv i g = g := by
      unfold actualTag
      rw [if_neg]
      simp only [Bool.and_eq_true, decide_eq_true_eq, cmp_le_zero]
      rintro ⟨_, h2⟩
      rw [← Tag.not_lt] at h2; exact h2 h1
    rw [if_neg hno, hat] at hk
    rcases Level.newKnown_cases s.lv.cur (s.lv.known i) g with ⟨e, _, _⟩ | ⟨e, e1, e2, e3⟩ | ⟨_, _, _, e | ⟨_, e⟩⟩
    · rw [hk, e] at hxk; exact hn.known i hi x hxm hxk
    · rw [hk, e] at hxk
      have hgk : g = s.lv.known i := by
        rcases e3 with e3 | e3
        · exact e3
        · rw [← e3] at e1; rw [← Tag.not_lt] at e1; exact absurd h1 e1
      rcases le_bump hxk with hxk | hxk
      · exact hn.known i hi x hxm hxk
      · rw [← hgk] at hxk
        rcases hn.p1 i g v hr e1 with h2 | ⟨h2, h3, h4⟩
        · left; right; right; right
          unfold dueBy at h2 ⊢
          rw [hxk]; exact h2
        · exact Or.inr ⟨h2, h3, by rw [hxk]; exact h4⟩
    · rw [hk, e] at hxk; exact Or.inl (hle x hxk)
    · rw [← Tag.not_le] at e; exact absurd (Tag.le_of_lt h1) e
  · -- the tag is the current one
    have hnow := now_current hw h hr hl h2 h1 h3
    unfold now_ at hnow
    rw [hrec] at hnow
    rw [if_pos hnow] at hk
    rcases Level.newKnown_cases s.lv.cur (s.lv.known i) g with ⟨_, e, _⟩ | ⟨_, e, _⟩ | ⟨_, _, _, e | ⟨_, e⟩⟩
    · exact absurd h3 (by rw [Tag.not_lt]; exact Tag.le_of_lt e)
    · exact absurd h3 (by rw [Tag.not_lt]; exact e)
    · rw [hk, e] at hxk; exact Or.inl (hle x hxk)
    · rw [h1] at e; exact absurd e (Tag.lt_irrefl _)
  · -- before the start time
    have hno : ¬ Level.handleMessageNow c s.lv i g (decide (s.last i < g)) = true := by
      unfold Level.handleMessageNow
      simp only [Bool.and_eq_true, decide_eq_true_eq]
      rintro ⟨⟨_, h6⟩, _⟩
      rw [h2] at h6; cases h6
    have hat : actualTag c s.lv i g = bump s.lv.cur := by
      unfold actualTag
      rw [if_pos (by simp only [Bool.and_eq_true, decide_eq_true_eq, cmp_le_zero]; exact ⟨hw.dec, by rw [h1]; exact Tag.le_refl _⟩)]
      rw [if_neg]
      rw [cmp_le_zero, Tag.not_le]
      exact Tag.lt_trans h5 (by rw [h1]; exact lt_bump hgm)
    rw [if_neg hno, hat, h1] at hk
    refine Or.inr ⟨h2, h3, ?_⟩
    have hb := lt_bump hgm
    have : k = bump g := by
      rcases Level.newKnown_cases g (s.lv.known i) (bump g) with ⟨_, e, _⟩ | ⟨_, e, _⟩ | ⟨_, _, _, e | ⟨_, e⟩⟩
      · exact absurd (Tag.lt_trans h5 hb) (by rw [Tag.not_lt]; exact Tag.le_of_lt e)
      · exact absurd (Tag.lt_trans h5 hb) (by rw [Tag.not_lt]; exact e)
      · rw [hk, e]
      · exact absurd hb (by rw [Tag.not_lt]; exact Tag.le_of_lt e)
    rw [this] at hxk
    rw [Tag.le_def, Level.bump_time] at hxk
    have hgs : g.time = c.startTime := by rw [h4]; rfl
    omega

/-- The assumptions hold. -/
structure Good (a : Assume) : Prop where
  ordered : a.ordered = true
  timely : a.timely = true
  calm : a.calm = true

theorem Net.step {c : Config} (hw : WF c) {a : Assume} (ha : Good a) {s s' : State} (h : Gen c s) (hn : Net c s)
    (hl : ∀ i, s.last i = NEVER_TAG) (hq : ∀ e ∈ s.q, ∀ i, e.port = some i → e.tag = e.intended) (st : Step c a s s') :
    Net c s' := by
  have hmic := h.lv.curMicro
  cases st with
  | @header i g v hi hp hg hF hm hx hr ho ht =>
    obtain ⟨y, he, _⟩ := raise_cases s g hmic
    have ho := ho ha.ordered
    have ht := ht ha.timely
    have hns := not_settled hg ho ht
    rw [he]
    have hset : ∀ j x, Settled c s j x →
        Settled c { s with horizon := y, requestors := s.requestors + 1, reading := (i, g, v) :: s.reading, said := upd s.said i g } j x := by
      intro j x hx
      refine hx.mono ?_ id (Int.le_refl _)
      show s.said j ≤ upd s.said i g j
      unfold upd
      split
      · rename_i hj; subst hj; exact Tag.le_of_lt ho.1
      · exact Tag.le_refl _
    have hcur : s.lv.cur ≤ g := by
      rw [← Tag.not_lt]; intro hlt
      exact hns (hn.past i hi g (Nat.le_of_lt hm) hlt)
    refine ⟨?_, ?_, ?_, ?_, ?_, ?_, ?_, ?_⟩
    · intro j hj x hx hk; exact (hn.known j hj x hx hk).imp (hset j x) id
    · intro j hj x hx hk; exact hset j x (hn.past j hj x hx hk)
    · intro p hp j hj x hx hk; exact hset j x (hn.waited p hp j hj x hx hk)
    · intro j g' v' hj
      rcases List.mem_cons.1 hj with hj | hj
      · simp only [Prod.mk.injEq] at hj
        obtain ⟨rfl, rfl, rfl⟩ := hj
        refine ⟨?_, hcur, ho.2⟩
        show upd s.said j g' j = g'
        unfold upd; rw [if_pos rfl]
      · obtain ⟨h1, h2, h3⟩ := hn.pend j g' v' hj
        refine ⟨?_, h2, h3⟩
        show upd s.said i g j = g'
        unfold upd; rw [if_neg (hr _ hj)]; exact h1
    · intro j g' v' hj hk
      rcases List.mem_cons.1 hj with hj | hj
      · simp only [Prod.mk.injEq] at hj
        obtain ⟨rfl, rfl, rfl⟩ := hj
        rcases hn.known j hi g' (Nat.le_of_lt hm) hk with h1 | h1
        · exact absurd h1 hns
        · exact Or.inr h1
      · exact hn.p1 j g' v' hj hk
    · intro j g' v' hj hc hph
      rcases List.mem_cons.1 hj with hj | hj
      · simp only [Prod.mk.injEq] at hj
        obtain ⟨rfl, rfl, rfl⟩ := hj
        left
        rw [← Tag.not_le]
        intro hk
        rcases hn.known j hi g' (Nat.le_of_lt hm) hk with h1 | h1
        · exact hns h1
        · exact hph h1.1
      · exact hn.p2 j g' v' hj hc hph
    · intro j g' v' hj hgs hph
      rcases List.mem_cons.1 hj with hj | hj
      · simp only [Prod.mk.injEq] at hj
        obtain ⟨rfl, rfl, rfl⟩ := hj
        have := hn.k0 j hi hph (by rw [← hgs]; exact ho.1) ho.2
        rw [← hgs] at this; exact this
      · exact hn.p3 j g' v' hj hgs hph
    · intro j hj hph hsd hgo
      replace hsd : upd s.said i g j < c.start := hsd
      unfold upd at hsd
      split at hsd
      · rw [← Tag.not_le] at hsd; exact absurd hg hsd
      · exact hn.k0 j hj hph hsd hgo
  | @complete i g v hr hs ht hc hsp =>
    obtain ⟨x, y, he, _⟩ := release_cases { handle c s i g v with reading := s.reading.erase (i, g, v) }
    obtain ⟨l, o, dr, la, hh, _⟩ := handle_cases c s i g v
    obtain ⟨m, sl, st', hl'⟩ := handleMessage_lv c s.lv i g (decide (s.last i < g))
    have hk := complete_known hw h hn hr (hl i) (ht ha.timely) (hc ha.calm) rfl
    rw [he, hh]
    dsimp only
    rw [hl']
    refine hn.port (i := i) rfl rfl rfl rfl (fun _ _ => rfl) (Tag.le_refl _) (fun _ _ => rfl) id
      (fun r hr' => List.mem_of_mem_erase hr') (erase_port h.ports hr) rfl (fun _ => hk) ?_
    intro _ hsd _
    replace hsd : s.said i < c.start := hsd
    rw [(hn.pend i g v hr).1, ← Tag.not_le] at hsd
    exact absurd (h.pend i g v hr).2.2.1 hsd
  | @abort r hr =>
    obtain ⟨x, y, he, _⟩ := release_cases { s with reading := s.reading.erase r }
    rw [he]
    exact hn.same rfl rfl rfl rfl rfl rfl (fun r hr' => List.mem_of_mem_erase hr') hn.waited
  | @absent i g hi hg hm hr hs ho ht =>
    obtain ⟨m, sl, hu⟩ := updatePort_lv c s.lv i g
    have ho := ho ha.ordered
    have ht := ht ha.timely
    have hns := not_settled hg ho ht
    have hcur : s.lv.cur ≤ g := by
      rw [← Tag.not_lt]; intro hlt
      exact hns (hn.past i hi g (Nat.le_of_lt hm) hlt)
    have hsaid : upd s.said i g i = g := by unfold upd; rw [if_pos rfl]
    rw [hu]
    refine hn.port (i := i) rfl rfl rfl rfl ?_ ?_ (fun _ _ => rfl) id (fun r hr' => hr') hr rfl ?_ ?_
    · intro j hj; show upd s.said i g j = _; unfold upd; rw [if_neg hj]
    · show s.said i ≤ upd s.said i g i; rw [hsaid]; exact Tag.le_of_lt ho.1
    · intro _ x hxm hxk
      have hset : Settled c s i x →
          Settled c { s with lv := { Level.updatePort c s.lv i g with hist := .absent i g :: s.lv.hist }, said := upd s.said i g } i x := by
        intro hx
        refine hx.mono ?_ id ?_
        · show s.said i ≤ upd s.said i g i; rw [hsaid]; exact Tag.le_of_lt ho.1
        · show s.lv.now ≤ (Level.updatePort c s.lv i g).now; rw [hu]; exact Int.le_refl _
      rw [hu] at hset
      rcases Level.newKnown_cases s.lv.cur (s.lv.known i) g with ⟨e, _, _⟩ | ⟨e, e1, e2, e3⟩ | ⟨_, _, _, e | ⟨_, e⟩⟩
      · rw [e] at hxk; exact (hn.known i hi x hxm hxk).imp hset id
      · rw [e] at hxk
        rcases le_bump hxk with hxk | hxk
        · exact (hn.known i hi x hxm hxk).imp hset id
        · rcases hn.known i hi g (Nat.le_of_lt hm) e1 with h1 | h1
          · exact absurd h1 hns
          · refine Or.inr ⟨h1.1, h1.2.1, ?_⟩
            have : s.lv.known i = g := by
              rcases e3 with e3 | e3
              · exact e3.symm
              · rw [← e3] at e1 ⊢; exact Tag.le_antisymm hcur e1
            rw [hxk, this]; exact h1.2.2
      · rw [e] at hxk
        left; left
        show x ≤ upd s.said i g i
        rw [hsaid]; exact hxk
      · rw [← Tag.not_le] at e; exact absurd hcur e
    · intro _ hsd _
      replace hsd : upd s.said i g i < c.start := hsd
      rw [hsaid, ← Tag.not_le] at hsd
      exact absurd hg hsd
  | @gone i hi hr hs =>
    obtain ⟨m, sl, hu⟩ := updatePort_lv c s.lv i FOREVER_TAG
    have hgone : upd s.gone i true i = true := by unfold upd; rw [if_pos rfl]
    rw [hu]
    refine hn.port (i := i) rfl rfl rfl rfl (fun _ _ => rfl) (Tag.le_refl _) ?_ (fun _ => hgone) (fun r hr' => hr') hr rfl ?_ ?_
    · intro j hj; show upd s.gone i true j = _; unfold upd; rw [if_neg hj]
    · intro _ x _ _
      left; right; left; exact hgone
    · intro _ _ hx
      replace hx : upd s.gone i true i = false := hx
      rw [hgone] at hx; cases hx
  | local_ => exact hn.same rfl rfl rfl rfl rfl rfl (fun _ h => h) hn.waited
  | setStop => exact hn.same rfl rfl rfl rfl rfl rfl (fun _ h => h) hn.waited
  | @clock t ht hF =>
    have hset : ∀ j x, Settled c s j x → Settled c { s with lv := { s.lv with now := t } } j x :=
      fun j x hx => hx.mono (Tag.le_refl _) id ht
    refine ⟨?_, ?_, ?_, hn.pend, ?_, ?_, hn.p3, hn.k0⟩
    · intro j hj x hx hk; exact (hn.known j hj x hx hk).imp (hset j x) id
    · intro j hj x hx hk; exact hset j x (hn.past j hj x hx hk)
    · intro p hp j hj x hx hk; exact hset j x (hn.waited p hp j hj x hx hk)
    · intro j g v hj hk
      rcases hn.p1 j g v hj hk with h1 | h1
      · left; show dueBy c j g < t + _; omega
      · exact Or.inr h1
    · intro j g v hj hc hph
      rcases hn.p2 j g v hj hc hph with h1 | h1
      · exact Or.inl h1
      · right; show _ < t + _; omega
  | begin hp hwt =>
    have hst : c.startTime < s.lv.now + MIN_SLEEP_DURATION := by
      rcases hwt with hwt | hwt
      · rw [hw.fast] at hwt; cases hwt
      · omega
    have hbef : ∀ j x, Before c s x → dueBy c j x < s.lv.now + MIN_SLEEP_DURATION := by
      intro j x hx
      obtain ⟨_, h1, h2⟩ := hx
      unfold dueBy
      have : min 0 (c.port j).staa ≤ 0 := Int.min_le_left _ _
      omega
    refine ⟨?_, ?_, ?_, ?_, ?_, ?_, ?_, ?_⟩
    · intro j hj x hx hk
      left
      rcases hn.known j hj x hx hk with h1 | h1
      · exact h1
      · exact Or.inr (Or.inr (Or.inr (hbef j x h1)))
    · intro j hj x hx hk; exact Or.inr (Or.inr (Or.inl hk))
    · intro p hp'; have := (h.waits p hp').2; rw [hp] at this; cases this
    · intro j g v hj
      obtain ⟨h1, _, h3⟩ := hn.pend j g v hj
      exact ⟨h1, (h.pend j g v hj).2.2.1, h3⟩
    · intro j g v hj hk
      rcases hn.p1 j g v hj hk with h1 | h1
      · exact Or.inl h1
      · exact Or.inl (hbef j g h1)
    · intro j g v hj hc _
      left
      exact hn.p3 j g v hj hc.symm (by rw [hp]; simp)
    · intro j g v hj hc _
      exact hn.p3 j g v hj hc (by rw [hp]; simp)
    · intro j hj _ hsd hgo
      exact hn.k0 j hj (by rw [hp]; simp) hsd hgo
  | @start l hp hop hperm =>
    have hbef : ∀ x, ¬ Before c s x := by intro x hx; have := hx.1; rw [hp] at this; cases this
    refine ⟨?_, hn.past, hn.waited, hn.pend, ?_, ?_, ?_, ?_⟩
    · intro j hj x hx hk
      rcases hn.known j hj x hx hk with h1 | h1
      · exact Or.inl h1
      · exact absurd h1 (hbef x)
    · intro j g v hj hk
      rcases hn.p1 j g v hj hk with h1 | h1
      · exact Or.inl h1
      · exact absurd h1 (hbef g)
    · intro j g v hj hc _
      exact hn.p2 j g v hj hc (by rw [hp]; simp)
    · intro _ _ _ _ _ hx; exact absurd rfl hx
    · intro _ _ hx; exact absurd rfl hx
  | wait hp hnone hwt =>
    refine hn.same rfl rfl rfl rfl rfl rfl (fun _ h => h) ?_
    intro p hp' j hj x hxm hxp
    simp only [Option.some.injEq] at hp'
    subst hp'
    have hge : c.start ≤ nextTag s := by
      rcases nextTag_cases s with h1 | ⟨e, he, h1⟩
      · rw [h1]; exact h.stop.1
      · rw [← h1]; exact (h.ev e he).1
    have hlo : 0 ≤ (nextTag s).time := by
      rw [Tag.le_def] at hge
      have := hw.lv.pos
      replace hge : c.startTime < _ ∨ (c.startTime = _ ∧ _) := hge
      omega
    have hhi : (nextTag s).time ≤ FOREVER := by
      have h1 := nextTag_le_stop s
      have := h.stop.2
      rw [Tag.le_def] at h1
      omega
    unfold waitUntilTime at hwt
    by_cases hst : (nextTag s).time ≠ c.startTime ∨ (nextTag s).microstep ≠ 0
    · rw [if_pos hst] at hwt
      by_cases hk : inputsKnownTo c s (predTag (nextTag s)) = true
      · unfold inputsKnownTo at hk
        rw [List.all_eq_true] at hk
        have := hk j (List.mem_range.2 hj)
        rw [decide_eq_true_eq, ge_iff_le, cmp_ge_zero] at this
        rcases hn.known j hj x hxm (Tag.le_trans (le_predTag hxm hxp) this) with h1 | h1
        · exact h1
        · have := h1.1; rw [hp] at this; cases this
      · rw [if_neg hk] at hwt
        have := sta_over hw hlo hhi h.time hwt
        right; right; right
        show dueBy c j x < s.lv.now + _
        unfold dueBy
        have h1 : min 0 (c.port j).staa ≤ 0 := Int.min_le_left _ _
        rw [Tag.lt_def] at hxp
        omega
    · right; right; left
      have : nextTag s = c.start := by
        rw [Tag.ext_iff']
        exact ⟨by show _ = c.startTime; omega, by show _ = 0; omega⟩
      rw [← this]; exact hxp
  | @advance p l hwt hc hF hm ho hp hperm =>
    have hdue : ∀ e, e ∈ l → e ∈ s.q ∧ e.tag = nextTag s := fun e he => (mem_due _ _ _).1 (hperm.mem_iff.1 he)
    have hnl : ∀ d ∈ pops (nextTag s) l, d.late = false := by
      intro d hd
      obtain ⟨e, he, h1, h2, h3, h4⟩ := pops_mem _ _ d hd
      obtain ⟨h5, h6⟩ := hdue e he
      rw [h4, decide_eq_false_iff_not, ← hq e h5 _ h1, h6]
      exact Tag.lt_irrefl _
    have hkn : (Level.nextTag c s.lv (nextTag s) (fun i => (pops (nextTag s) l).any fun d => d.port = i && d.late)
        (fun i => (pops (nextTag s) l).any fun d => d.port = i)).known = s.lv.known := by
      unfold Level.nextTag Level.broadcast
      funext i
      dsimp only
      rw [if_neg]
      · simp only [Bool.and_eq_true, List.any_eq_true, decide_eq_true_eq]
        rintro ⟨⟨d, hd, _, h2⟩, _⟩
        rw [hnl d hd] at h2; cases h2
    have hbef : ∀ x, ¬ Before c s x := by intro x hx; have := hx.1; rw [hp] at this; cases this
    have hnx : nextTag s ≤ p := (h.waits p hwt).1
    refine ⟨?_, ?_, ?_, ?_, ?_, ?_, ?_, ?_⟩
    · show ∀ j < c.n, ∀ x : Tag, _ → x ≤ (Level.nextTag _ _ _ _ _).known j → _
      rw [hkn]
      intro j hj x hx hk
      rcases hn.known j hj x hx hk with h1 | h1
      · exact Or.inl h1
      · exact absurd h1 (hbef x)
    · intro j hj x hx hk
      exact hn.waited p hwt j hj x hx (Tag.lt_of_lt_of_le hk hnx)
    · intro p' hp'; cases hp'
    · intro j g v hj
      obtain ⟨h1, _, h3⟩ := hn.pend j g v hj
      exact ⟨h1, Tag.le_of_lt (advance_pending h hc ho hj), h3⟩
    · show ∀ j g v, _ → g ≤ (Level.nextTag _ _ _ _ _).known j → _
      rw [hkn]
      intro j g v hj hk
      rcases hn.p1 j g v hj hk with h1 | h1
      · exact Or.inl h1
      · exact absurd h1 (hbef g)
    · intro j g v hj hcg _
      replace hcg : nextTag s = g := hcg
      have := advance_pending h hc ho hj
      rw [hcg] at this; exact absurd this (Tag.lt_irrefl _)
    · intro _ _ _ _ _ hx; exact absurd hp hx
    · intro _ _ hx; exact absurd hp hx
  | @stall level hp =>
    have : (Level.stall s.lv level).cur = s.lv.cur ∧ (Level.stall s.lv level).phase = s.lv.phase ∧
        (Level.stall s.lv level).now = s.lv.now ∧ (Level.stall s.lv level).known = s.lv.known := by
      unfold Level.stall; split <;> exact ⟨rfl, rfl, rfl, rfl⟩
    obtain ⟨h1, h2, h3, h4⟩ := this
    refine hn.same h4 h3 h1 h2 rfl rfl (fun _ h => h) ?_
    intro p hp j hj x hx hk
    exact (hn.waited p hp j hj x hx hk).mono (Tag.le_refl _) id (by
      show s.lv.now ≤ (Level.stall s.lv level).now; rw [h3]; exact Int.le_refl _)
  | @arm v hp => exact hn.same rfl rfl rfl rfl rfl rfl (fun _ h => h) hn.waited
  | @timeout i t u hi hwt ho hc hst hs =>
    obtain ⟨m, sl, hu⟩ := updatePort_lv c { s.lv with status := upd s.lv.status i .absent } i s.lv.cur
    obtain ⟨hu1, hrun⟩ := h.lv.staa _ _ _ hwt
    rw [hu1, ← hc] at ho
    have hover := staa_over hw hi h.lv.curLow h.lv.curTime h.time ho
    have hdue : ∀ x : Tag, x.time ≤ s.lv.cur.time → dueBy c i x < s.lv.now + MIN_SLEEP_DURATION := by
      intro x hx
      unfold dueBy
      have h1 : min 0 (c.port i).staa ≤ (c.port i).staa := Int.min_le_right _ _
      omega
    have hnew : ∀ x : Tag, x ≤ newKnown s.lv.cur (s.lv.known i) s.lv.cur → x ≤ s.lv.known i ∨ x.time ≤ s.lv.cur.time := by
      intro x hx
      rcases Level.newKnown_cases s.lv.cur (s.lv.known i) s.lv.cur with ⟨e, _, _⟩ | ⟨e, e1, e2, e3⟩ | ⟨_, _, _, e | ⟨_, e⟩⟩
      · rw [e] at hx; exact Or.inl hx
      · have e3 : s.lv.cur = s.lv.known i := by rcases e3 with e3 | e3 <;> exact e3
        rw [e] at hx
        rcases le_bump hx with hx | hx
        · exact Or.inl hx
        · right; rw [hx, ← e3]; exact Int.le_refl _
      · rw [e, Tag.le_def] at hx; right; omega
      · exact absurd e (Tag.lt_irrefl _)
    rw [hu]
    refine ⟨?_, hn.past, hn.waited, hn.pend, ?_, ?_, ?_, ?_⟩
    · intro j hj x hx hk
      replace hk : x ≤ upd s.lv.known i (newKnown s.lv.cur (s.lv.known i) s.lv.cur) j := hk
      unfold upd at hk
      split at hk
      · rename_i hji
        subst hji
        rcases hnew x hk with hk | hk
        · exact hn.known j hj x hx hk
        · exact Or.inl (Or.inr (Or.inr (Or.inr (hdue x hk))))
      · exact hn.known j hj x hx hk
    · intro j g v hj hk
      replace hk : g ≤ upd s.lv.known i (newKnown s.lv.cur (s.lv.known i) s.lv.cur) j := hk
      unfold upd at hk
      split at hk
      · rename_i hji
        subst hji
        rcases hnew g hk with hk | hk
        · exact hn.p1 j g v hj hk
        · exact Or.inl (hdue g hk)
      · exact hn.p1 j g v hj hk
    · intro j g v hj hcg hph
      show upd s.lv.known i (newKnown s.lv.cur (s.lv.known i) s.lv.cur) j < g ∨ _
      unfold upd
      split
      · rename_i hji
        subst hji
        right
        replace hcg : s.lv.cur = g := hcg
        rw [← hcg]; exact hover
      · exact hn.p2 j g v hj hcg hph
    · intro _ _ _ _ _ hx; exact absurd hrun hx
    · intro _ _ hx; exact absurd hrun hx

end ReactorC.Decentral
