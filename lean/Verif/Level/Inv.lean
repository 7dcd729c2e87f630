import Verif.Level.Model
import Verif.Tag.Lemmas

/-!
# Invariants of the wait for network input ports
-/

namespace ReactorC.Level
open ReactorC

/-- What the model assumes of the program: the start time and the offset are times. -/
structure WF (c : Config) : Prop where
  sta : 0 ≤ c.sta
  cent : c.dec = false → c.sta = 0
  low : NEVER < c.startTime - c.sta
  high : c.startTime < FOREVER
  pos : 0 ≤ c.startTime

/-! ## Comparisons -/

theorem blocks_iff (c : Config) (cur : Tag) (known : Nat → Tag) (i : Nat) : blocks c cur known i = true ↔
    inTable c i = true ∧ exempt c cur i = false ∧ known i < cur ∧ (c.port i).physical = false := by
  unfold blocks
  simp only [Bool.and_eq_true, Bool.not_eq_true', decide_eq_true_eq, gt_iff_lt, cmp_gt_zero]
  constructor
  · rintro ⟨⟨⟨a, b⟩, d⟩, e⟩; exact ⟨a, b, d, e⟩
  · rintro ⟨a, b, d, e⟩; exact ⟨⟨⟨a, b⟩, d⟩, e⟩

theorem granted_iff (c : Config) (cur tag : Tag) (prov : Bool) : granted c cur tag prov = true ↔
    c.dec = false ∧ (cur < tag ∨ (cur = tag ∧ prov = false)) := by
  unfold granted
  simp only [Bool.and_eq_true, Bool.not_eq_true', Bool.or_eq_true, decide_eq_true_eq, cmp_lt_zero, cmp_eq_zero]

theorem granted_up {c : Config} {cur t t' : Tag} {p : Bool} (h : granted c cur t p = true) (ht : t ≤ t') :
    granted c cur t' false = true := by
  rw [granted_iff] at h ⊢
  refine ⟨h.1, ?_⟩
  rcases h.2 with h2 | ⟨h2, _⟩
  · exact Or.inl (Tag.lt_of_lt_of_le h2 ht)
  · subst h2
    rcases Tag.lt_or_eq_of_le ht with h3 | h3
    · exact Or.inl h3
    · exact Or.inr ⟨h3, rfl⟩

theorem minLevel_le_init (c : Config) (cur : Tag) (known : Nat → Tag) (l : List Nat) (m : Nat) :
    minLevel c cur known l m ≤ m := by
  induction l generalizing m with
  | nil => exact Nat.le_refl _
  | cons a l ih =>
    unfold minLevel
    rw [List.foldl_cons]
    refine Nat.le_trans (ih _) ?_
    split
    · exact Nat.min_le_left _ _
    · exact Nat.le_refl _

theorem minLevel_le (c : Config) (cur : Tag) (known : Nat → Tag) (l : List Nat) (m : Nat) {i : Nat} (hi : i ∈ l)
    (hb : blocks c cur known i = true) : minLevel c cur known l m ≤ (c.port i).level := by
  induction l generalizing m with
  | nil => cases hi
  | cons a l ih =>
    unfold minLevel
    rw [List.foldl_cons]
    rw [List.mem_cons] at hi
    rcases hi with rfl | hi
    · refine Nat.le_trans (minLevel_le_init c cur known l _) ?_
      rw [if_pos hb]; exact Nat.min_le_right _ _
    · exact ih _ hi

theorem minLevel_cases (c : Config) (cur : Tag) (known : Nat → Tag) (l : List Nat) (m : Nat) :
    minLevel c cur known l m = m ∨
    ∃ i ∈ l, blocks c cur known i = true ∧ minLevel c cur known l m = (c.port i).level := by
  induction l generalizing m with
  | nil => exact Or.inl rfl
  | cons a l ih =>
    unfold minLevel
    rw [List.foldl_cons]
    rcases ih (if blocks c cur known a then min m (c.port a).level else m) with h | ⟨i, hi, hb, h⟩
    · by_cases hb : blocks c cur known a = true
      · rw [if_pos hb] at h ⊢
        change minLevel c cur known l (min m (c.port a).level) = m ∨ _
        rw [h]
        by_cases hm : m ≤ (c.port a).level
        · exact Or.inl (Nat.min_eq_left hm)
        · exact Or.inr ⟨a, List.mem_cons_self, hb, by
            change minLevel c cur known l (min m (c.port a).level) = _
            rw [h]; omega⟩
      · rw [if_neg hb] at h ⊢
        exact Or.inl h
    · exact Or.inr ⟨i, List.mem_cons_of_mem _ hi, hb, h⟩

theorem maxLevel_le {c : Config} {cur : Tag} {known : Nat → Tag} {tag : Tag} {prov : Bool}
    (hg : granted c cur tag prov = false) {i : Nat} (hi : i < c.n) (hb : blocks c cur known i = true) :
    maxLevel c cur known tag prov ≤ (c.port i).level := by
  unfold maxLevel
  rw [if_neg (by rw [hg]; simp)]
  exact minLevel_le c cur known _ _ (List.mem_range.2 hi) hb

theorem maxLevel_cases (c : Config) (cur : Tag) (known : Nat → Tag) (tag : Tag) (prov : Bool) :
    maxLevel c cur known tag prov = INT_MAX ∨
    granted c cur tag prov = false ∧
      ∃ i < c.n, blocks c cur known i = true ∧ maxLevel c cur known tag prov = (c.port i).level := by
  unfold maxLevel
  split
  · exact Or.inl rfl
  · rename_i hg
    rcases minLevel_cases c cur known (List.range c.n) INT_MAX with h | ⟨i, hi, hb, h⟩
    · exact Or.inl h
    · exact Or.inr ⟨by simpa using hg, i, List.mem_range.1 hi, hb, h⟩

theorem bump_small {t : Tag} (h : t.microstep < UINT_MAX) : bump t = ⟨t.time, t.microstep + 1⟩ := by
  unfold bump wrapU32; unfold UINT_MAX at h; congr 1; omega

theorem bump_time (t : Tag) : (bump t).time = t.time := rfl

theorem bump_gt {t : Tag} (h : Small t) {x : Tag} (hx : x.time < FOREVER) (hxt : x ≤ t) : x ≤ bump t := by
  by_cases hf : t.time < FOREVER
  · rw [bump_small (h hf)]; rw [Tag.le_def] at hxt ⊢; simp only []; omega
  · rw [Tag.le_def, bump_time]; omega

/-- What `update_last_known_status_on_input_port` does to the status. -/
theorem newKnown_cases (cur known tag : Tag) :
    (newKnown cur known tag = known ∧ tag < known ∧ cur < known) ∨
    (newKnown cur known tag = bump known ∧ tag ≤ known ∧ cur ≤ known ∧ (tag = known ∨ cur = known)) ∨
    (known < newKnown cur known tag ∧ tag ≤ newKnown cur known tag ∧ cur ≤ newKnown cur known tag ∧
      (newKnown cur known tag = tag ∨ newKnown cur known tag = cur ∧ tag < cur)) := by
  unfold newKnown
  simp only []
  have hm : ∃ x, (if lf_tag_compare tag cur < 0 then cur else tag) = x ∧ tag ≤ x ∧ cur ≤ x ∧ (x = tag ∨ x = cur ∧ tag < cur) := by
    by_cases h : lf_tag_compare tag cur < 0
    · rw [if_pos h]; rw [cmp_lt_zero] at h
      exact ⟨_, rfl, Tag.le_of_lt h, Tag.le_refl _, Or.inr ⟨rfl, h⟩⟩
    · rw [if_neg h]; rw [cmp_lt_zero, Tag.not_lt] at h
      exact ⟨_, rfl, Tag.le_refl _, h, Or.inl rfl⟩
  obtain ⟨x, hx, h1, h2, h3⟩ := hm
  rw [hx]
  by_cases h : lf_tag_compare x known = 0
  · right; left
    rw [if_pos h, if_pos (by omega)]
    rw [cmp_eq_zero] at h
    subst h
    exact ⟨rfl, h1, h2, h3.elim (fun h => Or.inl h.symm) (fun h => Or.inr h.1.symm)⟩
  · rw [if_neg h]
    by_cases h' : lf_tag_compare x known ≥ 0
    · rw [if_pos h']
      right; right
      have h4 : known ≤ x := (cmp_ge_zero x known).1 h'
      rw [cmp_eq_zero] at h
      rcases Tag.lt_or_eq_of_le h4 with h5 | h5
      · exact ⟨h5, h1, h2, h3⟩
      · exact absurd h5.symm h
    · rw [if_neg h']
      left
      have h4 : x < known := by rw [← Tag.not_le]; exact fun h5 => h' ((cmp_ge_zero x known).2 h5)
      exact ⟨rfl, Tag.lt_of_le_of_lt h1 h4, Tag.lt_of_le_of_lt h2 h4⟩

theorem newKnown_ge {cur known tag : Tag} (h : Small known) {x : Tag} (hx : x.time < FOREVER) (hk : x ≤ known) :
    x ≤ newKnown cur known tag := by
  rcases newKnown_cases cur known tag with ⟨h1, _⟩ | ⟨h1, _⟩ | ⟨h1, _⟩
  · rw [h1]; exact hk
  · rw [h1]; exact bump_gt h hx hk
  · exact Tag.le_trans hk (Tag.le_of_lt h1)

theorem newKnown_cur {cur known tag : Tag} (h : Small known) (hc : cur.time < FOREVER) : cur ≤ newKnown cur known tag := by
  rcases newKnown_cases cur known tag with ⟨h1, _, h3⟩ | ⟨h1, _, h3, _⟩ | ⟨_, _, h3, _⟩
  · rw [h1]; exact Tag.le_of_lt h3
  · rw [h1]; exact bump_gt h hc h3
  · exact h3

/-- Exactly how `updatePort` changes the state. -/
theorem updatePort_cases (c : Config) (s : State) (i : Nat) (tag : Tag) :
    (updatePort c s i tag = s ∧ newKnown s.cur (s.known i) tag = s.known i) ∨
    updatePort c s i tag = { s with
      known := upd s.known i (newKnown s.cur (s.known i) tag),
      mlaa := maxLevel c s.cur (upd s.known i (newKnown s.cur (s.known i) tag)) s.lastTAG s.prov,
      asleep := fun _ => false } := by
  unfold updatePort
  simp only []
  by_cases h : lf_tag_compare (if lf_tag_compare tag s.cur < 0 then s.cur else tag) (s.known i) ≥ 0
  · rw [if_pos h]; exact Or.inr rfl
  · rw [if_neg h]
    left
    refine ⟨rfl, ?_⟩
    unfold newKnown
    simp only []
    rw [if_neg h]

/-! ## The invariant -/

/-- The tag at which the ports are looked at: the start tag while it has not come. -/
def ref (c : Config) (s : State) : Tag := if s.phase = .waiting then c.start else s.cur

structure Inv (c : Config) (s : State) : Prop where
  curTime : s.cur.time < FOREVER
  curMicro : s.cur.microstep < UINT_MAX
  curLow : NEVER < s.cur.time
  curInit : s.phase = .waiting → s.cur = ⟨c.startTime - c.sta, 0⟩
  gap : s.phase = .waiting → ∀ i < c.n, s.known i < c.start → s.known i < s.cur
  safe : granted c (ref c s) s.lastTAG s.prov = false →
    ∀ i < c.n, blocks c (ref c s) s.known i = true → s.mlaa ≤ (c.port i).level
  reason : s.mlaa = INT_MAX ∨ ∃ i < c.n, inTable c i = true ∧ (c.port i).physical = false ∧ s.known i < ref c s ∧
    s.mlaa = (c.port i).level
  admitted : ∀ L, s.admitted L = true → s.phase = .running ∧ (granted c s.cur s.lastTAG s.prov = true ∨
    ∀ i < c.n, (c.port i).level ≤ L → blocks c s.cur s.known i = false)
  taken : s.prov = false → ∀ i < c.n, s.lastTAG ≤ s.known i ∨ FOREVER ≤ (s.known i).time
  asleep : ∀ L, s.asleep L = true → s.mlaa ≤ L
  staa : ∀ t v u, s.staaWait = some (t, v, u) → u = staaUntil c t v ∧ s.phase = .running

theorem exempt_waiting {c : Config} (hw : WF c) {i : Nat} (h : exempt c c.start i = false) (cur : Tag) :
    exempt c cur i = false := by
  unfold exempt at h ⊢
  cases hd : c.dec with
  | false => simp
  | true =>
    rw [hd] at h
    simp only [Bool.true_and, Bool.or_eq_false_iff, Bool.and_eq_false_iff, decide_eq_false_iff_not] at h ⊢
    have h0 : (c.port i).delay ≠ 0 := by
      rcases h.1 with (h1 | h1) | h1
      · exact h1
      · exact absurd rfl h1
      · exact absurd rfl h1
    refine ⟨Or.inl (Or.inl h0), Or.inl ?_⟩
    rcases h.2 with h1 | h1
    · exact h1
    · intro hp
      apply h1
      rw [cmp_le_zero]
      have hlow := hw.low
      have hsta := hw.sta
      have hhigh := hw.high
      have hst : c.start.time = c.startTime := rfl
      have hsm : c.start.microstep = 0 := rfl
      rcases lf_delay_tag_cases c.start (c.port i).delay with ⟨h2, _⟩ | ⟨_, _, h3, h2⟩ | ⟨_, h3, _⟩ | ⟨_, _, h3, h2⟩
      · exfalso; rw [hst] at h2; unfold NEVER at *; omega
      · rcases lf_delay_strict_cases c.start (c.port i).delay with ⟨_, h4⟩ | ⟨_, _, _, _, h5, _⟩
        · rw [h4, h2, Tag.le_def]; left; exact hhigh
        · exact absurd (by rw [h2]; rfl) h5
      · omega
      · rcases lf_delay_strict_cases c.start (c.port i).delay with ⟨h5, h4⟩ | ⟨_, _, _, _, _, h4⟩
        · rw [h4, h2, Tag.le_def]; left; show c.start.time < c.start.time + _; omega
        · rw [h4, h2, Tag.le_def]; simp only []; rw [hsm]; omega

theorem start_cur {c : Config} (hw : WF c) {s : State} (h : Inv c s) (hp : s.phase = .waiting) (hd : c.dec = false) :
    s.cur = c.start := by
  rw [h.curInit hp, hw.cent hd]; unfold Config.start; simp

/-- After a new value for the level has been computed from the current state, it is safe and has a reason. -/
theorem fresh {c : Config} (hw : WF c) {s : State} (hinit : s.phase = .waiting → s.cur = ⟨c.startTime - c.sta, 0⟩)
    (hgap : s.phase = .waiting → ∀ i < c.n, s.known i < c.start → s.known i < s.cur)
    (hm : s.mlaa = maxLevel c s.cur s.known s.lastTAG s.prov) :
    (granted c (ref c s) s.lastTAG s.prov = false →
      ∀ i < c.n, blocks c (ref c s) s.known i = true → s.mlaa ≤ (c.port i).level) ∧
    (s.mlaa = INT_MAX ∨ granted c (ref c s) s.lastTAG s.prov = false ∧ ∃ i < c.n, inTable c i = true ∧
      (c.port i).physical = false ∧ s.known i < ref c s ∧ s.mlaa = (c.port i).level) := by
  have hle : s.phase = .waiting → s.cur ≤ c.start := by
    intro hp; rw [hinit hp, Tag.le_def]; have := hw.sta; unfold Config.start; simp only []; omega
  have hgr : granted c (ref c s) s.lastTAG s.prov = granted c s.cur s.lastTAG s.prov := by
    unfold ref
    split
    · rename_i hp
      cases hd : c.dec with
      | true => unfold granted; rw [hd]; rfl
      | false => rw [hinit hp, hw.cent hd]; unfold Config.start; simp
    · rfl
  constructor
  · intro hg i hi hb
    rw [hgr] at hg
    rw [hm]
    refine maxLevel_le hg hi ?_
    unfold ref at hb
    split at hb
    · rename_i hp
      rw [blocks_iff] at hb ⊢
      exact ⟨hb.1, exempt_waiting hw hb.2.1 _, hgap hp i hi hb.2.2.1, hb.2.2.2⟩
    · exact hb
  · rcases maxLevel_cases c s.cur s.known s.lastTAG s.prov with h | ⟨hg, i, hi, hb, h⟩
    · left; rw [hm, h]
    · right
      rw [blocks_iff] at hb
      refine ⟨by rw [hgr]; exact hg, i, hi, hb.1, hb.2.2.2, ?_, by rw [hm, h]⟩
      unfold ref
      split
      · rename_i hp; exact Tag.lt_of_lt_of_le hb.2.2.1 (hle hp)
      · exact hb.2.2.1

theorem Inv.init {c : Config} (hw : WF c) (now : Int) : Inv c (init c now) := by
  have h1 := hw.sta
  have h2 := hw.low
  have h3 := hw.high
  have hst : NEVER_TAG < c.start := by rw [Tag.lt_def]; left; show NEVER < c.startTime; omega
  refine ⟨?_, Nat.zero_lt_succ _, h2, fun _ => rfl, ?_, ?_, ?_, fun _ h => (by cases h), ?_, fun _ h => (by cases h),
    fun _ _ _ h => (by cases h)⟩
  · show c.startTime - c.sta < FOREVER; omega
  · intro _ i _ _; rw [Tag.lt_def]; left; exact h2
  · intro hg i hi hb
    exact maxLevel_le hg hi hb
  · rcases maxLevel_cases c c.start (fun _ => NEVER_TAG) NEVER_TAG false with h | ⟨hg, i, hi, hb, h⟩
    · exact Or.inl h
    · rw [blocks_iff] at hb
      exact Or.inr ⟨i, hi, hb.1, hb.2.2.2, hst, h⟩
  · intro _ i _; exact Or.inl (Tag.le_refl _)

/-- A port that does not block does not block after `updatePort`. -/
theorem blocks_mono {c : Config} {cur : Tag} {k k' : Nat → Tag} {i : Nat} (hk : cur ≤ k i → cur ≤ k' i)
    (h : blocks c cur k i = false) : blocks c cur k' i = false := by
  cases h' : blocks c cur k' i with
  | false => rfl
  | true =>
    rw [blocks_iff] at h'
    have : ¬ cur ≤ k i := fun h1 => by have := hk h1; rw [← Tag.not_lt] at this; exact this h'.2.2.1
    rw [Tag.not_le] at this
    have h1 : blocks c cur k i = true := (blocks_iff _ _ _ _).2 ⟨h'.1, h'.2.1, this, h'.2.2.2⟩
    rw [h] at h1; cases h1

theorem Inv.updatePort {c : Config} (hw : WF c) {s : State} (h : Inv c s) {i : Nat} {g : Tag}
    (hg : s.phase = .waiting → c.start ≤ g) (hs : Small (s.known i)) : Inv c (updatePort c s i g) := by
  rcases updatePort_cases c s i g with ⟨he, _⟩ | he
  · rw [he]; exact h
  · rw [he]
    have hkn : ∀ j x, x.time < FOREVER → x ≤ s.known j → x ≤ upd s.known i (newKnown s.cur (s.known i) g) j := by
      intro j x hx hxk
      unfold upd
      split
      · rename_i hj; subst hj; exact newKnown_ge hs hx hxk
      · exact hxk
    have hgap : s.phase = .waiting → ∀ j < c.n, upd s.known i (newKnown s.cur (s.known i) g) j < c.start →
        upd s.known i (newKnown s.cur (s.known i) g) j < s.cur := by
      intro hp j hj
      unfold upd
      split
      · rename_i hji
        intro hlt
        exfalso
        have hst : c.start.time < FOREVER := hw.high
        have h1 : c.start ≤ newKnown s.cur (s.known i) g := by
          rcases newKnown_cases s.cur (s.known i) g with ⟨h1, h2, _⟩ | ⟨h1, h2, _⟩ | ⟨_, h2, _⟩
          · rw [h1]; exact Tag.le_trans (hg hp) (Tag.le_of_lt h2)
          · rw [h1]; exact bump_gt hs hst (Tag.le_trans (hg hp) h2)
          · exact Tag.le_trans (hg hp) h2
        rw [← Tag.not_lt] at h1
        exact h1 hlt
      · exact h.gap hp j hj
    have hf := fresh hw (s := { s with
      known := upd s.known i (newKnown s.cur (s.known i) g),
      mlaa := maxLevel c s.cur (upd s.known i (newKnown s.cur (s.known i) g)) s.lastTAG s.prov,
      asleep := fun _ => false }) h.curInit hgap rfl
    refine ⟨h.curTime, h.curMicro, h.curLow, h.curInit, hgap, hf.1, hf.2.imp id (fun h => h.2), ?_, ?_,
      fun _ h => (by cases h), h.staa⟩
    · intro L hL
      obtain ⟨h1, h2⟩ := h.admitted L hL
      refine ⟨h1, h2.imp id (fun h2 j hj hl => ?_)⟩
      exact blocks_mono (hkn j s.cur h.curTime) (h2 j hj hl)
    · intro hp j hj
      rcases h.taken hp j hj with h1 | h1
      · by_cases hF : s.lastTAG.time < FOREVER
        · exact Or.inl (hkn j _ hF h1)
        · right
          show FOREVER ≤ (upd s.known i (newKnown s.cur (s.known i) g) j).time
          unfold upd
          split
          · rename_i hji; subst hji
            have hkF : FOREVER ≤ (s.known j).time := by rw [Tag.le_def] at h1; omega
            rcases newKnown_cases s.cur (s.known j) g with ⟨h2, _⟩ | ⟨h2, _⟩ | ⟨h2, _⟩
            · rw [h2]; exact hkF
            · rw [h2]; exact hkF
            · rw [Tag.lt_def] at h2; omega
          · rw [Tag.le_def] at h1; omega
      · right
        show FOREVER ≤ (upd s.known i (newKnown s.cur (s.known i) g) j).time
        unfold upd
        split
        · rename_i hji; subst hji
          rcases newKnown_cases s.cur (s.known j) g with ⟨h2, _⟩ | ⟨h2, _⟩ | ⟨h2, _⟩
          · rw [h2]; exact h1
          · rw [h2]; exact h1
          · rw [Tag.lt_def] at h2; omega
        · exact h1

theorem Inv.hist {c : Config} {s : State} (h : Inv c s) (l : List Heard) : Inv c { s with hist := l } :=
  ⟨h.curTime, h.curMicro, h.curLow, h.curInit, h.gap, h.safe, h.reason, h.admitted, h.taken, h.asleep, h.staa⟩

theorem Inv.status {c : Config} {s : State} (h : Inv c s) (f : Nat → Status) : Inv c { s with status := f } :=
  ⟨h.curTime, h.curMicro, h.curLow, h.curInit, h.gap, h.safe, h.reason, h.admitted, h.taken, h.asleep, h.staa⟩

theorem actualTag_start {c : Config} (hw : WF c) {s : State} (h : Inv c s) {i : Nat} {g : Tag} (hg : c.start ≤ g)
    (_hp : s.phase = .waiting) : c.start ≤ actualTag c s i g := by
  unfold actualTag
  split
  · rename_i hd
    simp only [Bool.and_eq_true, decide_eq_true_eq, cmp_le_zero] at hd
    have h1 : c.start ≤ s.cur := Tag.le_trans hg hd.2
    have h2 : c.start ≤ bump s.cur :=
      bump_gt (fun _ => h.curMicro) hw.high h1
    split
    · rename_i hle
      rw [cmp_le_zero] at hle
      have : c.start ≤ s.known i := Tag.le_trans h2 hle
      rw [Tag.le_def] at this ⊢
      rw [bump_time]
      have h0 : c.start.microstep = 0 := rfl
      omega
    · exact h2
  · exact hg

theorem Inv.handleMessage {c : Config} (hw : WF c) {s : State} (h : Inv c s) {i : Nat} {g : Tag} (recent : Bool)
    (hg : c.start ≤ g) (hs : Small (s.known i)) : Inv c (handleMessage c s i g recent) := by
  unfold Level.handleMessage
  split
  · exact (h.updatePort hw (fun _ => hg) hs).status _
  · exact h.updatePort hw (fun hp => actualTag_start hw h hg hp) hs

theorem knownAfterGrant_ge (s : State) (g : Tag) (i : Nat) : s.known i ≤ knownAfterGrant s g i ∧ g ≤ knownAfterGrant s g i := by
  unfold knownAfterGrant
  split
  · rename_i h; exact ⟨(cmp_ge_zero _ _).1 h, Tag.le_refl _⟩
  · rename_i h
    refine ⟨Tag.le_refl _, Tag.le_of_lt ?_⟩
    rw [← Tag.not_le]
    exact fun h1 => h ((cmp_ge_zero _ _).2 h1)

theorem notify_false {c : Config} {s : State} {g : Tag} (h : notify c s g = false) {i : Nat} (hi : i < c.n) :
    g < s.known i ∧ knownAfterGrant s g i = s.known i := by
  unfold notify at h
  rw [List.any_eq_false] at h
  have := h i (List.mem_range.2 hi)
  simp only [decide_eq_true_eq] at this
  refine ⟨?_, ?_⟩
  · rw [← Tag.not_le]; exact fun h1 => this ((cmp_ge_zero _ _).2 h1)
  · unfold knownAfterGrant; rw [if_neg this]

def afterTag (s : State) (g : Tag) (m : Nat) (sl : Nat → Bool) (p : Bool) : State :=
  { s with known := knownAfterGrant s g, mlaa := m, asleep := sl, lastTAG := (if s.lastTAG ≤ g then g else s.lastTAG),
           prov := p }

/-- The state after a grant. -/
theorem handleTag_cases (c : Config) (s : State) (g : Tag) :
    ∃ m sl p, handleTag c s g = afterTag s g m sl p ∧
    (p = if s.lastTAG ≤ g then false else s.prov) ∧
    ((notify c s g = true ∧ m = maxLevel c s.cur (knownAfterGrant s g) g false) ∨ (notify c s g = false ∧ m = s.mlaa)) ∧
    (∀ L, sl L = true → s.asleep L = true ∧ m = s.mlaa) := by
  unfold handleTag updatePorts broadcast afterTag
  simp only [ge_iff_le, cmp_ge_zero]
  by_cases hn : notify c s g = true
  · rw [if_pos hn]
    by_cases hm : maxLevel c s.cur (knownAfterGrant s g) g false ≠ s.mlaa
    · rw [if_pos hm]
      by_cases hl : s.lastTAG ≤ g
      · rw [if_pos hl, if_pos hl]
        exact ⟨_, _, _, rfl, by first | rw [if_pos hl] | rw [if_neg hl], Or.inl ⟨hn, rfl⟩, fun _ h => (by cases h)⟩
      · rw [if_neg hl, if_neg hl]
        exact ⟨_, _, _, rfl, by first | rw [if_pos hl] | rw [if_neg hl], Or.inl ⟨hn, rfl⟩, fun _ h => (by cases h)⟩
    · rw [if_neg hm]
      have hm' := Classical.not_not.1 hm
      by_cases hl : s.lastTAG ≤ g
      · rw [if_pos hl, if_pos hl]
        exact ⟨_, _, _, rfl, by first | rw [if_pos hl] | rw [if_neg hl], Or.inl ⟨hn, rfl⟩, fun L h => ⟨h, hm'⟩⟩
      · rw [if_neg hl, if_neg hl]
        exact ⟨_, _, _, rfl, by first | rw [if_pos hl] | rw [if_neg hl], Or.inl ⟨hn, rfl⟩, fun L h => ⟨h, hm'⟩⟩
  · rw [if_neg hn]
    have hn' : notify c s g = false := by simpa using hn
    by_cases hl : s.lastTAG ≤ g
    · rw [if_pos hl, if_pos hl]
      exact ⟨_, _, _, rfl, by first | rw [if_pos hl] | rw [if_neg hl], Or.inr ⟨hn', rfl⟩, fun L h => ⟨h, rfl⟩⟩
    · rw [if_neg hl, if_neg hl]
      exact ⟨_, _, _, rfl, by first | rw [if_pos hl] | rw [if_neg hl], Or.inr ⟨hn', rfl⟩, fun L h => ⟨h, rfl⟩⟩

theorem ref_cent {c : Config} (hw : WF c) {s : State} (h : Inv c s) (hd : c.dec = false) : ref c s = s.cur := by
  unfold ref
  split
  · rename_i hp; exact (start_cur hw h hp hd).symm
  · rfl

theorem Inv.handleTag {c : Config} (hw : WF c) {s : State} (h : Inv c s) {g : Tag} (hd : c.dec = false) :
    Inv c (handleTag c s g) := by
  obtain ⟨m, sl, p, he, hp, hm, hsl⟩ := handleTag_cases c s g
  rw [he]
  have hk := knownAfterGrant_ge s g
  have hr : ref c s = s.cur := ref_cent hw h hd
  have hadm : granted c s.cur s.lastTAG s.prov = true → granted c s.cur (if s.lastTAG ≤ g then g else s.lastTAG) p = true := by
    intro hg
    by_cases hl : s.lastTAG ≤ g
    · rw [if_pos hl, hp, if_pos hl]; exact granted_up hg hl
    · rw [if_neg hl, hp, if_neg hl]; exact hg
  have hgr : granted c s.cur g false = true → granted c s.cur (if s.lastTAG ≤ g then g else s.lastTAG) p = true := by
    intro hg
    by_cases hl : s.lastTAG ≤ g
    · rw [if_pos hl, hp, if_pos hl]; exact hg
    · rw [if_neg hl]
      rw [granted_iff] at hg ⊢
      refine ⟨hd, Or.inl ?_⟩
      rw [Tag.not_le] at hl
      rcases hg.2 with h2 | ⟨h2, _⟩
      · exact Tag.lt_trans h2 hl
      · rw [h2]; exact hl
  have hgap : s.phase = .waiting → ∀ i < c.n, knownAfterGrant s g i < c.start → knownAfterGrant s g i < s.cur := by
    intro hp i _ hlt; rw [start_cur hw h hp hd]; exact hlt
  refine ⟨h.curTime, h.curMicro, h.curLow, h.curInit, hgap, ?_, ?_, ?_, ?_, ?_, h.staa⟩
  · show granted c (ref c s) (if s.lastTAG ≤ g then g else s.lastTAG) p = false →
      ∀ i < c.n, blocks c (ref c s) (knownAfterGrant s g) i = true → m ≤ _
    rw [hr]
    intro hg i hi hb
    rcases hm with ⟨_, hm⟩ | ⟨hn, hm⟩
    · rw [hm]
      refine maxLevel_le ?_ hi hb
      cases hx : granted c s.cur g false with
      | false => rfl
      | true => rw [hgr hx] at hg; cases hg
    · rw [hm]
      refine h.safe ?_ i hi ?_
      · rw [hr]
        cases hx : granted c s.cur s.lastTAG s.prov with
        | false => rfl
        | true => rw [hadm hx] at hg; cases hg
      · rw [hr, blocks_iff] at *
        exact ⟨hb.1, hb.2.1, by rw [← (notify_false hn hi).2]; exact hb.2.2.1, hb.2.2.2⟩
  · show m = INT_MAX ∨ ∃ i < c.n, inTable c i = true ∧ (c.port i).physical = false ∧ knownAfterGrant s g i < ref c s ∧ m = _
    rw [hr]
    rcases hm with ⟨_, hm⟩ | ⟨hn, hm⟩
    · rcases maxLevel_cases c s.cur (knownAfterGrant s g) g false with h1 | ⟨_, i, hi, hb, h1⟩
      · exact Or.inl (hm.trans h1)
      · rw [blocks_iff] at hb
        exact Or.inr ⟨i, hi, hb.1, hb.2.2.2, hb.2.2.1, hm.trans h1⟩
    · rcases h.reason with h1 | ⟨i, hi, h1, h2, h3, h4⟩
      · exact Or.inl (hm.trans h1)
      · refine Or.inr ⟨i, hi, h1, h2, ?_, hm.trans h4⟩
        rw [(notify_false hn hi).2, ← hr]; exact h3
  · intro L hL
    obtain ⟨h1, h2⟩ := h.admitted L hL
    refine ⟨h1, h2.imp hadm (fun h2 i hi hl => ?_)⟩
    exact blocks_mono (fun hx => Tag.le_trans hx (hk i).1) (h2 i hi hl)
  · intro hpf i hi
    by_cases hl : s.lastTAG ≤ g
    · left
      show (if s.lastTAG ≤ g then g else s.lastTAG) ≤ _
      rw [if_pos hl]; exact (hk i).2
    · have hpf' : s.prov = false := by
        have : p = false := hpf
        rw [hp, if_neg hl] at this; exact this
      show (if s.lastTAG ≤ g then g else s.lastTAG) ≤ _ ∨ _
      rw [if_neg hl]
      rcases h.taken hpf' i hi with h1 | h1
      · exact Or.inl (Tag.le_trans h1 (hk i).1)
      · right
        have := (hk i).1
        show FOREVER ≤ (knownAfterGrant s g i).time
        rw [Tag.le_def] at this; omega
  · intro L hL
    obtain ⟨h1, h2⟩ := hsl L hL
    show m ≤ L
    rw [h2]; exact h.asleep L h1

theorem Inv.handlePtag {c : Config} (hw : WF c) {s : State} (h : Inv c s) {g : Tag} (hd : c.dec = false)
    (h1 : ¬ g < s.lastTAG) (h2 : ¬ (g = s.lastTAG ∧ s.prov = false)) : Inv c (handlePtag c s g) := by
  unfold Level.handlePtag broadcast
  have hf := fresh hw (s := { s with lastTAG := g, prov := true, mlaa := maxLevel c s.cur s.known g true,
                                     asleep := fun _ => false }) h.curInit h.gap rfl
  refine ⟨h.curTime, h.curMicro, h.curLow, h.curInit, h.gap, hf.1, hf.2.imp id (fun h => h.2), ?_, fun h => (by cases h),
    fun _ h => (by cases h), h.staa⟩
  intro L hL
  obtain ⟨h3, h4⟩ := h.admitted L hL
  refine ⟨h3, h4.imp (fun hg => ?_) id⟩
  show granted c s.cur g true = true
  rw [granted_iff] at hg ⊢
  refine ⟨hd, Or.inl ?_⟩
  rw [Tag.not_lt] at h1
  rcases hg.2 with h5 | ⟨h5, h6⟩
  · exact Tag.lt_of_lt_of_le h5 h1
  · rcases Tag.lt_or_eq_of_le h1 with h7 | h7
    · rw [h5]; exact h7
    · exact absurd ⟨h7.symm, h6⟩ h2

theorem Inv.step {c : Config} (hw : WF c) {b : Bool} {s s' : State} (h : Inv c s) (st : Step c b s s') : Inv c s' := by
  cases st with
  | message hi hph hg hs ho => exact (h.handleMessage hw _ hg hs).hist _
  | absent hi hg hs ho => exact (h.updatePort hw (fun _ => hg) hs).hist _
  | grant hd ho => exact (h.handleTag hw hd).hist _
  | provisional hd h1 h2 => exact (h.handlePtag hw hd h1 h2).hist _
  | gone hd hi hs =>
    refine (h.updatePort hw (fun _ => ?_) hs).hist _
    have := hw.high
    rw [Tag.le_def]; left; exact this
  | begin hp =>
    have hr : ref c s = c.start := by unfold ref; rw [if_pos hp]
    have h1 := h.safe
    have h2 := h.reason
    rw [hr] at h1 h2
    refine ⟨hw.high, Nat.zero_lt_succ _, ?_, fun h => (by cases h), fun h => (by cases h), h1, h2, ?_, h.taken, h.asleep,
      fun t v u hx => (by have := (h.staa t v u hx).2; rw [hp] at this; cases this)⟩
    · have := hw.low; have := hw.sta; show NEVER < c.startTime; omega
    · intro L hL
      have := (h.admitted L hL).1
      rw [hp] at this; cases this
  | run hp =>
    have hr : ref c s = s.cur := by unfold ref; rw [if_neg (by rw [hp]; simp)]
    have h1 := h.safe
    have h2 := h.reason
    rw [hr] at h1 h2
    refine ⟨h.curTime, h.curMicro, h.curLow, fun h => (by cases h), fun h => (by cases h), h1, h2, ?_, h.taken, h.asleep,
      fun t v u hx => ⟨(h.staa t v u hx).1, rfl⟩⟩
    intro L hL
    exact ⟨rfl, (h.admitted L hL).2⟩
  | @next g tardy present hp hlt hF hU ho =>
    have hk : ∀ j x, x ≤ s.known j → x ≤ if tardy j && decide (lf_tag_compare g (s.known j) > 0) then g else s.known j := by
      intro j x hx
      split
      · rename_i ht
        simp only [Bool.and_eq_true, decide_eq_true_eq, gt_iff_lt, cmp_gt_zero] at ht
        exact Tag.le_trans hx (Tag.le_of_lt ht.2)
      · exact hx
    have hf := fresh hw (s := nextTag c s g tardy present)
      (fun h => (by rw [show (nextTag c s g tardy present).phase = s.phase from rfl, hp] at h; cases h))
      (fun h => (by rw [show (nextTag c s g tardy present).phase = s.phase from rfl, hp] at h; cases h)) rfl
    refine ⟨hF, hU, ?_, ?_, ?_, hf.1, hf.2.imp id (fun h => h.2), fun _ h => (by cases h), ?_, fun _ h => (by cases h), h.staa⟩
    · have := h.curLow
      show NEVER < g.time
      rw [Tag.lt_def] at hlt; omega
    · intro h; rw [show (nextTag c s g tardy present).phase = s.phase from rfl, hp] at h; cases h
    · intro h; rw [show (nextTag c s g tardy present).phase = s.phase from rfl, hp] at h; cases h
    · intro hpr j hj
      rcases h.taken hpr j hj with h1 | h1
      · exact Or.inl (hk j _ h1)
      · right
        have := hk j _ (Tag.le_refl _)
        show FOREVER ≤ (if tardy j && decide (lf_tag_compare g (s.known j) > 0) then g else s.known j).time
        rw [Tag.le_def] at this; omega
  | @stall level hp =>
    unfold Level.stall
    split
    · rename_i hL
      refine ⟨h.curTime, h.curMicro, h.curLow, h.curInit, h.gap, h.safe, h.reason, h.admitted, h.taken, ?_, h.staa⟩
      intro L
      show upd s.asleep level true L = true → _
      unfold upd
      split
      · rename_i hx; intro _; rw [hx]; exact hL
      · exact h.asleep L
    · rename_i hL
      refine ⟨h.curTime, h.curMicro, h.curLow, h.curInit, h.gap, h.safe, h.reason, ?_, h.taken, h.asleep, h.staa⟩
      intro L
      show upd s.admitted level true L = true → _
      unfold upd
      split
      · rename_i hx
        intro _
        subst hx
        refine ⟨hp, ?_⟩
        cases hg : granted c s.cur s.lastTAG s.prov with
        | true => exact Or.inl rfl
        | false =>
          right
          intro i hi hl
          cases hb : blocks c s.cur s.known i with
          | false => rfl
          | true =>
            have hr : ref c s = s.cur := by unfold ref; rw [if_neg (by rw [hp]; simp)]
            have := h.safe (by rw [hr]; exact hg) i hi (by rw [hr]; exact hb)
            omega
      · exact h.admitted L
  | clock ht =>
    exact ⟨h.curTime, h.curMicro, h.curLow, h.curInit, h.gap, h.safe, h.reason, h.admitted, h.taken, h.asleep, h.staa⟩
  | arm hd hp =>
    refine ⟨h.curTime, h.curMicro, h.curLow, h.curInit, h.gap, h.safe, h.reason, h.admitted, h.taken, h.asleep, ?_⟩
    intro t v u hx
    simp only [Option.some.injEq, Prod.mk.injEq] at hx
    obtain ⟨rfl, rfl, rfl⟩ := hx
    exact ⟨rfl, hp⟩
  | @timeout i t u hi hw' ho hc hst hs hor =>
    refine ((h.status (upd s.status i .absent)).updatePort hw (fun hp => ?_) hs).hist _
    have h1 := (h.staa _ _ _ hw').2
    rw [show s.phase = .waiting from hp] at h1; cases h1

end ReactorC.Level
