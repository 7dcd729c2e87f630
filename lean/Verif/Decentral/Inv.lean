import Verif.Decentral.Model
import Mathlib.Data.List.Nodup
import Mathlib.Data.List.Perm.Subperm

/-! # What holds in every state of a federate with decentralized coordination -/

namespace ReactorC.Decentral

open ReactorC.Level (Config Port Phase MIN_SLEEP_DURATION Small bump upd exempt waitOver newKnown actualTag)

theorem lt_bump {t : Tag} (h : t.microstep < UINT_MAX) : t < bump t := by
  rw [Level.bump_small h, Tag.lt_def]; right; exact ⟨rfl, Nat.lt_succ_self _⟩

theorem bump_le {t x : Tag} (h : t.microstep < UINT_MAX) : bump t ≤ x ↔ t < x := by
  rw [Level.bump_small h, Tag.lt_def, Tag.le_def]; simp only []; omega

theorem le_of_lt_bump {t x : Tag} (h : t.microstep < UINT_MAX) : x < bump t ↔ x ≤ t := by
  rw [Level.bump_small h, Tag.lt_def, Tag.le_def]; simp only []; omega

/-! ## The event queue -/

theorem foldl_min (l : List Ev) : ∀ t : Tag,
    let m := l.foldl (fun t e => if e.tag < t then e.tag else t) t
    m ≤ t ∧ (∀ e ∈ l, m ≤ e.tag) ∧ (m = t ∨ ∃ e ∈ l, e.tag = m) := by
  induction l with
  | nil => intro t; exact ⟨Tag.le_refl _, fun _ h => (by cases h), Or.inl rfl⟩
  | cons e l ih =>
    intro t
    simp only [List.foldl_cons]
    obtain ⟨h1, h2, h3⟩ := ih (if e.tag < t then e.tag else t)
    have ha : (if e.tag < t then e.tag else t) ≤ t := by
      split
      · rename_i h; exact Tag.le_of_lt h
      · exact Tag.le_refl _
    have hb : (if e.tag < t then e.tag else t) ≤ e.tag := by
      split
      · exact Tag.le_refl _
      · rename_i h; rw [Tag.not_lt] at h; exact h
    refine ⟨Tag.le_trans h1 ha, ?_, ?_⟩
    · intro x hx
      rcases List.mem_cons.1 hx with rfl | hx
      · exact Tag.le_trans h1 hb
      · exact h2 x hx
    · rcases h3 with h3 | ⟨x, hx, h3⟩
      · rw [h3]
        split
        · exact Or.inr ⟨e, List.mem_cons_self, rfl⟩
        · exact Or.inl rfl
      · exact Or.inr ⟨x, List.mem_cons_of_mem _ hx, h3⟩

theorem nextTag_le_stop (s : State) : nextTag s ≤ s.stop := (foldl_min s.q s.stop).1
theorem nextTag_le (s : State) {e : Ev} (h : e ∈ s.q) : nextTag s ≤ e.tag := (foldl_min s.q s.stop).2.1 e h
theorem nextTag_cases (s : State) : nextTag s = s.stop ∨ ∃ e ∈ s.q, e.tag = nextTag s := (foldl_min s.q s.stop).2.2

theorem found_iff (q : List Ev) (i : Nat) (t : Tag) : found q i t = true ↔ ∃ e ∈ q, e.port = some i ∧ e.tag = t := by
  unfold found
  simp only [List.any_eq_true, Bool.and_eq_true, decide_eq_true_eq]

theorem found_false (q : List Ev) (i : Nat) (t : Tag) : found q i t = false ↔ ∀ e ∈ q, e.port = some i → e.tag ≠ t := by
  rw [← Bool.not_eq_true, found_iff]
  constructor
  · intro h e he hp ht; exact h ⟨e, he, hp, ht⟩
  · rintro h ⟨e, he, hp, ht⟩; exact h e he hp ht

theorem mem_due (q : List Ev) (t : Tag) (e : Ev) : e ∈ due q t ↔ e ∈ q ∧ e.tag = t := by
  unfold due; simp only [List.mem_filter, decide_eq_true_eq]

theorem mem_rest (q : List Ev) (t : Tag) (e : Ev) : e ∈ rest q t ↔ e ∈ q ∧ e.tag ≠ t := by
  unfold rest; simp only [List.mem_filter, Bool.not_eq_true', decide_eq_false_iff_not]

/-- The tags the search goes through are those of events. -/
theorem freeTag_cases (q : List Ev) (i : Nat) (n : Nat) : ∀ t : Tag,
    ∃ k, k ≤ n ∧ freeTag q i n t = ⟨t.time, t.microstep + k⟩ ∧ (∀ j < k, found q i ⟨t.time, t.microstep + j⟩ = true) ∧
      (k < n → found q i ⟨t.time, t.microstep + k⟩ = false) := by
  induction n with
  | zero => intro t; exact ⟨0, Nat.le_refl _, rfl, fun j h => (by omega), fun h => (by omega)⟩
  | succ n ih =>
    intro t
    unfold freeTag
    cases hf : found q i t with
    | false => exact ⟨0, by omega, by simp, fun j h => (by omega), fun _ => hf⟩
    | true =>
      rw [if_pos rfl]
      obtain ⟨k, h1, h2, h3, h4⟩ := ih ⟨t.time, t.microstep + 1⟩
      refine ⟨k + 1, by omega, ?_, ?_, ?_⟩
      · rw [h2, Tag.ext_iff']; exact ⟨rfl, by show t.microstep + 1 + k = t.microstep + (k + 1); omega⟩
      · intro j hj
        cases j with
        | zero => exact hf
        | succ j =>
          have := h3 j (by omega)
          simp only [] at this
          rw [show t.microstep + (j + 1) = t.microstep + 1 + j by omega]
          exact this
      · intro hk
        have := h4 (by omega)
        simp only [] at this
        rw [show t.microstep + (k + 1) = t.microstep + 1 + k by omega]
        exact this

theorem freeTag_ge (q : List Ev) (i n : Nat) (t : Tag) : t ≤ freeTag q i n t := by
  obtain ⟨k, _, h, _⟩ := freeTag_cases q i n t
  rw [h, Tag.le_def]; right; exact ⟨rfl, Nat.le_add_right _ _⟩

/-- As many different tags have events of a port, as many events there are. -/
theorem count_le (q : List Ev) (i : Nat) (T : Int) (m : Nat) : ∀ k, (∀ j < k, found q i ⟨T, m + j⟩ = true) → k ≤ q.length := by
  intro k h
  have h1 : ((List.range k).map fun j => (⟨T, m + j⟩ : Tag)) ⊆ q.map (·.tag) := by
    intro x hx
    obtain ⟨j, hj, rfl⟩ := List.mem_map.1 hx
    obtain ⟨e, he, _, ht⟩ := (found_iff _ _ _).1 (h j (List.mem_range.1 hj))
    exact List.mem_map.2 ⟨e, he, ht⟩
  have h2 : ((List.range k).map fun j => (⟨T, m + j⟩ : Tag)).Nodup := by
    refine List.Nodup.map ?_ List.nodup_range
    intro a b hab
    simp only [Tag.mk.injEq] at hab
    omega
  have h3 := (List.Nodup.subperm h2 h1).length_le
  simpa using h3

/-- The tag found is free. -/
theorem freeTag_free (q : List Ev) (i : Nat) (t : Tag) : found q i (freeTag q i q.length t) = false := by
  obtain ⟨k, h1, h2, h3, h4⟩ := freeTag_cases q i q.length t
  rw [h2]
  by_cases hk : k < q.length
  · exact h4 hk
  · cases hf : found q i ⟨t.time, t.microstep + k⟩ with
    | false => rfl
    | true =>
      exfalso
      have := count_le q i t.time t.microstep (k + 1) (fun j hj => by
        by_cases hjk : j < k
        · exact h3 j hjk
        · rw [show j = k by omega]; exact hf)
      omega

/-! ## Deliveries -/

/-- One more event. -/
theorem pop1_mem (cur : Tag) (ds : List Delivery) (e : Ev) (d : Delivery) (h : d ∈ pop1 cur ds e) :
    (∃ d' ∈ ds, d'.port = d.port ∧ d'.intended = d.intended ∧ d'.at_ = d.at_ ∧ d'.late = d.late) ∨
    (e.port = some d.port ∧ d = ⟨d.port, e.intended, e.val, cur, decide (e.intended < cur)⟩) := by
  unfold pop1 at h
  cases hp : e.port with
  | none => rw [hp] at h; exact Or.inl ⟨d, h, rfl, rfl, rfl, rfl⟩
  | some i =>
    rw [hp] at h
    simp only [] at h
    split at h
    · obtain ⟨d', hd', rfl⟩ := List.mem_map.1 h
      left
      refine ⟨d', hd', ?_⟩
      split <;> simp
    · rcases List.mem_append.1 h with h | h
      · exact Or.inl ⟨d, h, rfl, rfl, rfl, rfl⟩
      · rw [List.mem_singleton] at h
        right
        subst h
        simp only [true_and, cmp_lt_zero]

/-- Every delivery of popped events comes from one of them. -/
theorem pops_mem (cur : Tag) (l : List Ev) (d : Delivery) (h : d ∈ pops cur l) :
    ∃ e ∈ l, e.port = some d.port ∧ d.intended = e.intended ∧ d.at_ = cur ∧ d.late = decide (e.intended < cur) := by
  have key : ∀ (l : List Ev) (ds : List Delivery), d ∈ l.foldl (pop1 cur) ds →
      (∃ d' ∈ ds, d'.port = d.port ∧ d'.intended = d.intended ∧ d'.at_ = d.at_ ∧ d'.late = d.late) ∨
      ∃ e ∈ l, e.port = some d.port ∧ d.intended = e.intended ∧ d.at_ = cur ∧ d.late = decide (e.intended < cur) := by
    intro l
    induction l with
    | nil => intro ds h; exact Or.inl ⟨d, h, rfl, rfl, rfl, rfl⟩
    | cons e l ih =>
      intro ds h
      rw [List.foldl_cons] at h
      rcases ih _ h with ⟨d', hd', h1, h2, h3, h4⟩ | ⟨x, hx, h1⟩
      · rcases pop1_mem cur ds e d' hd' with ⟨d'', hd'', g1, g2, g3, g4⟩ | ⟨g1, g2⟩
        · exact Or.inl ⟨d'', hd'', by rw [g1, h1], by rw [g2, h2], by rw [g3, h3], by rw [g4, h4]⟩
        · right
          refine ⟨e, List.mem_cons_self, by rw [g1, h1], ?_, ?_, ?_⟩
          · rw [← h2, g2]
          · rw [← h3, g2]
          · rw [← h4, g2]
      · exact Or.inr ⟨x, List.mem_cons_of_mem _ hx, h1⟩
  rcases key l [] h with ⟨_, h, _⟩ | h
  · cases h
  · exact h

/-- Every port with a popped event gets a delivery. -/
theorem pop1_port (cur : Tag) (ds : List Delivery) (e : Ev) (i : Nat) :
    (∃ d ∈ pop1 cur ds e, d.port = i) ↔ (∃ d ∈ ds, d.port = i) ∨ e.port = some i := by
  unfold pop1
  cases hp : e.port with
  | none => simp
  | some j =>
    simp only []
    split
    · rename_i ha
      rw [List.any_eq_true] at ha
      obtain ⟨d, hd, hj⟩ := ha
      rw [decide_eq_true_eq] at hj
      constructor
      · rintro ⟨x, hx, hxi⟩
        obtain ⟨y, hy, rfl⟩ := List.mem_map.1 hx
        left
        refine ⟨y, hy, ?_⟩
        rw [← hxi]; split <;> rfl
      · rintro (⟨x, hx, hxi⟩ | hx)
        · refine ⟨_, List.mem_map.2 ⟨x, hx, rfl⟩, ?_⟩
          rw [← hxi]; split <;> rfl
        · refine ⟨_, List.mem_map.2 ⟨d, hd, rfl⟩, ?_⟩
          rw [if_pos hj]
          simp only [Option.some.injEq] at hx
          rw [← hx]; exact hj
    · simp only [List.mem_append, List.mem_singleton, Option.some.injEq]
      constructor
      · rintro ⟨x, hx | hx, hxi⟩
        · exact Or.inl ⟨x, hx, hxi⟩
        · right; rw [hx] at hxi; exact hxi
      · rintro (⟨x, hx, hxi⟩ | hx)
        · exact ⟨x, Or.inl hx, hxi⟩
        · exact ⟨_, Or.inr rfl, hx⟩

/-! ## Messages -/

/-- What `handle` does. -/
theorem handle_cases (c : Config) (s : State) (i : Nat) (g : Tag) (v : Nat) :
    ∃ (l : List Ev) (o : List Delivery) (dr : List Msg) (last' : Nat → Tag),
      handle c s i g v = { s with
        lv := { Level.handleMessage c s.lv i g (decide (s.last i < g)) with hist := .message i g :: s.lv.hist }
        got := (i, g, v) :: s.got
        q := s.q ++ l, out := s.out ++ o, dropped := dr ++ s.dropped, last := last' } ∧
      ((now_ c s i g = true ∧ l = [] ∧ o = [⟨i, g, v, s.lv.cur, decide (g < s.lv.cur)⟩] ∧ dr = [] ∧ last' = s.last) ∨
      (now_ c s i g = false ∧ o = [] ∧
        ((l = [] ∧ dr = [(i, g, v)] ∧ last' = s.last ∧ ((s.stop ≤ s.lv.cur ∧ s.lv.phase = .running) ∨
            (g ≤ s.lv.cur ∧ s.lv.phase = .running ∧ s.stop < freeTag s.q i s.q.length (lf_delay_tag s.lv.cur 0)) ∨
            (¬ (g ≤ s.lv.cur ∧ s.lv.phase = .running) ∧ (s.stop < g ∨ (found s.q i g = true ∧ s.stop < bump g))))) ∨
        (g ≤ s.lv.cur ∧ s.lv.phase = .running ∧ dr = [] ∧
          l = [⟨some i, freeTag s.q i s.q.length (lf_delay_tag s.lv.cur 0), g, v⟩] ∧
          freeTag s.q i s.q.length (lf_delay_tag s.lv.cur 0) ≤ s.stop ∧
          last' = upd s.last i (freeTag s.q i s.q.length (lf_delay_tag s.lv.cur 0))) ∨
        (¬ (g ≤ s.lv.cur ∧ s.lv.phase = .running) ∧ found s.q i g = false ∧ g ≤ s.stop ∧ dr = [] ∧
          l = [⟨some i, g, g, v⟩] ∧ last' = s.last) ∨
        (¬ (g ≤ s.lv.cur ∧ s.lv.phase = .running) ∧ found s.q i g = true ∧ bump g ≤ s.stop ∧ dr = [] ∧
          l = [⟨some i, bump g, g, v⟩] ∧ last' = s.last)))) := by
  have hrec : decide (lf_tag_compare g (s.last i) > 0) = decide (s.last i < g) := by
    rw [decide_eq_decide, gt_iff_lt, cmp_gt_zero]
  have hcur : (Level.handleMessage c s.lv i g (decide (s.last i < g))).cur = s.lv.cur ∧
      (Level.handleMessage c s.lv i g (decide (s.last i < g))).phase = s.lv.phase := by
    unfold Level.handleMessage
    split
    · rcases Level.updatePort_cases c s.lv i g with ⟨h, _⟩ | h <;> rw [h] <;> exact ⟨rfl, rfl⟩
    · rcases Level.updatePort_cases c s.lv i (actualTag c s.lv i g) with ⟨h, _⟩ | h <;> rw [h] <;> exact ⟨rfl, rfl⟩
  unfold handle
  rw [hrec]
  simp only []
  by_cases hn : now_ c s i g = true
  · rw [if_pos hn]
    refine ⟨[], [⟨i, g, v, s.lv.cur, decide (g < s.lv.cur)⟩], [], s.last, ?_, Or.inl ⟨hn, rfl, rfl, rfl, rfl⟩⟩
    have : decide (lf_tag_compare g s.lv.cur < 0) = decide (g < s.lv.cur) := by rw [decide_eq_decide, cmp_lt_zero]
    rw [this]
    simp only [List.append_nil, List.nil_append]
  · rw [if_neg hn]
    rw [Bool.not_eq_true] at hn
    by_cases hd : lf_tag_compare s.lv.cur s.stop ≥ 0 ∧ s.lv.phase = .running
    · rw [if_pos hd]
      rw [ge_iff_le, cmp_ge_zero] at hd
      refine ⟨[], [], [(i, g, v)], s.last, ?_, Or.inr ⟨hn, rfl, Or.inl ⟨rfl, rfl, rfl, Or.inl hd⟩⟩⟩
      simp only [List.append_nil, List.cons_append, List.nil_append]
    · rw [if_neg hd]
      unfold schedule
      simp only [hcur.1, hcur.2, cmp_le_zero]
      by_cases hl : g ≤ s.lv.cur ∧ s.lv.phase = .running
      · rw [if_pos hl]
        unfold scheduleNow
        simp only [gt_iff_lt, cmp_gt_zero]
        by_cases ht : s.stop < freeTag s.q i s.q.length (lf_delay_tag s.lv.cur 0)
        · rw [if_pos ht]
          refine ⟨[], [], [(i, g, v)], s.last, ?_, Or.inr ⟨hn, rfl, Or.inl ⟨rfl, rfl, rfl, Or.inr (Or.inl ⟨hl.1, hl.2, ht⟩)⟩⟩⟩
          simp only [List.append_nil, List.cons_append, List.nil_append]
        · rw [if_neg ht]
          rw [Tag.not_lt] at ht
          refine ⟨_, [], [], _, ?_, Or.inr ⟨hn, rfl, Or.inr (Or.inl ⟨hl.1, hl.2, rfl, rfl, ht, rfl⟩)⟩⟩
          simp only [List.append_nil, List.nil_append]
      · rw [if_neg hl]
        unfold scheduleAt
        simp only [gt_iff_lt, cmp_gt_zero]
        by_cases h1 : s.stop < g
        · rw [if_pos h1]
          refine ⟨[], [], [(i, g, v)], s.last, ?_,
            Or.inr ⟨hn, rfl, Or.inl ⟨rfl, rfl, rfl, Or.inr (Or.inr ⟨hl, Or.inl h1⟩)⟩⟩⟩
          simp only [List.append_nil, List.cons_append, List.nil_append]
        · rw [if_neg h1]
          rw [Tag.not_lt] at h1
          cases hf : found s.q i g with
          | false =>
            rw [if_neg Bool.false_ne_true]
            refine ⟨_, [], [], s.last, ?_, Or.inr ⟨hn, rfl, Or.inr (Or.inr (Or.inl ⟨hl, rfl, h1, rfl, rfl, rfl⟩))⟩⟩
            simp only [List.append_nil, List.nil_append]
          | true =>
            rw [if_pos rfl]
            by_cases h2 : s.stop < bump g
            · rw [if_pos h2]
              refine ⟨[], [], [(i, g, v)], s.last, ?_,
                Or.inr ⟨hn, rfl, Or.inl ⟨rfl, rfl, rfl, Or.inr (Or.inr ⟨hl, Or.inr ⟨rfl, h2⟩⟩)⟩⟩⟩
              simp only [List.append_nil, List.cons_append, List.nil_append]
            · rw [if_neg h2]
              rw [Tag.not_lt] at h2
              refine ⟨_, [], [], s.last, ?_, Or.inr ⟨hn, rfl, Or.inr (Or.inr (Or.inr ⟨hl, rfl, h2, rfl, rfl, rfl⟩))⟩⟩
              simp only [List.append_nil, List.nil_append]

theorem release_cases (s : State) : ∃ h r, release s = { s with horizon := h, requestors := r } ∧ r = s.requestors - 1 ∧
    (r ≠ 0 → h = s.horizon) := by
  unfold release
  by_cases h : s.requestors = 1
  · rw [if_pos h]; exact ⟨_, _, rfl, by omega, fun h => absurd rfl h⟩
  · rw [if_neg h]; exact ⟨_, _, rfl, rfl, fun _ => rfl⟩

theorem raise_cases (s : State) (g : Tag) (hm : s.lv.cur.microstep < UINT_MAX) :
    ∃ h, raise s g = { s with horizon := h, requestors := s.requestors + 1 } ∧ (s.lv.cur < g → h ≤ g) ∧
      (h ≤ s.horizon ∨ h = bump s.lv.cur) ∧ (g ≤ s.lv.cur → h ≤ bump s.lv.cur) := by
  unfold raise
  simp only [gt_iff_lt, cmp_gt_zero, cmp_lt_zero]
  refine ⟨_, rfl, ?_, ?_, ?_⟩
  · intro hg
    by_cases h1 : s.stop < g
    · rw [if_pos h1]
      split
      · split
        · exact Tag.le_of_lt h1
        · rename_i h; rw [Tag.not_lt] at h; exact Tag.le_trans h (Tag.le_of_lt h1)
      · exact (bump_le hm).2 hg
    · rw [if_neg h1, if_pos hg]
      split
      · exact Tag.le_refl _
      · rename_i h; rw [Tag.not_lt] at h; exact h
  · generalize (if s.stop < g then s.stop else g) = f
    split
    · left
      split
      · rename_i h; exact Tag.le_of_lt h
      · exact Tag.le_refl _
    · exact Or.inr rfl
  · intro hg
    have hf : ¬ s.lv.cur < (if s.stop < g then s.stop else g) := by
      rw [Tag.not_lt]
      split
      · rename_i h; exact Tag.le_trans (Tag.le_of_lt h) hg
      · exact hg
    rw [if_neg hf]
    exact Tag.le_refl _

/-- What is known about the ports after a message. -/
theorem handleMessage_lv (c : Config) (l : Level.State) (i : Nat) (g : Tag) (r : Bool) :
    ∃ m sl st, Level.handleMessage c l i g r = { l with
      known := upd l.known i (newKnown l.cur (l.known i) (if Level.handleMessageNow c l i g r then g else actualTag c l i g)),
      mlaa := m, asleep := sl, status := st } := by
  have up : ∀ x, ∃ m sl, Level.updatePort c l i x = { l with
      known := upd l.known i (newKnown l.cur (l.known i) x), mlaa := m, asleep := sl } := by
    intro x
    rcases Level.updatePort_cases c l i x with ⟨h, h'⟩ | h
    · refine ⟨l.mlaa, l.asleep, ?_⟩
      rw [h, h']
      have : upd l.known i (l.known i) = l.known := by
        funext j; unfold upd; split
        · rename_i hj; rw [hj]
        · rfl
      rw [this]
    · exact ⟨_, _, h⟩
  unfold Level.handleMessage
  by_cases h : Level.handleMessageNow c l i g r = true
  · rw [if_pos h, if_pos h]
    obtain ⟨m, sl, he⟩ := up g
    rw [he]
    exact ⟨_, _, _, rfl⟩
  · rw [if_neg h, if_neg h]
    obtain ⟨m, sl, he⟩ := up (actualTag c l i g)
    rw [he]
    exact ⟨_, _, _, rfl⟩

theorem updatePort_lv (c : Config) (l : Level.State) (i : Nat) (x : Tag) :
    ∃ m sl, Level.updatePort c l i x = { l with
      known := upd l.known i (newKnown l.cur (l.known i) x), mlaa := m, asleep := sl } := by
  rcases Level.updatePort_cases c l i x with ⟨h, h'⟩ | h
  · refine ⟨l.mlaa, l.asleep, ?_⟩
    rw [h, h']
    have : upd l.known i (l.known i) = l.known := by
      funext j; unfold upd; split
      · rename_i hj; rw [hj]
      · rfl
    rw [this]
  · exact ⟨_, _, h⟩

end ReactorC.Decentral
