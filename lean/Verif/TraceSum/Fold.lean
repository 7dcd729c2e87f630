import Verif.TraceSum.Slots
import Mathlib.Data.List.Induction
import Mathlib.Tactic.Linarith

/-!
# The entries of the statistics after all records
-/

namespace ReactorC.TraceSum
open ReactorC.Trace.File

variable {table : List Object} {names : Nat → List UInt8}

/-- An entry after records. -/
def final (table : List Object) (k : Nat) (l : List Record) : Stats := l.foldl (fun s r => effect table r k s) .zero

theorem final_append (k : Nat) (l : List Record) (r : Record) : final table k (l ++ [r]) = effect table r k (final table k l) := by
  simp [final]

theorem foldl_skip {α β : Type} (f : β → α → β) (p : α → Prop) [DecidablePred p] (l : List α) (b : β) :
    l.foldl (fun b a => if p a then f b a else b) b = (l.filter fun a => decide (p a)).foldl f b := by
  induction l generalizing b with
  | nil => rfl
  | cons a l ih =>
    by_cases h : p a
    · simp [h, ih]
    · simp [h, ih]

/-- The statistics after records that are ordinary. -/
theorem collected {l : List Record} (h : ∀ r ∈ l, Ordinary table r) :
    (l.foldl (fun (S : Sum) r => S.record names table r) Sum.init).fault = false ∧
    (∀ e < NUM_EVENT_TYPES, (l.foldl (fun (S : Sum) r => S.record names table r) Sum.init).slot e =
      if l.countP (fun r => r.event = e) = 0 then none
      else some { event := e, description := some (names e), occurrences := l.countP (fun r => r.event = e), seen := 0, reactions := fun _ => .zero }) ∧
    ∀ k, (l.foldl (fun (S : Sum) r => S.record names table r) Sum.init).get (NUM_EVENT_TYPES + k) = final table k l := by
  induction l using List.reverseRecOn with
  | nil => exact ⟨rfl, fun e _ => by simp [Sum.init], fun k => rfl⟩
  | append_singleton l r ih =>
    obtain ⟨h1, h2, h3⟩ := ih fun x hx => h x (List.mem_append_left _ hx)
    obtain ⟨k1, k2, k3⟩ := record_does (names := names) (S := l.foldl (fun (S : Sum) r => S.record names table r) Sum.init) (h r (by simp))
    simp only [List.foldl_append, List.foldl_cons, List.foldl_nil, List.countP_append, List.countP_singleton]
    refine ⟨k1.trans h1, fun e he => ?_, fun k => ?_⟩
    · rw [k2 e he]
      by_cases c : e = r.event
      · rw [if_pos c]
        have c' : r.event = e := c.symm
        simp only [c', decide_true, if_true]
        rw [if_neg (by omega)]
        unfold Sum.get
        rw [h2 e he]
        by_cases c0 : l.countP (fun r => r.event = e) = 0
        · simp [c0, Stats.zero]
        · simp [c0]
      · rw [if_neg c, h2 e he]
        have c' : ¬r.event = e := fun x => c x.symm
        simp [c']
    · rw [k3, h3, final_append]

/-! ## Reactors -/

/-- The numbers after beginnings and ends. -/
def folded (l : List (Bool × Int)) (x : RStats) : RStats := l.foldl (fun x e => during e.1 e.2 x) x

theorem executions_append (o : Nat) (j : Int) (l : List Record) (r : Record) : executions table o j (l ++ [r]) = executions table o j l ++
    if (r.event = 0 ∨ r.event = 1) ∧ object table r = some o ∧ signed 32 r.dst = j then [(decide (r.event = 1), signed 64 r.physical)] else [] := by
  unfold executions
  rw [List.filterMap_append]
  congr 1
  by_cases h : (r.event = 0 ∨ r.event = 1) ∧ object table r = some o ∧ signed 32 r.dst = j
  · simp [h]
  · rw [if_neg h, List.filterMap_cons_none (by simp only [if_neg h]), List.filterMap_nil]

theorem not_trigger {r : Record} {k : Nat} {x : Object} (hx : table[k]? = some x) (ht : x.type ≠ 1) : trigger table r ≠ some k := by
  intro h
  obtain ⟨h1, h2, _⟩ := List.findIdx?_eq_some_iff_getElem.1 h
  rw [List.getElem?_eq_getElem h1] at hx
  cases hx
  simp at h2
  exact ht h2.2

theorem not_user {r : Record} (hr : Ordinary table r) {k : Nat} {x : Object} (hx : table[k]? = some x) (ht : x.type ≠ 2)
    (he : r.event = 4 ∨ r.event = 5) : object table r ≠ some k := by
  intro h
  obtain ⟨o, y, h1, h2, h3⟩ := hr.user he
  rw [h] at h1; cases h1
  rw [hx] at h2; cases h2
  exact ht h3

theorem not_reactor {r : Record} (hr : Ordinary table r) {k : Nat} {x : Object} (hx : table[k]? = some x) (ht : x.type ≠ 0)
    (he : r.event = 0 ∨ r.event = 1) : object table r ≠ some k := by
  intro h
  obtain ⟨o, y, h1, h2, h3⟩ := hr.reactor he
  rw [h] at h1; cases h1
  rw [hx] at h2; cases h2
  exact ht h3

theorem lt_of_some {k : Nat} {x : Object} (hx : table[k]? = some x) : k < table.length := by
  by_contra h
  rw [List.getElem?_eq_none (by omega)] at hx
  cases hx

/-- The effect on the entry of a reactor. -/
theorem effect_reactor {r : Record} (hr : Ordinary table r) {k : Nat} {x : Object} (hx : table[k]? = some x) (ht : x.type = 0) (s : Stats) :
    effect table r k s = if (r.event = 0 ∨ r.event = 1) ∧ signed 32 r.dst < 64 ∧ object table r = some k then
      { event := r.event
        description := some x.description
        occurrences := s.occurrences + 1
        seen := if signed 32 r.dst ≥ s.seen then signed 32 r.dst + 1 else s.seen
        reactions := Function.update s.reactions (signed 32 r.dst).toNat
          (during (decide (r.event = 1)) (signed 64 r.physical) (s.reactions (signed 32 r.dst).toNat)) }
    else s := by
  have hk := lt_of_some hx
  unfold effect
  by_cases h01 : r.event = 0 ∨ r.event = 1
  · simp [h01, hx]
  · have hn : ¬((r.event = 0 ∨ r.event = 1) ∧ signed 32 r.dst < 64 ∧ object table r = some k) := fun c => h01 c.1
    rw [if_neg h01, if_neg hn]
    split
    · rw [if_neg (not_trigger hx (by omega))]
    split
    · rename_i h; rw [if_neg (not_user hr hx (by omega) (.inl h))]
    split
    · rename_i h; rw [if_neg (not_user hr hx (by omega) (.inr h))]
    split
    · rw [if_neg (by omega)]
    · rfl

theorem final_reactor {l : List Record} (h : ∀ r ∈ l, Ordinary table r) {k : Nat} {x : Object} (hx : table[k]? = some x) (ht : x.type = 0) :
    (∀ j : Nat, j < 64 → (final table k l).reactions j = folded (executions table k j l) .zero) ∧
    (0 ≤ (final table k l).seen ∧ (final table k l).seen ≤ 64) ∧
    (∀ j : Nat, j < 64 → executions table k j l ≠ [] → (j : Int) < (final table k l).seen) ∧
    ((final table k l).seen > 0 → (final table k l).description = some x.description) ∧
    ((final table k l).event = 0 ∨ (final table k l).event = 1) := by
  induction l using List.reverseRecOn with
  | nil => exact ⟨fun j _ => rfl, ⟨le_refl _, Int.le.intro 64 rfl⟩, fun j _ c => absurd rfl c, fun c => absurd c (Int.lt_irrefl 0), .inl rfl⟩
  | append_singleton l r ih =>
    obtain ⟨i1, ⟨i2, i2'⟩, i3, i4, i5⟩ := ih fun x hx => h x (List.mem_append_left _ hx)
    have hr := h r (by simp)
    rw [final_append, effect_reactor hr hx ht]
    by_cases c : (r.event = 0 ∨ r.event = 1) ∧ signed 32 r.dst < 64 ∧ object table r = some k
    · rw [if_pos c]
      obtain ⟨c1, c2, c3⟩ := c
      obtain ⟨d, hd⟩ := Int.eq_ofNat_of_zero_le (hr.reaction c1)
      rw [hd] at c2 ⊢
      refine ⟨fun j hj => ?_, ⟨?_, ?_⟩, fun j hj hne => ?_, fun _ => rfl, c1⟩
      · rw [executions_append, hd]
        by_cases e : j = d
        · subst e
          have hp : (r.event = 0 ∨ r.event = 1) ∧ object table r = some k ∧ (j : Int) = (j : Int) := ⟨c1, c3, rfl⟩
          rw [if_pos hp]
          simp only [Int.toNat_natCast, Function.update_self]
          rw [i1 j hj]
          simp [folded]
        · rw [if_neg (c := (r.event = 0 ∨ r.event = 1) ∧ object table r = some k ∧ (d : Int) = (j : Int)) (by rintro ⟨_, _, k⟩; omega), List.append_nil]
          simp only [Int.toNat_natCast]
          rw [Function.update_of_ne e, i1 j hj]
      · dsimp only
        split <;> omega
      · dsimp only
        split <;> omega
      · rw [executions_append, hd] at hne
        dsimp only
        by_cases e : j = d
        · subst e; split <;> omega
        · rw [if_neg (c := (r.event = 0 ∨ r.event = 1) ∧ object table r = some k ∧ (d : Int) = (j : Int)) (by rintro ⟨_, _, k⟩; omega), List.append_nil] at hne
          have := i3 j hj hne
          split <;> omega
    · rw [if_neg c]
      have ex (j : Nat) (hj : j < 64) : executions table k j (l ++ [r]) = executions table k j l := by
        rw [executions_append, if_neg, List.append_nil]
        rintro ⟨k1, k2, k3⟩
        exact c ⟨k1, by omega, k2⟩
      exact ⟨fun j hj => by rw [ex j hj, i1 j hj], ⟨i2, i2'⟩, fun j hj hne => i3 j hj (ex j hj ▸ hne), i4, i5⟩

/-- What is not a reactor has no executions. -/
theorem executions_none {l : List Record} (h : ∀ r ∈ l, Ordinary table r) {k : Nat} {x : Object} (hx : table[k]? = some x) (ht : x.type ≠ 0) (j : Int) :
    executions table k j l = [] := by
  rw [executions, List.filterMap_eq_nil_iff]
  intro r hr
  rw [if_neg]
  rintro ⟨c1, c2, _⟩
  exact not_reactor (h r hr) hx ht c1 c2

/-! ## Triggers -/

theorem effect_trigger {r : Record} (hr : Ordinary table r) {k : Nat} {x : Object} (hx : table[k]? = some x) (h0 : x.type ≠ 0) (h2 : x.type ≠ 2) (s : Stats) :
    effect table r k s = if r.event = 3 ∧ trigger table r = some k then
      { s with event := 3, description := some x.description, occurrences := s.occurrences + 1 } else s := by
  have hk := lt_of_some hx
  unfold effect
  by_cases h01 : r.event = 0 ∨ r.event = 1
  · rw [if_pos h01, if_neg (fun c => not_reactor hr hx h0 h01 c.2), if_neg (by omega)]
  rw [if_neg h01]
  by_cases h3 : r.event = 3
  · simp [h3, hx]
  have hn : ¬(r.event = 3 ∧ trigger table r = some k) := fun c => h3 c.1
  rw [if_neg h3, if_neg hn]
  split
  · rename_i h; rw [if_neg (not_user hr hx (by omega) (.inl h))]
  split
  · rename_i h; rw [if_neg (not_user hr hx (by omega) (.inr h))]
  split
  · rw [if_neg (by omega)]
  · rfl

theorem final_trigger {l : List Record} (h : ∀ r ∈ l, Ordinary table r) {k : Nat} {x : Object} (hx : table[k]? = some x) (h0 : x.type ≠ 0) (h2 : x.type ≠ 2) :
    final table k l = if schedules table k l = [] then .zero
      else { event := 3, description := some x.description, occurrences := (schedules table k l).length, seen := 0, reactions := fun _ => .zero } := by
  induction l using List.reverseRecOn with
  | nil => rfl
  | append_singleton l r ih =>
    rw [final_append, effect_trigger (h r (by simp)) hx h0 h2, ih fun x hx => h x (List.mem_append_left _ hx)]
    have e : schedules table k (l ++ [r]) = schedules table k l ++ if r.event = 3 ∧ trigger table r = some k then [r] else [] := by
      unfold schedules
      rw [List.filter_append]
      congr 1
      by_cases c : r.event = 3 ∧ trigger table r = some k
      · simp [c]
      · rw [if_neg c, List.filter_eq_nil_iff]
        simpa using c
    rw [e]
    by_cases c : r.event = 3 ∧ trigger table r = some k
    · simp only [if_pos c]
      have hn : ¬schedules table k l ++ [r] = [] := by simp
      rw [if_neg hn]
      by_cases n : schedules table k l = []
      · rw [if_pos n, n]; rfl
      · rw [if_neg n]; simp
    · simp only [if_neg c, List.append_nil]

theorem schedules_none {l : List Record} {k : Nat} {x : Object} (hx : table[k]? = some x) (ht : x.type ≠ 1) :
    schedules table k l = [] := by
  rw [schedules, List.filter_eq_nil_iff]
  intro r _
  simp only [Bool.and_eq_true, decide_eq_true_eq]
  rintro ⟨_, c⟩
  exact not_trigger hx ht c

/-! ## User-defined events -/

theorem effect_user {r : Record} (hr : Ordinary table r) {k : Nat} {x : Object} (hx : table[k]? = some x) (ht : x.type = 2) (s : Stats) :
    effect table r k s = if (r.event = 4 ∨ r.event = 5) ∧ object table r = some k then
      { s with
        event := r.event
        description := some x.description
        occurrences := s.occurrences + 1
        reactions := if r.event = 5 then Function.update s.reactions 0 ((s.reactions 0).count (signed 64 r.extra)) else s.reactions } else s := by
  have hk := lt_of_some hx
  unfold effect
  by_cases h01 : r.event = 0 ∨ r.event = 1
  · rw [if_pos h01, if_neg (fun c => not_reactor hr hx (by omega) h01 c.2), if_neg (by omega)]
  rw [if_neg h01]
  by_cases h3 : r.event = 3
  · rw [if_pos h3, if_neg (not_trigger hx (by omega)), if_neg (by omega)]
  rw [if_neg h3]
  by_cases h4 : r.event = 4
  · simp [h4, hx]
  rw [if_neg h4]
  by_cases h5 : r.event = 5
  · simp [h5, hx]
  rw [if_neg h5, if_neg (c := (r.event = 4 ∨ r.event = 5) ∧ object table r = some k) (by omega)]
  split
  · rw [if_neg (by omega)]
  · rfl

/-- The last one has a value. -/
def lastValue (l : List Record) : Bool := (l.getLast?.map fun r => decide (r.event = 5)).getD false

theorem final_user {l : List Record} (h : ∀ r ∈ l, Ordinary table r) {k : Nat} {x : Object} (hx : table[k]? = some x) (ht : x.type = 2) :
    (final table k l).occurrences = (userEvents table k l).length ∧
    (final table k l).seen = 0 ∧
    ((final table k l).reactions 0 = (values table k l).foldl RStats.count .zero) ∧
    (userEvents table k l = [] → (final table k l).event = 0) ∧
    (userEvents table k l ≠ [] → (final table k l).description = some x.description ∧
      (final table k l).event = if lastValue (userEvents table k l) then 5 else 4) := by
  induction l using List.reverseRecOn with
  | nil => exact ⟨rfl, rfl, rfl, fun _ => rfl, fun c => absurd rfl c⟩
  | append_singleton l r ih =>
    obtain ⟨i1, i2, i3, i4, i5⟩ := ih fun x hx => h x (List.mem_append_left _ hx)
    rw [final_append, effect_user (h r (by simp)) hx ht]
    have e : userEvents table k (l ++ [r]) = userEvents table k l ++ if (r.event = 4 ∨ r.event = 5) ∧ object table r = some k then [r] else [] := by
      unfold userEvents
      rw [List.filter_append]
      congr 1
      by_cases c : (r.event = 4 ∨ r.event = 5) ∧ object table r = some k
      · rw [if_pos c, List.filter_cons_of_pos (by simpa using c), List.filter_nil]
      · rw [if_neg c, List.filter_cons_of_neg (by simpa using c), List.filter_nil]
    have v : values table k (l ++ [r]) = values table k l ++ if r.event = 5 ∧ object table r = some k then [signed 64 r.extra] else [] := by
      unfold values
      rw [List.filterMap_append]
      congr 1
      by_cases c : r.event = 5 ∧ object table r = some k
      · simp [c]
      · rw [if_neg c, List.filterMap_cons_none (by simp only [if_neg c]), List.filterMap_nil]
    rw [e, v]
    by_cases c : (r.event = 4 ∨ r.event = 5) ∧ object table r = some k
    · simp only [if_pos c]
      refine ⟨by simp [i1], i2, ?_, fun k => absurd k (by simp), fun _ => ⟨by simp, ?_⟩⟩
      · by_cases c5 : r.event = 5
        · simp [c5, c.2, i3]
        · simp [c5, i3]
      · simp only [lastValue, List.getLast?_append, List.getLast?_singleton]
        rcases c.1 with c4 | c5
        · simp [c4]
        · simp [c5]
    · have c5 : ¬(r.event = 5 ∧ object table r = some k) := fun x => c ⟨.inr x.1, x.2⟩
      simp only [if_neg c, if_neg c5, List.append_nil]
      exact ⟨i1, i2, i3, i4, i5⟩

theorem userEvents_none {l : List Record} (h : ∀ r ∈ l, Ordinary table r) {k : Nat} {x : Object} (hx : table[k]? = some x) (ht : x.type ≠ 2) :
    userEvents table k l = [] := by
  rw [userEvents, List.filter_eq_nil_iff]
  intro r hr
  simp only [Bool.and_eq_true, Bool.or_eq_true, decide_eq_true_eq]
  rintro ⟨c1, c2⟩
  exact not_user (h r hr) hx ht c1 c2

/-! ## Workers -/

theorem effect_worker {r : Record} (hr : Ordinary table r) {i : Nat} (s : Stats) :
    effect table r (table.length + i) s = if (r.event = 6 ∨ r.event = 7) ∧ (i : Int) = signed 32 r.src * 2 then
      { event := r.event
        description := s.description
        occurrences := s.occurrences + 1
        seen := if (i : Int) ≥ s.seen then i else s.seen
        reactions := Function.update s.reactions i
          (during (decide (r.event = 7)) (signed 64 r.physical) (s.reactions i)) }
    else s := by
  have ho : object table r ≠ some (table.length + i) := fun c => by have := index_lt c; omega
  have htr : trigger table r ≠ some (table.length + i) := fun c => by have := index_lt c; omega
  unfold effect
  by_cases h01 : r.event = 0 ∨ r.event = 1
  · rw [if_pos h01, if_neg (fun c => ho c.2), if_neg (by omega)]
  rw [if_neg h01]
  by_cases h3 : r.event = 3
  · rw [if_pos h3, if_neg htr, if_neg (by omega)]
  rw [if_neg h3]
  by_cases h4 : r.event = 4
  · rw [if_pos h4, if_neg ho, if_neg (by omega)]
  rw [if_neg h4]
  by_cases h5 : r.event = 5
  · rw [if_pos h5, if_neg ho, if_neg (by omega)]
  rw [if_neg h5]
  by_cases h67 : r.event = 6 ∨ r.event = 7
  · rw [if_pos h67]
    obtain ⟨w0, w1⟩ := hr.worker h67
    obtain ⟨w, hw⟩ := Int.eq_ofNat_of_zero_le w0
    rw [hw, Int.toNat_natCast]
    by_cases e : i = w * 2
    · have e2 : (i : Int) = (w : Int) * 2 := by omega
      have p1 : table.length + i = table.length + w * 2 := by omega
      have p2 : (r.event = 6 ∨ r.event = 7) ∧ (i : Int) = (w : Int) * 2 := ⟨h67, e2⟩
      rw [if_pos p1, if_pos p2, ← e2, ← e]
    · rw [if_neg (by omega), if_neg (by omega)]
  · rw [if_neg h67, if_neg (fun c => h67 c.1)]

theorem final_worker {l : List Record} (h : ∀ r ∈ l, Ordinary table r) (w : Nat) :
    ((final table (table.length + w * 2) l).reactions (w * 2) = folded (waits w l) .zero) ∧
    (∀ j, j ≠ w * 2 → (final table (table.length + w * 2) l).reactions j = .zero) ∧
    (final table (table.length + w * 2) l).seen = (if waits w l = [] then 0 else (w : Int) * 2) ∧
    (final table (table.length + w * 2) l).event = ((waits w l).getLast?.map fun e => if e.1 then 7 else 6).getD 0 := by
  induction l using List.reverseRecOn with
  | nil => exact ⟨rfl, fun _ _ => rfl, rfl, rfl⟩
  | append_singleton l r ih =>
    obtain ⟨i1, i2, i3, i4⟩ := ih fun x hx => h x (List.mem_append_left _ hx)
    rw [final_append, effect_worker (h r (by simp))]
    have e : waits w (l ++ [r]) = waits w l ++ if (r.event = 6 ∨ r.event = 7) ∧ signed 32 r.src = w then [(decide (r.event = 7), signed 64 r.physical)] else [] := by
      unfold waits
      rw [List.filterMap_append]
      congr 1
      by_cases c : (r.event = 6 ∨ r.event = 7) ∧ signed 32 r.src = w
      · simp [c]
      · rw [if_neg c, List.filterMap_cons_none (by simp only [if_neg c]), List.filterMap_nil]
    have hc : ((r.event = 6 ∨ r.event = 7) ∧ ((w * 2 : Nat) : Int) = signed 32 r.src * 2) ↔ (r.event = 6 ∨ r.event = 7) ∧ signed 32 r.src = w := by
      constructor
      · rintro ⟨a, b⟩; exact ⟨a, by omega⟩
      · rintro ⟨a, b⟩; exact ⟨a, by omega⟩
    rw [e]
    by_cases c : (r.event = 6 ∨ r.event = 7) ∧ signed 32 r.src = w
    · simp only [if_pos c, if_pos (hc.2 c)]
      refine ⟨?_, fun j hj => ?_, ?_, ?_⟩
      · simp [i1, folded]
      · rw [Function.update_of_ne hj, i2 j hj]
      · have hn : ¬waits (w : Int) l ++ [(decide (r.event = 7), signed 64 r.physical)] = [] := by simp
        rw [if_neg hn, i3]
        by_cases n : waits (w : Int) l = []
        · rw [if_pos n, if_pos (by omega)]; omega
        · rw [if_neg n, if_pos (by omega)]; omega
      · simp only [List.getLast?_append, List.getLast?_singleton]
        rcases c.1 with c6 | c7
        · simp [c6]
        · simp [c7]
    · simp only [if_neg c, if_neg (fun x => c (hc.1 x)), List.append_nil]
      exact ⟨i1, i2, i3, i4⟩

/-- The other entries are not used. -/
theorem final_other {l : List Record} (h : ∀ r ∈ l, Ordinary table r) {i : Nat} (hi : ∀ w : Nat, w < 32 → i ≠ w * 2) :
    final table (table.length + i) l = .zero := by
  induction l using List.reverseRecOn with
  | nil => rfl
  | append_singleton l r ih =>
    rw [final_append, effect_worker (h r (by simp)), if_neg]
    · exact ih fun x hx => h x (List.mem_append_left _ hx)
    · rintro ⟨c1, c2⟩
      obtain ⟨w0, w1⟩ := (h r (by simp)).worker c1
      exact hi (signed 32 r.src).toNat (by omega) (by omega)

end ReactorC.TraceSum
