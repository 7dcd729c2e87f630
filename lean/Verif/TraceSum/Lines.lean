import Verif.TraceSum.Fold
import Mathlib.Data.List.Basic

/-!
# From the entries of the statistics to the lines of the tables
-/

namespace ReactorC.TraceSum
open ReactorC.Trace.File

variable {table : List Object} {names : Nat → List UInt8}

/-! ## Numbers -/

/-- The same, up to the latest beginning. -/
def Same (x y : RStats) : Prop := x.occurrences = y.occurrences ∧ x.total = y.total ∧ x.max = y.max ∧ x.min = y.min

theorem Same.line {x y : RStats} (h : Same x y) : x.line = y.line := by
  obtain ⟨h1, h2, h3, h4⟩ := h
  unfold RStats.line
  rw [h1, h2, h3, h4]

theorem Same.count {x y : RStats} (h : Same x y) (v : Int) : Same (x.count v) (y.count v) := by
  obtain ⟨h1, h2, h3, h4⟩ := h
  exact ⟨by simp [RStats.count, h1], by simp [RStats.count, h2], by simp [RStats.count, h3], by simp [RStats.count, h4]⟩

theorem same_folded : ∀ (L : List (Bool × Int)) (x y : RStats), Same x y → Alternate L →
    Same (folded L x) ((durations L).foldl RStats.count y)
  | [], _, _, h, _ => h
  | [(b, t)], x, y, h, a => by
    cases (show b = false from a)
    exact h
  | (b, t) :: (c, u) :: L, x, y, h, a => by
    obtain ⟨rfl, rfl, a⟩ := a
    have e : folded ((false, t) :: (true, u) :: L) x = folded L ((x.starts t).ends u) := rfl
    rw [e]
    exact same_folded L _ _ (Same.count (x := x) (y := y) h (u - t)) a

theorem foldl_count (l : List Int) (hl : ∀ v ∈ l, 0 < v) (x : RStats) (hx : 0 < x.min) :
    (l.foldl RStats.count x).occurrences = x.occurrences + l.length ∧
    (l.foldl RStats.count x).total = x.total + l.sum ∧
    (l.foldl RStats.count x).max = l.foldl max x.max ∧
    (l.foldl RStats.count x).min = l.foldl min x.min := by
  induction l generalizing x with
  | nil => simp
  | cons v l ih =>
    have hv := hl v (by simp)
    have e1 : (x.count v).max = max x.max v := by simp only [RStats.count]; split <;> omega
    have e2 : (x.count v).min = min x.min v := by simp only [RStats.count]; split <;> omega
    obtain ⟨h1, h2, h3, h4⟩ := ih (fun w hw => hl w (by simp [hw])) (x.count v) (by omega)
    simp only [List.foldl_cons, List.length_cons, List.sum_cons]
    rw [h1, h2, h3, h4, e1, e2]
    refine ⟨?_, ?_, rfl, rfl⟩
    · simp only [RStats.count]; omega
    · simp only [RStats.count]; omega

theorem line_summary {l : List Int} (hl : ∀ v ∈ l, 0 < v) : (l.foldl RStats.count .zero).line = summary l := by
  cases l with
  | nil => rfl
  | cons v l =>
    have hv := hl v (by simp)
    have e : RStats.zero.count v = ⟨1, 0, v, v, v⟩ := by simp [RStats.count, RStats.zero, hv]
    obtain ⟨h1, h2, h3, h4⟩ := foldl_count l (fun w hw => hl w (by simp [hw])) (RStats.zero.count v) (by rw [e]; exact hv)
    rw [e] at h1 h2 h3 h4
    simp only [RStats.line, summary, List.foldl_cons, e, h1, h2, h3, h4, List.max?_cons', List.min?_cons', Option.getD_some, List.length_cons,
      List.sum_cons]
    rw [Nat.add_comm]

theorem foldl_occurrences (l : List Int) (x : RStats) : (l.foldl RStats.count x).occurrences = x.occurrences + l.length := by
  induction l generalizing x with
  | nil => rfl
  | cons v l ih => simp only [List.foldl_cons, ih, List.length_cons, RStats.count]; omega

/-- The numbers of a reaction or worker. -/
theorem folded_line {L : List (Bool × Int)} (a : Alternate L) (hp : ∀ d ∈ durations L, 0 < d) :
    (folded L .zero).occurrences = (durations L).length ∧ (folded L .zero).line = summary (durations L) := by
  have h := same_folded L .zero .zero ⟨rfl, rfl, rfl, rfl⟩ a
  refine ⟨?_, h.line.trans (line_summary hp)⟩
  rw [h.1, foldl_occurrences]
  simp [RStats.zero]

theorem Complete.alternate : ∀ {L : List (Bool × Int)}, Complete L → Alternate L
  | [], _ => trivial
  | [_], h => h.elim
  | (_, _) :: (_, _) :: _, ⟨h1, h2, h3⟩ => ⟨h1, h2, h3.alternate⟩

theorem Complete.last : ∀ {L : List (Bool × Int)}, Complete L → L ≠ [] → ∃ t, L.getLast? = some (true, t)
  | [], _, h => absurd rfl h
  | [_], h, _ => h.elim
  | [(_, _), (c, t)], ⟨_, h2, _⟩, _ => ⟨t, by simp [h2]⟩
  | (_, _) :: (_, _) :: x :: L, ⟨_, _, h3⟩, _ => by
    obtain ⟨t, ht⟩ := h3.last (by simp)
    exact ⟨t, by rw [List.getLast?_cons_cons, List.getLast?_cons_cons]; exact ht⟩

theorem Complete.durations_ne : ∀ {L : List (Bool × Int)}, Complete L → L ≠ [] → durations L ≠ []
  | [], _, h => absurd rfl h
  | [_], h, _ => h.elim
  | (_, _) :: (_, _) :: L, ⟨h1, h2, _⟩, _ => by subst h1; subst h2; simp [durations]

/-! ## Entries -/

theorem entries_flatMap {β : Type} (S : Sum) (n : Nat) (f : Stats → List β) (h0 : f .zero = []) :
    (S.entries n).flatMap f = (List.range n).flatMap (fun i => f (S.get (NUM_EVENT_TYPES + i))) ++
      (List.range 128).flatMap fun i => f (S.get (NUM_EVENT_TYPES + (n + i))) := by
  have key (l : List Nat) : (l.filterMap fun i => S.slot (NUM_EVENT_TYPES + i)).flatMap f = l.flatMap fun i => f (S.get (NUM_EVENT_TYPES + i)) := by
    induction l with
    | nil => rfl
    | cons i l ih =>
      unfold Sum.get at ih ⊢
      cases h : S.slot (NUM_EVENT_TYPES + i) with
      | none => rw [List.filterMap_cons_none (f := fun i => S.slot (NUM_EVENT_TYPES + i)) h, ih]; simp [h, h0]
      | some s => rw [List.filterMap_cons_some (f := fun i => S.slot (NUM_EVENT_TYPES + i)) h, List.flatMap_cons, ih]; simp [h]
  unfold Sum.entries
  rw [key, show n + MAX_NUM_WORKERS * 2 = n + 128 from rfl, List.range_add, List.flatMap_append, List.flatMap_map]

theorem entries_filterMap {β : Type} (S : Sum) (n : Nat) (f : Stats → Option β) (h0 : f .zero = none) :
    (S.entries n).filterMap f = (List.range n).filterMap (fun i => f (S.get (NUM_EVENT_TYPES + i))) ++
      (List.range 128).filterMap fun i => f (S.get (NUM_EVENT_TYPES + (n + i))) := by
  have key (l : List Nat) : (l.filterMap fun i => S.slot (NUM_EVENT_TYPES + i)).filterMap f = l.filterMap fun i => f (S.get (NUM_EVENT_TYPES + i)) := by
    rw [List.filterMap_filterMap]
    congr 1
    funext i
    unfold Sum.get
    cases h : S.slot (NUM_EVENT_TYPES + i) with
    | none => simp [h0]
    | some s => simp
  unfold Sum.entries
  rw [key, show n + MAX_NUM_WORKERS * 2 = n + 128 from rfl, List.range_add, List.filterMap_append, List.filterMap_map]
  rfl

theorem flatMap_nil {α β : Type} {l : List α} {f : α → List β} (h : ∀ a ∈ l, f a = []) : l.flatMap f = [] := by
  simpa using h

theorem flatMap_eq {α β : Type} {l : List α} {f g : α → List β} (h : ∀ a ∈ l, f a = g a) : l.flatMap f = l.flatMap g := by
  induction l with
  | nil => rfl
  | cons a l ih => rw [List.flatMap_cons, List.flatMap_cons, h a (by simp), ih fun b hb => h b (by simp [hb])]

theorem filterMap_nil {α β : Type} {l : List α} {f : α → Option β} (h : ∀ a ∈ l, f a = none) : l.filterMap f = [] :=
  List.filterMap_eq_nil_iff.2 h

theorem filterMap_eq {α β : Type} {l : List α} {f g : α → Option β} (h : ∀ a ∈ l, f a = g a) : l.filterMap f = l.filterMap g :=
  List.filterMap_congr h

/-- Numbers from 0 in which something begins to be absent at some point. -/
theorem range_cut {β : Type} {a b : Nat} (hab : a ≤ b) (f : Nat → Option β) (h : ∀ j, a ≤ j → j < b → f j = none) :
    (List.range a).filterMap f = (List.range b).filterMap f := by
  obtain ⟨d, rfl⟩ := Nat.exists_eq_add_of_le hab
  rw [List.range_add, List.filterMap_append, List.filterMap_map]
  have e : (List.range d).filterMap (f ∘ fun x => a + x) = [] := List.filterMap_eq_nil_iff.2 fun j hj => by
    have := List.mem_range.1 hj
    exact h (a + j) (by omega) (by omega)
  rw [e, List.append_nil]

/-- Only the even ones. -/
theorem range_even {β : Type} (f : Nat → List β) (g : Nat → Option β) (m : Nat) (h0 : ∀ w < m, f (w * 2) = (g w).toList)
    (h1 : ∀ w < m, f (w * 2 + 1) = []) : (List.range (m * 2)).flatMap f = (List.range m).filterMap g := by
  induction m with
  | zero => rfl
  | succ m ih =>
    have e : (m + 1) * 2 = m * 2 + 1 + 1 := by omega
    rw [e, List.range_succ, List.range_succ, List.range_succ (n := m), List.flatMap_append, List.flatMap_append, List.filterMap_append,
      ih (fun w hw => h0 w (by omega)) (fun w hw => h1 w (by omega))]
    simp only [List.flatMap_singleton, h0 m (by omega), h1 m (by omega), List.append_nil]
    cases h : g m <;> simp [h]

/-- The entry of a worker. -/
theorem worker_entry {l : List Record} (h : ∀ r ∈ l, Ordinary table r) {i : Nat} :
    (final table (table.length + i) l = .zero) ∨
    ∃ w < 32, i = w * 2 ∧ ((final table (table.length + i) l).event = 0 ∨ (final table (table.length + i) l).event = 6 ∨
      (final table (table.length + i) l).event = 7) ∧
      (∀ j < (final table (table.length + i) l).seen.toNat, (final table (table.length + i) l).reactions j = .zero) := by
  by_cases c : ∃ w < 32, i = w * 2
  · obtain ⟨w, hw, rfl⟩ := c
    refine .inr ⟨w, hw, rfl, ?_, fun j hj => ?_⟩
    · rw [(final_worker h w).2.2.2]
      cases (waits (w : Int) l).getLast? with
      | none => exact .inl rfl
      | some e => cases hb : e.1 <;> simp [hb]
    · have h3 := (final_worker h w).2.2.1
      refine (final_worker h w).2.1 j ?_
      split at h3 <;> omega
  · exact .inl (final_other h fun w hw e => c ⟨w, hw, e⟩)

end ReactorC.TraceSum
