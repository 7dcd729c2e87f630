import Verif.TraceSum.Lines

/-!
# C88: the statistics of traces
-/

namespace ReactorC.TraceSum
open ReactorC.Trace.File

variable {table : List Object} {names : Nat → List UInt8} {start lo hi : Int} {records : List Record}

/-- The records between the times that are asked for. -/
def kept (start lo hi : Int) (records : List Record) : List Record := records.filter fun r => decide (inRange start lo hi r)

theorem collect_eq : collect names start lo hi table records =
    (kept start lo hi records).foldl (fun (S : Sum) r => S.record names table r) .init := foldl_skip _ _ _ _

theorem get_eq (h : ∀ r ∈ kept start lo hi records, Ordinary table r) (k : Nat) :
    (collect names start lo hi table records).get (NUM_EVENT_TYPES + k) = final table k (kept start lo hi records) := by
  rw [collect_eq]
  exact (collected h).2.2 k

theorem type_cases (k : Nat) (hk : k < table.length) : ∃ x, table[k]? = some x ∧ (x.type = 0 ∨ x.type = 2 ∨ x.type ≠ 0 ∧ x.type ≠ 2) :=
  ⟨table[k], List.getElem?_eq_getElem hk, by omega⟩

/-- **C88 (events).**  The statistics say of each type of event how often it occurs among the records between the times that are asked for, and nothing is written
outside of the arrays. -/
theorem C88_events_are_counted_partial (h : ∀ r ∈ kept start lo hi records, Ordinary table r) :
    (collect names start lo hi table records).fault = false ∧
    (collect names start lo hi table records).eventTable = eventLines names (kept start lo hi records) := by
  rw [collect_eq]
  obtain ⟨h1, h2, _⟩ := collected (names := names) h
  refine ⟨h1, ?_⟩
  unfold Sum.eventTable eventLines
  refine filterMap_eq fun e he => ?_
  rw [h2 e (List.mem_range.1 he)]
  split <;> rfl

/-- **C88 (reactions).**  If no execution of a reaction begins before the previous one ends and all executions take time, the statistics
say of each reaction how many executions were completed, and how long they took: in total, on average, at most and at least. -/
theorem C88_reaction_statistics_partial (h : ∀ r ∈ kept start lo hi records, Ordinary table r)
    (hr : ∀ (o j : Nat), Alternate (executions table o j (kept start lo hi records)) ∧
      ∀ d ∈ durations (executions table o j (kept start lo hi records)), 0 < d) :
    (collect names start lo hi table records).reactionTable table.length = reactionLines table (kept start lo hi records) := by
  unfold Sum.reactionTable reactionLines
  rw [entries_flatMap _ _ _ (by simp [Stats.zero])]
  simp only [get_eq h]
  rw [flatMap_nil (l := List.range 128), List.append_nil]
  · refine flatMap_eq fun o ho => ?_
    obtain ⟨x, hx, t⟩ := type_cases o (List.mem_range.1 ho)
    by_cases t0 : x.type = 0
    · obtain ⟨f1, ⟨f2, f2'⟩, f3, f4, _⟩ := final_reactor h hx t0
      have line (j : Nat) (hj : j < 64) : ((final table o (kept start lo hi records)).reactions j).occurrences =
          (durations (executions table o j (kept start lo hi records))).length ∧
          ((final table o (kept start lo hi records)).reactions j).line = summary (durations (executions table o j (kept start lo hi records))) := by
        rw [f1 j hj]
        exact folded_line (hr o j).1 (hr o j).2
      by_cases c : (final table o (kept start lo hi records)).seen > 0
      · rw [if_pos c, f4 c]
        rw [range_cut (b := 64) (by omega)]
        · refine filterMap_eq fun j hj => ?_
          obtain ⟨l1, l2⟩ := line j (List.mem_range.1 hj)
          rw [l1, l2, hx]
          by_cases d : durations (executions table o j (kept start lo hi records)) = []
          · simp [d]
          · have := List.length_pos_iff.2 d
            rw [if_pos this, if_neg d]; rfl
        · intro j hj hj'
          have : executions table o j (kept start lo hi records) = [] := by
            by_contra k
            have := f3 j hj' k
            omega
          rw [f1 j hj', this]
          rfl
      · rw [if_neg c]
        symm
        rw [List.filterMap_eq_nil_iff]
        intro j hj
        have : executions table o j (kept start lo hi records) = [] := by
          by_contra k
          have := f3 j (List.mem_range.1 hj) k
          omega
        rw [this]
        rfl
    · have e (j : Int) := executions_none h hx t0 j
      have s0 : (final table o (kept start lo hi records)).seen = 0 := by
        rcases t with t | t | t
        · exact absurd t t0
        · exact (final_user h hx t).2.1
        · rw [final_trigger h hx t.1 t.2]; split <;> rfl
      rw [if_neg (by omega)]
      symm
      rw [List.filterMap_eq_nil_iff]
      intro j _
      rw [e]
      rfl
  · intro i _
    rcases worker_entry (i := i) h with k | ⟨w, _, _, _, k⟩
    · rw [k]; simp [Stats.zero]
    · split
      · rw [List.filterMap_eq_nil_iff]
        intro j hj
        rw [k j (List.mem_range.1 hj)]
        rfl
      · rfl

/-- **C88 (schedule).**  The statistics say of each trigger how often schedule was called for it. -/
theorem C88_schedule_calls_are_counted_partial (h : ∀ r ∈ kept start lo hi records, Ordinary table r) :
    (collect names start lo hi table records).scheduleTable table.length = scheduleLines table (kept start lo hi records) := by
  unfold Sum.scheduleTable scheduleLines
  rw [entries_filterMap _ _ _ (by simp [Stats.zero])]
  simp only [get_eq h]
  rw [filterMap_nil (l := List.range 128), List.append_nil]
  · refine filterMap_eq fun o ho => ?_
    obtain ⟨x, hx, t⟩ := type_cases o (List.mem_range.1 ho)
    rcases t with t | t | t
    · rw [schedules_none hx (by omega)]
      obtain ⟨_, _, _, _, e⟩ := final_reactor h hx t
      rw [if_neg (by simp only [schedule_called]; omega), if_pos rfl]
    · rw [schedules_none hx (by omega)]
      obtain ⟨_, _, _, e1, e2⟩ := final_user h hx t
      rw [if_pos rfl, if_neg]
      rintro ⟨c, _⟩
      by_cases n : userEvents table o (kept start lo hi records) = []
      · rw [e1 n] at c; cases c
      · rw [(e2 n).2] at c
        split at c <;> cases c
    · rw [final_trigger h hx t.1 t.2, hx]
      by_cases n : schedules table o (kept start lo hi records) = []
      · simp [n, Stats.zero]
      · have := List.length_pos_iff.2 n
        simp [n, this]
  · intro i _
    rcases worker_entry (i := i) h with k | ⟨w, _, _, k, _⟩
    · rw [k]; simp [Stats.zero]
    · rw [if_neg (by simp only [schedule_called]; omega)]

/-- **C88 (user-defined events).**  If the events with a label either all have a positive value or all have none, the statistics say of each label
how many events there are, and of their values the sum, the average, the greatest and the least. -/
theorem C88_user_events_partial (h : ∀ r ∈ kept start lo hi records, Ordinary table r)
    (hu : ∀ o, (∀ r ∈ userEvents table o (kept start lo hi records), r.event = 4) ∨ ∀ r ∈ userEvents table o (kept start lo hi records), r.event = 5)
    (hv : ∀ o, ∀ v ∈ values table o (kept start lo hi records), 0 < v) :
    (collect names start lo hi table records).userTable table.length = userLines table (kept start lo hi records) := by
  unfold Sum.userTable userLines
  rw [entries_filterMap _ _ _ (by simp [Stats.zero])]
  simp only [get_eq h]
  rw [filterMap_nil (l := List.range 128), List.append_nil]
  · refine filterMap_eq fun o ho => ?_
    obtain ⟨x, hx, t⟩ := type_cases o (List.mem_range.1 ho)
    rcases t with t | t | t
    · rw [userEvents_none h hx (by omega)]
      obtain ⟨_, _, _, _, e⟩ := final_reactor h hx t
      rw [if_neg (by simp only [user_event, user_value]; omega), if_pos rfl]
    · obtain ⟨e1, _, e3, e4, e5⟩ := final_user h hx t
      by_cases n : userEvents table o (kept start lo hi records) = []
      · rw [if_pos n, if_neg]
        rintro ⟨c, _⟩
        rw [e4 n] at c
        rcases c with c | c <;> cases c
      · have hlen := List.length_pos_iff.2 n
        obtain ⟨d, e⟩ := e5 n
        have hvals : values table o (kept start lo hi records) =
            ((userEvents table o (kept start lo hi records)).filter fun r => decide (r.event = 5)).map fun r => signed 64 r.extra := by
          unfold values userEvents
          generalize kept start lo hi records = l
          induction l with
          | nil => rfl
          | cons r l ih =>
            by_cases c : r.event = 5 ∧ object table r = some o
            · simp [c, ih]
            · rw [List.filterMap_cons_none (by simp only [if_neg c]), ih]
              by_cases c' : r.event = 4 ∧ object table r = some o
              · simp [c']
              · rw [List.filter_cons_of_neg]
                simp only [Bool.and_eq_true, Bool.or_eq_true, decide_eq_true_eq]
                rintro ⟨a | a, b⟩
                · exact c' ⟨a, b⟩
                · exact c ⟨a, b⟩
        obtain ⟨r, hr⟩ := List.getLast?_isSome.2 n |> Option.isSome_iff_exists.1
        have hmem := List.mem_of_getLast? hr
        rw [if_neg n, e1, d, e, e3, hx]
        rcases hu o with u | u
        · have hv0 : values table o (kept start lo hi records) = [] := by
            rw [hvals, List.map_eq_nil_iff, List.filter_eq_nil_iff]
            intro r hr
            simp [u r hr]
          have hl : lastValue (userEvents table o (kept start lo hi records)) = false := by
            simp [lastValue, hr, u r hmem]
          simp [hl, hv0, hlen]
        · have hv0 : values table o (kept start lo hi records) ≠ [] := by
            rw [hvals]
            intro c
            rw [List.map_eq_nil_iff, List.filter_eq_nil_iff] at c
            exact c r hmem (by simp [u r hmem])
          have hl : lastValue (userEvents table o (kept start lo hi records)) = true := by
            simp [lastValue, hr, u r hmem]
          have ho : ((values table o (kept start lo hi records)).foldl RStats.count .zero).occurrences > 0 := by
            rw [foldl_occurrences]
            have := List.length_pos_iff.2 hv0
            omega
          rw [line_summary (hv o)]
          simp [hl, hv0, hlen, ho]
    · rw [userEvents_none h hx t.2, final_trigger h hx t.1 t.2]
      split <;> simp [Stats.zero]
  · intro i _
    rcases worker_entry (i := i) h with k | ⟨w, _, _, k, _⟩
    · rw [k]; simp [Stats.zero]
    · rw [if_neg (by simp only [user_event, user_value]; omega)]

/-- **C88 (workers).**  If each worker ends each of its waits before the next one and before the end of the trace, and waits take time, the statistics say of each
worker how often and how long it waited. -/
theorem C88_worker_statistics_partial (h : ∀ r ∈ kept start lo hi records, Ordinary table r)
    (hw : ∀ w : Nat, Complete (waits w (kept start lo hi records)) ∧ ∀ d ∈ durations (waits w (kept start lo hi records)), 0 < d) :
    (collect names start lo hi table records).workerTable table.length = workerLines (kept start lo hi records) := by
  unfold Sum.workerTable workerLines
  rw [entries_flatMap _ _ _ (by simp [Stats.zero])]
  simp only [get_eq h]
  rw [flatMap_nil (l := List.range table.length), List.nil_append]
  · rw [show (128 : Nat) = 64 * 2 from rfl, range_even _ (fun w : Nat =>
      if w < 32 then if waits w (kept start lo hi records) = [] then none else some (w, false, summary (durations (waits w (kept start lo hi records)))) else none)]
    · refine (range_cut (a := 32) (b := 64) (by omega) _ fun j hj _ => ?_).symm.trans (filterMap_eq fun w hw => ?_)
      · rw [if_neg (by omega)]
      · rw [if_pos (List.mem_range.1 hw)]
    · intro w _
      by_cases c : w < 32
      · rw [if_pos c]
        obtain ⟨f1, f2, f3, f4⟩ := final_worker h w
        by_cases n : waits w (kept start lo hi records) = []
        · rw [if_pos n, f4, n, if_neg (by simp)]; rfl
        · obtain ⟨t, ht⟩ := (hw w).1.last n
          have hd := List.length_pos_iff.2 ((hw w).1.durations_ne n)
          obtain ⟨g1, g2⟩ := folded_line (hw w).1.alternate (hw w).2
          rw [if_neg n, f4, ht, f3, if_neg n]
          have hs : ((w : Int) * 2).toNat + 1 = w * 2 + 1 := by omega
          rw [if_pos (by simp), hs, List.range_succ, List.filterMap_append, filterMap_nil (l := List.range (w * 2)), List.nil_append]
          · rw [List.filterMap_cons, f1, g1, if_pos hd, g2]
            simp
          · intro j hj
            have := List.mem_range.1 hj
            rw [f2 j (by omega)]
            rfl
      · rw [if_neg c, final_other h (fun v hv => by omega)]; simp [Stats.zero]
    · intro w _
      rw [final_other h (fun v hv => by omega)]; simp [Stats.zero]
  · intro o ho
    obtain ⟨x, hx, t⟩ := type_cases o (List.mem_range.1 ho)
    rw [if_neg]
    simp only [worker_wait_ends, scheduler_advancing_time_ends]
    rcases t with t | t | t
    · obtain ⟨_, _, _, _, e⟩ := final_reactor h hx t
      omega
    · obtain ⟨_, _, _, e1, e2⟩ := final_user h hx t
      by_cases n : userEvents table o (kept start lo hi records) = []
      · rw [e1 n]; omega
      · rw [(e2 n).2]; split <;> omega
    · rw [final_trigger h hx t.1 t.2]
      split <;> simp [Stats.zero]

end ReactorC.TraceSum
