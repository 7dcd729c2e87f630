import Verif.Chrome.Inv

/-!
# Properties of the files for the event viewer of Chrome

C96: what the tool writes is JSON, and the viewer shows in it every record of the trace where and when it should.
-/

namespace ReactorC.Chrome

/-- A table with a reactor, a timer of it, and a user event. -/
def demoTable : List Object := [⟨100, 0, 0, "Main".toList⟩, ⟨100, 7, 1, "t".toList⟩, ⟨300, 0, 2, "seen".toList⟩]

/-- Records of it: a reaction, the timer, a user event and value, waiting, and a message between federates. -/
def demoRecords : List Record :=
  [⟨0, 100, 1, 2, 1000000, 0, 1500000, 0, 0⟩, ⟨1, 100, 1, 2, 1000000, 0, 1700000, 0, 0⟩, ⟨3, 100, 0, 0, 1000000, 0, 1800000, 7, 5000000⟩,
   ⟨4, 300, -1, -1, 1000000, 1, 1850000, 0, 0⟩, ⟨5, 300, -1, -1, 1000000, 1, 1860000, 0, 42⟩, ⟨6, 0, 2, -1, 1000000, 0, 1900000, 0, 0⟩, ⟨14, 0, 0, 1, 0, 0, 0, 0, 0⟩]

/-- What is written is JSON and says what is expected: an event for every record that is shown, in the order of the trace, a second one for the start of a reaction in logical time, and names.  Only for descriptions without
quotation marks, backslashes and control characters, reaction numbers below 1000 and microsteps below 2³¹; see `C96_descriptions_not_escaped` and `C96_reaction_numbers_cut`. -/
theorem C96_output_is_read_partial (po : Bool) (start : Int) {table : List Object} (plain : PlainTable table) {rs : List Record} (small : ∀ r ∈ rs, Small r) :
    read (output po start table rs) = some (document po start table rs) := output_read po start plain small

example : PlainTable demoTable ∧ (∀ r ∈ demoRecords, Small r) ∧ (demoRecords.flatMap (expected false 1000000 demoTable)).length = 7 ∧
    (demoRecords.flatMap (expected true 1000000 demoTable)).length = 6 ∧ (names false 1000000 demoTable demoRecords).length = 21 := by decide +kernel

/-- Begin and end of a reaction, and of a wait, are shown under the same name, in the same thread of the execution. -/
theorem C96_begins_match_ends (po : Bool) (start : Int) (table : List Object) {a b : Record} (pointer : a.pointer = b.pointer) (src : a.src = b.src)
    (h : (a.event = 0 ∧ b.event = 1) ∨ (a.event = 6 ∧ b.event = 7)) : ∃ name cat cat' args args',
    mainEvent po start table a = event name cat "B".toList a.src 0 (micros start a.physical) args ∧
    mainEvent po start table b = event name cat' "E".toList a.src 0 (micros start b.physical) args' := by
  have key : ∀ r : Record, r.event = 0 ∨ r.event = 1 ∨ r.event = 6 ∨ r.event = 7 →
      mainEvent po start table r = event ((nameOf table r.pointer).getD (unnamed r.event)) (eventNames.getD r.event []) (phaseOf r.event) r.src 0 (micros start r.physical) (details start r) := by
    intro r hr
    rcases hr with hr | hr | hr | hr <;> cases po <;> simp [mainEvent, processOf, threadOf, timeOf, hr]
  refine ⟨(nameOf table a.pointer).getD (unnamed a.event), eventNames.getD a.event [], eventNames.getD b.event [], details start a, details start b, ?_, ?_⟩
  rotate_left
  · rw [key b (by omega), pointer, src]
    rcases h with ⟨h1, h2⟩ | ⟨h1, h2⟩ <;> rw [h1, h2] <;> rfl
  · rw [key a (by omega)]
    rcases h with ⟨h1, h2⟩ | ⟨h1, h2⟩ <;> rw [h1] <;> rfl

/-- The end of an advance of time is shown under another name than its begin: the code tests for the begin twice. -/
theorem C96_advances_not_matched (po : Bool) (start : Int) {table : List Object} {a b : Record} (h1 : a.event = 8) (h2 : b.event = 9) (pa : ∀ x ∈ table, x.pointer ≠ a.pointer)
    (pb : ∀ x ∈ table, x.pointer ≠ b.pointer) : ∃ cat cat' args args',
    mainEvent po start table a = event "ADVANCE TIME".toList cat "B".toList a.src 0 (micros start a.physical) args ∧
    mainEvent po start table b = event "NO REACTOR".toList cat' "E".toList b.src 0 (micros start b.physical) args' := by
  have ha : nameOf table a.pointer = none := by
    unfold nameOf; rw [List.find?_eq_none.2 (fun x hx => by simpa using pa x hx)]; rfl
  have hb : nameOf table b.pointer = none := by
    unfold nameOf; rw [List.find?_eq_none.2 (fun x hx => by simpa using pb x hx)]; rfl
  refine ⟨eventNames.getD a.event [], eventNames.getD b.event [], details start a, details start b, ?_, ?_⟩
  · cases po <;> simp [mainEvent, event, phaseOf, processOf, threadOf, timeOf, unnamed, h1, ha]
  · cases po <;> simp [mainEvent, event, phaseOf, processOf, threadOf, timeOf, unnamed, h2, hb]

example : ∀ x ∈ demoTable, x.pointer ≠ 0 := by decide

/-! ## Names for what is shown -/

theorem le_greatest {l : List Int} {a : Int} (h : a ∈ l) : a ≤ greatest l := by
  have mono : ∀ (l : List Int) (m : Int), m ≤ l.foldl max m ∧ ∀ a ∈ l, a ≤ l.foldl max m := by
    intro l
    induction l with
    | nil => intro m; exact ⟨Int.le_refl _, fun a h => by cases h⟩
    | cons x l ih =>
      intro m
      have := ih (max m x)
      refine ⟨Int.le_trans (Int.le_max_left _ _) this.1, fun a h => ?_⟩
      rcases List.mem_cons.1 h with rfl | h
      · exact Int.le_trans (Int.le_max_right _ _) this.1
      · exact this.2 a h
  exact (mono l 0).2 a h

theorem findIdx_get {table : List Object} {p : Object → Bool} (h : ∃ x ∈ table, p x = true) : ∃ x, table.find? p = some x ∧ (x, table.findIdx p) ∈ table.zipIdx := by
  have hl := List.findIdx_lt_length_of_exists (p := p) (xs := table) (by obtain ⟨x, hx, e⟩ := h; exact ⟨x, hx, e⟩)
  refine ⟨table[table.findIdx p], ?_, ?_⟩
  · rw [List.find?_eq_getElem?_findIdx, List.getElem?_eq_getElem hl]
  · rw [List.mem_zipIdx_iff_getElem?]; exact List.getElem?_eq_getElem hl

/-- The rows in which records are shown have names: workers; reactions of reactors that are in the table; triggers that are in the table together with the reactor that schedules them; and user events that are in the table. -/
theorem C96_rows_are_named (po : Bool) (start : Int) (table : List Object) (rs : List Record) (r : Record) (hr : r ∈ rs) (hs : IsShown start r) :
    (r.event ∉ [2, 3, 4, 5, 10] → 0 ≤ r.src → ∃ name, namedThread (processOf table r) (threadOf table r) name ∈ names po start table rs) ∧
    (r.event = 0 → po = false → 0 ≤ r.dst → (∃ x ∈ table, x.pointer = r.pointer) →
      namedThread (placeOf table r.pointer + 1) (1024 + r.dst) ("Reaction ".toList ++ decimal r.dst) ∈ names po start table rs) ∧
    (∀ x, r.event = 3 → table.find? (fun x => x.trigger = r.trigger ∧ x.type = 1) = some x → x.pointer = r.pointer →
      namedThread (processOf table r) (threadOf table r) ("Trigger ".toList ++ x.description) ∈ names po start table rs) ∧
    (∀ x, r.event = 4 ∨ r.event = 5 → table.find? (fun x => x.pointer = r.pointer) = some x → x.type = 2 →
      namedThread (processOf table r) (threadOf table r) x.description ∈ names po start table rs) := by
  refine ⟨fun he h0 => ?_, fun he hp h0 hx => ?_, fun x he hf hx => ?_, fun x he hf hx => ?_⟩
  · have e1 : processOf table r = 0 := by
      simp only [List.mem_cons, List.not_mem_nil, or_false, not_or] at he
      simp [processOf, he]
    have e2 : threadOf table r = r.src := by
      simp only [List.mem_cons, List.not_mem_nil, or_false, not_or] at he
      simp [threadOf, he]
    rw [e1, e2]
    obtain ⟨k, hk⟩ := Int.eq_ofNat_of_zero_le h0
    have hm : r.src ≤ lastWorker start rs := le_greatest (List.mem_map.2 ⟨r, List.mem_filter.2 ⟨hr, by simpa using hs⟩, rfl⟩)
    cases k with
    | zero => exact ⟨"Main thread".toList, by rw [hk]; simp [names]⟩
    | succ k =>
      refine ⟨"Worker ".toList ++ decimal (k + 1 : Nat), ?_⟩
      have : namedThread 0 r.src ("Worker ".toList ++ decimal (k + 1 : Nat)) ∈ workers (lastWorker start rs) := by
        unfold workers
        rw [List.mem_flatMap]
        exact ⟨k, List.mem_range.2 (by omega), by rw [hk]; exact List.mem_replicate.2 ⟨by decide, rfl⟩⟩
      simp only [names, List.mem_append]
      exact Or.inl (Or.inl (Or.inl (Or.inr this)))
  · obtain ⟨k, hk⟩ := Int.eq_ofNat_of_zero_le h0
    have hm : r.dst ≤ lastReaction po start rs := le_greatest (List.mem_map.2 ⟨r, List.mem_filter.2 ⟨hr, by simpa using ⟨hs, he, hp⟩⟩, rfl⟩)
    have hl : placeOf table r.pointer < table.length := by
      unfold placeOf
      rw [if_pos hx]
      exact List.findIdx_lt_length_of_exists (by obtain ⟨x, hx, e⟩ := hx; exact ⟨x, hx, by simpa using e⟩)
    have : namedThread (placeOf table r.pointer + 1) (1024 + r.dst) ("Reaction ".toList ++ decimal r.dst) ∈ reactions table.length (lastReaction po start rs) := by
      unfold reactions
      rw [List.mem_flatMap]
      refine ⟨placeOf table r.pointer, List.mem_range.2 hl, List.mem_map.2 ⟨k, List.mem_range.2 (by omega), ?_⟩⟩
      rw [hk, Int.add_comm (1024 : Int)]; rfl
    simp only [names, List.mem_append]
    exact Or.inl (Or.inl (Or.inr this))
  · have hex : ∃ x ∈ table, x.trigger = r.trigger ∧ x.type = 1 :=
      ⟨x, List.mem_of_find?_eq_some hf, by simpa using List.find?_some hf⟩
    obtain ⟨y, hy, hz⟩ := findIdx_get (p := fun x => decide (x.trigger = r.trigger ∧ x.type = 1)) (table := table)
      (by obtain ⟨x, hx, e⟩ := hex; exact ⟨x, hx, by simpa using e⟩)
    have : y = x := by rw [hf] at hy; exact (Option.some.inj hy).symm
    subst this
    have ht : y.type = 1 := by have := List.find?_some hf; simp at this; exact this.2
    have e1 : processOf table r = placeOf table y.pointer + 1 := by simp [processOf, he, hx]
    have e2 : threadOf table r = (table.findIdx fun x => decide (x.trigger = r.trigger ∧ x.type = 1) : Nat) := by
      unfold threadOf triggerPlace
      rw [if_pos he, if_pos hex]
    have : namedThread (processOf table r) (threadOf table r) ("Trigger ".toList ++ y.description) ∈ labels table := by
      rw [e1, e2]
      unfold labels
      rw [List.mem_flatMap]
      refine ⟨_, hz, ?_⟩
      unfold objectLabel
      dsimp only
      rw [if_neg (by omega), if_pos ht]
      exact List.mem_singleton.2 rfl
    simp only [names, List.mem_append]
    exact Or.inl (Or.inr this)
  · have hex : ∃ x ∈ table, x.pointer = r.pointer := ⟨x, List.mem_of_find?_eq_some hf, by simpa using List.find?_some hf⟩
    obtain ⟨y, hy, hz⟩ := findIdx_get (p := fun x => decide (x.pointer = r.pointer)) (table := table)
      (by obtain ⟨x, hx, e⟩ := hex; exact ⟨x, hx, by simpa using e⟩)
    have : y = x := by rw [hf] at hy; exact (Option.some.inj hy).symm
    subst this
    have h3 : r.event ≠ 3 := by omega
    have e1 : processOf table r = 1000000 := by unfold processOf; rw [if_neg h3, if_pos he]
    have e2 : threadOf table r = (table.findIdx fun x => decide (x.pointer = r.pointer) : Nat) := by
      unfold threadOf placeOf
      rw [if_neg h3, if_pos he, if_pos hex]
    have : namedThread (processOf table r) (threadOf table r) y.description ∈ labels table := by
      rw [e1, e2]
      unfold labels
      rw [List.mem_flatMap]
      refine ⟨_, hz, ?_⟩
      unfold objectLabel
      dsimp only
      rw [if_neg (by omega), if_neg (by omega), if_pos hx]
      exact List.mem_singleton.2 rfl
    simp only [names, List.mem_append]
    exact Or.inl (Or.inr this)

example : ∀ r ∈ demoRecords.take 6, IsShown 1000000 r := by decide

/-- No thread with a negative number has a name: advances of time, for which the number is -1, are shown in a thread without a name. -/
theorem C96_advances_not_named (po : Bool) (start : Int) (table : List Object) (rs : List Record) {tid : Int} (h : tid < 0) (pid : Int) (name : Text) :
    namedThread pid tid name ∉ names po start table rs := by
  intro hm
  simp only [names, List.mem_append, List.mem_cons, List.not_mem_nil, or_false] at hm
  have thread : ∀ {p t : Int} {n : Text}, namedThread pid tid name = namedThread p t n → tid = t := by
    intro p t n e; simp [namedThread] at e; exact e.2.1
  have process : ∀ {p : Int} {n : Text}, namedThread pid tid name ≠ namedProcess p n := by
    intro p n e; simp [namedThread, namedProcess] at e
  rcases hm with (((hm | hm) | hm) | hm) | hm
  · have := thread hm; omega
  · unfold workers at hm
    obtain ⟨k, _, hk⟩ := List.mem_flatMap.1 hm
    have := thread (List.mem_replicate.1 hk).2; omega
  · unfold reactions at hm
    obtain ⟨k, _, hk⟩ := List.mem_flatMap.1 hm
    obtain ⟨n, _, hn⟩ := List.mem_map.1 hk
    have := thread hn.symm; omega
  · unfold labels at hm
    obtain ⟨x, _, hx⟩ := List.mem_flatMap.1 hm
    unfold objectLabel at hx
    split at hx
    · exact process (List.mem_singleton.1 hx)
    · split at hx
      · have := thread (List.mem_singleton.1 hx); omega
      · split at hx
        · have := thread (List.mem_singleton.1 hx); omega
        · cases hx
  · rcases hm with hm | hm
    · exact process hm
    · exact process hm

/-- With at most 1024 objects, which is what the table of a trace can hold, triggers have other rows than reactions, and different triggers have different rows. -/
theorem C96_rows_are_apart {table : List Object} (size : table.length ≤ 1024) {a b : Record} (ha : a.event = 3) :
    (0 ≤ b.dst → threadOf table a ≠ 1024 + b.dst) ∧
    (b.event = 3 → (∃ x ∈ table, x.trigger = a.trigger ∧ x.type = 1) → (∃ x ∈ table, x.trigger = b.trigger ∧ x.type = 1) → threadOf table a = threadOf table b → a.trigger = b.trigger) := by
  have place : ∀ r : Record, r.event = 3 → (∃ x ∈ table, x.trigger = r.trigger ∧ x.type = 1) →
      ∃ x i, (x, i) ∈ table.zipIdx ∧ threadOf table r = (i : Nat) ∧ x.trigger = r.trigger := by
    intro r hr hex
    obtain ⟨y, hy, hz⟩ := findIdx_get (p := fun x => decide (x.trigger = r.trigger ∧ x.type = 1)) (table := table)
      (by obtain ⟨x, hx, e⟩ := hex; exact ⟨x, hx, by simpa using e⟩)
    refine ⟨y, _, hz, ?_, ?_⟩
    · unfold threadOf triggerPlace
      rw [if_pos hr, if_pos hex]
    · have := List.find?_some hy; simp at this; exact this.1
  refine ⟨fun h0 e => ?_, fun hb hxa hxb e => ?_⟩
  · by_cases hex : ∃ x ∈ table, x.trigger = a.trigger ∧ x.type = 1
    · obtain ⟨x, i, hz, ht, _⟩ := place a ha hex
      rw [List.mem_zipIdx_iff_getElem?] at hz
      have : i < table.length := (List.getElem?_eq_some_iff.1 hz).1
      omega
    · unfold threadOf triggerPlace at e
      rw [if_pos ha, if_neg hex] at e
      omega
  · obtain ⟨x, i, hz, ht, hx⟩ := place a ha hxa
    obtain ⟨y, j, hw, hu, hy⟩ := place b hb hxb
    have : i = j := by omega
    subst this
    rw [List.mem_zipIdx_iff_getElem?] at hz hw
    rw [hz] at hw
    have : x = y := Option.some.inj hw
    rw [← hx, ← hy, this]

/-! ## What is not shown as it should be -/

/-- A quotation mark in a description is not escaped: what is written is not JSON. -/
theorem C96_descriptions_not_escaped : (read (output false 0 [⟨1, 0, 0, "a\"b".toList⟩] [])).isNone = true ∧
    (read (output false 0 [⟨1, 0, 0, "a'b".toList⟩] [])).isSome = true := by decide +kernel

/-- Of the number of a reaction only three digits are shown: with `-p` the file for reaction 1234 is that for reaction 123. -/
theorem C96_reaction_numbers_cut (start : Int) (table : List Object) (r : Record) :
    output true start table [{ r with dst := 1234 }] = output true start table [{ r with dst := 123 }] := by
  have h : reactionName 1234 = reactionName 123 := by decide +kernel
  have h2 : usualArgs start { r with dst := 1234 } = usualArgs start { r with dst := 123 } := by
    unfold usualArgs; rw [h]
  have h3 : shown true start table { r with dst := 1234 } = shown true start table { r with dst := 123 } := by
    unfold shown reactorName; rw [h2]
  have h4 : ∀ s, record true start table s { r with dst := 1234 } = record true start table s { r with dst := 123 } := by
    intro s
    unfold record
    rw [h3]
    simp only [Bool.true_eq_false, and_false, if_false]
  unfold output records
  rw [List.foldl_cons, List.foldl_cons, h4]

/-- The row of user events says that they are shown in physical time, but without `-p` they are shown in logical time. -/
theorem C96_user_events_not_in_physical_time (start : Int) (table : List Object) (r : Record) (h : r.event = 4) : ∃ name cat args,
    mainEvent false start table r = event name cat "i".toList (threadOf table r) 1000000 (micros start r.logical) args ∧
    ∀ rs, namedProcess 1000000 ("User events in ".toList ++ program table ++ ", shown in physical time:".toList) ∈ names false start table rs := by
  refine ⟨(nameOf table r.pointer).getD (unnamed r.event), eventNames.getD r.event [], details start r, ?_, fun rs => ?_⟩
  · simp [mainEvent, event, phaseOf, processOf, threadOf, timeOf, h]
  · unfold names
    exact List.mem_append_right _ (List.mem_cons_of_mem _ List.mem_cons_self)

/-- With `-p` everything is shown in physical time, and each record once. -/
theorem C96_physical_time (start : Int) (table : List Object) (r : Record) :
    (∃ name cat ph tid pid args, mainEvent true start table r = event name cat ph tid pid (micros start r.physical) args) ∧
    (IsShown start r → expected true start table r = [mainEvent true start table r]) := by
  refine ⟨⟨_, _, _, _, _, _, rfl⟩, fun h => ?_⟩
  unfold expected
  rw [if_pos h, if_neg (by simp)]

/-! ## Files and options -/

theorem afterLast_append (c : Char) (a b : Text) (h : c ∉ b) : afterLast c (a ++ c :: b) = b := by
  unfold afterLast
  rw [List.reverse_append, List.reverse_cons, List.append_assoc, List.takeWhile_append_of_pos (fun x hx => by
    rw [decide_eq_true_eq]; rintro rfl; exact h (List.mem_reverse.1 hx))]
  simp

theorem afterLast_none (c : Char) (b : Text) (h : c ∉ b) : afterLast c b = b := by
  unfold afterLast
  have := List.takeWhile_append_of_pos (p := fun x => decide (x ≠ c)) (l₁ := b.reverse) (l₂ := []) (fun x hx => by
    rw [decide_eq_true_eq]; rintro rfl; exact h (List.mem_reverse.1 hx))
  rw [List.append_nil] at this
  rw [this]; simp

theorem rootName_of {path name : Text} (h : afterLast '/' path = name) : (∀ stem ext, name = stem ++ '.' :: ext → '.' ∉ ext → rootName path = stem) ∧
    ('.' ∉ name → rootName path = name) := by
  refine ⟨fun stem ext e hx => ?_, fun hx => ?_⟩
  · unfold rootName
    dsimp only
    rw [h, e, if_pos (by simp), afterLast_append '.' stem ext hx]
    have : (stem ++ '.' :: ext).length - ext.length - 1 = stem.length := by simp; omega
    rw [this, List.take_left']
    rfl
  · unfold rootName
    dsimp only
    rw [h, if_neg hx]

/-- The file that is written is in the working directory and has the name of the trace file, with the extension, if there is one, replaced by `.json`. -/
theorem C96_output_name (dir stem ext : Text) (h1 : '/' ∉ stem) (h2 : '/' ∉ ext) (h3 : '.' ∉ ext) :
    outputName (dir ++ '/' :: (stem ++ '.' :: ext)) = stem ++ ".json".toList ∧ outputName (stem ++ '.' :: ext) = stem ++ ".json".toList ∧
    ('.' ∉ stem → outputName (dir ++ '/' :: stem) = stem ++ ".json".toList ∧ outputName stem = stem ++ ".json".toList) := by
  have h : '/' ∉ stem ++ '.' :: ext := by simp [h1, h2]
  unfold outputName
  refine ⟨?_, ?_, fun hd => ⟨?_, ?_⟩⟩
  · rw [(rootName_of (afterLast_append '/' dir _ h)).1 stem ext rfl h3]
  · rw [(rootName_of (afterLast_none '/' _ h)).1 stem ext rfl h3]
  · rw [(rootName_of (afterLast_append '/' dir _ h1)).2 hd]
  · rw [(rootName_of (afterLast_none '/' _ h1)).2 hd]

example : outputName "../v1.2/fed.1.lft".toList = "fed.1.json".toList := by decide +kernel

/-- A trace file whose name ends in `.json` is itself the file that is written, and is emptied before it is read. -/
theorem C96_input_is_overwritten (stem : Text) (h : '/' ∉ stem) : outputName (stem ++ ".json".toList) = stem ++ ".json".toList :=
  (C96_output_name [] stem "json".toList h (by decide) (by decide)).2.1

/-- An argument that is taken for `-p`. -/
def IsPhysical (a : Text) : Prop := "-p".toList <+: a ∨ "--physical".toList <+: a

instance (a : Text) : Decidable (IsPhysical a) := inferInstanceAs (Decidable (_ ∨ _))

/-- Arguments: with an option that is not known, only the usage is printed; otherwise the last name is converted, in physical time if there is an option for it anywhere. -/
theorem C96_arguments (args : List Text) :
    ((∃ a ∈ args, a.head? = some '-' ∧ ¬ IsPhysical a) → arguments false none args = .usage 1) ∧
    ((∀ a ∈ args, a.head? = some '-' → IsPhysical a) →
      arguments false none args = match (args.filter (fun a => ¬ IsPhysical a)).getLast? with
        | none => .usage 0
        | some f => .convert (args.any (fun a => IsPhysical a)) f) := by
  have test : ∀ a : Text, (a.take 2 = "-p".toList ∨ a.take 10 = "--physical".toList) ↔ IsPhysical a := by
    intro a
    unfold IsPhysical
    rw [List.prefix_iff_eq_take, List.prefix_iff_eq_take]
    exact or_congr ⟨Eq.symm, Eq.symm⟩ ⟨Eq.symm, Eq.symm⟩
  refine ⟨?_, ?_⟩
  · generalize false = po
    generalize (none : Option Text) = file
    induction args generalizing po file with
    | nil => rintro ⟨a, ha, _⟩; cases ha
    | cons a as ih =>
      rintro ⟨b, hb, h1, h2⟩
      unfold arguments
      by_cases hp : IsPhysical a
      · rw [if_pos ((test a).2 hp)]
        rcases List.mem_cons.1 hb with rfl | hb
        · exact absurd hp h2
        · exact ih _ _ ⟨b, hb, h1, h2⟩
      · rw [if_neg (fun c => hp ((test a).1 c))]
        by_cases hh : a.head? = some '-'
        · rw [if_pos hh]
        · rw [if_neg hh]
          rcases List.mem_cons.1 hb with rfl | hb
          · exact absurd h1 hh
          · exact ih _ _ ⟨b, hb, h1, h2⟩
  · have key : ∀ (args : List Text) (po : Bool) (file : Option Text), (∀ a ∈ args, a.head? = some '-' → IsPhysical a) →
        arguments po file args = match ((args.filter (fun a => ¬ IsPhysical a)).getLast?).or file with
          | none => .usage 0
          | some f => .convert (po || args.any (fun a => IsPhysical a)) f := by
      intro args
      induction args with
      | nil => intro po file _; unfold arguments; cases file <;> simp
      | cons a as ih =>
        intro po file h
        have ih' := fun po file => ih po file (fun b hb => h b (List.mem_cons_of_mem _ hb))
        unfold arguments
        by_cases hp : IsPhysical a
        · rw [if_pos ((test a).2 hp), ih', List.filter_cons, if_neg (by simpa using hp), List.any_cons, decide_eq_true hp]
          simp
        · have hh : ¬ a.head? = some '-' := fun c => hp (h a List.mem_cons_self c)
          rw [if_neg (fun c => hp ((test a).1 c)), if_neg hh, ih', List.filter_cons, if_pos (by simpa using hp), List.any_cons, decide_eq_false hp, List.getLast?_cons]
          cases hl : (as.filter (fun a => ¬ IsPhysical a)).getLast? with
          | none => simp
          | some f => simp
    intro h
    rw [key args false none h]
    simp only [Option.or_none, Bool.false_or]

example : arguments false none ["a.lft".toList, "-p".toList, "b.lft".toList] = .convert true "b.lft".toList ∧ arguments false none ["-x".toList] = .usage 1 := by decide +kernel

end ReactorC.Chrome
