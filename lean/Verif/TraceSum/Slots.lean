import Verif.TraceSum.Spec

/-!
# What a record does to each entry of the statistics
-/

namespace ReactorC.TraceSum
open ReactorC.Trace.File

/-- An entry, or one without contents. -/
def Sum.get (S : Sum) (i : Nat) : Stats := (S.slot i).getD .zero

variable {table : List Object} {names : Nat → List UInt8} {S : Sum} {r : Record}

theorem at_nat {n i : Nat} (h : i < tableSize n) (f : Stats → Stats) : S.at n (i : Int) f =
    { S with slot := Function.update S.slot i (some (f (S.get i))) } := by
  unfold Sum.at
  rw [if_pos ⟨by omega, by omega⟩]
  rfl

theorem at_fault {n i : Nat} (h : i < tableSize n) (f : Stats → Stats) : (S.at n (i : Int) f).fault = S.fault := by
  rw [at_nat h]

theorem at_get {n i : Nat} (h : i < tableSize n) (f : Stats → Stats) (m : Nat) :
    (S.at n (i : Int) f).get m = if m = i then f (S.get m) else S.get m := by
  rw [at_nat h]
  unfold Sum.get
  by_cases e : m = i
  · subst e; simp
  · simp [e]

theorem at_slot {n i : Nat} (h : i < tableSize n) (f : Stats → Stats) {m : Nat} (hm : m ≠ i) : (S.at n (i : Int) f).slot m = S.slot m := by
  rw [at_nat h]; simp [hm]

theorem atReaction_eq {n i j : Nat} (h : j < 64) (f : RStats → RStats) : S.atReaction n (i : Int) (j : Int) f =
    S.at n (i : Int) fun s => { s with reactions := Function.update s.reactions j (f (s.reactions j)) } := by
  unfold Sum.atReaction
  rw [if_pos ⟨by omega, by simp [MAX_NUM_REACTIONS]; omega⟩]
  rfl

/-- The two records of a kind change the numbers of a reaction in this way. -/
def during (ends : Bool) (time : Int) (x : RStats) : RStats := if ends then x.ends time else x.starts time

/-- What a record does to entry `k` after the ones of the types of events. -/
def effect (table : List Object) (r : Record) (k : Nat) (s : Stats) : Stats :=
  if r.event = 0 ∨ r.event = 1 then
    if signed 32 r.dst < 64 ∧ object table r = some k then
      { event := r.event
        description := some (((table[k]?).map Object.description).getD NO_REACTOR)
        occurrences := s.occurrences + 1
        seen := if signed 32 r.dst ≥ s.seen then signed 32 r.dst + 1 else s.seen
        reactions := Function.update s.reactions (signed 32 r.dst).toNat
          (during (decide (r.event = 1)) (signed 64 r.physical) (s.reactions (signed 32 r.dst).toNat)) }
    else s
  else if r.event = 3 then
    if trigger table r = some k then
      { s with event := 3, description := some (((table[k]?).map Object.description).getD NO_TRIGGER), occurrences := s.occurrences + 1 }
    else s
  else if r.event = 4 then
    if object table r = some k then
      { s with event := 4, description := some (((table[k]?).map Object.description).getD NO_REACTOR), occurrences := s.occurrences + 1 }
    else s
  else if r.event = 5 then
    if object table r = some k then
      { s with
        event := 5
        description := some (((table[k]?).map Object.description).getD NO_REACTOR)
        occurrences := s.occurrences + 1
        reactions := Function.update s.reactions 0 ((s.reactions 0).count (signed 64 r.extra)) }
    else s
  else if r.event = 6 ∨ r.event = 7 then
    if k = table.length + (signed 32 r.src).toNat * 2 then
      { event := r.event
        description := s.description
        occurrences := s.occurrences + 1
        seen := if signed 32 r.src * 2 ≥ s.seen then signed 32 r.src * 2 else s.seen
        reactions := Function.update s.reactions ((signed 32 r.src).toNat * 2)
          (during (decide (r.event = 7)) (signed 64 r.physical) (s.reactions ((signed 32 r.src).toNat * 2))) }
    else s
  else s

theorem index_lt {p : Object → Bool} {o : Nat} (h : table.findIdx? p = some o) : o < table.length := by
  obtain ⟨h, _⟩ := List.findIdx?_eq_some_iff_getElem.1 h
  exact h

theorem object_some {o : Nat} (h : object table r = some o) : getObjectDescription table r.pointer = (table[o]?.map Object.description, o) := by
  unfold getObjectDescription
  unfold object at h
  rw [h]

theorem trigger_some {o : Nat} (h : trigger table r = some o) : getTriggerName table r.trigger = (table[o]?.map Object.description, o) := by
  unfold getTriggerName
  unfold trigger at h
  rw [h]

theorem objectIndex_lt (p : Nat) : (getObjectDescription table p).2 < tableSize table.length - NUM_EVENT_TYPES := by
  unfold getObjectDescription
  split
  · rename_i o h
    have := index_lt h
    simp [tableSize, NUM_EVENT_TYPES, MAX_NUM_WORKERS]; omega
  · simp [tableSize, NUM_EVENT_TYPES, MAX_NUM_WORKERS]

theorem triggerIndex_lt (p : Nat) : (getTriggerName table p).2 < tableSize table.length - NUM_EVENT_TYPES := by
  unfold getTriggerName
  split
  · rename_i o h
    have := index_lt h
    simp [tableSize, NUM_EVENT_TYPES, MAX_NUM_WORKERS]; omega
  · simp [tableSize, NUM_EVENT_TYPES, MAX_NUM_WORKERS]

/-- What is the same after two states: they have no fault, the entries of types of events are the same, and the other ones differ by a function. -/
structure Does (S T : Sum) (f : Nat → Stats → Stats) : Prop where
  fault : T.fault = S.fault
  event : ∀ e < NUM_EVENT_TYPES, T.slot e = S.slot e
  entry : ∀ k, T.get (NUM_EVENT_TYPES + k) = f k (S.get (NUM_EVENT_TYPES + k))

theorem Does.at {n o : Nat} (h : NUM_EVENT_TYPES + o < tableSize n) (f : Stats → Stats) :
    Does S (S.at n ((NUM_EVENT_TYPES + o : Nat) : Int) f) fun k s => if k = o then f s else s := by
  refine ⟨at_fault h f, fun e he => at_slot h f (by omega), fun k => ?_⟩
  rw [at_get h]
  by_cases e : k = o
  · subst e; simp
  · rw [if_neg (by omega), if_neg e]

theorem Does.trans {S T U : Sum} {f g : Nat → Stats → Stats} (h : Does S T f) (k : Does T U g) : Does S U fun i s => g i (f i s) :=
  ⟨k.fault.trans h.fault, fun e he => (k.event e he).trans (h.event e he), fun i => by rw [k.entry, h.entry]⟩

theorem Does.congr {S T : Sum} {f g : Nat → Stats → Stats} (h : Does S T f) (e : ∀ i s, f i s = g i s) : Does S T g :=
  ⟨h.fault, h.event, fun i => by rw [h.entry, e]⟩

theorem Does.same : Does S S fun _ s => s := ⟨rfl, fun _ _ => rfl, fun _ => rfl⟩

theorem cases_does (h : Ordinary table r) : Does S (S.cases table r) (effect table r) := by
  have size : tableSize table.length = 54 + table.length + 128 := rfl
  have hN : NUM_EVENT_TYPES = 54 := rfl
  have cast (o : Nat) : ((NUM_EVENT_TYPES : Nat) : Int) + (o : Int) = ((NUM_EVENT_TYPES + o : Nat) : Int) := by push_cast; rfl
  unfold Sum.cases effect
  simp only [reaction_starts, reaction_ends, schedule_called, user_event, user_value, worker_wait_starts, worker_wait_ends,
    scheduler_advancing_time_starts, scheduler_advancing_time_ends, Sum.common]
  by_cases h01 : r.event = 0 ∨ r.event = 1
  · simp only [if_pos h01]
    obtain ⟨o, x, ho, hx, _⟩ := h.reactor h01
    obtain ⟨j, hj⟩ := Int.eq_ofNat_of_zero_le (h.reaction h01)
    simp only [hj, object_some ho]
    by_cases hlt : (j : Int) ≥ ((MAX_NUM_REACTIONS : Nat) : Int)
    · rw [if_pos hlt]
      refine Does.same.congr fun i s => ?_
      rw [if_neg]
      rintro ⟨k, _⟩
      simp [MAX_NUM_REACTIONS] at hlt
      omega
    · rw [if_neg hlt]
      simp only [MAX_NUM_REACTIONS] at hlt
      have hb : NUM_EVENT_TYPES + o < tableSize table.length := by
        have := index_lt ho
        rw [size]; omega
      simp only [cast]
      rw [atReaction_eq (by omega)]
      refine (((Does.at hb _).trans (Does.at hb _)).trans (Does.at hb _)).congr fun i s => ?_
      by_cases e : i = o
      · subst e
        have hc : (j : Int) < 64 ∧ object table r = some i := ⟨by omega, ho⟩
        simp only [if_true, Int.toNat_natCast, if_pos hc]
        unfold during
        rcases h01 with h0 | h1
        · simp [h0]
        · simp [h1]
      · simp only [if_neg e]
        rw [if_neg]
        rintro ⟨_, k⟩
        rw [ho] at k; cases k; exact e rfl
  simp only [if_neg h01]
  by_cases h3 : r.event = 3
  · simp only [if_pos h3]
    obtain ⟨o, ho⟩ := h.scheduled h3
    simp only [trigger_some ho, cast]
    have hb : NUM_EVENT_TYPES + o < tableSize table.length := by
      have := index_lt ho
      rw [size]; omega
    refine ((Does.at hb _).trans (Does.at hb _)).congr fun i s => ?_
    by_cases e : i = o
    · subst e; rw [ho]; simp [h3]
    · simp only [if_neg e]
      rw [if_neg]
      intro k
      rw [ho] at k; cases k; exact e rfl
  simp only [if_neg h3]
  by_cases h4 : r.event = 4
  · simp only [if_pos h4]
    obtain ⟨o, x, ho, hx, _⟩ := h.user (.inl h4)
    simp only [object_some ho, cast]
    have hb : NUM_EVENT_TYPES + o < tableSize table.length := by
      have := index_lt ho
      rw [size]; omega
    refine ((Does.at hb _).trans (Does.at hb _)).congr fun i s => ?_
    by_cases e : i = o
    · subst e; rw [ho]; simp [h4]
    · simp only [if_neg e]
      rw [if_neg]
      intro k
      rw [ho] at k; cases k; exact e rfl
  simp only [if_neg h4]
  by_cases h5 : r.event = 5
  · simp only [if_pos h5]
    obtain ⟨o, x, ho, hx, _⟩ := h.user (.inr h5)
    have hb : NUM_EVENT_TYPES + o < tableSize table.length := by
      have := index_lt ho
      rw [size]; omega
    simp only [object_some ho, cast]
    rw [show (0 : Int) = ((0 : Nat) : Int) from rfl, atReaction_eq (by omega)]
    refine (((Does.at hb _).trans (Does.at hb _)).trans (Does.at hb _)).congr fun i s => ?_
    by_cases e : i = o
    · subst e; rw [ho]; simp [h5]
    · simp only [if_neg e]
      rw [if_neg]
      intro k
      rw [ho] at k; cases k; exact e rfl
  simp only [if_neg h5]
  by_cases h67 : r.event = 6 ∨ r.event = 7
  · have h6789 : r.event = 6 ∨ r.event = 7 ∨ r.event = 8 ∨ r.event = 9 := by omega
    have h89 : ¬(r.event = 8 ∨ r.event = 9) := by have := h.untimed; omega
    obtain ⟨w0, w1⟩ := h.worker h67
    obtain ⟨w, hw⟩ := Int.eq_ofNat_of_zero_le w0
    rw [hw] at w1
    simp only [if_pos h6789, if_neg h89, hw, if_pos h67, Int.add_zero, Int.toNat_natCast]
    rw [if_neg (by rw [size, Int.not_le]; have : ((54 + table.length + 128 : Nat) : Int) = 54 + (table.length : Int) + 128 := by norm_cast
                   omega)]
    have hb : NUM_EVENT_TYPES + (table.length + w * 2) < tableSize table.length := by rw [size]; omega
    have c1 : ((NUM_EVENT_TYPES : Nat) : Int) + (table.length : Int) + (w : Int) * 2 = ((NUM_EVENT_TYPES + (table.length + w * 2) : Nat) : Int) := by
      push_cast; omega
    have c2 : (w : Int) * 2 = ((w * 2 : Nat) : Int) := by push_cast; rfl
    rw [c1, c2, atReaction_eq (by omega)]
    refine (((Does.at hb _).trans (Does.at hb _)).trans (Does.at hb _)).congr fun i s => ?_
    by_cases e : i = table.length + w * 2
    · subst e
      simp only [if_true]
      unfold during
      rcases h67 with h0 | h1
      · simp [h0]
      · simp [h1]
    · simp only [if_neg e]
  · have h6789 : ¬(r.event = 6 ∨ r.event = 7 ∨ r.event = 8 ∨ r.event = 9) := by have := h.untimed; omega
    simp only [if_neg h6789, if_neg h67]
    exact Does.same

/-- A whole record. -/
theorem record_does (h : Ordinary table r) :
    (S.record names table r).fault = S.fault ∧
    (∀ e < NUM_EVENT_TYPES, (S.record names table r).slot e =
      if e = r.event then some { S.get e with event := e, description := some (names e), occurrences := (S.get e).occurrences + 1 } else S.slot e) ∧
    ∀ k, (S.record names table r).get (NUM_EVENT_TYPES + k) = effect table r k (S.get (NUM_EVENT_TYPES + k)) := by
  have h1 : NUM_EVENT_TYPES + (getObjectDescription table r.pointer).2 < tableSize table.length := by
    have := objectIndex_lt (table := table) r.pointer; omega
  have h2 : NUM_EVENT_TYPES + (getTriggerName table r.trigger).2 < tableSize table.length := by
    have := triggerIndex_lt (table := table) r.trigger; omega
  have hN : NUM_EVENT_TYPES = 54 := rfl
  have h3 : r.event < tableSize table.length := by have := h.known; simp [tableSize]; omega
  unfold Sum.record
  have cast (o : Nat) : ((NUM_EVENT_TYPES : Nat) : Int) + (o : Int) = ((NUM_EVENT_TYPES + o : Nat) : Int) := by push_cast; rfl
  simp only [cast]
  rw [if_neg (by have := h.known; omega)]
  have d1 := (Does.at (S := S) h1 id).trans (Does.at h2 id)
  generalize (S.at table.length _ id).at table.length _ id = S1 at d1 ⊢
  have d2 := fun T : Sum => cases_does (S := T) h
  refine ⟨?_, ?_, ?_⟩
  · rw [(d2 _).fault, at_fault h3, d1.fault]
  · intro e he
    rw [(d2 _).event e he]
    by_cases k : e = r.event
    · rw [if_pos k, at_nat h3, k]
      have : S1.get r.event = S.get r.event := by unfold Sum.get; rw [d1.event _ (k ▸ he)]
      simp [this, eventName]
    · rw [if_neg k, at_slot h3 _ k, d1.event e he]
  · intro k
    rw [(d2 _).entry, at_get h3, if_neg (by have := h.known; omega), d1.entry]
    simp

end ReactorC.TraceSum
