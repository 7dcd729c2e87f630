import Verif.Audio.Inv
import Mathlib.Logic.Relation

/-!
# C90: what is heard of the waveforms
-/

namespace ReactorC.Audio
variable {Vol : Type}

/-- C90.  macOS: every call plays the frames of its waveform one after the other, each once, on consecutive samples, the first one on the sample that belongs to the time of the call; all but the last frame, unless the volume
is 0, eight more calls are made, or the samples up to the end of the current buffer are all in use. -/
theorem C90_frames_are_played_in_order_partial {C : Config Vol} {t0 : Int} {s : State Vol} (h : ReachMac C t0 s) {p : Nat} {w : Wave} {v : Vol} {a : Nat} (hp : s.calls[p]? = some (w, v, a)) :
    ∃ k, played s p = (List.range k).map (fun f => (a + f, f * w.channels)) ∧ 1 ≤ k ∧ k ≤ frames w ∧
      (k = frames w ∨ C.silent v = true ∨ p + 8 < s.calls.length ∨ ∃ b, s.buf = some b ∧ a + k = (b + 1) * SIZE) := by
  obtain ⟨-, k, h1, h2, h3, h4⟩ := (inv_reach h).any p w v a hp
  refine ⟨k, h1, h2, h3, ?_⟩
  rcases h4 with h4 | h4 | h4 | h4
  · exact .inl h4
  · exact .inr (.inl h4)
  · exact .inr (.inr (.inl h4))
  · right; right; right
    cases hb : s.buf with
    | none =>
      rw [hb] at h4
      have : a + k = 0 := h4
      omega
    | some b =>
      rw [hb] at h4
      exact ⟨b, rfl, h4⟩

/-- C90.  macOS: nothing outside of the memory of the waveforms is read. -/
theorem C90_reads_are_safe_partial {C : Config Vol} {t0 : Int} {s : State Vol} (h : ReachMac C t0 s) : s.out.fault = false := (inv_reach h).ok

/-- What is played is in the waveform. -/
theorem C90_positions_are_in_the_waveform_partial {C : Config Vol} {t0 : Int} {s : State Vol} (h : ReachMac C t0 s) {p : Nat} {w : Wave} {v : Vol} {a : Nat} (hp : s.calls[p]? = some (w, v, a)) :
    ∀ e ∈ played s p, e.2 + w.channels ≤ w.length := by
  obtain ⟨hw, k, h1, h2, h3, -⟩ := (inv_reach h).any p w v a hp
  intro e he
  rw [h1] at he
  obtain ⟨f, hf, rfl⟩ := List.mem_map.1 he
  exact (ended_iff hw (f := f) (by have := List.mem_range.1 hf; omega)).2

/-- C90.  The last frame of a waveform with two or more frames is never played. -/
theorem C90_last_frame_not_played {C : Config Vol} {t0 : Int} {s : State Vol} (h : ReachMac C t0 s) {p : Nat} {w : Wave} {v : Vol} {a : Nat} (hp : s.calls[p]? = some (w, v, a))
    (h2 : 2 * w.channels ≤ w.length) : ∀ e ∈ played s p, e.2 + w.channels < w.length := by
  obtain ⟨hw, k, h1, -, h3, -⟩ := (inv_reach h).any p w v a hp
  intro e he
  rw [h1] at he
  obtain ⟨f, hf, rfl⟩ := List.mem_map.1 he
  have hf := List.mem_range.1 hf
  show f * w.channels + w.channels < w.length
  rcases Nat.eq_zero_or_pos f with rfl | hpos
  · have := hw.1
    omega
  · have h4 : f + 1 ≤ (w.length - 1) / w.channels := by
      unfold frames at h3
      omega
    have h5 := (Nat.le_div_iff_mul_le (by have := hw.1; omega)).1 h4
    have h6 : (f + 1) * w.channels = f * w.channels + w.channels := Nat.succ_mul _ _
    have := hw.1
    have := hw.2.1
    omega

/-! ## Times -/

theorem contN_keep (C : Config Vol) (N b : Nat) (s : State Vol) (j : Nat) :
    (contN C N b s j).buf = s.buf ∧ (contN C N b s j).start = s.start ∧ (contN C N b s j).counter = s.counter ∧ (contN C N b s j).delivered = s.delivered := by
  unfold contN
  split
  · exact ⟨rfl, rfl, rfl, rfl⟩
  · split <;> exact ⟨rfl, rfl, rfl, rfl⟩

theorem slots_keep (C : Config Vol) (b : Nat) (s : State Vol) (l : List Nat) :
    (l.foldl (contSlot C b) s).buf = s.buf ∧ (l.foldl (contSlot C b) s).start = s.start ∧ (l.foldl (contSlot C b) s).counter = s.counter ∧ (l.foldl (contSlot C b) s).delivered = s.delivered := by
  induction l generalizing s with
  | nil => exact ⟨rfl, rfl, rfl, rfl⟩
  | cons i l ih =>
    rw [List.foldl_cons]
    obtain ⟨h1, h2, h3, h4⟩ := ih (contSlot C b s i)
    rw [h1, h2, h3, h4, contSlot_eq]
    exact contN_keep C SIZE b s i

theorem slots_calls (C : Config Vol) (b : Nat) (l : List Nat) : ∀ s : State Vol, (l.foldl (contSlot C b) s).calls = s.calls := by
  have h : ∀ (N : Nat) (s : State Vol) (j : Nat), (contN C N b s j).calls = s.calls := by
    intro N s j
    unfold contN
    split
    · rfl
    · split <;> rfl
  induction l with
  | nil => intro s; rfl
  | cons i l ih => intro s; rw [List.foldl_cons, ih, contSlot_eq, h]

theorem playN_keep (C : Config Vol) (N : Nat) (s : State Vol) (b : Nat) (w : Wave) (v : Vol) (t : Int) :
    (playN C N s b w v t).buf = s.buf ∧ (playN C N s b w v t).start = s.start ∧ (playN C N s b w v t).delivered = s.delivered ∧
      (playN C N s b w v t).counter = (if s.counter + 1 ≥ 8 then 0 else s.counter + 1) ∧ (∀ j, j ≠ s.counter → (playN C N s b w v t).notes j = s.notes j) := by
  unfold playN
  dsimp only
  split <;> exact ⟨rfl, rfl, rfl, rfl, fun j hj => upd_other _ _ hj⟩

theorem playN_calls (C : Config Vol) (N : Nat) (s : State Vol) (b : Nat) (w : Wave) (v : Vol) (t : Int) : (playN C N s b w v t).calls = s.calls ++ [(w, v, b * N + index s t)] := by
  unfold playN
  dsimp only
  split <;> rfl

theorem play_keep (C : Config Vol) (s : State Vol) (b : Nat) (w : Wave) (v : Vol) (t : Int) :
    (play C s b w v t).buf = s.buf ∧ (play C s b w v t).start = s.start ∧ (play C s b w v t).delivered = s.delivered ∧
      (play C s b w v t).counter = (if s.counter + 1 ≥ 8 then 0 else s.counter + 1) ∧ (∀ j, j ≠ s.counter → (play C s b w v t).notes j = s.notes j) := by
  rw [play_eq]
  exact playN_keep C SIZE s b w v t

theorem start_mac {C : Config Vol} {t0 : Int} {s : State Vol} (h : ReachMac C t0 s) : s.start = t0 - 2 * DURATION + (match s.buf with | none => 0 | some b => ((b : Int) + 1) * DURATION) := by
  induction h with
  | init => simp [initial]
  | callback _ ih =>
    unfold callbackMac contAll
    dsimp only
    rename_i s _
    obtain ⟨h1, h2, -, -⟩ := slots_keep C (following s.buf) { s with buf := some (following s.buf), start := s.start + DURATION } (List.range 8)
    rw [h1, h2]
    dsimp only
    rw [ih]
    cases s.buf with
    | none => simp [following]
    | some b =>
      show t0 - 2 * DURATION + ((b : Int) + 1) * DURATION + DURATION = t0 - 2 * DURATION + (((b + 1 : Nat) : Int) + 1) * DURATION
      have hD : DURATION = 100000000 := rfl
      rw [hD]
      omega
  | play w v t _ _ _ _ ih =>
    rw [(play_keep C _ _ w v t).1, (play_keep C _ _ w v t).2.1]
    exact ih
  | tick v t _ _ _ ih => exact ih

theorem sample_of (b : Nat) (x : Int) (hx : 0 ≤ x) : ((b * SIZE + (x * RATE / 1000000000).toNat : Nat) : Int) = (x + b * DURATION) * RATE / 1000000000 := by
  have h1 : 0 ≤ x * RATE / 1000000000 := Int.ediv_nonneg (Int.mul_nonneg hx (by decide)) (by decide)
  have h2 : (x + b * DURATION) * RATE = x * RATE + (b * 4410) * 1000000000 := by
    rw [Int.add_mul, Int.mul_assoc, show DURATION * RATE = 4410 * 1000000000 by decide, Int.mul_assoc]
  rw [h2, Int.add_mul_ediv_right _ _ (by decide), Int.natCast_add, Int.toNat_of_nonneg h1, Int.natCast_mul]
  show (b : Int) * 4410 + _ = _
  omega

/-- C90.  macOS: the note of a call that is not late begins on the sample that belongs to its time, at 44100 samples per second; sample 0 belongs to the time one buffer before the start time. -/
theorem C90_notes_begin_in_time {C : Config Vol} {t0 : Int} {s : State Vol} (h : ReachMac C t0 s) {b : Nat} (hb : s.buf = some b) {t : Int} (hl : s.start ≤ t) :
    ((b * SIZE + index s t : Nat) : Int) = (t - (t0 - DURATION)) * RATE / 1000000000 := by
  have h1 := start_mac h
  rw [hb] at h1
  dsimp only at h1
  unfold index
  have hD : DURATION = 100000000 := rfl
  rw [hD] at h1 ⊢
  rw [Int.max_eq_right (by omega), sample_of _ _ (by omega), hD]
  congr 2
  omega

/-- C90.  A call waits if and only if its time is after the end of the current buffer; the result is 1 if and only if it is before its beginning, and then the note begins there at once. -/
theorem C90_calls_wait_for_their_buffer (s : State Vol) (t : Int) : (index s t < SIZE ↔ t < s.start + DURATION) ∧ (late s t = true ↔ t < s.start) ∧ (late s t = true → index s t = 0) := by
  unfold index late
  have hD : DURATION = 100000000 := rfl
  have hS : SIZE = 4410 := rfl
  have hR : RATE = 44100 := rfl
  rw [hD, hS, hR]
  refine ⟨?_, decide_eq_true_iff, ?_⟩
  · omega
  · intro h
    have := of_decide_eq_true h
    omega

/-! ## Any waveform -/

theorem contN_sound (C : Config Vol) (N b : Nat) (s : State Vol) (j : Nat) (h : ∀ i, -MAX ≤ s.out.sound i ∧ s.out.sound i ≤ MAX) :
    ∀ i, -MAX ≤ (contN C N b s j).out.sound i ∧ (contN C N b s j).out.sound i ≤ MAX := by
  unfold contN
  split
  · exact h
  · split
    · exact h
    · exact fill_sound C _ _ _ _ _ _ _ h

theorem slots_sound (C : Config Vol) (b : Nat) : ∀ (l : List Nat) (s : State Vol), (∀ i, -MAX ≤ s.out.sound i ∧ s.out.sound i ≤ MAX) → ∀ i, -MAX ≤ (l.foldl (contSlot C b) s).out.sound i ∧ (l.foldl (contSlot C b) s).out.sound i ≤ MAX := by
  intro l
  induction l with
  | nil => intro s h; exact h
  | cons j l ih =>
    intro s h
    rw [List.foldl_cons]
    apply ih
    rw [contSlot_eq]
    exact contN_sound C SIZE b s j h

theorem playN_sound (C : Config Vol) (N : Nat) (s : State Vol) (b : Nat) (w : Wave) (v : Vol) (t : Int) (h : ∀ i, -MAX ≤ s.out.sound i ∧ s.out.sound i ≤ MAX) :
    ∀ i, -MAX ≤ (playN C N s b w v t).out.sound i ∧ (playN C N s b w v t).out.sound i ≤ MAX := by
  unfold playN
  dsimp only
  split
  · exact fill_sound C _ _ _ _ _ _ _ h
  · exact h

theorem play_sound (C : Config Vol) (s : State Vol) (b : Nat) (w : Wave) (v : Vol) (t : Int) (h : ∀ i, -MAX ≤ s.out.sound i ∧ s.out.sound i ≤ MAX) :
    ∀ i, -MAX ≤ (play C s b w v t).out.sound i ∧ (play C s b w v t).out.sound i ≤ MAX := by
  rw [play_eq]
  exact playN_sound C SIZE s b w v t h

theorem tick_sound (C : Config Vol) (s : State Vol) (b : Nat) (v : Vol) (t : Int) (h : ∀ i, -MAX ≤ s.out.sound i ∧ s.out.sound i ≤ MAX) : ∀ i, -MAX ≤ (tick C s b v t).out.sound i ∧ (tick C s b v t).out.sound i ≤ MAX := by
  intro i
  unfold tick add upd
  dsimp only
  split
  · exact clamp_range _
  · exact h i

/-- C90.  The samples are always within the limits of the amplitude, so that they never wrap around; on macOS and on Linux, whatever is played. -/
theorem C90_samples_are_limited {C : Config Vol} {t0 : Int} {s : State Vol} (h : Relation.ReflTransGen (fun s s' => StepMac C s s' ∨ StepLinux C s s') (initial C t0) s) :
    ∀ i, -32765 ≤ s.out.sound i ∧ s.out.sound i ≤ 32765 := by
  show ∀ i, -MAX ≤ s.out.sound i ∧ s.out.sound i ≤ MAX
  induction h with
  | refl => intro i; show -MAX ≤ 0 ∧ 0 ≤ MAX; decide
  | tail _ hs ih =>
    rcases hs with hs | hs
    · cases hs with
      | callback => exact slots_sound C _ _ _ ih
      | play w v t _ _ => exact play_sound C _ _ w v t ih
      | tick v t _ _ => exact tick_sound C _ _ v t ih
    · cases hs with
      | callback _ => exact slots_sound C _ _ _ ih
      | advance _ => exact ih
      | play w v t _ _ => exact play_sound C _ _ w v t ih
      | tick v t _ _ => exact tick_sound C _ _ v t ih

/-! ## What is wrong -/

theorem fill_fault_mono (C : Config Vol) (p : Nat) (w : Wave) (v : Vol) : ∀ (k a pos : Nat) (o : Out), o.fault = true → (fill C p w v k a pos o).1.fault = true := by
  intro k
  induction k with
  | zero => intro a pos o h; rw [fill_zero]; exact h
  | succ k ih =>
    intro a pos o h
    have h' : (put C p w v a pos o).fault = true := by unfold put; dsimp only; rw [h, Bool.true_or]
    rw [fill_succ]
    split
    · exact h'
    · exact ih _ _ _ h'

theorem contN_fault_mono (C : Config Vol) (N b : Nat) (s : State Vol) (j : Nat) (h : s.out.fault = true) : (contN C N b s j).out.fault = true := by
  unfold contN
  split
  · exact h
  · split
    · exact h
    · exact fill_fault_mono C _ _ _ _ _ _ _ h

theorem slots_fault_mono (C : Config Vol) (b : Nat) : ∀ (l : List Nat) (s : State Vol), s.out.fault = true → (l.foldl (contSlot C b) s).out.fault = true := by
  intro l
  induction l with
  | nil => intro s h; exact h
  | cons j l ih => intro s h; exact ih _ (by rw [contSlot_eq]; exact contN_fault_mono C SIZE b s j h)

theorem contN_other (C : Config Vol) (N b : Nat) (s : State Vol) {i j : Nat} (h : j ≠ i) : (contN C N b s i).notes j = s.notes j := by
  unfold contN
  split
  · rfl
  · split
    · rfl
    · exact upd_other _ _ h

theorem slot_other (C : Config Vol) (b : Nat) (s : State Vol) {i j : Nat} (h : j ≠ i) : (contSlot C b s i).notes j = s.notes j := by
  rw [contSlot_eq]
  exact contN_other C SIZE b s h

theorem fill_empty (C : Config Vol) (p : Nat) {w : Wave} (hw : w.length = 0) (v : Vol) {N : Nat} (hN : 0 < N) (a pos : Nat) (o : Out) : (fill C p w v N a pos o).1.fault = true := by
  obtain ⟨n, rfl⟩ : ∃ n, N = n + 1 := ⟨N - 1, by omega⟩
  have h' : (put C p w v a pos o).fault = true := by
    unfold put
    dsimp only
    rw [Bool.or_eq_true, decide_eq_true_iff]
    right
    omega
  rw [fill_succ]
  split
  · exact h'
  · exact fill_fault_mono C _ _ _ _ _ _ _ h'

theorem contN_empty (C : Config Vol) {N : Nat} (hN : 0 < N) (b : Nat) {j : Nat} {w : Wave} (hw : w.length = 0) (s : State Vol) (h1 : (s.notes j).wave = some w) (h2 : C.silent (s.notes j).vol = false) :
    (contN C N b s j).out.fault = true := by
  have hf : (fill C (s.notes j).play w (s.notes j).vol N (b * N) (s.notes j).pos s.out).1.fault = true := fill_empty C _ hw _ hN _ _ _
  unfold contN
  rw [h1]
  dsimp only
  rw [h2, if_neg Bool.false_ne_true]
  exact hf

theorem slots_empty (C : Config Vol) (b : Nat) {j : Nat} {w : Wave} (hw : w.length = 0) : ∀ (l : List Nat) (s : State Vol), j ∈ l → (s.notes j).wave = some w → C.silent (s.notes j).vol = false →
    (l.foldl (contSlot C b) s).out.fault = true := by
  intro l
  induction l with
  | nil => intro s h; cases h
  | cons i l ih =>
    intro s hj h1 h2
    rw [List.foldl_cons]
    by_cases hji : j = i
    · subst hji
      apply slots_fault_mono
      rw [contSlot_eq]
      exact contN_empty C size_pos b hw s h1 h2
    · apply ih _ (by simpa [hji] using hj)
      · rw [slot_other C b s hji]; exact h1
      · rw [slot_other C b s hji]; exact h2

theorem playN_empty (C : Config Vol) (N : Nat) (s : State Vol) (b : Nat) {w : Wave} (v : Vol) (t : Int) (hw : w.length = 0) :
    ((playN C N s b w v t).notes s.counter).wave = some w ∧ ((playN C N s b w v t).notes s.counter).vol = (s.notes s.counter).vol := by
  unfold playN
  dsimp only
  rw [if_neg (by omega)]
  dsimp only
  rw [upd_same]
  exact ⟨rfl, rfl⟩

/-- C90.  A waveform without samples, of which nothing should be played, takes the place of the note eight calls before; if that one has not ended, the next callback reads outside of the memory of the waveform, or divides by 0. -/
theorem C90_empty_waveforms_not_safe {C : Config Vol} {s : State Vol} {b : Nat} {w : Wave} {v : Vol} {t : Int} (hw : w.length = 0) (hc : s.counter < 8) (hs : C.silent (s.notes s.counter).vol = false) :
    (callbackMac C (play C s b w v t)).out.fault = true ∧ (callbackLinux C (play C s b w v t)).out.fault = true := by
  obtain ⟨h1, h2⟩ := playN_empty C SIZE s b v t hw
  rw [← play_eq] at h1 h2
  rw [← h2] at hs
  exact ⟨slots_empty C _ hw _ _ (List.mem_range.2 hc) h1 hs, slots_empty C _ hw _ _ (List.mem_range.2 hc) h1 hs⟩

theorem fill_log (C : Config Vol) (p : Nat) (w : Wave) (v : Vol) : ∀ (k a pos : Nat) (o : Out), ∃ l, (fill C p w v k a pos o).1.log = o.log ++ l := by
  intro k
  induction k with
  | zero => intro a pos o; exact ⟨[], by rw [fill_zero]; simp⟩
  | succ k ih =>
    intro a pos o
    rw [fill_succ]
    split
    · exact ⟨_, rfl⟩
    · obtain ⟨l, hl⟩ := ih (a + 1) (pos + w.channels) (put C p w v a pos o)
      exact ⟨[(p, a, pos)] ++ l, by rw [hl, ← List.append_assoc]; rfl⟩

theorem contN_log (C : Config Vol) (N b : Nat) (e : Nat × Nat × Nat) (s : State Vol) (j : Nat) (h : e ∈ s.out.log) : e ∈ (contN C N b s j).out.log := by
  unfold contN
  split
  · exact h
  · split
    · exact h
    · obtain ⟨l, hl⟩ := fill_log C (s.notes j).play (‹Wave›) (s.notes j).vol N (b * N) (s.notes j).pos s.out
      dsimp only
      rw [hl]
      exact List.mem_append_left _ h

theorem slots_log (C : Config Vol) (b : Nat) (e : Nat × Nat × Nat) : ∀ (l : List Nat) (s : State Vol), e ∈ s.out.log → e ∈ (l.foldl (contSlot C b) s).out.log := by
  intro l
  induction l with
  | nil => intro s h; exact h
  | cons j l ih =>
    intro s h
    apply ih
    rw [contSlot_eq]
    exact contN_log C SIZE b e s j h

theorem fill_first (C : Config Vol) (p : Nat) (w : Wave) (v : Vol) (n a f : Nat) (o : Out) : (p, a, f) ∈ (fill C p w v (n + 1) a f o).1.log := by
  have h' : (p, a, f) ∈ (put C p w v a f o).log := by
    unfold put
    dsimp only
    simp
  rw [fill_succ]
  by_cases he : ended w (f + w.channels) = true
  · rw [if_pos he]
    exact h'
  · rw [if_neg he]
    obtain ⟨l, hl⟩ := fill_log C p w v n (a + 1) (f + w.channels) (put C p w v a f o)
    rw [hl]
    exact List.mem_append_left _ h'

theorem contN_continue (C : Config Vol) {N : Nat} (hN : 0 < N) (b : Nat) {j p f : Nat} {w : Wave} {v : Vol} (hv : C.silent v = false) (s : State Vol) (h1 : s.notes j = ⟨p, some w, f, v⟩) :
    (p, b * N, f) ∈ (contN C N b s j).out.log := by
  have hf : (p, b * N, f) ∈ (fill C p w v N (b * N) f s.out).1.log := by
    obtain ⟨n, hn⟩ : ∃ n, N = n + 1 := ⟨N - 1, by omega⟩
    generalize b * N = a
    rw [hn]
    exact fill_first C p w v n a f s.out
  unfold contN
  rw [h1]
  dsimp only
  rw [hv, if_neg Bool.false_ne_true]
  exact hf

theorem slots_continue (C : Config Vol) (b : Nat) {j p f : Nat} {w : Wave} {v : Vol} (hv : C.silent v = false) : ∀ (l : List Nat) (s : State Vol), j ∈ l → s.notes j = ⟨p, some w, f, v⟩ →
    (p, b * SIZE, f) ∈ (l.foldl (contSlot C b) s).out.log := by
  intro l
  induction l with
  | nil => intro s h; cases h
  | cons i l ih =>
    intro s hj h1
    rw [List.foldl_cons]
    by_cases hji : j = i
    · subst hji
      apply slots_log
      rw [contSlot_eq]
      exact contN_continue C size_pos b hv s h1
    · apply ih _ (by simpa [hji] using hj)
      rw [slot_other C b s hji]; exact h1

theorem playN_long (C : Config Vol) (N : Nat) (s : State Vol) (b : Nat) {w : Wave} (v : Vol) (t : Int) (hw : w.Ok) (hi : index s t < N) :
    (s.calls.length, b * N + index s t, 0) ∈ (playN C N s b w v t).out.log ∧
    (N - index s t < frames w → (playN C N s b w v t).notes s.counter = ⟨s.calls.length, some w, (N - index s t) * w.channels, v⟩) := by
  have hlen : w.length > 0 := by have := hw.1; have := hw.2.1; omega
  obtain ⟨f1, -, f3⟩ := fill_spec C s.calls.length v hw (N - index s t) (b * N + index s t) 0 s.out (frames_pos w) (by omega)
  have := frames_pos w
  rw [Nat.zero_mul] at f1 f3
  unfold playN
  dsimp only
  rw [if_pos hlen]
  dsimp only
  rw [upd_same, f3, f1]
  refine ⟨List.mem_append_right _ (List.mem_map.2 ⟨0, List.mem_range.2 (by omega), ?_⟩), fun hlong => ?_⟩
  · rw [Nat.add_zero, Nat.add_zero, Nat.zero_mul]
  · rw [if_pos (by omega), Nat.zero_add]

/-- C90.  Linux: the rest of a note that does not fit into the buffer is not played after it, but from the beginning of the same buffer: frame `SIZE - i` is written on the first sample of the buffer, before the note begins. -/
theorem C90_long_notes_not_in_order_on_linux {C : Config Vol} {s : State Vol} {b : Nat} {w : Wave} {v : Vol} {t : Int} (hb : s.buf = some b) (hc : s.counter < 8) (hw : w.Ok) (hv : C.silent v = false)
    (hi : index s t < SIZE) (hlong : SIZE - index s t < frames w) :
    (s.calls.length, b * SIZE + index s t, 0) ∈ (callbackLinux C (play C s b w v t)).out.log ∧
    (s.calls.length, b * SIZE, (SIZE - index s t) * w.channels) ∈ (callbackLinux C (play C s b w v t)).out.log := by
  obtain ⟨h1, h2⟩ := playN_long C SIZE s b v t hw hi
  rw [← play_eq] at h1 h2
  have hbuf : (play C s b w v t).buf = some b := (play_keep C s b w v t).1.trans hb
  unfold callbackLinux
  rw [hbuf]
  exact ⟨slots_log C b _ _ _ h1, slots_continue C b hv _ _ (List.mem_range.2 hc) (h2 hlong)⟩

/-- C90.  Linux: between the callback and the change of the buffer, what is played is written into the buffer that has been handed over. -/
theorem C90_notes_not_heard_on_linux (C : Config Vol) (t0 : Int) (w : Wave) (v : Vol) :
    ∃ s, ReachLinux C t0 s ∧ s.delivered = true ∧ ∃ s', StepLinux C s s' ∧ s'.delivered = true ∧ s'.buf = s.buf ∧ ∃ b a, s.buf = some b ∧ s'.calls = s.calls ++ [(w, v, a)] ∧ a < (b + 1) * SIZE := by
  have h0 : ReachLinux C t0 (callbackLinux C (initial C t0)) := .step .init (.callback rfl)
  obtain ⟨h1, h2, -, -⟩ := slots_keep C 0 { initial C t0 with buf := some 0, start := t0 - 2 * DURATION + DURATION } (List.range 8)
  have hi : index (callbackLinux C (initial C t0)) (t0 - DURATION) < SIZE := by
    apply (C90_calls_wait_for_their_buffer _ _).1.2
    show _ < (callbackLinux C (initial C t0)).start + DURATION
    have h3 : (callbackLinux C (initial C t0)).start = t0 - 2 * DURATION + DURATION := h2
    have hD : DURATION = 100000000 := rfl
    omega
  refine ⟨_, h0, rfl, _, .play w v (t0 - DURATION) h1 hi, (play_keep C _ 0 w v _).2.2.1, (play_keep C _ 0 w v _).1, 0, 0 * SIZE + index (callbackLinux C (initial C t0)) (t0 - DURATION), h1, ?_, ?_⟩
  · rw [play_eq, playN_calls]
  · omega

/-! ## The hypotheses -/

/-- After the first callback a call is in time until the start time. -/
theorem first_callback (C : Config Vol) (t0 : Int) : (callbackMac C (initial C t0)).buf = some 0 ∧ (callbackMac C (initial C t0)).start = t0 - DURATION ∧
    (callbackMac C (initial C t0)).counter = 0 ∧ index (callbackMac C (initial C t0)) (t0 - DURATION) = 0 := by
  obtain ⟨h1, h2, h3, -⟩ := slots_keep C 0 { initial C t0 with buf := some 0, start := t0 - 2 * DURATION + DURATION } (List.range 8)
  have h4 : (callbackMac C (initial C t0)).start = t0 - 2 * DURATION + DURATION := h2
  have hD : DURATION = 100000000 := rfl
  have h5 : (callbackMac C (initial C t0)).start = t0 - DURATION := by omega
  refine ⟨h1, h5, h3, ?_⟩
  unfold index
  rw [h5, Int.sub_self]
  decide

theorem more_calls {C : Config Vol} {t0 t : Int} {w : Wave} (hw : w.Ok) (v : Vol) {b : Nat} : ∀ (n : Nat) (s : State Vol), ReachMac C t0 s → s.buf = some b → index s t < SIZE → 1 ≤ s.counter → s.counter + n = 8 →
    ∃ s', ReachMac C t0 s' ∧ s'.counter % 8 = 0 ∧ s'.notes 0 = s.notes 0 ∧ s'.buf = some b ∧ index s' t < SIZE := by
  intro n
  induction n with
  | zero => intro s h hb hi h1 h2; exact ⟨s, h, by omega, rfl, hb, hi⟩
  | succ n ih =>
    intro s h hb hi h1 h2
    obtain ⟨k1, k2, -, k4, k5⟩ := play_keep C s b w v t
    have hi' : index (play C s b w v t) t < SIZE := by
      unfold index at hi ⊢
      rw [k2]
      exact hi
    have h0 := k5 0 (by omega)
    by_cases hc : s.counter + 1 ≥ 8
    · rw [if_pos hc] at k4
      exact ⟨_, .play w v t h hw hb hi, by rw [k4], h0, k1.trans hb, hi'⟩
    · rw [if_neg hc] at k4
      obtain ⟨s', g1, g2, g3, g4⟩ := ih _ (.play w v t h hw hb hi) (k1.trans hb) hi' (by omega) (by omega)
      exact ⟨s', g1, g2, g3.trans h0, g4⟩

/-- A waveform of 10000 samples, one of 2 frames, and one without samples. -/
def long : Wave := ⟨10000, 1, fun i => i⟩
def short : Wave := ⟨4, 2, fun i => i⟩
def empty : Wave := ⟨0, 2, fun _ => 0⟩

theorem long_ok : long.Ok := ⟨by decide, by decide, by decide⟩
theorem short_ok : short.Ok := ⟨by decide, by decide, by decide⟩

/-- Calls on macOS with waveforms that are valid, one of which has to go on in other buffers. -/
example (C : Config Vol) (t0 : Int) (v : Vol) : ∃ s b, ReachMac C t0 s ∧ s.buf = some b ∧ s.calls = [(long, v, 0)] ∧ 4410 < frames long ∧ frames short = 1 ∧ 2 * long.channels ≤ long.length := by
  obtain ⟨h1, h2, h3, h4⟩ := first_callback C t0
  refine ⟨_, 0, .play long v (t0 - DURATION) (.callback .init) long_ok h1 (by rw [h4]; exact size_pos), ?_, ?_, by decide, by decide, by decide⟩
  · exact (play_keep C _ 0 long v _).1.trans h1
  · rw [play_eq, playN_calls, h4]
    have : (callbackMac C (initial C t0)).calls = [] := by
      exact slots_calls C 0 _ _
    rw [this]
    rfl

/-- After eight calls, the first of which has not ended, the ninth one is with an empty waveform: the next callback reads outside of memory. -/
example (C : Config Vol) (t0 : Int) (v : Vol) (hv : C.silent v = false) : ∃ s b t, ReachMac C t0 s ∧ s.buf = some b ∧ index s t < SIZE ∧ (callbackMac C (play C s b empty v t)).out.fault = true := by
  obtain ⟨h1, h2, h3, h4⟩ := first_callback C t0
  have h5 : index (callbackMac C (initial C t0)) (t0 - DURATION) < SIZE := by rw [h4]; exact size_pos
  have hr : ReachMac C t0 (play C (callbackMac C (initial C t0)) 0 long v (t0 - DURATION)) := .play long v _ (.callback .init) long_ok h1 h5
  obtain ⟨k1, k2, -, k4, -⟩ := play_keep C (callbackMac C (initial C t0)) 0 long v (t0 - DURATION)
  rw [h3] at k4
  have hi : index (play C (callbackMac C (initial C t0)) 0 long v (t0 - DURATION)) (t0 - DURATION) < SIZE := by
    unfold index at h5 ⊢
    rw [k2]
    exact h5
  obtain ⟨s, g1, g2, g3, g4, g5⟩ := more_calls short_ok v 7 _ hr (k1.trans h1) hi (by rw [k4]; decide) (by rw [k4]; decide)
  have hn := (playN_long C SIZE (callbackMac C (initial C t0)) 0 v (t0 - DURATION) long_ok h5).2 (by rw [h4]; decide)
  rw [← play_eq, h3] at hn
  rw [hn] at g3
  have hc : s.counter = 0 := by
    have := (inv_reach g1).counter
    omega
  refine ⟨s, 0, _, g1, g4, g5, (C90_empty_waveforms_not_safe rfl (by omega) ?_).1⟩
  rw [hc, g3]
  exact hv

/-- A long note on Linux. -/
example (C : Config Vol) (t0 : Int) (v : Vol) (hv : C.silent v = false) : ∃ s b t, ReachLinux C t0 s ∧ s.buf = some b ∧ s.delivered = false ∧ s.counter < 8 ∧ long.Ok ∧ C.silent v = false ∧ index s t < SIZE ∧
    0 < index s t ∧ SIZE - index s t < frames long := by
  have h0 : ReachLinux C t0 (advanceLinux (callbackLinux C (initial C t0))) := .step (.step .init (.callback rfl)) (.advance rfl)
  obtain ⟨h1, h2, h3, -⟩ := slots_keep C 0 { initial C t0 with buf := some 0, start := t0 - 2 * DURATION + DURATION } (List.range 8)
  have hst : (advanceLinux (callbackLinux C (initial C t0))).start = t0 - 2 * DURATION + DURATION := h2
  have hbuf : (advanceLinux (callbackLinux C (initial C t0))).buf = some 1 := congrArg (Option.map (· + 1)) h1
  have hcn : (advanceLinux (callbackLinux C (initial C t0))).counter = 0 := h3
  have hi : index (advanceLinux (callbackLinux C (initial C t0))) (t0 - 2 * DURATION + DURATION + 50000000) = 2205 := by
    unfold index
    rw [hst, show t0 - 2 * DURATION + DURATION + 50000000 - (t0 - 2 * DURATION + DURATION) = 50000000 by omega]
    decide
  exact ⟨_, 1, t0 - 2 * DURATION + DURATION + 50000000, h0, hbuf, rfl, by rw [hcn]; decide, long_ok, hv, by rw [hi]; decide, by rw [hi]; decide, by rw [hi]; decide⟩

end ReactorC.Audio
