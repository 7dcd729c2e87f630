import Verif.Ports.Spec

/-! # Ports, lemmas -/

namespace ReactorC.Ports
open ReactorC.Join

theorem nextPort_cycle (k : Nat) : nextPort (15045 + k % 16) = 15045 + (k + 1) % 16 := by
  unfold nextPort DEFAULT_PORT MAX_NUM_PORT_ADDRESSES
  dsimp only
  split <;> omega

theorem bindLoop_eq (free : Nat → Nat → Bool) (specified left k port : Nat) :
    bindLoop free specified left k port =
      if free k port then ⟨some port, [port], 0⟩
      else match left with
        | 0 => ⟨none, [port], 0⟩
        | left + 1 =>
          if specified = 0 then
            let r := bindLoop free specified left (k + 1) (nextPort port)
            { r with tried := port :: r.tried }
          else
            let r := bindLoop free specified left (k + 1) port
            { r with tried := port :: r.tried, slept := r.slept + 1 } := by
  cases left <;> simp [bindLoop]

/-- The port of try `i` when none has been given. -/
def cyclePort (i : Nat) : Nat := 15045 + i % 16

theorem bindLoop_search (free : Nat → Nat → Bool) :
    ∀ left k,
      (∃ i, k ≤ i ∧ i ≤ k + left ∧ free i (cyclePort i) = true ∧
          (∀ j, k ≤ j → j < i → free j (cyclePort j) = false) ∧
          bindLoop free 0 left k (cyclePort k)
            = ⟨some (cyclePort i), (List.range' k (i + 1 - k)).map cyclePort, 0⟩) ∨
      ((∀ j, k ≤ j → j ≤ k + left → free j (cyclePort j) = false) ∧
        bindLoop free 0 left k (cyclePort k) = ⟨none, (List.range' k (left + 1)).map cyclePort, 0⟩) := by
  intro left
  induction left with
  | zero =>
    intro k
    rw [bindLoop_eq]
    cases h : free k (cyclePort k) with
    | true =>
      left
      refine ⟨k, by omega, by omega, h, fun j h1 h2 => by omega, ?_⟩
      rw [show k + 1 - k = 1 by omega]
      simp
    | false =>
      right
      refine ⟨fun j h1 h2 => ?_, ?_⟩
      · have : j = k := by omega
        rw [this]; exact h
      · simp
  | succ left ih =>
    intro k
    rw [bindLoop_eq]
    cases h : free k (cyclePort k) with
    | true =>
      left
      refine ⟨k, by omega, by omega, h, fun j h1 h2 => by omega, ?_⟩
      rw [show k + 1 - k = 1 by omega]
      simp
    | false =>
      have hn : nextPort (cyclePort k) = cyclePort (k + 1) := nextPort_cycle k
      simp only [Bool.false_eq_true, if_false, if_true, hn]
      rcases ih (k + 1) with ⟨i, h1, h2, h3, h4, h5⟩ | ⟨h1, h2⟩
      · left
        refine ⟨i, by omega, by omega, h3, fun j a b => ?_, ?_⟩
        · by_cases hj : j = k
          · rw [hj]; exact h
          · exact h4 j (by omega) b
        · rw [h5]
          obtain ⟨m, hm⟩ : ∃ m, i + 1 - (k + 1) = m ∧ i + 1 - k = m + 1 := ⟨i - k, by omega, by omega⟩
          rw [hm.1, hm.2, List.range'_succ, List.map_cons]
      · right
        refine ⟨fun j a b => ?_, ?_⟩
        · by_cases hj : j = k
          · rw [hj]; exact h
          · exact h1 j (by omega) (by omega)
        · rw [h2, List.range'_succ (n := left + 1), List.map_cons]

theorem bindLoop_given (free : Nat → Nat → Bool) (p : Nat) (hp : p ≠ 0) :
    ∀ left k,
      (∃ i, i ≤ left ∧ free (k + i) p = true ∧ (∀ j, j < i → free (k + j) p = false) ∧
          bindLoop free p left k p = ⟨some p, List.replicate (i + 1) p, i⟩) ∨
      ((∀ j, j ≤ left → free (k + j) p = false) ∧
        bindLoop free p left k p = ⟨none, List.replicate (left + 1) p, left⟩) := by
  intro left
  induction left with
  | zero =>
    intro k
    rw [bindLoop_eq]
    cases h : free k p with
    | true => exact Or.inl ⟨0, by omega, h, fun j hj => by omega, by simp⟩
    | false =>
      refine Or.inr ⟨fun j hj => ?_, by simp⟩
      have : j = 0 := by omega
      rw [this]; exact h
  | succ left ih =>
    intro k
    rw [bindLoop_eq]
    cases h : free k p with
    | true => exact Or.inl ⟨0, by omega, h, fun j hj => by omega, by simp⟩
    | false =>
      simp only [Bool.false_eq_true, if_false, hp]
      rcases ih (k + 1) with ⟨i, h1, h2, h3, h4⟩ | ⟨h1, h2⟩
      · left
        refine ⟨i + 1, by omega, ?_, fun j hj => ?_, ?_⟩
        · rw [show k + (i + 1) = k + 1 + i by omega]; exact h2
        · cases j with
          | zero => exact h
          | succ j => rw [show k + (j + 1) = k + 1 + j by omega]; exact h3 j (by omega)
        · rw [h4]; rfl
      · right
        refine ⟨fun j hj => ?_, ?_⟩
        · cases j with
          | zero => exact h
          | succ j => rw [show k + (j + 1) = k + 1 + j by omega]; exact h1 j (by omega)
        · rw [h2]; rfl

theorem bindLoop_port_given (free : Nat → Nat → Bool) (p : Nat) (hp : p ≠ 0) (left k q : Nat)
    (h : (bindLoop free p left k p).port = some q) : q = p := by
  rcases bindLoop_given free p hp left k with ⟨i, _, _, _, h4⟩ | ⟨_, h2⟩
  · rw [h4] at h; simpa using h.symm
  · rw [h2] at h; simp at h

/-! ## The federate -/

/-- When attempt `k` is made. -/
def att (w : World) : Nat → Nat
  | 0 => 0
  | k + 1 => att w k + w.cost k + CONNECT_RETRY_INTERVAL + w.over (k + 1)

/-- When the clock is read before attempt `k`. -/
def beg (w : World) : Nat → Nat
  | 0 => 0
  | k + 1 => att w k + w.cost k

/-- The port of attempt `k`. -/
def portAt (port : Int) (u : Nat) : Nat → Nat
  | 0 => u
  | k + 1 => if port = 0 then nextPort (portAt port u k) else portAt port u k

/-- The port before attempt `k`. -/
def before (port : Int) (u : Nat) : Nat → Nat
  | 0 => u
  | k + 1 => portAt port u k

theorem portAt_zero (k : Nat) : portAt 0 15045 k = cyclePort k := by
  induction k with
  | zero => rfl
  | succ k ih =>
    unfold portAt
    rw [if_pos rfl, ih]
    exact nextPort_cycle k

theorem portAt_given {port : Int} (h : port ≠ 0) (u k : Nat) : portAt port u k = u := by
  induction k with
  | zero => rfl
  | succ k ih => unfold portAt; rw [if_neg h, ih]

theorem beg_le_att (w : World) (k : Nat) : beg w k ≤ att w k := by
  cases k with
  | zero => exact Nat.le_refl _
  | succ k =>
    show att w k + w.cost k ≤ att w k + w.cost k + CONNECT_RETRY_INTERVAL + w.over (k + 1)
    omega

theorem att_succ (w : World) (k : Nat) : att w k + CONNECT_RETRY_INTERVAL ≤ att w (k + 1) := by
  show _ ≤ att w k + w.cost k + CONNECT_RETRY_INTERVAL + w.over (k + 1)
  omega

theorem att_mono (w : World) {i j : Nat} (h : i ≤ j) : att w i ≤ att w j := by
  induction j with
  | zero =>
    have : i = 0 := by omega
    exact this ▸ Nat.le_refl _
  | succ j ih =>
    by_cases hj : i = j + 1
    · exact hj ▸ Nat.le_refl _
    · have := ih (by omega)
      have := att_succ w j
      omega

theorem att_ge (w : World) (k : Nat) : k * CONNECT_RETRY_INTERVAL ≤ att w k := by
  induction k with
  | zero => simp
  | succ k ih =>
    have := att_succ w k
    rw [Nat.succ_mul]
    omega

theorem att_add_le (w : World) (d : Nat) (hd : Spec.Within w d) (k n : Nat) :
    att w (k + n) ≤ att w k + n * (CONNECT_RETRY_INTERVAL + d) := by
  induction n with
  | zero => simp
  | succ n ih =>
    have h1 : att w (k + (n + 1)) = att w (k + n) + w.cost (k + n) + CONNECT_RETRY_INTERVAL + w.over (k + n + 1) := rfl
    have h2 := hd (k + n)
    rw [h1, Nat.succ_mul]
    omega

/-- One round of the loop that is not the last. -/
theorem search_step (w : World) (port : Int) (u fuel k : Nat) (res : Int)
    (ht : beg w k ≤ CONNECT_TIMEOUT) (ha : w.answer (att w k) (portAt port u k) ≠ .reply .ack) :
    ∃ res', (w.answer (att w k) (portAt port u k) = .refused → res' = -1) ∧
      search w port (fuel + 1) k (beg w k) (before port u k) res
        = search w port fuel (k + 1) (beg w (k + 1)) (before port u (k + 1)) res' := by
  have ht' : ¬ beg w k > CONNECT_TIMEOUT := by omega
  have e1 : (if k = 0 then beg w k else beg w k + CONNECT_RETRY_INTERVAL + w.over k) = att w k := by
    cases k with
    | zero => rfl
    | succ k => rfl
  have e2 : (if k = 0 then before port u k else if port = 0 then nextPort (before port u k) else before port u k)
      = portAt port u k := by
    cases k with
    | zero => rfl
    | succ k => rfl
  rw [search, if_neg ht']
  dsimp only
  rw [e1, e2]
  cases hans : w.answer (att w k) (portAt port u k) with
  | refused => exact ⟨-1, fun _ => rfl, rfl⟩
  | broken => exact ⟨0, fun h => by simp at h, rfl⟩
  | other => exact ⟨0, fun h => by simp at h, rfl⟩
  | reply m =>
    cases m with
    | ack => exact absurd hans ha
    | reject c => exact ⟨0, fun h => by simp at h, rfl⟩

theorem search_ack (w : World) (port : Int) (u fuel k : Nat) (res : Int)
    (ht : beg w k ≤ CONNECT_TIMEOUT) (ha : w.answer (att w k) (portAt port u k) = .reply .ack) :
    search w port (fuel + 1) k (beg w k) (before port u k) res = .joined (portAt port u k) := by
  have ht' : ¬ beg w k > CONNECT_TIMEOUT := by omega
  have e1 : (if k = 0 then beg w k else beg w k + CONNECT_RETRY_INTERVAL + w.over k) = att w k := by
    cases k with
    | zero => rfl
    | succ k => rfl
  have e2 : (if k = 0 then before port u k else if port = 0 then nextPort (before port u k) else before port u k)
      = portAt port u k := by
    cases k with
    | zero => rfl
    | succ k => rfl
  rw [search, if_neg ht']
  dsimp only
  rw [e1, e2, ha]

theorem search_late (w : World) (port : Int) (u fuel k : Nat) (res : Int) (ht : beg w k > CONNECT_TIMEOUT) :
    search w port (fuel + 1) k (beg w k) (before port u k) res
      = if res < 0 then .exits else .goesOn (before port u k) := by
  rw [search, if_pos ht]

theorem search_joined (w : World) (port : Int) (u : Nat) :
    ∀ d fuel k res, d < fuel → (∀ i, k ≤ i → i ≤ k + d → beg w i ≤ CONNECT_TIMEOUT) →
      (∀ i, k ≤ i → i < k + d → w.answer (att w i) (portAt port u i) ≠ .reply .ack) →
      w.answer (att w (k + d)) (portAt port u (k + d)) = .reply .ack →
      search w port fuel k (beg w k) (before port u k) res = .joined (portAt port u (k + d)) := by
  intro d
  induction d with
  | zero =>
    intro fuel k res hf hb _ ha
    obtain ⟨f, rfl⟩ : ∃ f, fuel = f + 1 := ⟨fuel - 1, by omega⟩
    exact search_ack w port u f k res (hb k (by omega) (by omega)) ha
  | succ d ih =>
    intro fuel k res hf hb hn ha
    obtain ⟨f, rfl⟩ : ∃ f, fuel = f + 1 := ⟨fuel - 1, by omega⟩
    obtain ⟨res', _, h⟩ := search_step w port u f k res (hb k (by omega) (by omega)) (hn k (by omega) (by omega))
    rw [h, show k + (d + 1) = k + 1 + d by omega]
    refine ih f (k + 1) res' (by omega) (fun i a b => hb i (by omega) (by omega)) (fun i a b => hn i (by omega) (by omega)) ?_
    rw [show k + 1 + d = k + (d + 1) by omega]
    exact ha

/-- There are at most 122 attempts. -/
theorem beg_few (w : World) (k : Nat) (h : beg w k ≤ CONNECT_TIMEOUT) : k ≤ 121 := by
  cases k with
  | zero => omega
  | succ j =>
    have e : beg w (j + 1) = att w j + w.cost j := rfl
    have h3 := att_ge w j
    by_contra hc
    have h5 : 121 * CONNECT_RETRY_INTERVAL ≤ j * CONNECT_RETRY_INTERVAL := Nat.mul_le_mul_right _ (by omega)
    have h4 : 121 * CONNECT_RETRY_INTERVAL > CONNECT_TIMEOUT := by decide
    omega

/-- How a search can end. -/
theorem search_end (w : World) (port : Int) (u : Nat) :
    ∀ fuel k res, 123 ≤ fuel + k → k ≤ 122 →
      (∃ i, i ≤ 121 ∧ search w port fuel k (beg w k) (before port u k) res = .joined (portAt port u i) ∧
        w.answer (att w i) (portAt port u i) = .reply .ack) ∨
      (search w port fuel k (beg w k) (before port u k) res = .exits) ∨
      (∃ i, i ≤ 122 ∧ search w port fuel k (beg w k) (before port u k) res = .goesOn (before port u i)) := by
  intro fuel
  induction fuel with
  | zero => intro k res h1 h2; omega
  | succ fuel ih =>
    intro k res hk hk2
    by_cases ht : beg w k ≤ CONNECT_TIMEOUT
    · have hk3 := beg_few w k ht
      by_cases ha : w.answer (att w k) (portAt port u k) = .reply .ack
      · exact Or.inl ⟨k, hk3, search_ack w port u fuel k res ht ha, ha⟩
      · obtain ⟨res', _, h⟩ := search_step w port u fuel k res ht ha
        rw [h]
        exact ih (k + 1) res' (by omega) (by omega)
    · have h := search_late w port u fuel k res (by omega)
      rw [h]
      by_cases hr : res < 0
      · rw [if_pos hr]; exact Or.inr (Or.inl rfl)
      · rw [if_neg hr]; exact Or.inr (Or.inr ⟨k, hk2, rfl⟩)

/-- A search in which every attempt is refused. -/
theorem search_refused (w : World) (port : Int) (u : Nat)
    (h : ∀ t i, w.answer t (portAt port u i) = .refused) :
    ∀ fuel k, 123 ≤ fuel + k → k ≤ 122 →
      search w port fuel k (beg w k) (before port u k) (-1) = .exits := by
  intro fuel
  induction fuel with
  | zero => intro k h1 h2; omega
  | succ fuel ih =>
    intro k hk hk2
    by_cases ht : beg w k ≤ CONNECT_TIMEOUT
    · have hk3 := beg_few w k ht
      have ha := h (att w k) k
      obtain ⟨res', hr, e⟩ := search_step w port u fuel k (-1) ht (by rw [ha]; simp)
      rw [e, hr ha]
      exact ih (k + 1) (by omega) (by omega)
    · rw [search_late w port u fuel k (-1) (by omega)]
      rfl

end ReactorC.Ports
