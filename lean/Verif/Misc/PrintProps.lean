import Verif.Misc.Print

/-! # C54: printed times are faithful -/

namespace ReactorC.Print

/-! ## Digits -/

theorem digitChar_ne_comma (d : Nat) (h : d < 10) : d.digitChar ≠ ',' := by
  revert d; decide

theorem lld_one (n : Nat) (h : n < 10) : lld n = [n.digitChar] := Nat.toDigits_of_lt_base h

theorem lld_snoc (n d : Nat) (hn : 0 < n) (hd : d < 10) : lld (10 * n + d) = lld n ++ [d.digitChar] := by
  rw [← Nat.toDigits_of_lt_base hd]
  exact (Nat.toDigits_append_toDigits (by decide) hn hd).symm

theorem lld_two (n : Nat) (h1 : 10 ≤ n) (h : n < 100) : lld n = [(n / 10).digitChar, (n % 10).digitChar] := by
  have := lld_snoc (n / 10) (n % 10) (by omega) (by omega)
  rw [show 10 * (n / 10) + n % 10 = n by omega, lld_one (n / 10) (by omega)] at this
  exact this

theorem lld_three (n : Nat) (h1 : 100 ≤ n) (h : n < 1000) :
    lld n = [(n / 100).digitChar, (n / 10 % 10).digitChar, (n % 10).digitChar] := by
  have := lld_snoc (n / 10) (n % 10) (by omega) (by omega)
  rw [show 10 * (n / 10) + n % 10 = n by omega, lld_two (n / 10) (by omega) (by omega),
    show n / 10 / 10 = n / 100 by omega] at this
  exact this

/-- Three digits. -/
def pad3 (r : Nat) : Text := [(r / 100).digitChar, (r / 10 % 10).digitChar, (r % 10).digitChar]

theorem lld03_eq (r : Nat) (h : r < 1000) : lld03 r = pad3 r := by
  unfold lld03 pad3
  by_cases h1 : r < 10
  · rw [lld_one r h1]
    have e1 : r / 100 = 0 := by omega
    have e2 : r / 10 % 10 = 0 := by omega
    have e3 : r % 10 = r := by omega
    rw [e1, e2, e3]; rfl
  · by_cases h2 : r < 100
    · rw [lld_two r (by omega) h2]
      have e1 : r / 100 = 0 := by omega
      have e2 : r / 10 % 10 = r / 10 := by omega
      rw [e1, e2]; rfl
    · rw [lld_three r (by omega) h]; rfl

theorem lld_append (q r : Nat) (hq : 0 < q) (hr : r < 1000) : lld (1000 * q + r) = lld q ++ pad3 r := by
  have : 1000 * q + r = 10 * (10 * (10 * q + r / 100) + r / 10 % 10) + r % 10 := by omega
  rw [this, lld_snoc _ _ (by omega) (by omega), lld_snoc _ _ (by omega) (by omega), lld_snoc _ _ (by omega) (by omega)]
  simp [pad3]

theorem lld_length (n : Nat) (h : n < 1000) : (lld n).length = if n ≥ 100 then 3 else if n ≥ 10 then 2 else 1 := by
  by_cases h1 : n < 10
  · rw [lld_one n h1, if_neg (by omega), if_neg (by omega)]; rfl
  · by_cases h2 : n < 100
    · rw [lld_two n (by omega) h2, if_neg (by omega), if_pos (by omega)]; rfl
    · rw [lld_three n (by omega) h, if_pos (by omega)]; rfl

/-! ## The clauses -/

theorem clauses_zero : clauses 0 = [] := by unfold clauses; simp
theorem clauses_pos (t : Nat) (h : 0 < t) : clauses t = t :: clauses (t / 1000) := by
  rw [clauses]; rw [if_neg (by omega)]

theorem clauses_length (k : Nat) : ∀ t, t < 1000 ^ k → (clauses t).length ≤ k := by
  induction k with
  | zero => intro t h; have : t = 0 := by simpa using h
            subst this; simp [clauses_zero]
  | succ k ih =>
    intro t h
    by_cases h0 : t = 0
    · subst h0; simp [clauses_zero]
    · rw [clauses_pos t (by omega)]
      have : t / 1000 < 1000 ^ k := by
        rw [Nat.pow_succ, Nat.mul_comm] at h
        exact Nat.div_lt_of_lt_mul h
      simpa using ih _ this

/-- What is printed after the first group. -/
def tailText : List Nat → Text
  | [] => []
  | c :: cs => (',' :: pad3 (c % 1000)) ++ tailText cs

theorem tailText_append (a b : List Nat) : tailText (a ++ b) = tailText a ++ tailText b := by
  induction a with
  | nil => rfl
  | cons c cs ih => simp [tailText, ih]

theorem tailText_length (a : List Nat) : (tailText a).length = 4 * a.length := by
  induction a with
  | nil => rfl
  | cons c cs ih => simp [tailText, ih, pad3]; omega

theorem printRest_eq (cs : List Nat) : ∀ (text : Text) (pos result : Nat), text.length = pos →
    printRest cs text pos result = (text ++ tailText cs, result + 4 * cs.length) := by
  induction cs with
  | nil => intro text pos result h; simp [printRest, tailText]
  | cons c cs ih =>
    intro text pos result h
    have hr : c % 1000 < 1000 := Nat.mod_lt _ (by omega)
    unfold printRest
    have hs : snprintf text pos 8 (',' :: lld03 (c % 1000)) = text ++ (',' :: pad3 (c % 1000)) := by
      unfold snprintf
      rw [lld03_eq _ hr, List.take_of_length_le (by omega), List.take_of_length_le (by simp [pad3])]
    rw [hs, ih _ _ _ (by simp [pad3, h])]
    simp [tailText]; omega

/-- The text of a positive number. -/
def numText (t : Nat) : Text :=
  match (clauses t).reverse with
  | [] => []
  | top :: rest => lld (top % 1000) ++ tailText rest

theorem numText_small (t : Nat) (h0 : 0 < t) (h : t < 1000) : numText t = lld t := by
  have : clauses t = [t] := by
    rw [clauses_pos t h0, show t / 1000 = 0 by omega, clauses_zero]
  simp [numText, this, tailText, Nat.mod_eq_of_lt h]

theorem numText_big (t : Nat) (h : 1000 ≤ t) : numText t = numText (t / 1000) ++ (',' :: pad3 (t % 1000)) := by
  have h1 : clauses t = t :: clauses (t / 1000) := clauses_pos t (by omega)
  have h2 : clauses (t / 1000) = t / 1000 :: clauses (t / 1000 / 1000) := clauses_pos _ (by omega)
  unfold numText
  rw [h1, List.reverse_cons]
  cases hr : (clauses (t / 1000)).reverse with
  | nil => rw [h2] at hr; simp at hr
  | cons top rest =>
    simp [tailText_append, tailText]

theorem numText_digits (t : Nat) (h0 : 0 < t) : (numText t).filter (· ≠ ',') = Nat.toDigits 10 t := by
  have hpad : ∀ r, r < 1000 → (pad3 r).filter (· ≠ ',') = pad3 r := by
    intro r hr
    rw [List.filter_eq_self]
    intro a ha
    simp only [pad3, List.mem_cons, List.not_mem_nil, or_false] at ha
    rcases ha with rfl | rfl | rfl <;> simp <;> exact digitChar_ne_comma _ (by omega)
  have hsmall : ∀ t, t < 1000 → (lld t).filter (· ≠ ',') = lld t := by
    intro t ht
    rw [List.filter_eq_self]
    intro a ha
    by_cases h1 : t < 10
    · rw [lld_one t h1] at ha; simp at ha; subst ha; simpa using digitChar_ne_comma _ h1
    · by_cases h2 : t < 100
      · rw [lld_two t (by omega) h2] at ha
        simp at ha
        rcases ha with rfl | rfl <;> simp <;> exact digitChar_ne_comma _ (by omega)
      · rw [lld_three t (by omega) ht] at ha
        simp at ha
        rcases ha with rfl | rfl | rfl <;> simp <;> exact digitChar_ne_comma _ (by omega)
  induction t using Nat.strongRecOn with
  | ind t ih =>
    by_cases h : t < 1000
    · rw [numText_small t h0 h]; exact hsmall t h
    · have hr : t % 1000 < 1000 := Nat.mod_lt _ (by omega)
      rw [numText_big t (by omega), List.filter_append, ih (t / 1000) (by omega) (by omega), List.filter_cons_of_neg (by simp),
        hpad _ hr]
      have : t = 1000 * (t / 1000) + t % 1000 := by omega
      conv_rhs => rw [this]
      exact (lld_append _ _ (by omega) hr).symm

theorem numText_length_mod (t : Nat) (h0 : 0 < t) : (numText t).length % 4 ≠ 0 := by
  induction t using Nat.strongRecOn with
  | ind t ih =>
    by_cases h : t < 1000
    · rw [numText_small t h0 h, lld_length t h]; split <;> (try split) <;> omega
    · rw [numText_big t (by omega)]
      have := ih (t / 1000) (by omega) (by omega)
      simp [pad3]; omega

theorem rev_small (t : Nat) (h : t < 1000) (i : Nat) (c : Char) (hc : (lld t).reverse[i]? = some c) :
    c = ',' ↔ i % 4 = 3 := by
  have hlen := lld_length t h
  have hi : i < 3 := by
    have : i < (lld t).reverse.length := by rw [List.getElem?_eq_some_iff] at hc; exact hc.1
    rw [List.length_reverse, hlen] at this
    split at this <;> (try split at this) <;> omega
  have hm : c ∈ lld t := by
    have := List.mem_of_getElem? hc; simpa using this
  have hne : c ≠ ',' := by
    by_cases h1 : t < 10
    · rw [lld_one t h1] at hm; simp at hm; subst hm; exact digitChar_ne_comma _ h1
    · by_cases h2 : t < 100
      · rw [lld_two t (by omega) h2] at hm
        simp at hm
        rcases hm with rfl | rfl <;> exact digitChar_ne_comma _ (by omega)
      · rw [lld_three t (by omega) h] at hm
        simp at hm
        rcases hm with rfl | rfl | rfl <;> exact digitChar_ne_comma _ (by omega)
  simp [hne]; omega

theorem rev_numText (t : Nat) (h0 : 0 < t) : ∀ (i : Nat) (c : Char), (numText t).reverse[i]? = some c →
    (c = ',' ↔ i % 4 = 3) := by
  induction t using Nat.strongRecOn with
  | ind t ih =>
    by_cases h : t < 1000
    · rw [numText_small t h0 h]; exact rev_small t h
    · have hr : t % 1000 < 1000 := Nat.mod_lt _ (by omega)
      intro i c hc
      rw [numText_big t (by omega), List.reverse_append] at hc
      simp only [pad3, List.reverse_cons, List.reverse_nil, List.nil_append, List.cons_append] at hc
      match i, hc with
      | 0, hc =>
        simp at hc; subst hc
        have := digitChar_ne_comma _ (show t % 1000 % 10 < 10 by omega)
        simp [this]
      | 1, hc =>
        simp at hc; subst hc
        have := digitChar_ne_comma _ (show t % 1000 / 10 % 10 < 10 by omega)
        simp [this]
      | 2, hc =>
        simp at hc; subst hc
        have := digitChar_ne_comma _ (show t % 1000 / 100 < 10 by omega)
        simp [this]
      | 3, hc =>
        simp at hc; subst hc; simp
      | i + 4, hc =>
        simp only [List.getElem?_cons_succ] at hc
        have := ih (t / 1000) (by omega) (by omega) i c hc
        rw [this]; omega

theorem shows_numText (t : Nat) (h0 : 0 < t) : Shows (numText t) t := by
  refine ⟨numText_digits t h0, ?_⟩
  intro i hi
  exact rev_numText t h0 i _ (List.getElem?_eq_getElem (by simpa using hi))

theorem comma_eq (text : Text) (pos : Nat) (hp : pos ≤ text.length) (time : Int) (h0 : 0 < time)
    (h : time < 9223372036854775808) :
    lf_comma_separated_time text pos time = some (text.take pos ++ numText time.toNat, (numText time.toNat).length) := by
  obtain ⟨t, rfl⟩ : ∃ t : Nat, time = t := ⟨time.toNat, by omega⟩
  have ht : t < 9223372036854775808 := by omega
  have h00 : 0 < t := by omega
  simp only [Int.toNat_natCast]
  have hlen : (clauses t).length ≤ 7 := clauses_length 7 t (by
    have : (1000 : Nat) ^ 7 = 1000000000000000000000 := by decide
    omega)
  unfold lf_comma_separated_time
  simp only [Int.toNat_natCast]
  rw [if_neg (by omega), if_neg (by omega), if_neg (by omega)]
  unfold numText
  cases hr : (clauses t).reverse with
  | nil =>
    rw [clauses_pos t h00] at hr; simp at hr
  | cons top rest =>
    have hr' : top % 1000 < 1000 := Nat.mod_lt _ (by omega)
    have hl := lld_length (top % 1000) hr'
    have hl' : (lld (top % 1000)).length ≤ 3 := by
      rw [hl]; split <;> (try split) <;> omega
    dsimp only
    rw [← hl]
    have hs : snprintf text pos 5 (lld (top % 1000)) = text.take pos ++ lld (top % 1000) := by
      unfold snprintf
      rw [List.take_of_length_le (show (lld (top % 1000)).length ≤ 5 - 1 by omega)]
    rw [hs, printRest_eq _ _ _ _ (by simp [hp])]
    simp [tailText_length]

/-! ## The first property -/

/-- **C54** For every non-negative 64-bit time, `lf_comma_separated_time` prints its decimal digits, with a comma
before each group of three, and returns the number of characters; it does not overrun its array. -/
theorem C54_comma_separated (time : Int) (h0 : 0 ≤ time) (h : time < 2 ^ 63) :
    ∃ text, lf_comma_separated_time [] 0 time = some (text, text.length) ∧ Shows text time.toNat := by
  by_cases hz : time = 0
  · subst hz
    refine ⟨['0'], rfl, ?_, ?_⟩
    · decide
    · intro i hi
      have : i = 0 := by simpa using hi
      subst this; simp
  · refine ⟨numText time.toNat, ?_, shows_numText _ (by omega)⟩
    rw [comma_eq [] 0 (by simp) time (by omega) (by omega)]
    simp

/-- **C54** For every negative time the function reads its array before the first element, so that what it
prints is undefined. -/
theorem C54_comma_separated_negative_undefined (text : Text) (pos : Nat) (time : Int) (h : time < 0) :
    lf_comma_separated_time text pos time = none := by
  unfold lf_comma_separated_time
  rw [if_neg (by omega), if_pos h]

example : lf_comma_separated_time [] 0 1234567 = some ("1,234,567".toList, 9) := by decide +kernel
example : lf_comma_separated_time [] 0 (2 ^ 63 - 1) = some ("9,223,372,036,854,775,807".toList, 25) := by decide +kernel

/-! ## The second property -/

/-- What has been printed so far, the components, and the time that remains. -/
structure Good (time : Int) (s : Local) (l : List (Nat × TimeUnit)) : Prop where
  pos : s.pos = s.text.length
  rest : 0 ≤ s.time
  sum : total l + s.time = time
  lead : s.lead = true ↔ l ≠ []
  shown : (l = [] ∧ s.text = []) ∨ ShowsAll s.text l

theorem total_snoc (l : List (Nat × TimeUnit)) (c : Nat × TimeUnit) :
    total (l ++ [c]) = total l + (c.1 : Int) * c.2.nanoseconds := by
  simp [total]

theorem showsAll_ne {t : Text} {l : List (Nat × TimeUnit)} (h : ShowsAll t l) : l ≠ [] := by
  induction h <;> simp

theorem piece_good {time : Int} {s : Local} {l : List (Nat × TimeUnit)} (h : Good time s l) (u : TimeUnit) (n r : Int)
    (size adv : Nat) (hn : 0 < n) (hb : n < 9223372036854775808) (hr : 0 ≤ r)
    (hsum : n * u.nanoseconds + r = s.time) (hsize : size = u.name.length + 2) (hadv : adv = u.name.length + 1) :
    ∃ t, piece (separator s) n r size (' ' :: u.name) adv = some t ∧ t.time = r ∧ Good time t (l ++ [(n.toNat, u)]) := by
  obtain ⟨hpos, hrest, hs, hl, hsh⟩ := h
  have hn' : ((n.toNat : Nat) : Int) = n := by omega
  -- the separator
  obtain ⟨s', hs', hpre, hpos'⟩ : ∃ s', s' = separator s ∧
      s'.text = (if l = [] then [] else s.text ++ [',', ' ']) ∧ s'.pos = s'.text.length := by
    refine ⟨_, rfl, ?_, ?_⟩
    · unfold separator
      by_cases hl0 : l = []
      · have : s.lead = false := by
          cases hq : s.lead
          · rfl
          · exact absurd hl0 (hl.1 hq)
        rw [this, if_pos hl0]
        rcases hsh with ⟨_, h2⟩ | h2
        · simpa using h2
        · exact absurd hl0 (showsAll_ne h2)
      · rw [hl.2 hl0, if_neg hl0]
        simp [snprintf, hpos]
    · unfold separator
      split
      · simp [snprintf, hpos]
      · exact hpos
  rw [← hs']
  have hc := comma_eq s'.text s'.pos (by omega) n hn hb
  refine ⟨_, by unfold piece; rw [hc]; rfl, rfl, ?_⟩
  have htake : s'.text.take s'.pos = s'.text := List.take_of_length_le (by omega)
  have htext : snprintf (s'.text.take s'.pos ++ numText n.toNat) (s'.pos + (numText n.toNat).length) size (' ' :: u.name)
      = s'.text ++ (numText n.toNat ++ ' ' :: u.name) := by
    unfold snprintf
    rw [htake, List.take_of_length_le (by simp; omega), List.take_of_length_le (by simp; omega)]
    simp
  refine ⟨?_, hr, ?_, ?_, ?_⟩
  · show s'.pos + (numText n.toNat).length + adv = _
    dsimp only
    rw [htext]; simp; omega
  · rw [total_snoc]
    show total l + ((n.toNat : Nat) : Int) * u.nanoseconds + r = time
    rw [hn']; omega
  · simp
  · right
    dsimp only
    rw [htext, hpre]
    by_cases hl0 : l = []
    · subst hl0
      exact ShowsAll.one _ _ _ (shows_numText _ (by omega))
    · rw [if_neg hl0]
      rcases hsh with ⟨h1, _⟩ | h1
      · exact absurd h1 hl0
      · exact ShowsAll.more _ _ _ _ _ h1 (shows_numText _ (by omega))

theorem block_good {time : Int} {s : Local} {l : List (Nat × TimeUnit)} (h : Good time s l) (u : TimeUnit)
    (hb : s.time < 9223372036854775808) (unit : Int) (hu : unit = u.nanoseconds) (hpos : 0 < unit)
    (size adv : Nat) (hsize : size = u.name.length + 2) (hadv : adv = u.name.length + 1) :
    ∃ t l', block s unit size (' ' :: u.name) adv = some t ∧ t.time ≤ s.time ∧ Good time t l' := by
  unfold block
  by_cases hc : s.time > unit
  · rw [if_pos hc]
    have hnn := h.rest
    rw [Int.tdiv_eq_ediv_of_nonneg hnn, Int.tmod_eq_emod_of_nonneg hnn]
    have e1 := Int.emod_add_mul_ediv s.time unit
    have e2 := Int.emod_nonneg s.time (show unit ≠ 0 by omega)
    have e3 := Int.emod_lt_of_pos s.time hpos
    have e4 : 0 < s.time / unit := by
      have : 1 ≤ s.time / unit := (Int.le_ediv_iff_mul_le hpos).2 (by omega)
      omega
    have e5 : s.time / unit ≤ s.time := Int.ediv_le_self _ hnn
    obtain ⟨t, h1, h2, h3⟩ := piece_good h u (s.time / unit) (s.time % unit) size adv e4 (by omega) e2
      (by rw [← hu, Int.mul_comm]; omega) hsize hadv
    exact ⟨t, _, h1, by omega, h3⟩
  · rw [if_neg hc]; exact ⟨s, l, rfl, Int.le_refl _, h⟩

theorem last_good {time : Int} {s : Local} {l : List (Nat × TimeUnit)} (h : Good time s l)
    (hb : s.time < 9223372036854775808) : ∃ t l', lastBlock s = some t ∧ t.time = 0 ∧ Good time t l' := by
  unfold lastBlock
  have hnn := h.rest
  by_cases hc : s.time > 0
  · rw [if_pos hc]
    rw [Int.tmod_eq_emod_of_nonneg hnn, Int.tmod_eq_emod_of_nonneg hnn, Int.tdiv_eq_ediv_of_nonneg hnn,
      Int.tdiv_eq_ediv_of_nonneg hnn]
    split
    · obtain ⟨t, h1, h2, h3⟩ := piece_good h .ms (s.time / 1000000) 0 4 3 (by omega) (by omega) (by omega)
        (by simp [TimeUnit.nanoseconds]; omega) rfl rfl
      exact ⟨t, _, h1, h2, h3⟩
    · split
      · obtain ⟨t, h1, h2, h3⟩ := piece_good h .us (s.time / 1000) 0 4 3 (by omega) (by omega) (by omega)
          (by simp [TimeUnit.nanoseconds]; omega) rfl rfl
        exact ⟨t, _, h1, h2, h3⟩
      · obtain ⟨t, h1, h2, h3⟩ := piece_good h .ns s.time 0 4 3 (by omega) (by omega) (by omega)
          (by simp [TimeUnit.nanoseconds]) rfl rfl
        exact ⟨t, _, h1, h2, h3⟩
  · rw [if_neg hc]; exact ⟨s, l, rfl, by omega, h⟩

/-- **C54** For every positive 64-bit time, `lf_readable_time` prints a list of components (number and unit) that
add up to exactly the time, and returns the number of characters. -/
theorem C54_readable (time : Int) (h0 : 0 < time) (h : time < 2 ^ 63) :
    ∃ text l, lf_readable_time time = some (text, text.length) ∧ ShowsAll text l ∧ total l = time := by
  have g0 : Good time { text := [], pos := 0, time := time, lead := false } [] :=
    ⟨rfl, by show 0 ≤ time; omega, by simp [total], by simp, Or.inl ⟨rfl, rfl⟩⟩
  obtain ⟨s1, l1, e1, b1, g1⟩ := block_good g0 .weeks (by show time < _; omega) 604800000000000 rfl (by omega) 7 6 rfl rfl
  have b1' : s1.time ≤ time := b1
  obtain ⟨s2, l2, e2, b2, g2⟩ := block_good g1 .d (by omega) 86400000000000 rfl (by omega) 3 2 rfl rfl
  obtain ⟨s3, l3, e3, b3, g3⟩ := block_good g2 .h (by omega) 3600000000000 rfl (by omega) 3 2 rfl rfl
  obtain ⟨s4, l4, e4, b4, g4⟩ := block_good g3 .min (by omega) 60000000000 rfl (by omega) 5 4 rfl rfl
  obtain ⟨s5, l5, e5, b5, g5⟩ := block_good g4 .s (by omega) 1000000000 rfl (by omega) 3 2 rfl rfl
  obtain ⟨s6, l6, e6, b6, g6⟩ := last_good g5 (by omega)
  have hsum := g6.sum
  refine ⟨s6.text, l6, ?_, ?_, by omega⟩
  · unfold lf_readable_time
    rw [if_neg (by omega)]
    simp only [TimeUnit.name] at e1 e2 e3 e4 e5
    rw [e1, Option.bind_some, e2, Option.bind_some, e3, Option.bind_some, e4, Option.bind_some, e5, Option.bind_some, e6]
    simp [g6.pos]
  · rcases g6.shown with ⟨h1, h2⟩ | h1
    · subst h1; simp [total] at hsum; omega
    · exact h1

example : lf_readable_time 694861001000001 = some ("1 weeks, 1 d, 1 h, 1 min, 1 s, 1,000,001 ns".toList, 43) := by
  decide +kernel
/-- At exactly one unit the next smaller unit is used. -/
example : lf_readable_time 604800000000000 = some ("7 d".toList, 3) := by decide +kernel

end ReactorC.Print
