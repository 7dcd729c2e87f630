import Verif.RtiArgs.Spec
import Verif.Args.Props

/-!
# C87: the command line of the RTI
-/

namespace ReactorC.RtiArgs
open ReactorC.Args (Str atoll)

theorem numeral_atoll {n : Nat} {w : Str} (h : Numeral n w) : atoll w = n := by
  obtain ⟨ds, _, h2, rfl, rfl⟩ := h
  exact (Args.C56_decimal_numerals ds h2).1

theorem strtol_small {bits : Nat} {w : Str} {n : Nat} (h : atoll w = n) (hn : (n : Int) < most bits) : strtol bits w = n := by
  unfold strtol
  rw [h]
  have h1 : least bits ≤ 0 := by
    unfold least
    have : (0 : Int) ≤ 2 ^ (bits - 1) := Int.pow_nonneg (by decide)
    omega
  omega

theorem two_pow_le {a b : Nat} (h : a ≤ b) : (2 : Int) ^ a ≤ 2 ^ b := by
  have := Nat.pow_le_pow_right (n := 2) (by decide) h
  exact_mod_cast this

theorem most_32 {bits : Nat} (h : 32 ≤ bits) : (2147483647 : Int) ≤ most bits := by
  unfold most
  have : (2 : Int) ^ 31 ≤ 2 ^ (bits - 1) := two_pow_le (by omega)
  omega

theorem toInt32_small {x : Int} (h : -2147483648 ≤ x) (h' : x < 2147483648) : toInt32 x = x := by
  unfold toInt32
  omega

theorem strtoul_small {bits n : Nat} (hb : 32 ≤ bits) {w : Str} (h : atoll w = n) (hn : n < 65535) : strtoul bits w % 4294967296 = n := by
  unfold strtoul
  rw [h]
  have h1 : 2 ^ 32 ≤ 2 ^ bits := Nat.pow_le_pow_right (by decide) hb
  have h2 : ((n : Int)).natAbs = n := rfl
  rw [h2, if_pos (by omega)]
  have h3 : ((n : Int) % 2 ^ bits).toNat = n := by
    have : ((n : Int) % 2 ^ bits) = n := Int.emod_eq_of_lt (by omega) (by
      have : ((2 : Int) ^ bits) = ((2 ^ bits : Nat) : Int) := by push_cast; rfl
      omega)
    rw [this]
    rfl
  rw [h3]
  omega

theorem numeral_not {n : Nat} {w : Str} (h : Numeral n w) {c : Char} {l : Str} (hc : ∀ d, d ≤ 9 → Char.ofNat (48 + d) ≠ c) : w ≠ c :: l := by
  obtain ⟨ds, h1, h2, rfl, _⟩ := h
  cases ds with
  | nil => exact absurd rfl h1
  | cons d ds =>
    intro e
    simp only [List.map_cons, List.cons.injEq] at e
    exact hc d (h2 d (by simp)) e.1

/-- The words of clock synchronization, followed by anything that is not one of them. -/
theorem clockArgs_words {b : Build} (hb : 32 ≤ b.long) {m : Sync} {p e : Option Nat} (ho : (Opt.clock m p e).Ok b) {ws : List Str}
    (hw : ClockWords m p e ws) {rest : List Str} (hr : ∀ a ∈ rest.head?, a ∉ clockWords) (s : Settings) :
    clockArgs b (ws ++ rest) s = ((Opt.clock m p e).apply s, rest) := by
  have hend : ∀ s, clockArgs b rest s = (s, rest) := by
    intro s
    cases rest with
    | nil => rfl
    | cons a l =>
      have ha := hr a rfl
      unfold clockWords at ha
      simp only [List.map_cons, List.map_nil, List.mem_cons, List.not_mem_nil, or_false, not_or] at ha
      obtain ⟨h1, h2, h3, h4, h5, h6, h7⟩ := ha
      unfold clockArgs
      rw [if_neg h1, if_neg (by simp only [h2, h3, or_self, not_false_eq_true]), if_neg h4, if_neg h5, if_neg h6, if_neg h7]
  obtain ⟨hp, he⟩ := ho
  obtain ⟨wp, we, h1, h2, rfl⟩ := hw
  -- the number of exchanges
  have hex : ∀ s : Settings, s.sync = m → clockArgs b (we ++ rest) s =
      ({ s with exchanges := (e.map Int.ofNat).getD s.exchanges }, rest) := by
    intro s hs
    cases e with
    | none =>
      subst h2
      exact hend s
    | some n =>
      obtain ⟨w, hw, rfl⟩ := h2
      obtain ⟨hm, h3, h4⟩ := he n rfl
      have h5 := most_32 hb
      have h6 : least b.long ≤ 0 := by
        unfold least
        have : (0 : Int) ≤ 2 ^ (b.long - 1) := Int.pow_nonneg (by decide)
        omega
      have h7 := strtol_small (bits := b.long) (numeral_atoll hw) (by omega)
      show clockArgs b ("exchanges-per-interval".toList :: w :: rest) s = _
      unfold clockArgs
      rw [if_neg (by decide), if_neg (by decide), if_neg (by decide), if_neg (by decide), if_pos rfl, if_neg (by rw [hs]; exact hm)]
      dsimp only
      rw [h7, if_neg (by omega), toInt32_small (by omega) (by omega)]
      exact hend _
  have hper : ∀ s : Settings, s.sync = m → clockArgs b (wp ++ (we ++ rest)) s =
      ({ s with
          period := p.getD s.period
          exchanges := (e.map Int.ofNat).getD s.exchanges }, rest) := by
    intro s hs
    cases p with
    | none =>
      subst h1
      exact hex s hs
    | some n =>
      obtain ⟨w, hw, rfl⟩ := h1
      obtain ⟨hm, h3, h4⟩ := hp n rfl
      have h7 := strtol_small (bits := 64) (numeral_atoll hw) (show (n : Int) < 2 ^ 63 - 1 by omega)
      have hmost : most 64 = 2 ^ 63 - 1 := rfl
      have hleast : least 64 = - 2 ^ 63 := rfl
      show clockArgs b ("period".toList :: w :: (we ++ rest)) s = _
      unfold clockArgs
      rw [if_neg (by decide), if_neg (by decide), if_neg (by decide), if_pos rfl]
      dsimp only
      rw [if_neg (by rw [hs, hm]; simp), h7, if_neg (by omega)]
      refine (hex { s with period := ((n : Int) % 2 ^ 64).toNat } hs).trans ?_
      have : ((n : Int) % 2 ^ 64).toNat = n := by omega
      rw [this]
      rfl
  show clockArgs b (syncWord m :: (wp ++ we ++ rest)) s = _
  rw [List.append_assoc]
  have hstep : clockArgs b (syncWord m :: (wp ++ (we ++ rest))) s = clockArgs b (wp ++ (we ++ rest)) { s with sync := m } := by
    cases m <;> (rw [clockArgs.eq_def]; simp [syncWord])
  rw [hstep, hper _ rfl]
  rfl

theorem process_cons (b : Build) (fuel : Nat) (a : Str) (l : List Str) (s : Settings) : process b (fuel + 1) (a :: l) s =
    (
      if a = "-i".toList ∨ a = "--id".toList then
        match l with
        | [] => none
        | v :: l' => process b fuel l' { s with federation := v }
      else if a = "-n".toList ∨ a = "--number_of_federates".toList then
        match l with
        | [] => none
        | v :: l' =>
          if strtol b.long v ≤ 0 ∨ strtol b.long v = most b.long ∨ strtol b.long v = least b.long then none
          else process b fuel l' { s with number := toInt32 (strtol b.long v) }
      else if a = "-p".toList ∨ a = "--port".toList then
        match l with
        | [] => none
        | v :: l' =>
          if strtoul b.long v % 4294967296 ≤ 0 ∨ strtoul b.long v % 4294967296 ≥ 65535 then none
          else process b fuel l' { s with port := strtoul b.long v % 4294967296 }
      else if a = "-c".toList ∨ a = "--clock_sync".toList then
        match l with
        | [] => none
        | _ :: _ => process b fuel ((clockArgs b l s).2.drop 1) (clockArgs b l s).1
      else if a = "-a".toList ∨ a = "--auth".toList then
        if b.auth = true then process b fuel l { s with auth := true } else none
      else if a = "-t".toList ∨ a = "--tracing".toList then process b fuel l { s with tracing := true }
      else if a = " ".toList then process b fuel l s
      else none) := by
  rfl

/-- One option that is not clock synchronization. -/
theorem process_one {b : Build} (hb : 32 ≤ b.long) {o : Opt} (ho : o.Ok b) (hc : o.isClock = false) {ws : List Str} (hw : Written o ws)
    (rest : List Str) (s : Settings) (fuel : Nat) : process b (fuel + 1) (ws ++ rest) s = process b fuel rest (o.apply s) := by
  cases o with
  | id x => rcases hw with rfl | rfl <;> rfl
  | number n =>
    obtain ⟨w, hn, hw⟩ := hw
    obtain ⟨h1, h2⟩ := ho
    have h5 := most_32 hb
    have h6 : least b.long ≤ 0 := by
      unfold least
      have : (0 : Int) ≤ 2 ^ (b.long - 1) := Int.pow_nonneg (by decide)
      omega
    have h3 := strtol_small (bits := b.long) (numeral_atoll hn) (by omega)
    have key : ∀ f : Str, (f = "-n".toList ∨ f = "--number_of_federates".toList) → f ≠ "-i".toList → f ≠ "--id".toList →
        process b (fuel + 1) (f :: w :: rest) s = process b fuel rest { s with number := n } := by
      intro f hf h7 h8
      rw [process_cons, if_neg (by simp only [h7, h8, or_self, not_false_eq_true]), if_pos hf]
      dsimp only
      rw [h3, if_neg (by omega), toInt32_small (by omega) (by omega)]
    rcases hw with rfl | rfl
    · exact key _ (Or.inl rfl) (by decide) (by decide)
    · exact key _ (Or.inr rfl) (by decide) (by decide)
  | port n =>
    obtain ⟨w, hn, hw⟩ := hw
    obtain ⟨h1, h2⟩ := ho
    have h3 := strtoul_small hb (numeral_atoll hn) h2
    have key : ∀ f : Str, (f = "-p".toList ∨ f = "--port".toList) → f ≠ "-i".toList → f ≠ "--id".toList → f ≠ "-n".toList →
        f ≠ "--number_of_federates".toList → process b (fuel + 1) (f :: w :: rest) s = process b fuel rest { s with port := n } := by
      intro f hf h7 h8 h9 h10
      rw [process_cons, if_neg (by simp only [h7, h8, or_self, not_false_eq_true]), if_neg (by simp only [h9, h10, or_self, not_false_eq_true]), if_pos hf]
      dsimp only
      rw [h3, if_neg (by omega)]
    rcases hw with rfl | rfl
    · exact key _ (Or.inl rfl) (by decide) (by decide) (by decide) (by decide)
    · exact key _ (Or.inr rfl) (by decide) (by decide) (by decide) (by decide)
  | auth =>
    have ho : b.auth = true := ho
    rcases hw with rfl | rfl
    · show process b (fuel + 1) ("-a".toList :: rest) s = _
      rw [process_cons, if_neg (by decide), if_neg (by decide), if_neg (by decide), if_neg (by decide), if_pos (by decide), if_pos ho]
      rfl
    · show process b (fuel + 1) ("--auth".toList :: rest) s = _
      rw [process_cons, if_neg (by decide), if_neg (by decide), if_neg (by decide), if_neg (by decide), if_pos (by decide), if_pos ho]
      rfl
  | tracing => rcases hw with rfl | rfl <;> rfl
  | clock m p e => cases hc

theorem process_clock {b : Build} (hb : 32 ≤ b.long) {m : Sync} {p e : Option Nat} (ho : (Opt.clock m p e).Ok b) {ws : List Str}
    (hw : Written (.clock m p e) ws) {rest : List Str} (hr : ∀ a ∈ rest.head?, a ∉ clockWords) (s : Settings) (fuel : Nat) :
    process b (fuel + 1) (ws ++ rest) s = process b fuel (rest.drop 1) ((Opt.clock m p e).apply s) := by
  obtain ⟨f, c, hf, hc, rfl⟩ := hw
  have hca := clockArgs_words hb ho hc hr s
  obtain ⟨wp, we, h1, h2, rfl⟩ := hc
  have key : f ≠ "-i".toList → f ≠ "--id".toList → f ≠ "-n".toList → f ≠ "--number_of_federates".toList → f ≠ "-p".toList → f ≠ "--port".toList →
      process b (fuel + 1) (f :: (syncWord m :: (wp ++ we) ++ rest)) s = process b fuel (rest.drop 1) ((Opt.clock m p e).apply s) := by
    intro h3 h4 h5 h6 h7 h8
    rw [process_cons, if_neg (by simp only [h3, h4, or_self, not_false_eq_true]), if_neg (by simp only [h5, h6, or_self, not_false_eq_true]),
      if_neg (by simp only [h7, h8, or_self, not_false_eq_true]), if_pos hf]
    rw [hca]
    rfl
  rcases hf with rfl | rfl
  · exact key (by decide) (by decide) (by decide) (by decide) (by decide) (by decide)
  · exact key (by decide) (by decide) (by decide) (by decide) (by decide) (by decide)

theorem process_fuel {b : Build} : ∀ (fuel : Nat) (l : List Str) (s : Settings), l.length ≤ fuel → process b fuel l s = process_args b l s := by
  have key : ∀ (f g : Nat) (l : List Str) (s : Settings), l.length ≤ f → l.length ≤ g → process b f l s = process b g l s := by
    have hlen : ∀ l s, (clockArgs b l s).2.length ≤ l.length := by
      intro l s
      fun_induction clockArgs b l s <;> simp_all <;> omega
    intro f
    induction f with
    | zero =>
      intro g l s hf _
      have : l = [] := List.length_eq_zero_iff.1 (by omega)
      subst this
      cases g <;> rfl
    | succ f ih =>
      intro g l s hf hg
      cases l with
      | nil => cases g <;> rfl
      | cons a l =>
        cases g with
        | zero => simp at hg
        | succ g =>
          simp only [List.length_cons, Nat.add_le_add_iff_right] at hf hg
          rw [process_cons, process_cons]
          have hl : ∀ {v l'} (s : Settings), l = v :: l' → process b f l' s = process b g l' s := by
            intro v l' s e
            subst e
            simp only [List.length_cons] at hf hg
            exact ih g l' s (by omega) (by omega)
          have hd : ∀ s s', process b f ((clockArgs b l s).2.drop 1) s' = process b g ((clockArgs b l s).2.drop 1) s' := by
            intro s s'
            have := hlen l s
            apply ih <;> rw [List.length_drop] <;> omega
          repeat' split
          all_goals first | rfl | exact hl _ rfl | exact hd _ _ | exact ih g _ _ hf hg
  intro fuel l s h
  exact key fuel l.length l s h (Nat.le_refl _)

/-- C87.  A command line that is made of the options that `usage` explains, with numbers that are permitted, is accepted and sets the parameters accordingly, if `-c`, with what
belongs to it, is its last option.  `hb`: `long` has at least 32 bits, as the C standard demands. -/
theorem C87_options_are_understood_partial {b : Build} (hb : 32 ≤ b.long) {os : List Opt} {ws : List Str} (hl : Line os ws) (ho : ∀ o ∈ os, o.Ok b)
    (hc : ∀ o ∈ os.dropLast, o.isClock = false) (s : Settings) : process_args b ws s = some (os.foldl Opt.apply s) := by
  induction hl generalizing s with
  | nil => rfl
  | @cons o os ws rest hw hl ih =>
    have h1 := ho o (by simp)
    have hne : ∃ n, (ws ++ rest).length = n + 1 ∧ rest.length ≤ n := by
      have : ws ≠ [] := by
        cases o with
        | id => rcases hw with rfl | rfl <;> simp
        | number => obtain ⟨w, _, rfl | rfl⟩ := hw <;> simp
        | port => obtain ⟨w, _, rfl | rfl⟩ := hw <;> simp
        | auth => rcases hw with rfl | rfl <;> simp
        | tracing => rcases hw with rfl | rfl <;> simp
        | clock => obtain ⟨f, c, _, _, rfl⟩ := hw; simp
      have := List.length_pos_iff.2 this
      rw [List.length_append]
      exact ⟨ws.length - 1 + rest.length, by omega, by omega⟩
    obtain ⟨n, hn, hn'⟩ := hne
    have hgo := ih (fun o ho' => ho o (by simp [ho']))
      (fun o ho' => hc o (by cases os with
        | nil => cases ho'
        | cons a os => simp only [List.dropLast_cons_cons, List.mem_cons]; exact Or.inr ho')) (o.apply s)
    unfold process_args
    rw [hn]
    cases os with
    | nil =>
      cases hl
      cases hclk : o.isClock with
      | false =>
        rw [process_one hb h1 hclk hw]
        cases n <;> rfl
      | true =>
        cases o with
        | clock m p e =>
          rw [process_clock hb h1 hw (by simp)]
          cases n <;> rfl
        | _ => cases hclk
    | cons a os =>
      rw [process_one hb h1 (hc o (by simp)) hw, process_fuel _ _ _ hn']
      exact hgo

/-- Options are processed one after the other. -/
theorem process_prefix {b : Build} (hb : 32 ≤ b.long) {os : List Opt} {ws : List Str} (hl : Line os ws) (ho : ∀ o ∈ os, o.Ok b)
    (hc : ∀ o ∈ os, o.isClock = false) (rest : List Str) (s : Settings) :
    process_args b (ws ++ rest) s = process_args b rest (os.foldl Opt.apply s) := by
  induction hl generalizing s with
  | nil => rfl
  | @cons o os ws rest' hw hl ih =>
    have h1 := ho o (by simp)
    have hne : ∃ n, (ws ++ rest' ++ rest).length = n + 1 ∧ (rest' ++ rest).length ≤ n := by
      have : ws ≠ [] := by
        cases o with
        | id => rcases hw with rfl | rfl <;> simp
        | number => obtain ⟨w, _, rfl | rfl⟩ := hw <;> simp
        | port => obtain ⟨w, _, rfl | rfl⟩ := hw <;> simp
        | auth => rcases hw with rfl | rfl <;> simp
        | tracing => rcases hw with rfl | rfl <;> simp
        | clock => obtain ⟨f, c, _, _, rfl⟩ := hw; simp
      have := List.length_pos_iff.2 this
      rw [List.append_assoc, List.length_append]
      exact ⟨ws.length - 1 + (rest' ++ rest).length, by omega, by omega⟩
    obtain ⟨n, hn, hn'⟩ := hne
    unfold process_args
    rw [hn, List.append_assoc, process_one hb h1 (hc o (by simp)) hw, process_fuel _ _ _ hn']
    exact ih (fun o ho' => ho o (by simp [ho'])) (fun o ho' => hc o (by simp [ho'])) _

/-- C87.  Whatever follows, a word in the place of an option that is none is not accepted. -/
theorem C87_unknown_words_are_refused {b : Build} (hb : 32 ≤ b.long) {os : List Opt} {ws : List Str} (hl : Line os ws) (ho : ∀ o ∈ os, o.Ok b)
    (hc : ∀ o ∈ os, o.isClock = false) {a : Str} (ha : a ∉ flags) (rest : List Str) (s : Settings) : process_args b (ws ++ a :: rest) s = none := by
  rw [process_prefix hb hl ho hc]
  unfold flags at ha
  simp only [List.map_cons, List.map_nil, List.mem_cons, List.not_mem_nil, or_false, not_or] at ha
  obtain ⟨h1, h2, h3, h4, h5, h6, h7, h8, h9, h10, h11, h12, h13⟩ := ha
  show process b (rest.length + 1) (a :: rest) _ = none
  rw [process_cons, if_neg (by simp only [h1, h2, or_self, not_false_eq_true]), if_neg (by simp only [h3, h4, or_self, not_false_eq_true]),
    if_neg (by simp only [h5, h6, or_self, not_false_eq_true]), if_neg (by simp only [h7, h8, or_self, not_false_eq_true]),
    if_neg (by simp only [h9, h10, or_self, not_false_eq_true]), if_neg (by simp only [h11, h12, or_self, not_false_eq_true]), if_neg h13]

/-- C87.  A number of federates that is 0, negative or no number, a port that is 0 or from 65535 to 2^32 - 1, and authentication in an RTI that has been built without
it are not accepted, nor is an option without its argument. -/
theorem C87_bad_arguments_are_refused {b : Build} (hb : 32 ≤ b.long) {os : List Opt} {ws : List Str} (hl : Line os ws) (ho : ∀ o ∈ os, o.Ok b)
    (hc : ∀ o ∈ os, o.isClock = false) (s : Settings) :
    (∀ w rest, atoll w ≤ 0 → process_args b (ws ++ "-n".toList :: w :: rest) s = none ∧
      process_args b (ws ++ "--number_of_federates".toList :: w :: rest) s = none) ∧
    (∀ n w rest, Numeral n w → n = 0 ∨ (65535 ≤ n ∧ n < 4294967296) → process_args b (ws ++ "-p".toList :: w :: rest) s = none ∧
      process_args b (ws ++ "--port".toList :: w :: rest) s = none) ∧
    (∀ rest, b.auth = false → process_args b (ws ++ "-a".toList :: rest) s = none ∧ process_args b (ws ++ "--auth".toList :: rest) s = none) ∧
    ∀ f ∈ ["-i", "--id", "-n", "--number_of_federates", "-p", "--port", "-c", "--clock_sync"].map String.toList, process_args b (ws ++ [f]) s = none := by
  refine ⟨?_, ?_, ?_, ?_⟩
  · intro w rest hw
    have h : strtol b.long w ≤ 0 := by
      unfold strtol
      have : least b.long ≤ 0 := by
        unfold least
        have : (0 : Int) ≤ 2 ^ (b.long - 1) := Int.pow_nonneg (by decide)
        omega
      omega
    rw [process_prefix hb hl ho hc, process_prefix hb hl ho hc]
    constructor
    · show process b (rest.length + 1 + 1) ("-n".toList :: w :: rest) _ = none
      rw [process_cons, if_neg (by decide), if_pos (by decide)]
      exact if_pos (Or.inl h)
    · show process b (rest.length + 1 + 1) ("--number_of_federates".toList :: w :: rest) _ = none
      rw [process_cons, if_neg (by decide), if_pos (by decide)]
      exact if_pos (Or.inl h)
  · intro n w rest hw hn
    have h : strtoul b.long w % 4294967296 ≤ 0 ∨ strtoul b.long w % 4294967296 ≥ 65535 := by
      have h0 := numeral_atoll hw
      have h1 : 2 ^ 32 ≤ 2 ^ b.long := Nat.pow_le_pow_right (by decide) hb
      have h2 : strtoul b.long w = n := by
        unfold strtoul
        rw [h0]
        have h2 : ((n : Int)).natAbs = n := rfl
        rw [h2, if_pos (by omega)]
        have : ((n : Int) % 2 ^ b.long) = n := Int.emod_eq_of_lt (by omega) (by
          have : ((2 : Int) ^ b.long) = ((2 ^ b.long : Nat) : Int) := by push_cast; rfl
          omega)
        rw [this]
        rfl
      omega
    rw [process_prefix hb hl ho hc, process_prefix hb hl ho hc]
    constructor
    · show process b (rest.length + 1 + 1) ("-p".toList :: w :: rest) _ = none
      rw [process_cons, if_neg (by decide), if_neg (by decide), if_pos (by decide)]
      exact if_pos h
    · show process b (rest.length + 1 + 1) ("--port".toList :: w :: rest) _ = none
      rw [process_cons, if_neg (by decide), if_neg (by decide), if_pos (by decide)]
      exact if_pos h
  · intro rest ha
    rw [process_prefix hb hl ho hc, process_prefix hb hl ho hc]
    constructor
    · show process b (rest.length + 1) ("-a".toList :: rest) _ = none
      rw [process_cons, if_neg (by decide), if_neg (by decide), if_neg (by decide), if_neg (by decide), if_pos (by decide), if_neg (by rw [ha]; simp)]
    · show process b (rest.length + 1) ("--auth".toList :: rest) _ = none
      rw [process_cons, if_neg (by decide), if_neg (by decide), if_neg (by decide), if_neg (by decide), if_pos (by decide), if_neg (by rw [ha]; simp)]
  · intro f hf
    rw [process_prefix hb hl ho hc]
    simp only [List.map_cons, List.map_nil, List.mem_cons, List.not_mem_nil, or_false] at hf
    rcases hf with rfl | rfl | rfl | rfl | rfl | rfl | rfl | rfl <;> rfl

/-- C87.  Whatever is accepted: the port is one that can be used, or none is asked for; authentication is on only if the RTI has been built with it. -/
theorem C87_accepted_settings {b : Build} {ws : List Str} {s t : Settings} (h : process_args b ws s = some t) (hp : s.port < 65535) :
    t.port < 65535 ∧ (t.auth = true → s.auth = true ∨ b.auth = true) ∧ (s.tracing = true → t.tracing = true) := by
  have hclk : ∀ l s, (clockArgs b l s).1.port = s.port ∧ (clockArgs b l s).1.auth = s.auth ∧ (clockArgs b l s).1.tracing = s.tracing := by
    intro l s
    fun_induction clockArgs b l s <;> simp_all
  have key : ∀ (f : Nat) (l : List Str) (s : Settings), process b f l s = some t → s.port < 65535 →
      t.port < 65535 ∧ (t.auth = true → s.auth = true ∨ b.auth = true) ∧ (s.tracing = true → t.tracing = true) := by
    intro f
    induction f with
    | zero =>
      intro l s h hp
      cases l with
      | nil =>
        cases h
        exact ⟨hp, Or.inl, id⟩
      | cons => cases h
    | succ f ih =>
      intro l s h hp
      cases l with
      | nil =>
        cases h
        exact ⟨hp, Or.inl, id⟩
      | cons a l =>
        rw [process_cons] at h
        split at h
        · split at h
          · cases h
          · exact (ih _ _ h) hp
        · split at h
          · split at h
            · cases h
            · split at h
              · cases h
              · exact (ih _ _ h) hp
          · split at h
            · split at h
              · cases h
              · split at h
                · cases h
                · exact (ih _ _ h) (by dsimp only; omega)
            · split at h
              · split at h
                · cases h
                · rename_i v l'
                  obtain ⟨e1, e2, e3⟩ := hclk (v :: l') s
                  have := ih _ _ h (by rw [e1]; exact hp)
                  rw [e2, e3] at this
                  exact this
              · split at h
                · split at h
                  · rename_i hb
                    obtain ⟨h1, _, h3⟩ := (ih _ _ h) hp
                    exact ⟨h1, fun _ => Or.inr hb, h3⟩
                  · cases h
                · split at h
                  · obtain ⟨h1, h2, h3⟩ := (ih _ _ h) hp
                    exact ⟨h1, h2, fun _ => h3 rfl⟩
                  · split at h
                    · exact (ih _ _ h) hp
                    · cases h
  exact key _ _ _ h hp

/-! ### Examples -/

def words (l : List String) : List Str := l.map String.toList

/-- `-n 2 --port 15045 -i f -t -c on period 5000000 exchanges-per-interval 20` is such a command line. -/
def demoOpts : List Opt := [.number 2, .port 15045, .id "f".toList, .tracing, .clock .on (some 5000000) (some 20)]
def demoWords : List Str := words ["-n", "2", "--port", "15045", "-i", "f", "-t", "-c", "on", "period", "5000000", "exchanges-per-interval", "20"]

theorem demo_line : Line demoOpts demoWords ∧ (∀ o ∈ demoOpts, o.Ok ⟨false, 64⟩) ∧ ∀ o ∈ demoOpts.dropLast, o.isClock = false := by
  refine ⟨?_, ?_, ?_⟩
  · refine .cons (ws := words ["-n", "2"]) ⟨"2".toList, ⟨[2], by simp, by simp, rfl, rfl⟩, Or.inl rfl⟩ ?_
    refine .cons (ws := words ["--port", "15045"]) ⟨"15045".toList, ⟨[1, 5, 0, 4, 5], by simp, by simp, rfl, rfl⟩, Or.inr rfl⟩ ?_
    refine .cons (ws := words ["-i", "f"]) (Or.inl rfl) ?_
    refine .cons (ws := words ["-t"]) (Or.inl rfl) ?_
    refine .cons (ws := words ["-c", "on", "period", "5000000", "exchanges-per-interval", "20"]) ⟨"-c".toList, _, Or.inl rfl,
      ⟨_, _, ⟨"5000000".toList, ⟨[5, 0, 0, 0, 0, 0, 0], by simp, by simp, rfl, rfl⟩, rfl⟩, ⟨"20".toList, ⟨[2, 0], by simp, by simp, rfl, rfl⟩, rfl⟩, rfl⟩, rfl⟩ .nil
  · intro o ho
    simp only [demoOpts, List.mem_cons, List.not_mem_nil, or_false] at ho
    rcases ho with rfl | rfl | rfl | rfl | rfl <;> simp [Opt.Ok]
  · decide

example : process_args ⟨false, 64⟩ demoWords defaults =
    some { federation := "f".toList, number := 2, port := 15045, sync := .on, period := 5000000, exchanges := 20, auth := false, tracing := true } := by
  rw [C87_options_are_understood_partial (by decide) demo_line.1 demo_line.2.1 demo_line.2.2]
  rfl

example : "-v".toList ∉ flags ∧ process_args ⟨false, 64⟩ (words ["-v"]) defaults = none := by decide +kernel

example : process_args ⟨false, 64⟩ (words ["-t", "-n", "-3"]) defaults = none ∧ process_args ⟨false, 32⟩ (words ["-p", "65535"]) defaults = none ∧
    process_args ⟨false, 64⟩ (words ["-a"]) defaults = none ∧ process_args ⟨false, 64⟩ (words ["-t", "-n"]) defaults = none := by decide +kernel

/-- The hypotheses of `C87_accepted_settings`. -/
example : (process_args ⟨true, 32⟩ (words ["-p", "1024", "-a"]) defaults).isSome = true ∧ defaults.port < 65535 := by decide +kernel

/-! ### What is not as `usage` says -/

/-- C87.  The argument after those of `-c` is skipped: for whatever is said about clock synchronization, what follows begins with its second word. -/
theorem C87_not_options_after_clock_sync {b : Build} (hb : 32 ≤ b.long) {m : Sync} {p e : Option Nat} (ho : (Opt.clock m p e).Ok b) {ws : List Str}
    (hw : Written (.clock m p e) ws) {a : Str} (ha : a ∉ clockWords) (rest : List Str) (s : Settings) :
    process_args b (ws ++ a :: rest) s = process_args b rest ((Opt.clock m p e).apply s) := by
  have hne : ∃ n, (ws ++ a :: rest).length = n + 1 ∧ rest.length ≤ n := by
    rw [List.length_append]
    exact ⟨ws.length + rest.length, by simp; omega, by omega⟩
  obtain ⟨n, hn, hn'⟩ := hne
  have hr : ∀ x ∈ (a :: rest).head?, x ∉ clockWords := by
    intro x hx
    cases hx
    exact ha
  unfold process_args
  rw [hn, process_clock hb ho hw hr, process_fuel _ _ _ (by simpa using hn')]
  rfl

/-- C87.  So tracing is not turned on by `-c init -t`, and `-c off -n 2`, in the order in which `usage` does not list them, is refused. -/
theorem C87_not_in_any_order (b : Build) (s : Settings) :
    process_args b (words ["-c", "init", "-t"]) s = some { s with sync := .init } ∧
    process_args b (words ["-t", "-c", "init"]) s = some { s with sync := .init, tracing := true } ∧
    process_args b (words ["-c", "off", "-n", "2"]) s = none :=
  ⟨rfl, rfl, rfl⟩

/-- C87.  Numbers of federates that do not fit are accepted and changed, on machines where `long` has 64 bits. -/
theorem C87_not_large_numbers_are_refused (auth : Bool) :
    process_args ⟨auth, 64⟩ (words ["-n", "4294967298"]) defaults = some { defaults with number := 2 } ∧
    process_args ⟨auth, 64⟩ (words ["-n", "4294967296"]) defaults = some { defaults with number := 0 } ∧
    process_args ⟨auth, 64⟩ (words ["-n", "2147483648"]) defaults = some { defaults with number := -2147483648 } ∧
    process_args ⟨auth, 64⟩ (words ["-p", "4294982341"]) defaults = some { defaults with port := 15045 } ∧
    process_args ⟨auth, 64⟩ (words ["-p", "-4294952251"]) defaults = some { defaults with port := 15045 } := by
  cases auth <;> decide +kernel

/-- C87.  Text after a number, negative numbers for clock synchronization and arguments of it that do not apply are accepted. -/
theorem C87_not_nonsense_is_refused (auth : Bool) :
    process_args ⟨auth, 64⟩ (words ["-n", "2x"]) defaults = some { defaults with number := 2 } ∧
    process_args ⟨auth, 64⟩ (words ["-c", "on", "period", "-1"]) defaults = some { defaults with sync := .on, period := 18446744073709551615 } ∧
    process_args ⟨auth, 64⟩ (words ["-c", "on", "exchanges-per-interval", "-1"]) defaults = some { defaults with sync := .on, exchanges := -1 } ∧
    process_args ⟨auth, 64⟩ (words ["-c", "off", "period", "5"]) defaults = some { defaults with sync := .off } ∧
    process_args ⟨auth, 64⟩ (words ["-c", "on", "period", "x"]) defaults = some { defaults with sync := .on } ∧
    process_args ⟨auth, 64⟩ [] defaults = some defaults := by
  cases auth <;> decide +kernel

/-- C87.  Without options the defaults are those of `usage` (core/federated/RTI/main.c:118-145): synchronization during startup, with 10 exchanges, no authentication, no tracing; the port is
the default one, for which 0 stands, and there is no federate. -/
theorem C87_defaults_partial (b : Build) : ∃ s, process_args b [] defaults = some s ∧ s.sync = .init ∧ s.exchanges = 10 ∧ s.port = 0 ∧ s.number = 0 ∧
    s.auth = false ∧ s.tracing = false ∧ s.federation = "Unidentified Federation".toList :=
  ⟨defaults, rfl, rfl, rfl, rfl, rfl, rfl, rfl, rfl⟩

/-- C87.  Missing in `C87_defaults_partial` and false: `usage` says that the period of clock synchronization is 5 ms by default.  It is 10 ms. -/
theorem C87_period_not_as_documented (b : Build) : ∃ s, process_args b (words ["-c", "on"]) defaults = some s ∧ s.sync = .on ∧ s.period = 10 * 1000000 ∧ s.period ≠ 5 * 1000000 :=
  ⟨{ defaults with sync := .on }, rfl, rfl, rfl, by decide⟩

/-- C87.  As `usage` says, the period applies only to `on`: with `off` and `init` it stays what it was, whatever is given. -/
theorem C87_period_only_with_on (b : Build) (s : Settings) (v : Str) :
    process_args b ["-c".toList, "init".toList, "period".toList, v] s = some { s with sync := .init } ∧
    process_args b ["-c".toList, "off".toList, "period".toList, v] s = some { s with sync := .off } :=
  ⟨rfl, rfl⟩

/-- With `on` it is used. -/
example : process_args ⟨false, 64⟩ (words ["-c", "on", "period", "5000000"]) defaults = some { defaults with sync := .on, period := 5000000 } := by decide +kernel

end ReactorC.RtiArgs
