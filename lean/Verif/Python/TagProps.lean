import Verif.Python.TagModel
import Verif.Tag.Props
import Mathlib.Data.Nat.Digits.Lemmas

/-!
# C84: tags in Python

A `Tag` in Python has the time and the microstep that it was made with, the operators compare tags in the order of logical
time, and different tags have different texts.
-/

namespace ReactorC.Python

/-- **C84.** A tag has the time and the microstep that it was made with, if the time is a 64-bit and the microstep a 32-bit integer, on every
machine that is little-endian or has a 32-bit `long`.  Missing: big-endian machines with a 64-bit `long`, see
`C84_not_microsteps_on_big_endian`. -/
theorem C84_tag_has_its_arguments_partial (M : Machine) (hM : M.bigEndian = false ∨ M.long64 = false) (time m : Int)
    (ht : -(2 ^ 63) ≤ time ∧ time < 2 ^ 63) (hm : 0 ≤ m ∧ m < 2 ^ 32) :
    ∃ t, Tag_init M time m = some t ∧ t.time = time ∧ (t.microstep : Int) = m := by
  have hi : IsI64 time := by
    unfold IsI64 NEVER FOREVER
    omega
  refine ⟨_, by unfold Tag_init; rw [if_pos hi], rfl, ?_⟩
  show ((storeMicrostep M m : Nat) : Int) = m
  unfold storeMicrostep
  split
  · rename_i hl
    have hb : M.bigEndian = false := by
      rcases hM with h | h
      · exact h
      · rw [h] at hl; cases hl
    rw [hb]
    simp only [Bool.false_eq_true, if_false]
    omega
  · omega

/-- **C84.** A time that is not a 64-bit integer is an error. -/
theorem C84_times_are_checked (M : Machine) (time m : Int) (ht : time < -(2 ^ 63) ∨ 2 ^ 63 ≤ time) : Tag_init M time m = none := by
  unfold Tag_init
  rw [if_neg]
  unfold IsI64 NEVER FOREVER
  omega

/-- The order of logical time: the time first, then the microstep. -/
def before (t1 m1 t2 m2 : Int) : Prop := t1 < t2 ∨ (t1 = t2 ∧ m1 < m2)

/-- **C84.** The operators compare two tags of a program in the order of logical time of the arguments that they were made
with. -/
theorem C84_operators_compare_logical_time_partial (M : Machine) (hM : M.bigEndian = false ∨ M.long64 = false) (t1 m1 t2 m2 : Int)
    (h1 : -(2 ^ 63) ≤ t1 ∧ t1 < 2 ^ 63) (h2 : -(2 ^ 63) ≤ t2 ∧ t2 < 2 ^ 63) (g1 : 0 ≤ m1 ∧ m1 < 2 ^ 32)
    (g2 : 0 ≤ m2 ∧ m2 < 2 ^ 32) : ∃ a b, Tag_init M t1 m1 = some a ∧ Tag_init M t2 m2 = some b ∧
      (Tag_richcompare a b .lt = true ↔ before t1 m1 t2 m2) ∧
      (Tag_richcompare a b .gt = true ↔ before t2 m2 t1 m1) ∧
      (Tag_richcompare a b .eq = true ↔ t1 = t2 ∧ m1 = m2) ∧
      (Tag_richcompare a b .ne = true ↔ ¬(t1 = t2 ∧ m1 = m2)) ∧
      (Tag_richcompare a b .le = true ↔ before t1 m1 t2 m2 ∨ (t1 = t2 ∧ m1 = m2)) ∧
      (Tag_richcompare a b .ge = true ↔ before t2 m2 t1 m1 ∨ (t1 = t2 ∧ m1 = m2)) ∧
      (py_tag_compare a b = -1 ↔ before t1 m1 t2 m2) ∧ (py_tag_compare a b = 0 ↔ t1 = t2 ∧ m1 = m2) ∧
      (py_tag_compare a b = 1 ↔ before t2 m2 t1 m1) := by
  obtain ⟨a, ha, e1, e2⟩ := C84_tag_has_its_arguments_partial M hM t1 m1 h1 g1
  obtain ⟨b, hb, e3, e4⟩ := C84_tag_has_its_arguments_partial M hM t2 m2 h2 g2
  refine ⟨a, b, ha, hb, ?_⟩
  subst e1 e2 e3 e4
  have hc : (lf_tag_compare a b = -1 ∧ before a.time a.microstep b.time b.microstep) ∨
      (lf_tag_compare a b = 0 ∧ a.time = b.time ∧ (a.microstep : Int) = b.microstep) ∨
      (lf_tag_compare a b = 1 ∧ before b.time b.microstep a.time a.microstep) := by
    unfold lf_tag_compare before
    split
    · omega
    · split
      · omega
      · split
        · omega
        · split <;> omega
  unfold py_tag_compare before at *
  rcases hc with ⟨h, hb⟩ | ⟨h, hb⟩ | ⟨h, hb⟩ <;>
    (refine ⟨?_, ?_, ?_, ?_, ?_, ?_, ?_, ?_, ?_⟩ <;> simp [Tag_richcompare, h] <;> omega)

/-! ## Texts -/

theorem digit_inj : ∀ a < 10, ∀ b < 10, digit a = digit b → a = b := by decide

theorem digit_ne : ∀ a < 10, digit a ≠ ',' ∧ digit a ≠ '-' ∧ digit a ≠ ')' := by decide

theorem map_inj_on {f : Nat → Char} {P : Nat → Prop} (hf : ∀ a, P a → ∀ b, P b → f a = f b → a = b) :
    ∀ {l m : List Nat}, (∀ a ∈ l, P a) → (∀ a ∈ m, P a) → l.map f = m.map f → l = m
  | [], [], _, _, _ => rfl
  | [], _ :: _, _, _, h => by cases h
  | _ :: _, [], _, _, h => by cases h
  | a :: l, b :: m, hl, hm, h => by
    simp only [List.map_cons, List.cons.injEq] at h
    rw [hf a (hl a List.mem_cons_self) b (hm b List.mem_cons_self) h.1,
      map_inj_on hf (fun x hx => hl x (List.mem_cons_of_mem _ hx)) (fun x hx => hm x (List.mem_cons_of_mem _ hx)) h.2]

theorem natStr_chars (n : Nat) : ∀ c ∈ natStr n, c ≠ ',' ∧ c ≠ '-' ∧ c ≠ ')' := by
  intro c hc
  unfold natStr at hc
  split at hc
  · simp only [List.mem_singleton] at hc
    subst hc
    decide
  · simp only [List.map_reverse, List.mem_reverse, List.mem_map] at hc
    obtain ⟨d, hd, rfl⟩ := hc
    exact digit_ne d (Nat.digits_lt_base (by decide) hd)

theorem natStr_inj {a b : Nat} (h : natStr a = natStr b) : a = b := by
  have key : ∀ n, natStr n = (if n = 0 then [0] else (Nat.digits 10 n).reverse).map digit := by
    intro n
    unfold natStr
    split <;> rfl
  rw [key a, key b] at h
  have hd : ∀ n, ∀ d ∈ (if n = 0 then [0] else (Nat.digits 10 n).reverse), d < 10 := by
    intro n d hd
    split at hd
    · simp only [List.mem_singleton] at hd
      omega
    · rw [List.mem_reverse] at hd
      exact Nat.digits_lt_base (by decide) hd
  have e := map_inj_on (P := fun d => d < 10) (f := digit) (fun a ha b hb hab => digit_inj a ha b hb hab) (hd a) (hd b) h
  have hv : ∀ n, Nat.ofDigits 10 (if n = 0 then [0] else (Nat.digits 10 n).reverse).reverse = n := by
    intro n
    split
    · rename_i h0
      subst h0
      rfl
    · rw [List.reverse_reverse, Nat.ofDigits_digits]
  rw [← hv a, ← hv b, e]

theorem intStr_chars (x : Int) : ∀ c ∈ intStr x, c ≠ ',' ∧ c ≠ ')' := by
  intro c hc
  unfold intStr at hc
  split at hc
  · rcases List.mem_cons.1 hc with h | h
    · subst h
      decide
    · exact ⟨(natStr_chars _ c h).1, (natStr_chars _ c h).2.2⟩
  · exact ⟨(natStr_chars _ c hc).1, (natStr_chars _ c hc).2.2⟩

theorem intStr_inj {a b : Int} (h : intStr a = intStr b) : a = b := by
  unfold intStr at h
  have hm : ∀ n, '-' ∉ natStr n := fun n hn => (natStr_chars n _ hn).2.1 rfl
  split at h <;> split at h
  · have := natStr_inj (List.cons.inj h).2
    omega
  · exact absurd (h ▸ List.mem_cons_self) (hm b.natAbs)
  · exact absurd (h.symm ▸ List.mem_cons_self) (hm a.natAbs)
  · have := natStr_inj h
    omega

/-- The text before the first occurrence of a character. -/
theorem split_at {c : Char} : ∀ {a b x y : List Char}, c ∉ a → c ∉ b → a ++ c :: x = b ++ c :: y → a = b ∧ x = y
  | [], [], _, _, _, _, h => ⟨rfl, (List.cons.inj h).2⟩
  | [], d :: b, _, _, _, hb, h => absurd ((List.cons.inj h).1 ▸ List.mem_cons_self) hb
  | d :: a, [], _, _, ha, _, h => absurd ((List.cons.inj h).1 ▸ List.mem_cons_self) ha
  | d :: a, e :: b, x, y, ha, hb, h => by
    obtain ⟨h1, h2⟩ := List.cons.inj h
    obtain ⟨h3, h4⟩ := split_at (fun hc => ha (List.mem_cons_of_mem _ hc)) (fun hc => hb (List.mem_cons_of_mem _ hc)) h2
    exact ⟨by rw [h1, h3], h4⟩

/-- **C84.** Different tags have different texts. -/
theorem C84_texts_are_different (a b : Tag) (h : Tag_str a = Tag_str b) : a = b := by
  unfold Tag_str at h
  simp only [List.append_assoc] at h
  have h := List.append_cancel_left h
  have e : ", microstep=".toList = ',' :: " microstep=".toList := rfl
  rw [e, List.cons_append, List.cons_append] at h
  obtain ⟨h1, h2⟩ := split_at (fun hc => (intStr_chars _ _ hc).1 rfl) (fun hc => (intStr_chars _ _ hc).1 rfl) h
  have h3 := List.append_cancel_left h2
  have h4 := List.append_cancel_right h3
  have h5 := intStr_inj h1
  have h6 : (a.microstep : Int) = b.microstep := intStr_inj h4
  cases a
  cases b
  simp only [Tag.mk.injEq]
  exact ⟨h5, by simpa using h6⟩

/-- **C84.** The time at which a message arrived is what a reaction reads, with decentralized coordination and a 64-bit
`long`.  Missing: centralized coordination, see below. -/
theorem C84_arrival_times_partial (M : Machine) (hM : M.long64 = true) (t : Int) : arrival M .tLong t = t := by
  unfold arrival
  simp [hM]

/-! ## Examples -/

def linux : Machine := ⟨false, true⟩

example : Tag_init linux 1700000000000000000 3 = some ⟨1700000000000000000, 3⟩ := by decide +kernel

example : Tag_richcompare ⟨5, 1⟩ ⟨5, 2⟩ .lt = true ∧ Tag_richcompare ⟨5, 1⟩ ⟨5, 2⟩ .eq = false := by decide

example : Tag_str ⟨-15, 2⟩ = "Tag(time=-15, microstep=2)".toList := by decide +kernel

/-! ## What fails -/

/-- **C84 fails for large microsteps.** They are reduced modulo `2 ^ 32` without an error: two tags with different microsteps are equal.  -/
theorem C84_not_microsteps_are_checked : ∃ a b, Tag_init linux 0 (2 ^ 32) = some a ∧ Tag_init linux 0 0 = some b ∧
    Tag_richcompare a b .eq = true := by
  refine ⟨⟨0, 0⟩, ⟨0, 0⟩, by decide +kernel, by decide +kernel, by decide +kernel⟩

/-- **C84 fails for negative microsteps.** They are accepted and become large. -/
theorem C84_not_negative_microsteps_are_rejected : ∃ a b, Tag_init linux 0 (-1) = some a ∧ Tag_init linux 0 0 = some b ∧
    Tag_richcompare a b .gt = true := by
  refine ⟨⟨0, 4294967295⟩, ⟨0, 0⟩, by decide +kernel, by decide +kernel, by decide +kernel⟩

/-- **C84 fails on big-endian machines with a 64-bit `long`.** Every microstep becomes 0. -/
theorem C84_not_microsteps_on_big_endian (time m : Int) (ht : -(2 ^ 63) ≤ time ∧ time < 2 ^ 63) (hm : 0 ≤ m ∧ m < 2 ^ 32) :
    Tag_init ⟨true, true⟩ time m = some ⟨time, 0⟩ := by
  have hi : IsI64 time := by
    unfold IsI64 NEVER FOREVER
    omega
  unfold Tag_init
  rw [if_pos hi]
  simp only [storeMicrostep, if_true, Option.some.injEq, Tag.mk.injEq, true_and]
  omega

/-- **C84 fails for the time at which a message arrived, with centralized coordination.** Only half of the field is read: what a reaction gets is
wrong for every time from about two seconds after the epoch on. -/
theorem C84_not_arrival_times (M : Machine) (t : Int) (ht : 2 ^ 31 ≤ t) : arrival M .tInt t ≠ t := by
  show lowInt M t ≠ t
  unfold lowInt
  dsimp only
  split <;> split <;> omega

end ReactorC.Python
