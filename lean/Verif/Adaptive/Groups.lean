import Verif.Adaptive.Model
import Mathlib.Tactic.Common

/-!
# The groups of workers, and counting
-/

namespace ReactorC.Adaptive

open Np (put)

theorem condLoop_mono : ∀ (f' f w w' : Nat), w ≤ w' → w' ≤ f' → condLoop f w ≤ condLoop f' w'
  | 0, f, w, w', h, h' => by
    have : w = 0 := by omega
    subst this
    cases f <;> simp [condLoop]
  | f' + 1, 0, w, w', h, h' => by simp [condLoop]
  | f' + 1, f + 1, w, w', h, h' => by
    simp only [condLoop]
    by_cases h0 : w = 0
    · simp [h0]
    · have h1 : w' ≠ 0 := by omega
      simp only [h0, h1, if_false]
      have := condLoop_mono f' f (w / 2) (w' / 2) (Nat.div_le_div_right h) (by omega)
      omega

theorem condOf_mono {w w' : Nat} (h : w ≤ w') : condOf w ≤ condOf w' := condLoop_mono _ _ _ _ h (Nat.le_refl _)

theorem countP_down {p : Nat → Bool} (hd : ∀ x y, x ≤ y → p y = true → p x = true) :
    ∀ n x, x < n → (p x = true ↔ x < (List.range n).countP p)
  | 0, x, h => by omega
  | n + 1, x, h => by
    rw [List.range_succ, List.countP_append]
    have hle : (List.range n).countP p ≤ n := by
      have := List.countP_le_length (p := p) (l := List.range n); simpa using this
    by_cases hn : p n = true
    · have hall : (List.range n).countP p = n := by
        have : (List.range n).countP p = (List.range n).length :=
          List.countP_eq_length.2 fun y hy => hd y n (by have := List.mem_range.1 hy; omega) hn
        simpa using this
      simp [hn, hall]
      exact ⟨fun _ => h, fun _ => hd x n (by omega) hn⟩
    · have : List.countP p [n] = 0 := by simp [hn]
      rw [this]
      rcases Nat.lt_or_eq_of_le (Nat.lt_succ_iff.1 h) with k | k
      · simpa using countP_down hd n x k
      · subst k
        constructor
        · intro e; exact absurd e hn
        · intro e; omega

theorem group_iff {C : Config} {k x : Nat} (hx : x < C.n) : condOf x ≤ condOf (k - 1) ↔ x < group C k := by
  have := countP_down (p := fun w => decide (condOf w ≤ condOf (k - 1)))
    (fun x y h e => by
      have e := of_decide_eq_true e
      exact decide_eq_true (Nat.le_trans (condOf_mono h) e)) C.n x hx
  simpa [group, cumsum] using this

theorem group_le {C : Config} {k : Nat} : group C k ≤ C.n := by
  have := List.countP_le_length (p := fun w => decide (condOf w ≤ condOf (k - 1))) (l := List.range C.n)
  simpa [group, cumsum] using this

theorem le_group {C : Config} {k : Nat} (h : k ≤ C.n) : k ≤ group C k := by
  rcases Nat.eq_zero_or_pos k with h0 | h0
  · omega
  · have := (group_iff (C := C) (k := k) (x := k - 1) (by omega)).1 (Nat.le_refl _)
    omega

theorem group_n {C : Config} : group C C.n = C.n := Nat.le_antisymm group_le (le_group (Nat.le_refl _))

/-- Counting when a predicate changes at one place. -/
theorem countP_change {f g : Nat → Bool} {w : Nat} (h : ∀ x, x ≠ w → f x = g x) :
    ∀ n, w < n → (List.range n).countP g + (if f w then 1 else 0) = (List.range n).countP f + (if g w then 1 else 0)
  | 0, hw => by omega
  | n + 1, hw => by
    rw [List.range_succ, List.countP_append, List.countP_append]
    have hb : ∀ m, m ≤ w → (List.range m).countP g = (List.range m).countP f := by
      intro m hm
      refine List.countP_congr fun x hx => ?_
      rw [h x (by have := List.mem_range.1 hx; omega)]
    rcases Nat.lt_or_eq_of_le (Nat.lt_succ_iff.1 hw) with k | k
    · have := countP_change h n k
      have e : List.countP g [n] = List.countP f [n] := by
        simp [List.countP_cons, h n (by omega)]
      omega
    · subst k
      rw [hb w (Nat.le_refl _)]
      simp only [List.countP_cons, List.countP_nil]
      split <;> split <;> simp_all

theorem countP_pos {f : Nat → Bool} {n : Nat} : 0 < (List.range n).countP f ↔ ∃ x, x < n ∧ f x = true := by
  rw [List.countP_pos_iff]
  simp [List.mem_range]

theorem countP_zero {f : Nat → Bool} {n : Nat} : (List.range n).countP f = 0 ↔ ∀ x, x < n → f x = false := by
  rw [List.countP_eq_zero]
  simp [List.mem_range]

/-- Two different places. -/
theorem countP_two {f : Nat → Bool} {n x y : Nat} (hx : x < n) (hy : y < n) (hne : x ≠ y) (h1 : f x = true) (h2 : f y = true) :
    2 ≤ (List.range n).countP f := by
  have h := countP_change (f := f) (g := fun z => if z = x then false else f z) (w := x)
    (fun z hz => by simp [hz]) n hx
  have : 0 < (List.range n).countP (fun z => if z = x then false else f z) :=
    countP_pos.2 ⟨y, hy, by simp [h2, Ne.symm hne]⟩
  simp only [h1, if_true, Bool.false_eq_true, if_false] at h
  omega

end ReactorC.Adaptive
