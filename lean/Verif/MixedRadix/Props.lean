import Verif.MixedRadix.Model
import Mathlib.Tactic.Common
import Mathlib.Tactic.Ring
import Mathlib.Data.List.Nodup
import Mathlib.Data.List.Range
import Mathlib.Algebra.BigOperators.Group.List.Basic

/-! # C38: mixed-radix numbers enumerate in order and wrap -/

namespace ReactorC.MixedRadix

/-! ## Specification -/

/-- The number denoted by digits `ds`, least significant first, in radixes `rs`. -/
def value : List Nat → List Nat → Nat
  | d :: ds, r :: rs => d + r * value ds rs
  | _, _ => 0

/-- The entries of `l` in the order given by `perm`. -/
def pick (perm l : List Nat) : List Nat := perm.map (fun p => l.getD p 0)

/-- A well formed number: the permutation is one, and each digit is less than its radix. -/
structure Valid (m : Num) : Prop where
  lens : m.radixes.length = m.digits.length
  perm : m.perm.Perm (List.range m.digits.length)
  range : ∀ i, i < m.digits.length → m.digits.getD i 0 < m.radixes.getD i 0

/-- The position of `m` in the enumeration order: its value when the digits are read in permuted order. -/
def position (m : Num) : Nat := value (pick m.perm m.digits) (pick m.perm m.radixes)

/-! ## Lemmas -/

theorem getD_set_self {l : List Nat} {i v : Nat} (h : i < l.length) : (l.set i v).getD i 0 = v := by
  simp [List.getD, h]

theorem getD_set_ne {l : List Nat} {i j v : Nat} (h : i ≠ j) : (l.set i v).getD j 0 = l.getD j 0 := by
  simp [List.getD, h]

theorem pick_set_notMem {ps l : List Nat} {p v : Nat} (h : p ∉ ps) : pick ps (l.set p v) = pick ps l := by
  refine List.map_congr_left fun q hq => ?_
  exact getD_set_ne (by rintro rfl; exact h hq)

theorem incrLoop_length (rs : List Nat) (ps ds : List Nat) : (incrLoop rs ps ds).length = ds.length := by
  induction ps generalizing ds with
  | nil => simp [incrLoop]
  | cons p ps ih =>
    simp only [incrLoop]
    split
    · rw [ih]; simp
    · simp

theorem value_lt {ds rs : List Nat} (h : List.Forall₂ (· < ·) ds rs) : value ds rs < rs.prod := by
  induction h with
  | nil => simp [value]
  | @cons d r ds rs h1 h2 ih =>
    simp only [value, List.prod_cons]
    calc d + r * value ds rs < r + r * value ds rs := by omega
      _ = r * (value ds rs + 1) := by ring
      _ ≤ r * rs.prod := Nat.mul_le_mul_left _ ih

theorem forall₂_map {ps : List Nat} {f g : Nat → Nat} (h : ∀ p ∈ ps, f p < g p) :
    List.Forall₂ (· < ·) (ps.map f) (ps.map g) := by
  induction ps with
  | nil => exact .nil
  | cons p ps ih =>
    exact .cons (h p (by simp)) (ih fun q hq => h q (by simp [hq]))

/-- The carry loop adds one to the part of the number not yet visited. -/
theorem incrLoop_spec (rs : List Nat) (ps ds : List Nat) (hnd : ps.Nodup) (hlt : ∀ p ∈ ps, p < ds.length)
    (hr : ∀ p ∈ ps, ds.getD p 0 < rs.getD p 0)
    (hlast : ∀ p, p < ds.length → p ∉ ps → ds.getD p 0 = 0 ∨ ∃ q ∈ ps, ds.getD q 0 + 1 < rs.getD q 0) :
    (value (pick ps (incrLoop rs ps ds)) (pick ps rs) = (value (pick ps ds) (pick ps rs) + 1) % (pick ps rs).prod) ∧
    (∀ p ∈ ps, (incrLoop rs ps ds).getD p 0 < rs.getD p 0) ∧
    (∀ p, p ∉ ps → (incrLoop rs ps ds).getD p 0 = ds.getD p 0) := by
  induction ps generalizing ds with
  | nil =>
    refine ⟨by simp [pick, value], by simp, fun p _ => ?_⟩
    simp only [incrLoop]
    by_cases hp : ds.length - 1 = p
    · by_cases hl : p < ds.length
      · rw [hp, getD_set_self hl]
        rcases hlast p hl (by simp) with h | ⟨q, hq, _⟩
        · exact h.symm
        · simp at hq
      · simp [List.getD, hl, List.getElem?_eq_none (Nat.le_of_not_lt hl)]
    · rw [getD_set_ne hp]
  | cons p ps ih =>
    obtain ⟨hp, hnd'⟩ := List.nodup_cons.mp hnd
    have hpl := hlt p (by simp)
    have hpr := hr p (by simp)
    simp only [incrLoop]
    by_cases hc : ds.getD p 0 + 1 ≥ rs.getD p 0
    · rw [if_pos hc]
      have hne : ∀ q ∈ ps, (ds.set p 0).getD q 0 = ds.getD q 0 := fun q hq =>
        getD_set_ne (by rintro rfl; exact hp hq)
      obtain ⟨h1, h2, h3⟩ := ih (ds.set p 0) hnd' (fun q hq => by simpa using hlt q (by simp [hq]))
        (fun q hq => by rw [hne q hq]; exact hr q (by simp [hq]))
        (fun q hq hqp => by
          by_cases hqe : p = q
          · subst hqe; left; exact getD_set_self hpl
          · rw [getD_set_ne hqe]
            rcases hlast q (by simpa using hq) (by simp [hqp, Ne.symm hqe]) with h | ⟨x, hx, hx2⟩
            · exact Or.inl h
            · rcases List.mem_cons.mp hx with rfl | hx
              · omega
              · exact Or.inr ⟨x, hx, by rw [hne x hx]; exact hx2⟩)
      have h0 : (incrLoop rs ps (ds.set p 0)).getD p 0 = 0 := by rw [h3 p hp, getD_set_self hpl]
      refine ⟨?_, ?_, ?_⟩
      · have e1 : pick (p :: ps) (incrLoop rs ps (ds.set p 0)) = 0 :: pick ps (incrLoop rs ps (ds.set p 0)) := by
          simp only [pick, List.map_cons, h0]
        have e2 : pick (p :: ps) ds = ds.getD p 0 :: pick ps ds := rfl
        have e3 : pick (p :: ps) rs = rs.getD p 0 :: pick ps rs := rfl
        rw [e1, e2, e3, value, value, List.prod_cons, h1, pick_set_notMem hp]
        have hd : ds.getD p 0 + 1 = rs.getD p 0 := by omega
        rw [Nat.zero_add, ← Nat.mul_mod_mul_left]
        congr 1
        rw [← hd]; ring
      · intro q hq
        rcases List.mem_cons.mp hq with rfl | hq
        · rw [h0]; omega
        · exact h2 q hq
      · intro q hq
        simp only [List.mem_cons, not_or] at hq
        rw [h3 q hq.2, getD_set_ne (Ne.symm hq.1)]
    · rw [if_neg hc]
      refine ⟨?_, ?_, ?_⟩
      · have e1 : pick (p :: ps) (ds.set p (ds.getD p 0 + 1)) = (ds.getD p 0 + 1) :: pick ps ds := by
          rw [← pick_set_notMem (v := ds.getD p 0 + 1) hp]
          simp only [pick, List.map_cons, getD_set_self hpl]
        have e2 : pick (p :: ps) ds = ds.getD p 0 :: pick ps ds := rfl
        have e3 : pick (p :: ps) rs = rs.getD p 0 :: pick ps rs := rfl
        rw [e1, e2, e3, value, value, Nat.mod_eq_of_lt]
        · ring
        · have hv : value (pick ps ds) (pick ps rs) < (pick ps rs).prod :=
            value_lt (forall₂_map fun q hq => hr q (by simp [hq]))
          rw [List.prod_cons]
          calc ds.getD p 0 + rs.getD p 0 * value (pick ps ds) (pick ps rs) + 1
              < rs.getD p 0 + rs.getD p 0 * value (pick ps ds) (pick ps rs) := by omega
            _ = rs.getD p 0 * (value (pick ps ds) (pick ps rs) + 1) := by ring
            _ ≤ _ := Nat.mul_le_mul_left _ hv
      · intro q hq
        by_cases hqe : p = q
        · subst hqe; rw [getD_set_self hpl]; omega
        · rw [getD_set_ne hqe]; exact hr q hq
      · intro q hq
        simp only [List.mem_cons, not_or] at hq
        rw [getD_set_ne (Ne.symm hq.1)]

theorem Valid.take {m : Num} (h : Valid m) : m.perm.take m.digits.length = m.perm := by
  apply List.take_of_length_le
  have := h.perm.length_eq
  simp at this; omega

theorem Valid.mem {m : Num} (h : Valid m) (p : Nat) : p ∈ m.perm ↔ p < m.digits.length := by
  rw [h.perm.mem_iff]; simp

theorem Valid.nodup {m : Num} (h : Valid m) : m.perm.Nodup := h.perm.nodup_iff.mpr List.nodup_range

theorem incr_spec {m : Num} (h : Valid m) :
    position (incr m) = (position m + 1) % m.radixes.prod ∧ Valid (incr m) := by
  obtain ⟨h1, h2, _⟩ := incrLoop_spec m.radixes m.perm m.digits h.nodup (fun p hp => (h.mem p).mp hp)
    (fun p hp => h.range p ((h.mem p).mp hp)) (fun p hp hn => absurd ((h.mem p).mpr hp) hn)
  have hpp : (pick m.perm m.radixes).prod = m.radixes.prod := by
    have e : (pick m.perm m.radixes).Perm (pick (List.range m.digits.length) m.radixes) := h.perm.map _
    rw [e.prod_eq]
    congr 1
    refine List.ext_getElem (by simp [pick, h.lens]) fun i h3 h4 => ?_
    simp [pick, List.getD, h4]
  have hlen : (incrLoop m.radixes m.perm m.digits).length = m.digits.length := incrLoop_length _ _ _
  refine ⟨?_, ?_, ?_, ?_⟩
  · simp only [position, incr, h.take]; rw [h1, hpp]
  · simp only [incr, h.take, hlen]; exact h.lens
  · simp only [incr, h.take, hlen]; exact h.perm
  · simp only [incr, h.take, hlen]
    intro i hi; exact h2 i ((h.mem i).mpr hi)

theorem value_inj {ds ds' rs : List Nat} (h : List.Forall₂ (· < ·) ds rs) (h' : List.Forall₂ (· < ·) ds' rs)
    (he : value ds rs = value ds' rs) : ds = ds' := by
  induction h generalizing ds' with
  | nil => cases h'; rfl
  | @cons d r ds rs h1 h2 ih =>
    cases h' with
    | @cons d' _ ds' _ h3 h4 =>
      simp only [value] at he
      have hm := congrArg (· % r) he
      simp only [Nat.add_mul_mod_self_left, Nat.mod_eq_of_lt h1, Nat.mod_eq_of_lt h3] at hm
      subst hm
      have hr : 0 < r := by omega
      have := Nat.eq_of_mul_eq_mul_left hr (Nat.add_left_cancel he)
      rw [ih h4 this]

theorem parentLoop_spec {ds rs : List Nat} (h : List.Forall₂ (· < ·) ds rs) (result factor : Nat)
    (hr : result < factor) (hf : factor * rs.prod ≤ intMax) :
    parentLoop (ds.zip rs) result factor = some (result + factor * value ds rs) := by
  induction h generalizing result factor with
  | nil => simp [parentLoop, value]
  | @cons d r ds rs h1 h2 ih =>
    simp only [List.zip_cons_cons, parentLoop, value]
    have hpos : 0 < rs.prod := by
      have := value_lt h2; omega
    have hfr : factor * r ≤ intMax := by
      calc factor * r = factor * (r * 1) := by ring
        _ ≤ factor * (r * rs.prod) := Nat.mul_le_mul_left _ (Nat.mul_le_mul_left _ hpos)
        _ ≤ intMax := by rw [← List.prod_cons]; exact hf
    have hd : result + factor * d < factor * r := by
      calc result + factor * d < factor + factor * d := by omega
        _ = factor * (d + 1) := by ring
        _ ≤ factor * r := Nat.mul_le_mul_left _ h1
    rw [if_pos ⟨by omega, by omega, hfr⟩, ih _ _ hd (by rw [List.prod_cons] at hf; rw [Nat.mul_assoc]; exact hf)]
    congr 1; ring

/-! ## The properties -/

/-- **C38** Incrementing a well formed number moves to the next position in the permuted order, wrapping
around to zero after the last, and keeps the number well formed. -/
theorem C38_incr_adds_one {m : Num} (h : Valid m) :
    position (incr m) = (position m + 1) % m.radixes.prod ∧ Valid (incr m) ∧
    (incr m).radixes = m.radixes ∧ (incr m).perm = m.perm :=
  ⟨(incr_spec h).1, (incr_spec h).2, rfl, rfl⟩

/-- **C38** Starting from any well formed number, exactly one of the next `prod` increments yields any given
well formed number with the same radixes and permutation: the enumeration visits every combination once. -/
theorem C38_enumerates_all {m m' : Num} (h : Valid m) (h' : Valid m') (hr : m'.radixes = m.radixes)
    (hp : m'.perm = m.perm) :
    ∃ k, k < m.radixes.prod ∧ incr^[k] m = m' ∧ ∀ j, j < m.radixes.prod → incr^[j] m = m' → j = k := by
  have iter : ∀ k, position (incr^[k] m) = (position m + k) % m.radixes.prod ∧ Valid (incr^[k] m) ∧
      (incr^[k] m).radixes = m.radixes ∧ (incr^[k] m).perm = m.perm := by
    intro k
    induction k with
    | zero =>
      refine ⟨?_, h, rfl, rfl⟩
      show position m = _
      rw [Nat.add_zero, Nat.mod_eq_of_lt]
      have hpp : (pick m.perm m.radixes).prod = m.radixes.prod := by
        have e : (pick m.perm m.radixes).Perm (pick (List.range m.digits.length) m.radixes) := h.perm.map _
        rw [e.prod_eq]
        congr 1
        refine List.ext_getElem (by simp [pick, h.lens]) fun i h3 h4 => ?_
        simp [pick, List.getD, h4]
      rw [← hpp]
      exact value_lt (forall₂_map fun q hq => h.range q ((h.mem q).mp hq))
    | succ k ih =>
      obtain ⟨h1, h2, h3, h4⟩ := ih
      obtain ⟨g1, g2⟩ := incr_spec h2
      rw [Function.iterate_succ_apply']
      refine ⟨?_, g2, h3, h4⟩
      rw [g1, h1, h3, Nat.mod_add_mod, Nat.add_assoc]
  have hpos : ∀ m, Valid m → position m < m.radixes.prod := by
    intro m h
    have hpp : (pick m.perm m.radixes).prod = m.radixes.prod := by
      have e : (pick m.perm m.radixes).Perm (pick (List.range m.digits.length) m.radixes) := h.perm.map _
      rw [e.prod_eq]
      congr 1
      refine List.ext_getElem (by simp [pick, h.lens]) fun i h3 h4 => ?_
      simp [pick, List.getD, h4]
    rw [← hpp]
    exact value_lt (forall₂_map fun q hq => h.range q ((h.mem q).mp hq))
  have inj : ∀ a b : Num, Valid a → Valid b → a.radixes = b.radixes → a.perm = b.perm → position a = position b →
      a = b := by
    intro a b ha hb h1 h2 h3
    have hv : pick a.perm a.digits = pick a.perm b.digits := by
      refine value_inj (rs := pick a.perm a.radixes) (forall₂_map fun q hq => ha.range q ((ha.mem q).mp hq)) ?_ ?_
      · rw [h2, h1]; exact forall₂_map fun q hq => hb.range q ((hb.mem q).mp hq)
      · have := h3; unfold position at this; rw [← h2, ← h1] at this; exact this
    have hl : a.digits.length = b.digits.length := by rw [← ha.lens, ← hb.lens, h1]
    have hd : a.digits = b.digits := by
      refine List.ext_getElem hl fun i h4 h5 => ?_
      have hi := (ha.mem i).mpr h4
      have := (List.map_inj_left.mp hv) i hi
      simpa [List.getD, h4, h5] using this
    cases a; cases b; simp_all
  have hlt := hpos m h
  have hlt' := hpos m' h'
  rw [hr] at hlt'
  -- the distance
  refine ⟨(position m' + m.radixes.prod - position m) % m.radixes.prod, Nat.mod_lt _ (by omega), ?_, ?_⟩
  · obtain ⟨h1, h2, h3, h4⟩ := iter ((position m' + m.radixes.prod - position m) % m.radixes.prod)
    refine inj _ _ h2 h' (h3.trans hr.symm) (h4.trans hp.symm) ?_
    rw [h1, Nat.add_mod_mod]
    have : position m + (position m' + m.radixes.prod - position m) = position m' + m.radixes.prod := by omega
    rw [this, Nat.add_mod_right, Nat.mod_eq_of_lt hlt']
  · intro j hj he
    obtain ⟨h1, _⟩ := iter j
    rw [he] at h1
    by_cases hc : position m + j < m.radixes.prod
    · rw [Nat.mod_eq_of_lt hc] at h1
      rw [h1]
      have : position m + j + m.radixes.prod - position m = j + m.radixes.prod := by omega
      rw [this, Nat.add_mod_right, Nat.mod_eq_of_lt hj]
    · have h2 : (position m + j) % m.radixes.prod = position m + j - m.radixes.prod := by
        rw [Nat.mod_eq_sub_mod (by omega), Nat.mod_eq_of_lt (by omega)]
      rw [h2] at h1
      have : position m' + m.radixes.prod - position m = j := by omega
      rw [this, Nat.mod_eq_of_lt hj]

theorem forall₂_drop {m : Num} (h : Valid m) : List.Forall₂ (· < ·) m.digits m.radixes := by
  rw [List.forall₂_iff_get]
  refine ⟨h.lens.symm, fun i h1 h2 => ?_⟩
  have := h.range i h1
  simpa [List.getD, h1, h2] using this

theorem drop_forall₂ {ds rs : List Nat} (h : List.Forall₂ (· < ·) ds rs) (n : Nat) :
    List.Forall₂ (· < ·) (ds.drop n) (rs.drop n) := by
  induction n generalizing ds rs with
  | zero => exact h
  | succ n ih => cases h with
    | nil => exact .nil
    | cons _ h => exact ih h

/-- **C38** The parent after dropping the first `n` digits is the value of the remaining digits, and its
computation does not overflow if the product of the remaining radixes is an `int`. -/
theorem C38_parent_value {m : Num} (h : Valid m) (n : Nat) (hfit : (m.radixes.drop n).prod ≤ intMax) :
    parent m n = some (value (m.digits.drop n) (m.radixes.drop n)) := by
  unfold parent
  rw [show (m.digits.zip m.radixes).drop n = (m.digits.drop n).zip (m.radixes.drop n) by
    rw [List.zip_eq_zipWith, List.drop_zipWith, List.zip_eq_zipWith]]
  rw [parentLoop_spec (drop_forall₂ (forall₂_drop h) n) 0 1 (by omega) (by simpa using hfit)]
  simp

/-- **C38** Dropping `n` digits divides the value by the product of the dropped radixes. -/
theorem C38_parent_is_quotient {m : Num} (h : Valid m) (n : Nat) (hfit : m.radixes.prod ≤ intMax) :
    ∃ v, toInt m = some v ∧ parent m n = some (v / (m.radixes.take n).prod) := by
  have key : ∀ (ds rs : List Nat), List.Forall₂ (· < ·) ds rs → ∀ n,
      value ds rs / (rs.take n).prod = value (ds.drop n) (rs.drop n) ∧ (rs.drop n).prod ≤ rs.prod := by
    intro ds rs h
    induction h with
    | nil => intro n; simp [value]
    | @cons d r ds rs h1 h2 ih =>
      intro n
      cases n with
      | zero => simp
      | succ n =>
        obtain ⟨g1, g2⟩ := ih n
        simp only [value, List.take_succ_cons, List.prod_cons, List.drop_succ_cons]
        refine ⟨?_, ?_⟩
        · rw [← Nat.div_div_eq_div_mul, Nat.add_mul_div_left _ _ (by omega), Nat.div_eq_of_lt h1, Nat.zero_add, g1]
        · exact g2.trans (Nat.le_mul_of_pos_left _ (by omega))
  obtain ⟨k1, k2⟩ := key _ _ (forall₂_drop h) n
  refine ⟨value m.digits m.radixes, ?_, ?_⟩
  · have := C38_parent_value h 0 (by simpa using hfit)
    simpa [toInt] using this
  · rw [k1]; exact C38_parent_value h n (k2.trans hfit)

/-- The number of the documentation in include/core/mixed_radix.h: radixes 2, 3, 4 with permutation 1, 0, 2. -/
example : Valid ⟨[1, 2, 1], [2, 3, 4], [1, 0, 2]⟩ ∧ position ⟨[1, 2, 1], [2, 3, 4], [1, 0, 2]⟩ = 11 ∧
    (incr ⟨[1, 2, 1], [2, 3, 4], [1, 0, 2]⟩).digits = [0, 0, 2] ∧
    toInt ⟨[1, 2, 1], [2, 3, 4], [1, 0, 2]⟩ = some 11 ∧ parent ⟨[1, 2, 1], [2, 3, 4], [1, 0, 2]⟩ 1 = some 5 ∧
    (incr ⟨[1, 2, 3], [2, 3, 4], [1, 0, 2]⟩).digits = [0, 0, 0] := by
  refine ⟨⟨rfl, by decide, by decide⟩, by decide, by decide, by decide, by decide, by decide⟩

end ReactorC.MixedRadix
