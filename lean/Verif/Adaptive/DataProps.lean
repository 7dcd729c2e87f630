import Verif.Adaptive.Data
import Verif.Adaptive.Ctl

/-!
# C61: the measurements stay in bounds
-/

namespace ReactorC.Adaptive

open Np (put)

theorem halvings_bound : ∀ (f t : Nat), t ≤ f → t < 2 ^ (halvings f t + 1)
  | 0, t, h => by rw [show t = 0 by omega]; decide
  | f + 1, t, h => by
    unfold halvings
    by_cases k : t / 2 = 0
    · rw [if_pos k]; simp only [Nat.zero_add, Nat.pow_one]; omega
    · rw [if_neg k]
      have := halvings_bound f (t / 2) (by omega)
      rw [Nat.pow_succ]
      omega

theorem pnw_big {n : Nat} : n < pnw (halvings n n + 2) := by
  have := halvings_bound n n (Nat.le_refl _)
  unfold pnw
  rw [if_neg (by omega)]
  exact this

/-- The loop ends at the latest at the second entry from the end. -/
theorem position_lt {len state m : Nat} (hm : state ≤ pnw m) (hml : m < len) :
    ∀ (f i : Nat), i ≤ m → m < i + f → ∃ j, position len state f i = some j ∧ i ≤ j ∧ j ≤ m
  | 0, i, h1, h2 => by omega
  | f + 1, i, h1, h2 => by
    unfold position
    rw [if_neg (by omega)]
    by_cases k : pnw i < state
    · rw [if_pos k]
      have : i ≠ m := fun e => by rw [e] at k; omega
      obtain ⟨j, e, h3, h4⟩ := position_lt hm hml f (i + 1) (by omega) (by omega)
      exact ⟨j, e, by omega, h4⟩
    · rw [if_neg k]; exact ⟨i, rfl, Nat.le_refl _, h1⟩

theorem jitter_cases (state : Nat) (time : Int) (rnd : Nat) : jitter state time rnd = -1 ∨ jitter state time rnd = 0 ∨ jitter state time rnd = 1 := by
  unfold jitter
  by_cases h1 : time < 16384 ∧ state = 1
  · rw [if_pos h1]; simp
  · rw [if_neg h1]
    by_cases h2 : (rnd : Int) % scoreSum time < leftScore time
    · rw [if_pos h2]; simp
    · rw [if_neg h2]
      by_cases h3 : (rnd : Int) % scoreSum time < leftScore time + 65536
      · rw [if_pos h3]; simp
      · rw [if_neg h3]; simp

theorem neighbor_some {n state : Nat} {time : Int} {rnd : Nat} (h : state ≤ n) : ∃ v, neighbor n state time rnd = some v := by
  unfold neighbor
  by_cases h0 : jitter state time rnd = 0
  · rw [if_pos h0]; exact ⟨_, rfl⟩
  · rw [if_neg h0]
    have hb : state ≤ pnw (halvings n n + 2) := by have := pnw_big (n := n); omega
    obtain ⟨j, e, h1, h2⟩ := position_lt (len := pnwLength n) hb (by unfold pnwLength; omega) (pnwLength n) 1 (by omega)
      (by unfold pnwLength; omega)
    rw [e]
    dsimp only
    have hl : j + 1 < pnwLength n := by unfold pnwLength; omega
    rcases jitter_cases state time rnd with k | k | k
    · rw [k, if_pos (by omega)]; exact ⟨_, rfl⟩
    · exact (h0 k).elim
    · rw [k, if_pos (by omega)]; exact ⟨_, rfl⟩

theorem scores {time : Int} (h : 0 ≤ time) : 1 ≤ scoreSum time ∧ scoreSum time < 2 ^ 31 := by
  unfold scoreSum leftScore
  split <;> omega

theorem suggest_some {n max cur level rnd : Nat} {d : Meas} {jit : Bool} (h0 : 1 ≤ max) (h1 : cur ≤ n) (h2 : d.argmins level ≤ n)
    (h3 : 0 ≤ d.times level cur) : ∃ v, d.suggest n max cur level jit rnd = some (restrict 1 max v) := by
  unfold Meas.suggest
  rw [if_neg (by omega), if_neg (by omega)]
  cases jit with
  | false => exact ⟨_, rfl⟩
  | true =>
    have := scores h3
    rw [if_pos rfl, if_neg (by omega)]
    obtain ⟨v, e⟩ := neighbor_some (time := d.times level cur) (rnd := rnd) h2
    rw [e]; exact ⟨v, rfl⟩

structure Meas.Ok (n maxLevel : Nat) (max : Nat → Nat) (now : Int) (nw : Nat → Nat) (d : Meas) : Prop where
  fault : d.fault = false
  argmins : ∀ l, d.argmins l ≤ n
  times : ∀ l k, 0 ≤ d.times l k
  starts : ∀ l, 0 ≤ d.starts l ∧ d.starts l ≤ now
  now : 0 < now
  nw : ∀ l, l ≤ maxLevel → nw l ≤ n ∧ (nw l = max l ∨ ∃ v, nw l = restrict 1 (max l) v)

theorem restrict_le_workers {n max v : Nat} (hn : 0 < n) (hm : max ≤ n) : restrict 1 max v ≤ n := by
  unfold restrict
  split
  · omega
  · split <;> omega

section
variable {n maxLevel : Nat} {max nw : Nat → Nat} {now : Int} {d : Meas}

theorem Meas.Ok.costs (h : d.Ok n maxLevel max now nw) : (d.costs n nw maxLevel).Ok n maxLevel max now nw := by
  refine ⟨?_, fun l => ?_, h.times, h.starts, h.now, h.nw⟩
  · show (d.fault || _) = false
    rw [h.fault, Bool.false_or, List.any_eq_false]
    intro l hl
    have := (h.nw l (by rw [List.mem_range] at hl; omega)).1
    simp only [decide_eq_true_eq]; omega
  · show (if _ then nw l else d.argmins l) ≤ n
    split
    · rename_i k
      have : decide (l ≤ maxLevel) = true := (Bool.and_eq_true_iff.1 k).1
      exact (h.nw l (of_decide_eq_true this)).1
    · exact h.argmins l

theorem Meas.Ok.numbers (hn : 0 < n) (hm : ∀ l, max l ≤ n) (hf : ∀ l, l ≤ maxLevel → 1 ≤ max l) (h : d.Ok n maxLevel max now nw) (jit : Bool) (rnd : Nat → Nat) :
    (d.numbers n max nw maxLevel jit rnd).2.Ok n maxLevel max now (d.numbers n max nw maxLevel jit rnd).1 ∧
    ∀ l, l ≤ maxLevel → ∃ v, (d.numbers n max nw maxLevel jit rnd).1 l = restrict 1 (max l) v := by
  have key : ∀ l, l ≤ maxLevel → ∃ v, d.suggest n (max l) (nw l) l jit (rnd l) = some (restrict 1 (max l) v) :=
    fun l hl => suggest_some (hf l hl) (h.nw l hl).1 (h.argmins l) (h.times l _)
  have key2 : ∀ l, l ≤ maxLevel → ∃ v, (d.numbers n max nw maxLevel jit rnd).1 l = restrict 1 (max l) v := by
    intro l hl
    obtain ⟨v, e⟩ := key l hl
    refine ⟨v, ?_⟩
    show (if l ≤ maxLevel then _ else _) = _
    rw [if_pos hl, e]; rfl
  refine ⟨⟨?_, h.argmins, h.times, h.starts, h.now, fun l hl => ?_⟩, key2⟩
  · show (d.fault || _) = false
    rw [h.fault, Bool.false_or, List.any_eq_false]
    intro l hl
    obtain ⟨v, e⟩ := key l (by rw [List.mem_range] at hl; omega)
    rw [e]; exact fun k => by cases k
  · obtain ⟨v, e⟩ := key2 l hl
    exact ⟨by rw [e]; exact restrict_le_workers hn (hm l), .inr ⟨v, e⟩⟩

theorem Meas.Ok.endTag (hn : 0 < n) (hm : ∀ l, max l ≤ n) (hf : ∀ l, l ≤ maxLevel → 1 ≤ max l) (h : d.Ok n maxLevel max now nw) (rnd : Nat → Nat) :
    (d.endTag n max nw maxLevel rnd).2.Ok n maxLevel max now (d.endTag n max nw maxLevel rnd).1 := by
  have h1 : (if d.collecting && d.starts 0 != 0 then d.costs n nw maxLevel else d).Ok n maxLevel max now nw := by
    split
    · exact h.costs
    · exact h
  unfold Meas.endTag
  generalize (if d.collecting && d.starts 0 != 0 then d.costs n nw maxLevel else d) = d1 at h1
  have h2 : ({ d1 with counter := d1.counter + 1 } : Meas).Ok n maxLevel max now nw :=
    ⟨h1.fault, h1.argmins, h1.times, h1.starts, h1.now, h1.nw⟩
  dsimp only
  generalize 2 + 128 * (if d1.counter + 1 > 256 then 1 else 0) = period
  split
  · have := (h2.numbers hn hm hf (decide (d1.counter + 1 > 8)) rnd).1
    exact ⟨this.fault, this.argmins, this.times, this.starts, this.now, this.nw⟩
  · split
    · have := (h2.numbers hn hm hf false rnd).1
      exact ⟨this.fault, this.argmins, this.times, this.starts, this.now, this.nw⟩
    · exact h2

theorem Meas.Ok.endLevel (h : d.Ok n maxLevel max now nw) {level num : Nat} {t : Int} (hl : level ≤ maxLevel) (hk : num ≤ n)
    (ht : now ≤ t) : (d.endLevel n maxLevel level num t).Ok n maxLevel max t nw := by
  have hs : ∀ l, 0 ≤ d.starts l ∧ d.starts l ≤ t := fun l => ⟨(h.starts l).1, by have := (h.starts l).2; omega⟩
  have h0 := h.now
  unfold Meas.endLevel
  split
  · refine ⟨?_, h.argmins, fun l k => ?_, hs, by omega, h.nw⟩
    · have := h.argmins level
      show (d.fault || _ || _ || _) = false
      rw [h.fault]
      simp; omega
    · dsimp only
      by_cases e : l = level
      · subst e
        rw [put_same]
        by_cases e : k = num
        · subst e
          rw [put_same]
          have h1 := (hs l).2
          have h2 := h.times l k
          have h3 := h.times l (d.argmins l)
          split <;> omega
        · rw [put_ne _ _ e]; exact h.times l k
      · rw [put_ne _ _ e]; exact h.times l k
  · exact ⟨h.fault, h.argmins, h.times, hs, by omega, h.nw⟩

theorem Meas.Ok.startLevel (h : d.Ok n maxLevel max now nw) {level : Nat} {t : Int} (hl : level ≤ maxLevel) (ht : now ≤ t) :
    (d.startLevel maxLevel level t).Ok n maxLevel max t nw := by
  have hs : ∀ l, 0 ≤ d.starts l ∧ d.starts l ≤ t := fun l => ⟨(h.starts l).1, by have := (h.starts l).2; omega⟩
  have h0 := h.now
  unfold Meas.startLevel
  split
  · refine ⟨?_, h.argmins, h.times, fun l => ?_, by omega, h.nw⟩
    · show (d.fault || _) = false
      rw [h.fault]; simp; omega
    · dsimp only
      by_cases e : l = level
      · subst e; rw [put_same]; omega
      · rw [put_ne _ _ e]; exact hs l
  · exact ⟨h.fault, h.argmins, h.times, hs, by omega, h.nw⟩

theorem Measured.ok (hn : 0 < n) (hm : ∀ l, max l ≤ n) (hf : ∀ l, l ≤ maxLevel → 1 ≤ max l) (h : Measured n maxLevel max now nw d) : d.Ok n maxLevel max now nw := by
  induction h with
  | init now h0 => exact ⟨rfl, fun _ => Nat.le_refl _, fun _ _ => Int.le_refl _, fun _ => ⟨Int.le_refl _, Int.le_of_lt h0⟩, h0,
      fun l _ => ⟨hm l, .inl rfl⟩⟩
  | set level num level' t t' _ h1 h2 h3 h4 h5 ih => exact (ih.endLevel h1 h2 h4).startLevel h3 h5
  | tag rnd _ ih => exact ih.endTag hn hm hf rnd

/-- The measurements never access an array outside of its bounds, and `rand() % …` has a positive divisor that fits into an
`int`, whatever the times measured and the random numbers are; `max` are the numbers of workers that the levels can use, which
are at least 1 and do not exceed the number `n` of workers. -/
theorem C61_measurements_stay_in_bounds (hn : 0 < n) (hm : ∀ l, max l ≤ n) (hf : ∀ l, l ≤ maxLevel → 1 ≤ max l) (h : Measured n maxLevel max now nw d) :
    d.fault = false := (h.ok hn hm hf).fault

/-- The end of a tag gives every level that has reactions between 1 and `max` workers; this is what the action `close` of
the model of the scheduler does. -/
theorem C61_end_of_tag_suggests_numbers_in_range (hn : 0 < n) (hm : ∀ l, max l ≤ n) (hf : ∀ l, l ≤ maxLevel → 1 ≤ max l) (h : Measured n maxLevel max now nw d)
    (rnd : Nat → Nat) :
    ∃ f : Nat → Nat, ∀ l, l ≤ maxLevel →
      (d.endTag n max nw maxLevel rnd).1 l = restrict 1 (max l) (f l) ∧
      1 ≤ (d.endTag n max nw maxLevel rnd).1 l ∧ (d.endTag n max nw maxLevel rnd).1 l ≤ max l := by
  have h1 := ((h.ok hn hm hf).endTag hn hm hf rnd).nw
  refine ⟨(d.endTag n max nw maxLevel rnd).1, fun l hl => ?_⟩
  generalize (d.endTag n max nw maxLevel rnd).1 = nw' at h1
  have := hf l hl
  rcases (h1 l hl).2 with e | ⟨v, e⟩ <;> rw [e] <;> unfold restrict
  · rw [if_neg (by omega), if_neg (by omega)]; omega
  · by_cases k1 : v < 1
    · rw [if_pos k1, if_neg (by omega), if_neg (by omega)]; omega
    · rw [if_neg k1]
      by_cases k2 : v > max l
      · rw [if_pos k2, if_neg (by omega), if_neg (by omega)]; omega
      · rw [if_neg k2, if_neg (by omega), if_neg (by omega)]; omega

end

/-- Four workers; the level 0 has 5 reactions, the level 1 has 2. -/
def maxDemo (l : Nat) : Nat := if l = 0 then 4 else 2

/-- After two tags data are collected; level 0 took 100000 ns with 4 workers. -/
def measDemo : Meas :=
  let d := (Meas.init 4).endTag 4 maxDemo maxDemo 1 (fun _ => 0)
  let d := (d.2.endTag 4 maxDemo d.1 1 (fun _ => 0))
  ((d.2.endLevel 4 1 1 2 1000).startLevel 1 0 1000 |>.endLevel 4 1 0 4 101000).startLevel 1 1 101000

example : measDemo.collecting = true ∧ measDemo.times 0 4 = 100000 ∧ measDemo.fault = false := by decide

example : ∃ nw, Measured 4 1 maxDemo 101000 nw measDemo :=
  ⟨_, .set 0 4 1 101000 101000 (.set 1 2 0 1000 1000 (.tag (fun _ => 0) (.tag (fun _ => 0) (.init 1 (by decide)))) (by decide) (by decide)
    (by decide) (by decide) (by decide)) (by decide) (by decide) (by decide) (by decide) (by decide)⟩

/-- Later, the random number 0 makes the scheduler try fewer workers: 2 instead of 4. -/
example : neighbor 4 4 100000 0 = some 2 ∧ neighbor 4 4 100000 150000 = some 8 ∧ restrict 1 4 8 = 4 := by decide

/-- When the scheduler measures: during every other one of the first 256 tags, and then during one of 130 (the change leaves measuring on for the tags 257 to 259).
The number of a tag is the number of tags that have ended before it. -/
theorem C61_few_tags_are_measured {n maxLevel : Nat} {max : Nat → Nat} {now : Int} {nw : Nat → Nat} {d : Meas} (h : Measured n maxLevel max now nw d) :
    d.collecting = true ↔ (0 < d.counter ∧ d.counter ≤ 256 ∧ d.counter % 2 = 0) ∨ (256 < d.counter ∧ d.counter < 260) ∨ (256 < d.counter ∧ d.counter % 130 = 0) := by
  induction h with
  | init now h => simp [Meas.init]
  | @set now nw d level num level' t t' h _ _ _ _ _ ih =>
    have h1 : (d.endLevel n maxLevel level num t).collecting = d.collecting ∧ (d.endLevel n maxLevel level num t).counter = d.counter := by
      unfold Meas.endLevel; split <;> exact ⟨rfl, rfl⟩
    have h2 : ∀ e : Meas, (e.startLevel maxLevel level' t').collecting = e.collecting ∧ (e.startLevel maxLevel level' t').counter = e.counter := by
      intro e; unfold Meas.startLevel; split <;> exact ⟨rfl, rfl⟩
    rw [(h2 _).1, (h2 _).2, h1.1, h1.2]; exact ih
  | @tag now nw d rnd h ih =>
    have hc : (if d.collecting && d.starts 0 != 0 then d.costs n nw maxLevel else d).collecting = d.collecting ∧
        (if d.collecting && d.starts 0 != 0 then d.costs n nw maxLevel else d).counter = d.counter := by
      split <;> exact ⟨rfl, rfl⟩
    unfold Meas.endTag
    generalize (if d.collecting && d.starts 0 != 0 then d.costs n nw maxLevel else d) = e at hc
    obtain ⟨c1, c2⟩ := hc
    dsimp only [Meas.numbers]
    rw [c2]
    by_cases h256 : d.counter + 1 > 256
    · simp only [h256, if_true]
      split
      · dsimp only; simp only [true_iff]; omega
      · split
        · dsimp only; simp only [Bool.false_eq_true, false_iff]; omega
        · dsimp only; rw [c1, ih]; omega
    · simp only [h256, if_false]
      split
      · dsimp only; simp only [true_iff]; omega
      · split
        · dsimp only; simp only [Bool.false_eq_true, false_iff]; omega
        · omega

/-- The third tag is measured, the fourth one is not. -/
example : let e := fun d : Meas => (d.endTag 2 (fun _ => 2) (fun _ => 1) 0 fun _ => 0).2
    ((e (e (Meas.init 2))).collecting, (e (e (e (Meas.init 2)))).collecting) = (true, false) := by decide +kernel

end ReactorC.Adaptive
