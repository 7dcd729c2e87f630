import Verif.Adaptive.DataProps

/-!
# C61: when the adaptive scheduler tries other numbers of workers, and what it uses otherwise
-/

namespace ReactorC.Adaptive

open Np (put)

/-- Whether the scheduler measures the levels of the tag that follows `c` tags: every other tag at first, and one of 130 tags
after 260 tags. -/
def Measuring (c : Nat) : Prop := 0 < c ∧ if c ≤ 256 then c % 2 = 0 else c ≤ 260 ∨ c % 130 = 0

theorem measuring_iff (c : Nat) : Measuring c ↔ 0 < c ∧ ((c ≤ 256 ∧ c % 2 = 0) ∨ (256 < c ∧ (c ≤ 260 ∨ c % 130 = 0))) := by
  unfold Measuring
  split <;> omega

theorem measuring_step {b : Bool} {c : Nat} (h : b = true ↔ Measuring c) :
    (if (c + 1) % (2 + 128 * (if c + 1 > 256 then 1 else 0)) = 0 then true
     else if (c + 1) % (2 + 128 * (if c + 1 > 256 then 1 else 0)) = 1 then false else b) = true ↔ Measuring (c + 1) := by
  rw [measuring_iff] at h ⊢
  by_cases hc : c + 1 > 256
  · rw [if_pos hc]
    by_cases k0 : (c + 1) % (2 + 128 * 1) = 0
    · rw [if_pos k0]
      exact ⟨fun _ => by omega, fun _ => rfl⟩
    · rw [if_neg k0]
      by_cases k1 : (c + 1) % (2 + 128 * 1) = 1
      · rw [if_pos k1]
        exact ⟨fun k => (by cases k), fun k => (by exfalso; omega)⟩
      · rw [if_neg k1, h]
        omega
  · rw [if_neg hc]
    by_cases k0 : (c + 1) % (2 + 128 * 0) = 0
    · rw [if_pos k0]
      exact ⟨fun _ => by omega, fun _ => rfl⟩
    · rw [if_neg k0, if_pos (by omega)]
      exact ⟨fun k => (by cases k), fun k => (by exfalso; omega)⟩

section
variable {n maxLevel : Nat} {max nw : Nat → Nat} {now : Int} {d : Meas}

theorem endTag_counter (rnd : Nat → Nat) : (d.endTag n max nw maxLevel rnd).2.counter = d.counter + 1 := by
  unfold Meas.endTag
  have : (if d.collecting && d.starts 0 != 0 then d.costs n nw maxLevel else d).counter = d.counter := by split <;> rfl
  dsimp only
  rw [this]
  generalize 2 + 128 * (if d.counter + 1 > 256 then 1 else 0) = period
  split
  · rfl
  · split <;> rfl

theorem endTag_collecting (rnd : Nat → Nat) : (d.endTag n max nw maxLevel rnd).2.collecting =
    if (d.counter + 1) % (2 + 128 * (if d.counter + 1 > 256 then 1 else 0)) = 0 then true
    else if (d.counter + 1) % (2 + 128 * (if d.counter + 1 > 256 then 1 else 0)) = 1 then false else d.collecting := by
  unfold Meas.endTag
  have : (if d.collecting && d.starts 0 != 0 then d.costs n nw maxLevel else d).counter = d.counter := by split <;> rfl
  have hc : (if d.collecting && d.starts 0 != 0 then d.costs n nw maxLevel else d).collecting = d.collecting := by split <;> rfl
  dsimp only
  rw [this]
  generalize 2 + 128 * (if d.counter + 1 > 256 then 1 else 0) = period
  split
  · rfl
  · split
    · rfl
    · exact hc

theorem endLevel_frame (level num : Nat) (t : Int) : (d.endLevel n maxLevel level num t).counter = d.counter ∧
    (d.endLevel n maxLevel level num t).collecting = d.collecting ∧ (d.endLevel n maxLevel level num t).argmins = d.argmins := by
  unfold Meas.endLevel; split <;> exact ⟨rfl, rfl, rfl⟩

theorem startLevel_frame (level : Nat) (t : Int) : (d.startLevel maxLevel level t).counter = d.counter ∧
    (d.startLevel maxLevel level t).collecting = d.collecting ∧ (d.startLevel maxLevel level t).argmins = d.argmins := by
  unfold Meas.startLevel; split <;> exact ⟨rfl, rfl, rfl⟩

/-- C61.  Which tags are measured, and at which other numbers of workers may be tried: every other one of the first 256, then
four more, and from then on one of 130. -/
theorem C61_experiments_are_rare (h : Measured n maxLevel max now nw d) : d.collecting = true ↔ Measuring d.counter := by
  induction h with
  | init now h0 => simp [Meas.init, Measuring]
  | @set now nw d level num level' t t' _ _ _ _ _ _ ih =>
    have h1 := startLevel_frame (d := d.endLevel n maxLevel level num t) (maxLevel := maxLevel) level' t'
    have h2 := endLevel_frame (d := d) (n := n) (maxLevel := maxLevel) level num t
    rw [h1.1, h1.2.1, h2.1, h2.2.1]; exact ih
  | @tag now nw d rnd _ ih =>
    rw [endTag_counter, endTag_collecting]
    exact measuring_step ih

/-- C61.  At tags that are not measured, a level is executed with the number of workers that has been the fastest so far, as
far as it can use them. -/
theorem C61_fastest_number_between_experiments (hn : 0 < n) (hm : ∀ l, max l ≤ n) (hf : ∀ l, l ≤ maxLevel → 1 ≤ max l)
    (h : Measured n maxLevel max now nw d) (hc : ¬ Measuring d.counter) {l : Nat} (hl : l ≤ maxLevel) :
    nw l = Nat.max 1 (Nat.min (max l) (d.argmins l)) := by
  have hr : ∀ a b : Nat, 1 ≤ a → restrict 1 a b = Nat.max 1 (Nat.min a b) := by
    intro a b ha
    show _ = Max.max 1 (Min.min a b)
    unfold restrict
    split
    · omega
    · split <;> omega
  have hc : d.collecting = false := by
    cases hd : d.collecting with
    | false => rfl
    | true => exact (hc ((C61_experiments_are_rare h).1 hd)).elim
  induction h with
  | init now h0 =>
    have := hm l
    have := hf l hl
    rw [← hr _ _ this]
    show max l = restrict 1 (max l) n
    unfold restrict
    rw [if_neg (by omega)]
    split <;> omega
  | @set now nw d level num level' t t' _ _ _ _ _ _ ih =>
    have h1 := startLevel_frame (d := d.endLevel n maxLevel level num t) (maxLevel := maxLevel) level' t'
    have h2 := endLevel_frame (d := d) (n := n) (maxLevel := maxLevel) level num t
    rw [h1.2.2, h2.2.2]
    refine ih (fun k => ?_) (by rw [h1.2.1, h2.2.1] at hc; exact hc)
    rename_i hnc
    exact hnc (by rw [h1.1, h2.1]; exact k)
  | @tag now nw d rnd h0 ih =>
    have hok := h0.ok hn hm hf
    rw [endTag_collecting] at hc
    have h1 : (if d.collecting && d.starts 0 != 0 then d.costs n nw maxLevel else d).Ok n maxLevel max now nw := by
      split
      · exact hok.costs
      · exact hok
    have hcnt : (if d.collecting && d.starts 0 != 0 then d.costs n nw maxLevel else d).counter = d.counter := by split <;> rfl
    have hkeep : d.collecting = false → (if d.collecting && d.starts 0 != 0 then d.costs n nw maxLevel else d) = d := by
      intro k; rw [k]; rfl
    unfold Meas.endTag
    generalize (if d.collecting && d.starts 0 != 0 then d.costs n nw maxLevel else d) = d1 at h1 hcnt hkeep
    dsimp only
    rw [hcnt]
    generalize 2 + 128 * (if d.counter + 1 > 256 then 1 else 0) = period at hc
    by_cases k0 : (d.counter + 1) % period = 0
    · rw [if_pos k0] at hc; cases hc
    · rw [if_neg k0] at hc
      rw [if_neg k0]
      by_cases k1 : (d.counter + 1) % period = 1
      · rw [if_pos k1]
        show (if l ≤ maxLevel then (Meas.suggest n (max l) (nw l) { d1 with counter := d.counter + 1 } l false (rnd l)).getD (nw l) else nw l) = Nat.max 1 (Nat.min (max l) (d1.argmins l))
        rw [if_pos hl]
        unfold Meas.suggest
        have := (h1.nw l hl).1
        have h3 := hf l hl
        rw [if_neg (by omega), if_neg (by omega), if_neg (by decide)]
        exact hr _ _ h3
      · rw [if_neg k1] at hc ⊢
        rw [hkeep hc]
        exact ih (fun k => by rw [(C61_experiments_are_rare h0).2 k] at hc; cases hc) hc

/-- C61.  What counts as the fastest number of workers for a level changes only at the end of a measured tag, to the number that the level
was executed with, if no time was known or this one is shorter than the one known; and that time is then the one known. -/
theorem C61_what_becomes_the_fastest (h : Measured n maxLevel max now nw d) (rnd : Nat → Nat) (l : Nat)
    (hne : (d.endTag n max nw maxLevel rnd).2.argmins l ≠ d.argmins l) :
    Measuring d.counter ∧ l ≤ maxLevel ∧ (d.endTag n max nw maxLevel rnd).2.argmins l = nw l ∧ (d.mins l = 0 ∨ d.times l (nw l) < d.mins l) ∧
    (d.endTag n max nw maxLevel rnd).2.mins l = d.times l (nw l) := by
  have key : (d.endTag n max nw maxLevel rnd).2.argmins = (if d.collecting && d.starts 0 != 0 then d.costs n nw maxLevel else d).argmins ∧
      (d.endTag n max nw maxLevel rnd).2.mins = (if d.collecting && d.starts 0 != 0 then d.costs n nw maxLevel else d).mins := by
    unfold Meas.endTag
    generalize (if d.collecting && d.starts 0 != 0 then d.costs n nw maxLevel else d) = d1
    dsimp only
    generalize 2 + 128 * (if d1.counter + 1 > 256 then 1 else 0) = period
    split
    · exact ⟨rfl, rfl⟩
    · split <;> exact ⟨rfl, rfl⟩
  rw [key.1] at hne ⊢
  rw [key.2]
  by_cases hc : (d.collecting && d.starts 0 != 0) = true
  · rw [if_pos hc] at hne ⊢
    unfold Meas.costs at hne ⊢
    dsimp only at hne ⊢
    by_cases hb : (decide (l ≤ maxLevel) && (decide (d.mins l = 0) || decide (d.times l (nw l) < d.mins l) || decide (nw l = d.argmins l))) = true
    · rw [if_pos hb] at hne
      rw [if_pos hb, if_pos hb]
      simp only [Bool.and_eq_true, Bool.or_eq_true, decide_eq_true_eq] at hb hc
      refine ⟨(C61_experiments_are_rare h).1 hc.1, hb.1, rfl, ?_, rfl⟩
      rcases hb.2 with h | h
      · exact h
      · exact (hne h).elim
    · rw [if_neg hb] at hne
      exact (hne rfl).elim
  · rw [if_neg hc] at hne
    exact (hne rfl).elim

/-- C61.  At the end of a measured tag, the number of workers that a level was executed with becomes the fastest one, with the time just
measured, exactly if no time was known, this one is shorter, or it is the number that was the fastest before, whose time is brought up
to date; in all other cases, and at the end of a tag that is not measured, nothing changes. -/
theorem C61_fastest_is_brought_up_to_date (h : Measured n maxLevel max now nw d) (rnd : Nat → Nat) (l : Nat) (hl : l ≤ maxLevel) :
    (Measuring d.counter ∧ d.starts 0 ≠ 0 ∧ (d.mins l = 0 ∨ d.times l (nw l) < d.mins l ∨ nw l = d.argmins l) →
      (d.endTag n max nw maxLevel rnd).2.argmins l = nw l ∧ (d.endTag n max nw maxLevel rnd).2.mins l = d.times l (nw l)) ∧
    (¬ (Measuring d.counter ∧ d.starts 0 ≠ 0 ∧ (d.mins l = 0 ∨ d.times l (nw l) < d.mins l ∨ nw l = d.argmins l)) →
      (d.endTag n max nw maxLevel rnd).2.argmins l = d.argmins l ∧ (d.endTag n max nw maxLevel rnd).2.mins l = d.mins l) := by
  have key : (d.endTag n max nw maxLevel rnd).2.argmins = (if d.collecting && d.starts 0 != 0 then d.costs n nw maxLevel else d).argmins ∧
      (d.endTag n max nw maxLevel rnd).2.mins = (if d.collecting && d.starts 0 != 0 then d.costs n nw maxLevel else d).mins := by
    unfold Meas.endTag
    generalize (if d.collecting && d.starts 0 != 0 then d.costs n nw maxLevel else d) = d1
    dsimp only
    generalize 2 + 128 * (if d1.counter + 1 > 256 then 1 else 0) = period
    split
    · exact ⟨rfl, rfl⟩
    · split <;> exact ⟨rfl, rfl⟩
  rw [key.1, key.2, ← C61_experiments_are_rare h]
  by_cases hc : (d.collecting && d.starts 0 != 0) = true
  · rw [if_pos hc]
    have hc' := hc
    simp only [Bool.and_eq_true, bne_iff_ne] at hc'
    unfold Meas.costs
    dsimp only
    constructor
    · intro ⟨_, _, hb⟩
      have hb' : (decide (l ≤ maxLevel) && (decide (d.mins l = 0) || decide (d.times l (nw l) < d.mins l) || decide (nw l = d.argmins l))) = true := by
        simp only [Bool.and_eq_true, Bool.or_eq_true, decide_eq_true_eq]
        exact ⟨hl, by tauto⟩
      rw [if_pos hb', if_pos hb']
      exact ⟨rfl, rfl⟩
    · intro hb
      have hb' : ¬ (decide (l ≤ maxLevel) && (decide (d.mins l = 0) || decide (d.times l (nw l) < d.mins l) || decide (nw l = d.argmins l))) = true := by
        simp only [Bool.and_eq_true, Bool.or_eq_true, decide_eq_true_eq]
        intro ⟨_, k⟩
        exact hb ⟨hc'.1, hc'.2, by tauto⟩
      rw [if_neg hb', if_neg hb']
      exact ⟨rfl, rfl⟩
  · rw [if_neg hc]
    constructor
    · intro ⟨h1, h2, _⟩
      exact (hc (by simp only [Bool.and_eq_true, bne_iff_ne]; exact ⟨h1, h2⟩)).elim
    · intro _
      exact ⟨rfl, rfl⟩

end

/-- After three tags, of which the last one was measured, the level 0 took 100000 ns with 4 workers; this is what it is executed
with. -/
example : Measuring 2 ∧ ¬ Measuring 3 ∧ Measuring 260 ∧ ¬ Measuring 388 ∧ Measuring 390 := by unfold Measuring; decide

example : measDemo.counter = 2 ∧ (measDemo.endTag 4 maxDemo maxDemo 1 fun _ => 0).2.counter = 3 ∧
    (measDemo.endTag 4 maxDemo maxDemo 1 fun _ => 0).1 0 = 4 ∧ (measDemo.endTag 4 maxDemo maxDemo 1 fun _ => 0).2.mins 0 = 100000 := by decide

/-- The hypothesis of `C61_what_becomes_the_fastest`: a level for which 4 workers were the fastest is executed with 2 and no time is known. -/
example : (measDemo.endTag 4 maxDemo maxDemo 1 fun _ => 0).2.argmins 1 ≠ measDemo.argmins 1 := by decide

end ReactorC.Adaptive
