import Verif.Stop.Core
import Verif.Barrier.Props

/-! # What the federates keep true about the stop protocol -/

namespace ReactorC.Stop
open ReactorC

/-! ## The environment of a federate -/

/-- The barrier of the stop protocol keeps the current tag before `t`. -/
def HasBar (b : Barrier.State) (t : Tag) : Prop := ∃ r ∈ b.out, r.id = stopId ∧ r.bar ≤ t

/-- The state of the environment of a federate with the stop tag `stop`. -/
structure BOk (stop : Tag) (b : Barrier.State) : Prop where
  reach : Barrier.Reach false b
  same : b.stop = stop
  le : b.cur ≤ b.stop
  low : NEVER_TAG ≤ b.cur
  micro : b.cur.microstep < UINT_MAX

theorem HasBar.lt {t : Tag} {b : Barrier.State} (h : HasBar b t) (o : Barrier.Reach false b) : b.cur < t := by
  obtain ⟨r, hr, _, hb⟩ := h
  have i := Barrier.reach_inv o
  have := (i.kept r (i.sub r hr)).2
  exact Tag.lt_of_lt_of_le this hb

theorem nextStep_eq {t : Tag} (h : t.microstep < UINT_MAX) : nextStep t = ⟨t.time, t.microstep + 1⟩ := by
  unfold nextStep wrapU32
  simp only [UINT_MAX] at h
  rw [Nat.mod_eq_of_lt (by omega)]

theorem lt_nextStep {t : Tag} (h : t.microstep < UINT_MAX) : t < nextStep t := by
  rw [nextStep_eq h, Tag.lt_def]; simp

theorem finish_spec (s : Barrier.State) (g : Tag) (hg : g ≤ s.stop) (hc : s.cur ≤ s.stop) :
    (Barrier.finish s g).out = s.out ∧ (Barrier.finish s g).stop = s.stop ∧ s.cur ≤ (Barrier.finish s g).cur ∧
    (Barrier.finish s g).cur ≤ s.stop := by
  unfold Barrier.finish
  simp only []
  split
  · exact ⟨rfl, rfl, Tag.le_refl _, hc⟩
  · split
    · rename_i h; rw [cmp_lt_zero] at h
      exact ⟨rfl, rfl, Tag.le_of_lt h, hg⟩
    · exact ⟨rfl, rfl, Tag.le_refl _, hc⟩

theorem next_spec (s : Barrier.State) (hc : s.cur ≤ s.stop) :
    (Barrier.next s).out = s.out ∧ (Barrier.next s).stop = s.stop ∧ s.cur ≤ (Barrier.next s).cur ∧
    (Barrier.next s).cur ≤ s.stop := by
  have h0 := finish_spec s (Barrier.nextEvent s) (Barrier.nextEvent_le s).2 hc
  unfold Barrier.next
  split
  · exact ⟨rfl, rfl, Tag.le_refl _, hc⟩
  · simp only []
    split
    · exact ⟨rfl, rfl, Tag.le_refl _, hc⟩
    · split
      · exact h0
      · split
        · exact h0
        · split
          · exact ⟨rfl, rfl, Tag.le_refl _, hc⟩
          · exact h0

theorem wake_spec (s : Barrier.State) (p : Tag) (hc : s.cur ≤ s.stop) :
    (Barrier.wake s p).out = s.out ∧ (Barrier.wake s p).stop = s.stop ∧ s.cur ≤ (Barrier.wake s p).cur ∧
    (Barrier.wake s p).cur ≤ s.stop := by
  have h0 := finish_spec s (Barrier.nextEvent s) (Barrier.nextEvent_le s).2 hc
  unfold Barrier.wake
  simp only []
  split
  · exact ⟨rfl, rfl, Tag.le_refl _, hc⟩
  · split
    · exact ⟨rfl, rfl, Tag.le_refl _, hc⟩
    · exact h0

theorem raise_spec (s : Barrier.State) (id : Nat) (t : Tag) :
    (Barrier.raise s id t).out = ⟨id, t, s.cur, s.stop⟩ :: s.out ∧ (Barrier.raise s id t).stop = s.stop ∧
    (Barrier.raise s id t).cur = s.cur := ⟨rfl, rfl, rfl⟩

theorem decrement_spec (s : Barrier.State) :
    (Barrier.decrement s).stop = s.stop ∧ (Barrier.decrement s).cur = s.cur ∧ (Barrier.decrement s).out = s.out := by
  unfold Barrier.decrement
  simp only []
  split
  · exact ⟨rfl, rfl, rfl⟩
  · split <;> exact ⟨rfl, rfl, rfl⟩

theorem giveBack_spec (s : Barrier.State) (r : Barrier.Request) :
    (Barrier.giveBack s r).out = s.out.erase r ∧ (Barrier.giveBack s r).stop = s.stop ∧
    (Barrier.giveBack s r).cur = s.cur := ⟨rfl, (decrement_spec s).1, (decrement_spec s).2.1⟩

theorem deliver_spec (s : Barrier.State) (r : Barrier.Request) :
    (Barrier.deliver s r).out = s.out.erase r ∧ (Barrier.deliver s r).stop = s.stop ∧
    (Barrier.deliver s r).cur = s.cur := by
  have h := giveBack_spec (Barrier.handOver s r) r
  rw [Barrier.deliver_eq, Barrier.handOver_out] at *
  refine ⟨h.1, h.2.1.trans ?_, h.2.2.trans ?_⟩ <;> unfold Barrier.handOver <;> split <;> rfl

theorem local_step {s t : Barrier.State} (h : Local s t) (hf : s.failed = false) : Barrier.Step false s t := by
  cases h with
  | raise id tag h => exact .raise _ _ _ hf
  | release r h1 h2 => exact .release _ _ hf h1
  | deliver r h1 h2 => exact .deliver _ _ hf h1
  | schedule tag h => exact .schedule _ _ hf h
  | next h1 h2 => exact .next _ hf h1 (Or.inr h2)
  | wake p h => exact .wake _ _ hf h

theorem local_ok {stop : Tag} {s t : Barrier.State} (h : Local s t) (hf : s.failed = false) (o : BOk stop s)
    (hm : t.cur.microstep < UINT_MAX) : BOk stop t ∧ ∀ g, HasBar s g → HasBar t g := by
  have hreach : Barrier.Reach false t := .step o.reach (local_step h hf)
  have key : t.stop = s.stop ∧ s.cur ≤ t.cur ∧ t.cur ≤ s.stop ∧ ∀ r ∈ s.out, r.id = stopId → r ∈ t.out := by
    cases h with
    | raise id tag h =>
      exact ⟨rfl, Tag.le_refl _, o.le, fun r hr _ => List.mem_cons_of_mem _ hr⟩
    | release r h1 h2 =>
      obtain ⟨a, b, c⟩ := giveBack_spec s r
      refine ⟨b, by rw [c], by rw [c]; exact o.le, fun r' hr hid => ?_⟩
      rw [a]
      exact (List.mem_erase_of_ne (fun h => h2 (by rw [← h]; exact hid))).2 hr
    | deliver r h1 h2 =>
      obtain ⟨a, b, c⟩ := deliver_spec s r
      refine ⟨b, by rw [c], by rw [c]; exact o.le, fun r' hr hid => ?_⟩
      rw [a]
      exact (List.mem_erase_of_ne (fun h => h2 (by rw [← h]; exact hid))).2 hr
    | schedule tag h => exact ⟨rfl, Tag.le_refl _, o.le, fun r hr _ => hr⟩
    | next h1 h2 =>
      obtain ⟨a, b, c, d⟩ := next_spec s o.le
      exact ⟨b, c, d, fun r hr _ => by rw [a]; exact hr⟩
    | wake p h =>
      obtain ⟨a, b, c, d⟩ := wake_spec s p o.le
      exact ⟨b, c, d, fun r hr _ => by rw [a]; exact hr⟩
  obtain ⟨k1, k2, k3, k4⟩ := key
  refine ⟨⟨hreach, k1.trans o.same, by rw [k1]; exact k3, Tag.le_trans o.low k2, hm⟩, ?_⟩
  rintro g ⟨r, hr, hid, hb⟩
  exact ⟨r, k4 r hr hid, hid, hb⟩

/-- Asking for the barrier with a tag that is at most `t` or has been reached. -/
theorem raise_ok {stop : Tag} {s : Barrier.State} (hf : s.failed = false) (o : BOk stop s) {tag t : Tag}
    (ht : s.cur < t) (htag : tag ≤ t ∨ tag ≤ s.cur) :
    BOk stop (Barrier.raise s stopId tag) ∧ HasBar (Barrier.raise s stopId tag) t := by
  refine ⟨⟨.step o.reach (.raise _ _ _ hf), o.same, o.le, o.low, o.micro⟩,
    ⟨stopId, tag, s.cur, s.stop⟩, List.mem_cons_self, rfl, ?_⟩
  unfold Barrier.Request.bar
  split
  · rename_i h
    simp only []
    have : tag ≤ t := by
      rcases htag with h' | h'
      · exact h'
      · exact absurd h.1 (Tag.not_lt.2 h')
    split
    · exact this
    · rename_i h'
      exact Tag.le_trans (Tag.not_lt.1 h') this
  · exact Barrier.succ_le ht

/-- The grant is taken. -/
theorem grant_ok {stop : Tag} {s : Barrier.State} (hf : s.failed = false) (o : BOk stop s) {t : Tag} (hb : HasBar s t) :
    BOk (if t < stop then t else stop) (release (Barrier.stopGranted s t)) := by
  have hlt : s.cur < t := hb.lt o.reach
  obtain ⟨r, hr, hid, _⟩ := hb
  have e1 : Barrier.stopGranted s t = Barrier.setStop s t := by
    unfold Barrier.stopGranted
    rw [if_neg (by rw [cmp_le_zero]; exact Tag.not_le.2 hlt)]
  obtain ⟨e2, e3, e4⟩ : (Barrier.setStop s t).out = s.out ∧ (Barrier.setStop s t).cur = s.cur ∧
      (Barrier.setStop s t).stop = if t < stop then t else stop := by
    unfold Barrier.setStop
    split
    · rename_i h
      rw [cmp_lt_zero, o.same] at h
      exact ⟨rfl, rfl, by rw [if_pos h]⟩
    · rename_i h
      rw [cmp_lt_zero, o.same] at h
      exact ⟨rfl, rfl, by rw [if_neg h, o.same]⟩
  unfold release
  cases hx : (Barrier.stopGranted s t).out.find? (fun r => r.id = stopId) with
  | none =>
    rw [List.find?_eq_none] at hx
    exact absurd (by simpa using hid) (hx r (by rw [e1, e2]; exact hr))
  | some r' =>
    have hr' : r' ∈ s.out := by
      have := List.mem_of_find?_eq_some hx
      rw [e1, e2] at this; exact this
    simp only []
    obtain ⟨_, b, c⟩ := giveBack_spec (Barrier.stopGranted s t) r'
    refine ⟨.step o.reach (.stopGranted _ _ _ hf hr'), ?_, ?_, ?_, ?_⟩
    · rw [b, e1, e4]
    · rw [b, c, e1, e4, e3]
      split
      · exact Tag.le_of_lt hlt
      · rw [← o.same]; exact o.le
    · rw [c, e1, e3]; exact o.low
    · rw [c, e1, e3]; exact o.micro

end ReactorC.Stop
