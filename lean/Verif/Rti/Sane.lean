import Verif.Rti.System
import Verif.Rti.DelaysProps

/-! Arithmetic of tags that leave room for microsteps. -/

set_option linter.unusedSimpArgs false
set_option linter.unusedVariables false

namespace ReactorC.Rti
open ReactorC

section
variable {T : Topology}

/-- A delay as it occurs in the tables. -/
def Path.Room (T : Topology) (d : Tag) : Prop := d = FOREVER_TAG ∨ (d.time < FOREVER ∧ d.microstep ≤ T.n + 1)

theorem Sane.delay {t : Tag} (h : Sane T t) : Delay t := by
  rcases h with h | ⟨h1, h2, h3⟩
  · rw [h]; decide
  · exact ⟨h1, by omega, by omega⟩

theorem room_delays (hT : T.Ok) {conn : Nat → Bool} {e : Nat} (he : e < T.n) (u : Nat) :
    Delay ((searchFrom T conn e).delays u) ∧ Path.Room T ((searchFrom T conn e).delays u) := by
  obtain ⟨g, _⟩ := searchFrom_spec (conn := conn) hT he
  refine ⟨(g.entry u).delay, ?_⟩
  rcases g.entry u with h | ⟨_, h1, h2, _⟩
  · exact .inl h
  · exact .inr ⟨h1, h2⟩

theorem add_mono_left {a c d : Tag} (ha : Sane T a) (hc : Sane T c) (hd : Delay d) (hr : Path.Room T d) (h : a ≤ c) :
    lf_tag_add a d ≤ lf_tag_add c d := by
  rcases hr with rfl | hr
  · rw [add_forever_right ha.delay, add_forever_right hc.delay]; exact Tag.le_refl _
  · have hcd := hc.delay
    have had := ha.delay
    obtain ⟨c1, c2, c3⟩ := id hcd
    obtain ⟨d1, d2, d3⟩ := id hd
    have hF : FOREVER = 9223372036854775807 := rfl
    rcases ha with rfl | ⟨a1, a2, a3⟩
    · have : c = FOREVER_TAG := by tag_omega
      rw [this]; exact Tag.le_refl _
    · rcases add_cases had hd with k | k | k | k <;> rcases add_cases hcd hd with k' | k' | k' | k' <;> tag_omega

/-- Delaying along one connection and then along a path. -/
theorem delay_then {s d : Tag} (w : Int) (hs : Sane T s) (hd : Delay d) (hr : Path.Room T d) :
    lf_tag_add (lf_delay_tag s w) d = lf_tag_add s (through w d) := by
  have hsd := hs.delay
  have hF : FOREVER = 9223372036854775807 := rfl
  have hFt : FOREVER_TAG.time = FOREVER := rfl
  have hFm : FOREVER_TAG.microstep = UINT_MAX := rfl
  have hU : UINT_MAX = 4294967295 := rfl
  have e1 : lf_delay_tag s w = lf_tag_add s (lf_delay_tag ZERO_TAG w) := by
    apply delay_eq_add w hsd
    · rcases hs with h | ⟨_, _, h⟩
      · exact .inl h
      · exact .inr (by omega)
    · rcases hs with h | ⟨_, h, _⟩
      · exact .inl h
      · exact .inr h
  rw [e1]
  unfold through
  have hw := delay_edge w
  have hwm := edge_microstep w
  generalize lf_delay_tag ZERO_TAG w = x at hw hwm
  rcases hs with rfl | ⟨s1, s2, s3⟩
  · rw [add_forever_left hw, add_forever_left hd, add_forever_left (delay_add hw hd)]
  · rcases hwm with hwm | rfl
    · rcases hr with rfl | ⟨r1, r2⟩
      · rw [add_forever_right (delay_add hsd hw), add_forever_right hw, add_forever_right hsd]
      · obtain ⟨w1, w2, w3⟩ := id hw
        obtain ⟨d1, d2, d3⟩ := id hd
        have h1 := add_cases hsd hw
        have h2 := add_cases hw hd
        have h3 := add_cases (delay_add hsd hw) hd
        have h4 := add_cases hsd (delay_add hw hd)
        rcases h1 with h1 | h1 | h1 | h1
        · rw [h1.2]; rw [add_forever_left hd]
          rcases h2 with h2 | h2 | h2 | h2
          · rw [h2.2, add_forever_right hsd]
          · rw [h2.2.2] at h4 ⊢; dsimp only at h4
            rcases h4 with h4 | h4 | h4 | h4
            · rw [h4.2]
            · omega
            · omega
            · omega
          · rw [h2.2.2.2] at h4 ⊢; dsimp only at h4
            rcases h4 with h4 | h4 | h4 | h4
            · rw [h4.2]
            · omega
            · omega
            · omega
          · omega
        · rw [h1.2.2] at h3 ⊢; dsimp only at h3
          rcases h2 with h2 | h2 | h2 | h2
          · rw [h2.2, add_forever_right hsd]
            rcases h3 with h3 | h3 | h3 | h3
            · exact h3.2
            · omega
            · omega
            · exact h3.2.2.2
          · rw [h2.2.2] at h4 ⊢; dsimp only at h4
            rcases h3 with h3 | h3 | h3 | h3 <;> rcases h4 with h4 | h4 | h4 | h4
            all_goals first
              | omega
              | (rw [h3.2, h4.2])
              | (rw [h3.2.2, h4.2.2, Int.add_assoc])
          · rw [h2.2.2.2] at h4 ⊢; dsimp only at h4
            rcases h3 with h3 | h3 | h3 | h3 <;> rcases h4 with h4 | h4 | h4 | h4
            all_goals first
              | omega
              | (rw [h3.2, h4.2])
              | (rw [h3.2.2.2, h4.2.2])
          · omega
        · rw [h1.2.2.2] at h3 ⊢; dsimp only at h3
          rcases h2 with h2 | h2 | h2 | h2
          · rw [h2.2, add_forever_right hsd]
            omega
          · rw [h2.2.2] at h4 ⊢; dsimp only at h4
            rcases h3 with h3 | h3 | h3 | h3 <;> rcases h4 with h4 | h4 | h4 | h4
            all_goals first
              | omega
              | (rw [h3.2, h4.2])
              | (rw [h3.2.2, h4.2.2]; congr 1; omega)
          · rw [h2.2.2.2] at h4 ⊢; dsimp only at h4
            rcases h3 with h3 | h3 | h3 | h3 <;> rcases h4 with h4 | h4 | h4 | h4
            all_goals first
              | omega
              | (rw [h3.2, h4.2])
              | (rw [h3.2.2.2, h4.2.2.2]; congr 1; omega)
          · omega
        · omega
    · rw [add_forever_right hsd, add_forever_left hd, add_forever_right hsd]

/-- A message sent at `s` over a connection of delay `w`, and the path from there. -/
theorem message_then {s m d : Tag} {w : Int} (hs : Sane T s) (hm : Sane T m) (hd : Delay d) (hr : Path.Room T d)
    (h : lf_delay_tag s w ≤ m) : lf_tag_add s (through w d) ≤ lf_tag_add m d := by
  rw [← delay_then w hs hd hr]
  rcases hs with rfl | hs'
  · have e : lf_delay_tag FOREVER_TAG w = FOREVER_TAG := by
      have hF : FOREVER = 9223372036854775807 := rfl
      have hFt : FOREVER_TAG.time = FOREVER := rfl
      rcases lf_delay_tag_cases FOREVER_TAG w with k | k | k | k
      · exact k.2
      · exact k.2.2.2
      · omega
      · omega
    rw [e] at h ⊢
    have hmd := hm.delay
    obtain ⟨m1, m2, m3⟩ := id hmd
    have : m = FOREVER_TAG := by tag_omega
    rw [this]; exact Tag.le_refl _
  · obtain ⟨s1, s2, s3⟩ := hs'
    have hF : FOREVER = 9223372036854775807 := rfl
    have hU : UINT_MAX = 4294967295 := rfl
    have hN : NEVER = -9223372036854775808 := rfl
    have hx : Delay (lf_delay_tag s w) ∧
        (lf_delay_tag s w = FOREVER_TAG ∨ ((lf_delay_tag s w).time < FOREVER ∧
          (lf_delay_tag s w).microstep + (T.n + 1) ≤ UINT_MAX)) := by
      rcases lf_delay_tag_cases s w with k | k | k | k
      · rw [k.2]; exact ⟨⟨s1, by omega, by omega⟩, .inr ⟨s2, by omega⟩⟩
      · rw [k.2.2.2]; exact ⟨by decide, .inl rfl⟩
      · rw [k.2.2.2]
        have : wrapU32 (s.microstep + 1) = s.microstep + 1 := by unfold wrapU32; omega
        rw [this]
        exact ⟨⟨s1, by dsimp only; omega, by dsimp only; omega⟩, .inr ⟨s2, by dsimp only; omega⟩⟩
      · rw [k.2.2.2]; exact ⟨⟨by dsimp only; omega, by dsimp only; omega, Nat.zero_le _⟩, .inr ⟨by dsimp only; omega, by dsimp only; omega⟩⟩
    generalize lf_delay_tag s w = x at hx h
    obtain ⟨hxd, hx⟩ := hx
    have hmd := hm.delay
    obtain ⟨m1, m2, m3⟩ := id hmd
    rcases hr with rfl | ⟨r1, r2⟩
    · rw [add_forever_right hxd, add_forever_right hmd]; exact Tag.le_refl _
    · rcases hx with rfl | ⟨x1, x2⟩
      · have : m = FOREVER_TAG := by tag_omega
        rw [this]; exact Tag.le_refl _
      · obtain ⟨y1, y2, y3⟩ := id hxd
        obtain ⟨d1, d2, d3⟩ := id hd
        rcases add_cases hxd hd with k | k | k | k <;> rcases add_cases hmd hd with k' | k' | k' | k' <;> tag_omega

/-- A message sent after `c` arrives later than everything that `c` being completed guarantees. -/
theorem strict_lt {c s m : Tag} {w : Int} (hc : c = NEVER_TAG ∨ Sane T c) (hs : Sane T s) (hsf : s ≠ FOREVER_TAG)
    (hcs : c < s) (h : lf_delay_tag s w ≤ m) (hm : Sane T m) : lf_delay_strict c w < m ∨ m = FOREVER_TAG := by
  have hmd := hm.delay
  obtain ⟨m1, m2, m3⟩ := id hmd
  have hF : FOREVER = 9223372036854775807 := rfl
  have hU : UINT_MAX = 4294967295 := rfl
  have hN : NEVER = -9223372036854775808 := rfl
  rcases hs with hs | ⟨s1, s2, s3⟩
  · exact absurd hs hsf
  · rcases hc with rfl | hc
    · left
      have : lf_delay_tag NEVER_TAG w = NEVER_TAG := by
        rcases lf_delay_tag_cases NEVER_TAG w with k | k | k | k
        · exact k.2
        all_goals exact absurd rfl k.1
      have e : lf_delay_strict NEVER_TAG w = NEVER_TAG := by
        rcases lf_delay_strict_cases NEVER_TAG w with k | k
        · rw [k.2, this]
        · rw [this] at k; exact absurd rfl k.2.2.2.1
      rw [e]; tag_omega
    · obtain ⟨c1, c2, c3⟩ := hc.delay
      have c4 : c.time < FOREVER ∧ c.microstep + 1 ≤ UINT_MAX := by
        rcases hc with rfl | hc
        · exfalso; tag_omega
        · omega
      have hw1 : wrapU32 (c.microstep + 1) = c.microstep + 1 := by unfold wrapU32; omega
      have hw2 : wrapU32 (s.microstep + 1) = s.microstep + 1 := by unfold wrapU32; omega
      rcases lf_delay_strict_cases c w with k | k
      · rw [k.2]
        rcases lf_delay_tag_cases c w with x | x | x | x <;> rcases lf_delay_tag_cases s w with y | y | y | y
        all_goals first
          | (exfalso; omega)
          | (right; rw [y.2.2.2] at h; tag_omega)
          | (left; rw [x.2]; rw [y.2] at h; tag_omega)
          | (left; rw [x.2.2.2, hw1]; rw [y.2.2.2, hw2] at h; tag_omega)
          | (left; rw [x.2.2.2]; rw [y.2.2.2] at h; tag_omega)
          | (exfalso; tag_omega)
      · rw [k.2.2.2.2.2]
        rcases lf_delay_tag_cases c w with x | x | x | x <;> rcases lf_delay_tag_cases s w with y | y | y | y
        all_goals first
          | (exfalso; omega)
          | (right; rw [y.2.2.2] at h; tag_omega)
          | (left; rw [x.2]; rw [y.2] at h; tag_omega)
          | (left; rw [x.2.2.2]; rw [y.2.2.2] at h; tag_omega)
          | (exfalso; tag_omega)

end

end ReactorC.Rti
