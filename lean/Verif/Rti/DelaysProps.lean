import Verif.Rti.Delays
import Verif.Tag.Props
import Mathlib.Data.List.Nodup
import Mathlib.Data.List.Range
import Mathlib.Data.Fintype.Card
import Mathlib.Data.List.NodupEquivFin

/-!
# Property C26: the minimum delays are exact
-/

set_option linter.unusedSimpArgs false
set_option linter.unusedVariables false

namespace ReactorC.Rti
open ReactorC

/-! ## Arithmetic of delays -/

/-- A delay: a representable tag with non-negative time. -/
def Delay (t : Tag) : Prop := 0 ≤ t.time ∧ t.time ≤ FOREVER ∧ t.microstep ≤ UINT_MAX

instance (t : Tag) : Decidable (Delay t) := by unfold Delay; infer_instance

theorem Delay.valid {t : Tag} (h : Delay t) : t.Valid := by
  refine ⟨⟨?_, h.2.1⟩, h.2.2⟩
  have : NEVER ≤ 0 := by decide
  have := h.1
  omega

theorem delay_zero : Delay ZERO_TAG := by decide

theorem add_cases {a b : Tag} (ha : Delay a) (hb : Delay b) :
    (FOREVER ≤ a.time + b.time ∧ lf_tag_add a b = FOREVER_TAG) ∨
    (a.time + b.time < FOREVER ∧ 0 < b.time ∧ lf_tag_add a b = ⟨a.time + b.time, b.microstep⟩) ∨
    (a.time < FOREVER ∧ b.time = 0 ∧ a.microstep + b.microstep ≤ UINT_MAX ∧
      lf_tag_add a b = ⟨a.time, a.microstep + b.microstep⟩) ∨
    (a.time < FOREVER ∧ b.time = 0 ∧ UINT_MAX < a.microstep + b.microstep ∧ lf_tag_add a b = FOREVER_TAG) := by
  have hF : FOREVER = 9223372036854775807 := rfl
  have hN : NEVER = -9223372036854775808 := rfl
  obtain ⟨a1, a2, a3⟩ := ha
  obtain ⟨b1, b2, b3⟩ := hb
  rcases lf_tag_add_cases (Delay.valid ⟨a1, a2, a3⟩) (Delay.valid ⟨b1, b2, b3⟩) with h | h | h | h | h <;>
  rcases satAdd_cases a.time b.time with h' | h' | h' | h' | h'
  all_goals try (exfalso; omega)
  · left; exact ⟨by omega, h.2⟩
  · left; exact ⟨by omega, h.2⟩
  · left; exact ⟨by omega, h.2⟩
  · right; left
    refine ⟨by omega, by omega, ?_⟩
    rw [h.2.2.2, h'.2.2.2.2.2.2]
  · right; right; left
    have hb0 : b.time = 0 := by omega
    refine ⟨by omega, hb0, by omega, ?_⟩
    rw [h.2.2.2.2, h'.2.2.2.2.2.2, hb0, Int.add_zero]
  · right; right; right
    exact ⟨by omega, by omega, by omega, h.2.2.2.2⟩

theorem delay_add {a b : Tag} (ha : Delay a) (hb : Delay b) : Delay (lf_tag_add a b) := by
  have hf : Delay FOREVER_TAG := by decide
  obtain ⟨a1, a2, a3⟩ := id ha
  obtain ⟨b1, b2, b3⟩ := id hb
  rcases add_cases ha hb with h | h | h | h
  · rw [h.2]; exact hf
  · rw [h.2.2]; exact ⟨by dsimp only; omega, by dsimp only; omega, by dsimp only; omega⟩
  · rw [h.2.2.2]; exact ⟨by dsimp only; omega, by dsimp only; omega, by dsimp only; omega⟩
  · rw [h.2.2.2]; exact hf

theorem add_ge_right {a b : Tag} (ha : Delay a) (hb : Delay b) : b ≤ lf_tag_add a b := by
  obtain ⟨a1, a2, a3⟩ := id ha
  obtain ⟨b1, b2, b3⟩ := id hb
  rcases add_cases ha hb with h | h | h | h <;> tag_omega

theorem add_ge_left {a b : Tag} (ha : Delay a) (hb : Delay b) : a ≤ lf_tag_add a b := by
  obtain ⟨a1, a2, a3⟩ := id ha
  obtain ⟨b1, b2, b3⟩ := id hb
  rcases add_cases ha hb with h | h | h | h <;> tag_omega

theorem add_mono_right {a b c : Tag} (ha : Delay a) (hb : Delay b) (hc : Delay c)
    (hm : b = FOREVER_TAG ∨ a.microstep + b.microstep ≤ UINT_MAX) (h : b ≤ c) : lf_tag_add a b ≤ lf_tag_add a c := by
  obtain ⟨a1, a2, a3⟩ := id ha
  obtain ⟨b1, b2, b3⟩ := id hb
  obtain ⟨c1, c2, c3⟩ := id hc
  have hF : FOREVER = 9223372036854775807 := rfl
  rcases hm with hm | hm
  · subst hm
    have : c = FOREVER_TAG := by tag_omega
    rw [this]; exact Tag.le_refl _
  · rcases add_cases ha hb with k | k | k | k <;> rcases add_cases ha hc with h | h | h | h <;> tag_omega

theorem le_forever {a : Tag} (ha : Delay a) : a ≤ FOREVER_TAG := by
  obtain ⟨a1, a2, a3⟩ := ha
  tag_omega

/-- The delay of a connection. -/
theorem edge_cases {w : Int} :
    (w < 0 ∧ lf_delay_tag ZERO_TAG w = ZERO_TAG) ∨ (w = 0 ∧ lf_delay_tag ZERO_TAG w = ⟨0, 1⟩) ∨
    (0 < w ∧ w < FOREVER ∧ lf_delay_tag ZERO_TAG w = ⟨w, 0⟩) ∨
    (FOREVER ≤ w ∧ lf_delay_tag ZERO_TAG w = FOREVER_TAG) := by
  have hF : FOREVER = 9223372036854775807 := rfl
  have hz : ZERO_TAG.time = 0 := rfl
  have hN : NEVER = -9223372036854775808 := rfl
  rcases lf_delay_tag_cases ZERO_TAG w with h | h | h | h
  · left; exact ⟨by omega, h.2⟩
  · right; right; right; exact ⟨by omega, h.2.2.2⟩
  · right; left; exact ⟨h.2.1, h.2.2.2⟩
  · right; right; left
    refine ⟨h.2.1, by omega, ?_⟩
    rw [h.2.2.2, hz, Int.zero_add]

theorem delay_edge (w : Int) : Delay (lf_delay_tag ZERO_TAG w) := by
  rcases @edge_cases w with h | h | h | h
  · rw [h.2]; decide
  · rw [h.2]; decide
  · rw [h.2.2]
    have : (0 : Nat) ≤ UINT_MAX := by decide
    exact ⟨by dsimp only; omega, by dsimp only; omega, this⟩
  · rw [h.2]; decide

theorem edge_microstep (w : Int) : (lf_delay_tag ZERO_TAG w).microstep ≤ 1 ∨ lf_delay_tag ZERO_TAG w = FOREVER_TAG := by
  rcases @edge_cases w with h | h | h | h
  · rw [h.2]; left; decide
  · rw [h.2]; left; decide
  · rw [h.2.2]; left; exact Nat.zero_le _
  · right; exact h.2

theorem delay_through (w : Int) {d : Tag} (hd : Delay d) : Delay (through w d) := delay_add (delay_edge w) hd

theorem through_ge (w : Int) {d : Tag} (hd : Delay d) : d ≤ through w d := add_ge_right (delay_edge w) hd

/-- The accumulated delay is `FOREVER_TAG` or finite, and its microstep grows by at most one. -/
theorem through_form (w : Int) {d : Tag} (hd : Delay d) :
    through w d = FOREVER_TAG ∨ ((through w d).time < FOREVER ∧ (through w d).microstep ≤ d.microstep + 1) := by
  obtain ⟨d1, d2, d3⟩ := id hd
  have hF : FOREVER = 9223372036854775807 := rfl
  have ha := delay_edge w
  rcases edge_microstep w with hm | hm
  · obtain ⟨a1, a2, a3⟩ := id ha
    rcases add_cases ha hd with h | h | h | h
    · left; exact h.2
    · right; unfold through; rw [h.2.2]; exact ⟨by dsimp only; omega, by dsimp only; omega⟩
    · right; unfold through; rw [h.2.2.2]; exact ⟨by dsimp only; omega, by dsimp only; omega⟩
    · left; exact h.2.2.2
  · left
    have hft : FOREVER_TAG.time = FOREVER := rfl
    unfold through
    rcases add_cases ha hd with h | h | h | h
    · exact h.2
    · exfalso; rw [hm, hft] at h; omega
    · exfalso; rw [hm, hft] at h; omega
    · exact h.2.2.2

theorem through_mono (w : Int) {d d' : Tag} (hd : Delay d) (hd' : Delay d')
    (hm : d = FOREVER_TAG ∨ d.microstep + 1 ≤ UINT_MAX) (h : d ≤ d') : through w d ≤ through w d' := by
  rcases edge_microstep w with hw | hw
  · refine add_mono_right (delay_edge w) hd hd' ?_ h
    rcases hm with hm | hm
    · exact .inl hm
    · right; omega
  · have e : ∀ x, Delay x → through w x = FOREVER_TAG := by
      intro x hx
      have hF : FOREVER = 9223372036854775807 := rfl
      obtain ⟨x1, x2, x3⟩ := id hx
      have hft : FOREVER_TAG.time = FOREVER := rfl
      have ha := delay_edge w
      unfold through
      rcases add_cases ha hx with h | h | h | h
      · exact h.2
      · exfalso; rw [hw, hft] at h; omega
      · exfalso; rw [hw, hft] at h; omega
      · exact h.2.2.2
    rw [e d hd, e d' hd']
    exact Tag.le_refl _

theorem through_eq_zero {w : Int} {d : Tag} (hd : Delay d) : through w d = ZERO_TAG ↔ w < 0 ∧ d = ZERO_TAG := by
  obtain ⟨d1, d2, d3⟩ := id hd
  have hF : FOREVER = 9223372036854775807 := rfl
  have ha := delay_edge w
  unfold through
  constructor
  · intro h
    have hft : FOREVER_TAG ≠ ZERO_TAG := by decide
    have h2 := add_ge_right ha hd
    rw [h] at h2
    have hdz : d = ZERO_TAG := by
      have hz1 : ZERO_TAG.time = 0 := rfl
      have hz2 : ZERO_TAG.microstep = 0 := rfl
      rw [Tag.le_def, hz1, hz2] at h2
      rw [Tag.ext_iff', hz1, hz2]
      omega
    refine ⟨?_, hdz⟩
    have h3 := add_ge_left ha hd
    rw [h] at h3
    rcases @edge_cases w with k | k | k | k
    · exact k.1
    · rw [k.2] at h3; exact absurd h3 (by decide)
    · rw [k.2.2, Tag.le_def] at h3
      have hz1 : ZERO_TAG.time = 0 := rfl
      rw [hz1] at h3; dsimp only at h3; omega
    · rw [k.2] at h3; exact absurd h3 (by decide)
  · rintro ⟨hw, rfl⟩
    rcases @edge_cases w with k | k | k | k
    · rw [k.2]; decide
    · omega
    · omega
    · omega

theorem put_same {α : Type} (f : Nat → α) (k : Nat) (a : α) : put f k a k = a := if_pos rfl
theorem put_other {α : Type} (f : Nat → α) (k : Nat) (a : α) {j : Nat} (h : j ≠ k) : put f k a j = f j := if_neg h

theorem delay_pathDelay (ws : List Int) : Delay (pathDelay ws) := by
  induction ws with
  | nil => exact delay_zero
  | cons w ws ih => exact delay_through w ih

/-! ## The search -/

section
variable {T : Topology} {conn : Nat → Bool} {e : Nat}

/-- The connections into `j` do not improve any delay. -/
def Closed (T : Topology) (conn : Nat → Bool) (st : Search) (j : Nat) (x : Tag) : Prop :=
  conn j = true → ∀ u w, (u, w) ∈ T.up j → st.delays u ≤ through w x

/-- The number of nodes with an entry. -/
def entries (n : Nat) (d : Nat → Tag) : Nat := (List.range n).countP fun k => decide (d k ≠ FOREVER_TAG)

/-- An entry of the array is unset or the delay of a path. -/
def Entry (T : Topology) (conn : Nat → Bool) (e u : Nat) (d : Tag) : Prop :=
  d = FOREVER_TAG ∨
    (u < T.n ∧ d.time < FOREVER ∧ d.microstep ≤ T.n + 1 ∧
      ∃ ws, Path T conn e u ws ∧ pathDelay ws = d ∧ ws.length ≤ T.n + 1)

structure Good (T : Topology) (conn : Nat → Bool) (e : Nat) (st : Search) : Prop where
  entry : ∀ u, Entry T conn e u (st.delays u)
  count : st.count = entries T.n st.delays
  cycle : st.inCycle = true ↔ st.delays e ≠ FOREVER_TAG
  zero : st.inZeroDelayCycle = true ↔ st.delays e = ZERO_TAG

theorem Entry.delay {u : Nat} {d : Tag} (h : Entry T conn e u d) : Delay d := by
  rcases h with h | ⟨_, _, _, ws, _, h, _⟩
  · rw [h]; decide
  · rw [← h]; exact delay_pathDelay ws

structure Post (T : Topology) (conn : Nat → Bool) (e : Nat) (sofar : Tag) (st st' : Search) : Prop where
  change : ∀ u, st'.delays u = st.delays u ∨ (sofar ≤ st'.delays u ∧ st'.delays u < st.delays u)
  closed : ∀ j, j ≠ e → st'.delays j ≠ st.delays j → Closed T conn st' j (st'.delays j)
  deep : st.deep = false → st'.deep = false

theorem Post.le {sofar : Tag} {st st' : Search} (h : Post T conn e sofar st st') (u : Nat) :
    st'.delays u ≤ st.delays u := by
  rcases h.change u with h | h
  · rw [h]; exact Tag.le_refl _
  · exact Tag.le_of_lt h.2

theorem Post.refl (sofar : Tag) (st : Search) : Post T conn e sofar st st :=
  ⟨fun _ => .inl rfl, fun _ _ h => absurd rfl h, id⟩

theorem Closed.mono {st st' : Search} {j : Nat} {x : Tag} (h : Closed T conn st j x)
    (hle : ∀ u, st'.delays u ≤ st.delays u) : Closed T conn st' j x :=
  fun hc u w hm => Tag.le_trans (hle u) (h hc u w hm)

theorem Post.trans {sofar : Tag} {a b c : Search} (h1 : Post T conn e sofar a b) (h2 : Post T conn e sofar b c) :
    Post T conn e sofar a c := by
  refine ⟨fun u => ?_, fun j hj hne => ?_, fun h => h2.deep (h1.deep h)⟩
  · rcases h2.change u with k | k
    · rw [k]; exact h1.change u
    · right; exact ⟨k.1, Tag.lt_of_lt_of_le k.2 (h1.le u)⟩
  · by_cases hc : c.delays j = b.delays j
    · rw [hc] at hne ⊢
      exact (h1.closed j hj hne).mono h2.le
    · exact h2.closed j hj hc

theorem Post.weaken {p sofar : Tag} {a b : Search} (h : Post T conn e p a b) (hp : sofar ≤ p) :
    Post T conn e sofar a b :=
  ⟨fun u => (h.change u).imp id fun k => ⟨Tag.le_trans hp k.1, k.2⟩, h.closed, h.deep⟩

/-- What has been improved was larger than the delay so far. -/
theorem Post.keeps {sofar : Tag} {a b : Search} (h : Post T conn e sofar a b) {j : Nat} (hj : a.delays j ≤ sofar) :
    b.delays j = a.delays j := by
  rcases h.change j with k | k
  · exact k
  · exact absurd (Tag.lt_of_le_of_lt k.1 (Tag.lt_of_lt_of_le k.2 hj)) (Tag.lt_irrefl _)

theorem entries_put_of_lt {n : Nat} {d : Nat → Tag} {u : Nat} {p : Tag} (hu : u < n) (hp : p ≠ FOREVER_TAG) :
    entries n (put d u p) = if d u = FOREVER_TAG then entries n d + 1 else entries n d := by
  induction n with
  | zero => omega
  | succ n ih =>
    unfold entries at *
    simp only [List.range_succ, List.countP_append, List.countP_singleton]
    by_cases hn : u = n
    · subst hn
      have h1 : (List.range u).countP (fun k => decide (put d u p k ≠ FOREVER_TAG)) =
          (List.range u).countP (fun k => decide (d k ≠ FOREVER_TAG)) := by
        apply List.countP_congr
        intro k hk
        rw [put_other _ _ _ (by have := List.mem_range.1 hk; omega)]
      rw [h1, put_same]
      by_cases hd : d u = FOREVER_TAG <;> simp [hd, hp]
    · rw [ih (by omega), put_other _ _ _ (fun h => hn h.symm)]
      split <;> omega

/-- The array is improved at one place. -/
theorem Good.improve {st : Search} (hg : Good T conn e st) {u : Nat} {p : Tag} (hlt : p < st.delays u)
    (hent : Entry T conn e u p) (hu : u < T.n) (hue : u ≠ e) :
    Good T conn e { st with
      count := if (st.delays u).time = FOREVER then st.count + 1 else st.count
      delays := put st.delays u p } := by
  have hp : p ≠ FOREVER_TAG := by
    intro h
    have := le_forever (hg.entry u).delay
    rw [h] at hlt
    exact absurd (Tag.lt_of_lt_of_le hlt this) (Tag.lt_irrefl _)
  have htime : (st.delays u).time = FOREVER ↔ st.delays u = FOREVER_TAG := by
    constructor
    · intro h
      rcases hg.entry u with k | ⟨_, k, _⟩
      · exact k
      · omega
    · intro h; rw [h]; rfl
  refine ⟨fun x => ?_, ?_, ?_, ?_⟩
  · dsimp only
    by_cases hx : x = u
    · subst hx; rw [put_same]; exact hent
    · rw [put_other _ _ _ hx]; exact hg.entry x
  · dsimp only
    rw [entries_put_of_lt hu hp, hg.count]
    by_cases h : st.delays u = FOREVER_TAG
    · rw [if_pos h, if_pos (htime.2 h)]
    · rw [if_neg h, if_neg (fun k => h (htime.1 k))]
  · dsimp only
    rw [put_other _ _ _ (fun h => hue h.symm)]; exact hg.cycle
  · dsimp only
    rw [put_other _ _ _ (fun h => hue h.symm)]; exact hg.zero

/-- The same at the end node, where the flags are set. -/
theorem Good.improveEnd {st : Search} (hg : Good T conn e st) {p : Tag} (hlt : p < st.delays e) {b : Bool}
    (hent : Entry T conn e e p) (hu : e < T.n) (hb : b = true ↔ p = ZERO_TAG) :
    Good T conn e { st with
      count := if (st.delays e).time = FOREVER then st.count + 1 else st.count
      delays := put st.delays e p
      inCycle := true
      inZeroDelayCycle := b } := by
  have hp : p ≠ FOREVER_TAG := by
    intro h
    have := le_forever (hg.entry e).delay
    rw [h] at hlt
    exact absurd (Tag.lt_of_lt_of_le hlt this) (Tag.lt_irrefl _)
  have htime : (st.delays e).time = FOREVER ↔ st.delays e = FOREVER_TAG := by
    constructor
    · intro h
      rcases hg.entry e with k | ⟨_, k, _⟩
      · exact k
      · omega
    · intro h; rw [h]; rfl
  refine ⟨fun x => ?_, ?_, ?_, ?_⟩
  · dsimp only
    by_cases hx : x = e
    · subst hx; rw [put_same]; exact hent
    · rw [put_other _ _ _ hx]; exact hg.entry x
  · dsimp only
    rw [entries_put_of_lt hu hp, hg.count]
    by_cases h : st.delays e = FOREVER_TAG
    · rw [if_pos h, if_pos (htime.2 h)]
    · rw [if_neg h, if_neg (fun k => h (htime.1 k))]
  · dsimp only
    rw [put_same]; simp [hp]
  · dsimp only
    rw [put_same]; exact hb

/-- How the node being searched was reached. -/
def Reached (T : Topology) (conn : Nat → Bool) (e : Nat) (stk : List Nat) (i : Nat) (sofar : Tag) : Prop :=
  sofar.time < FOREVER ∧ sofar.microstep ≤ stk.length ∧
  ((i = e ∧ sofar = ZERO_TAG ∧ stk = []) ∨ (i ≠ e ∧ i ∈ stk ∧
    ∃ ws, Path T conn e i ws ∧ pathDelay ws = sofar ∧ ws.length ≤ stk.length))

theorem Reached.delay {stk : List Nat} {i : Nat} {sofar : Tag} (h : Reached T conn e stk i sofar) : Delay sofar := by
  rcases h.2.2 with h | ⟨_, _, ws, _, h, _⟩
  · rw [h.2.1]; exact delay_zero
  · rw [← h]; exact delay_pathDelay ws

theorem nodup_length_le {stk : List Nat} {n : Nat} (hn : stk.Nodup) (hr : ∀ j ∈ stk, j < n) : stk.length ≤ n := by
  have h : stk ⊆ List.range n := fun j hj => List.mem_range.2 (hr j hj)
  have := (hn.subperm h).length_le
  simpa using this

theorem search_spec (hT : T.Ok) (he : e < T.n) (depth : Nat) :
    ∀ (i : Nat) (sofar : Tag) (st : Search) (stk : List Nat), Good T conn e st → Reached T conn e stk i sofar →
      stk.Nodup → (∀ j ∈ stk, j < T.n ∧ st.delays j ≤ sofar) → T.n + 1 ≤ depth + stk.length →
      Good T conn e (search T conn e depth i sofar st) ∧ Post T conn e sofar st (search T conn e depth i sofar st) ∧
        Closed T conn (search T conn e depth i sofar st) i sofar := by
  induction depth with
  | zero =>
    intro i sofar st stk _ _ hn hr hd
    have := nodup_length_le hn fun j hj => (hr j hj).1
    omega
  | succ depth ih =>
    intro i sofar st stk hg hreach hn hr hd
    unfold search
    by_cases hconn : conn i = true
    case neg =>
      rw [if_neg hconn]
      exact ⟨hg, Post.refl _ _, fun h => absurd h hconn⟩
    rw [if_pos hconn]
    have hsd := hreach.delay
    have hlen : stk.length ≤ T.n := nodup_length_le hn fun j hj => (hr j hj).1
    have key : ∀ (l pre : List (Nat × Int)) (st1 : Search), (∀ x ∈ l, x ∈ T.up i) → Good T conn e st1 →
        Post T conn e sofar st st1 → (∀ x ∈ pre, st1.delays x.1 ≤ through x.2 sofar) →
        ∃ st2, st2 = l.foldl (fun (st : Search) (e' : Nat × Int) =>
          if lf_tag_compare (through e'.2 sofar) (st.delays e'.1) < 0 then
            let st :=
              { st with
                count := if (st.delays e'.1).time = FOREVER then st.count + 1 else st.count
                delays := put st.delays e'.1 (through e'.2 sofar) }
            if e ≠ e'.1 then search T conn e depth e'.1 (st.delays e'.1) st
            else
              { st with
                inCycle := true
                inZeroDelayCycle := decide (lf_tag_compare (through e'.2 sofar) ZERO_TAG = 0 ∧ e'.2 < 0) }
          else st) st1 ∧ Good T conn e st2 ∧ Post T conn e sofar st st2 ∧
          ∀ x ∈ pre ++ l, st2.delays x.1 ≤ through x.2 sofar := by
      intro l
      induction l with
      | nil =>
        intro pre st1 _ hg1 hp1 hpre
        exact ⟨st1, rfl, hg1, hp1, by simpa using hpre⟩
      | cons x l ihl =>
        intro pre st1 hmem hg1 hp1 hpre
        obtain ⟨u, w⟩ := x
        have hxm : (u, w) ∈ T.up i := hmem _ (List.mem_cons_self ..)
        have hu : u < T.n := hT.range i u w hxm
        -- one relaxation
        have one : ∃ st2, st2 = (if lf_tag_compare (through w sofar) (st1.delays u) < 0 then
            let st :=
              { st1 with
                count := if (st1.delays u).time = FOREVER then st1.count + 1 else st1.count
                delays := put st1.delays u (through w sofar) }
            if e ≠ u then search T conn e depth u (st.delays u) st
            else
              { st with
                inCycle := true
                inZeroDelayCycle := decide (lf_tag_compare (through w sofar) ZERO_TAG = 0 ∧ w < 0) }
          else st1) ∧ Good T conn e st2 ∧ Post T conn e sofar st1 st2 ∧ st2.delays u ≤ through w sofar := by
          refine ⟨_, rfl, ?_⟩
          by_cases hlt : lf_tag_compare (through w sofar) (st1.delays u) < 0
          case neg =>
            rw [if_neg hlt]
            rw [cmp_lt_zero] at hlt
            exact ⟨hg1, Post.refl _ _, Tag.not_lt.1 hlt⟩
          rw [if_pos hlt]
          rw [cmp_lt_zero] at hlt
          have hge := through_ge w hsd
          have hform : (through w sofar).time < FOREVER ∧ (through w sofar).microstep ≤ sofar.microstep + 1 := by
            rcases through_form w hsd with h | h
            · exfalso
              rw [h] at hlt
              exact absurd (Tag.lt_of_lt_of_le hlt (le_forever (hg1.entry u).delay)) (Tag.lt_irrefl _)
            · exact h
          have hpath : ∃ ws, Path T conn e u ws ∧ pathDelay ws = through w sofar ∧ ws.length ≤ stk.length + 1 := by
            rcases hreach.2.2 with ⟨rfl, hs, _⟩ | ⟨_, _, ws, hws, hpd, hl⟩
            · exact ⟨[w], .last u w hconn hxm, by rw [hs]; rfl, by simp⟩
            · exact ⟨w :: ws, .step u i w ws hconn hxm hws, by rw [← hpd]; rfl, by simpa using hl⟩
          have hent : Entry T conn e u (through w sofar) :=
            .inr ⟨hu, hform.1, by have := hreach.2.1; omega,
              hpath.imp fun ws h => ⟨h.1, h.2.1, by have := h.2.2; omega⟩⟩
          by_cases hue : e = u
          · subst hue
            simp only [ne_eq, not_true_eq_false, if_false]
            refine ⟨hg1.improveEnd hlt hent hu ?_, ⟨fun x => ?_, fun j hj hne => ?_, id⟩, ?_⟩
            · rw [decide_eq_true_eq, cmp_eq_zero]
              constructor
              · exact fun h => h.1
              · exact fun h => ⟨h, ((through_eq_zero hsd).1 h).1⟩
            · dsimp only
              by_cases hx : x = e
              · subst hx; rw [put_same]; exact .inr ⟨hge, hlt⟩
              · rw [put_other _ _ _ hx]; exact .inl rfl
            · dsimp only at hne
              rw [put_other _ _ _ hj] at hne
              exact absurd rfl hne
            · rw [put_same]; exact Tag.le_refl _
          · simp only [ne_eq, hue, not_false_eq_true, if_true, put_same]
            have hue' : u ≠ e := fun h => hue h.symm
            have hg2 := hg1.improve hlt hent hu hue'
            -- u is not on the stack
            have hnot : u ∉ stk := by
              intro hin
              have h1 := (hr u hin).2
              have h2 := hp1.keeps h1
              rw [h2] at hlt
              exact absurd (Tag.lt_of_lt_of_le hlt (Tag.le_trans h1 hge)) (Tag.lt_irrefl _)
            have hn2 : (u :: stk).Nodup := List.nodup_cons.2 ⟨hnot, hn⟩
            obtain ⟨g3, p3, c3⟩ := ih u (through w sofar)
              { st1 with
                count := if (st1.delays u).time = FOREVER then st1.count + 1 else st1.count
                delays := put st1.delays u (through w sofar) } (u :: stk) hg2
              ⟨hform.1, by have := hreach.2.1; simp only [List.length_cons]; omega,
                .inr ⟨hue', List.mem_cons_self .., hpath⟩⟩ hn2
              (by
                intro j hj
                rcases List.mem_cons.1 hj with rfl | hj
                · exact ⟨hu, by dsimp only; rw [put_same]; exact Tag.le_refl _⟩
                · refine ⟨(hr j hj).1, ?_⟩
                  have hju : j ≠ u := fun h => hnot (h ▸ hj)
                  dsimp only
                  rw [put_other _ _ _ hju, hp1.keeps (hr j hj).2]
                  exact Tag.le_trans (hr j hj).2 hge)
              (by simp only [List.length_cons]; omega)
            refine ⟨g3, ⟨fun x => ?_, fun j hj hne => ?_, p3.deep⟩, ?_⟩
            · by_cases hx : x = u
              · subst hx
                rw [p3.keeps (by dsimp only; rw [put_same]; exact Tag.le_refl _)]
                dsimp only; rw [put_same]; exact .inr ⟨hge, hlt⟩
              · have h := p3.change x
                dsimp only at h
                rw [put_other _ _ _ hx] at h
                exact h.imp id fun k => ⟨Tag.le_trans hge k.1, k.2⟩
            · by_cases hx : j = u
              · subst hx
                rw [p3.keeps (by dsimp only; rw [put_same]; exact Tag.le_refl _)]
                dsimp only; rw [put_same]; exact c3
              · refine p3.closed j hj ?_
                dsimp only; rw [put_other _ _ _ hx]; exact hne
            · rw [p3.keeps (by dsimp only; rw [put_same]; exact Tag.le_refl _)]
              dsimp only; rw [put_same]; exact Tag.le_refl _
        obtain ⟨st2, e2, g2, p2, l2⟩ := one
        obtain ⟨st3, e3, g3, p3, l3⟩ := ihl (pre ++ [(u, w)]) st2 (fun x hx => hmem x (List.mem_cons_of_mem _ hx)) g2
          (hp1.trans p2)
          (by
            intro x hx
            rcases List.mem_append.1 hx with hx | hx
            · exact Tag.le_trans (p2.le x.1) (hpre x hx)
            · rw [List.mem_singleton] at hx; subst hx; exact l2)
        refine ⟨st3, ?_, g3, p3, ?_⟩
        · rw [List.foldl_cons, e3, e2]
        · intro x hx; apply l3; simpa using hx
    obtain ⟨st2, e2, g2, p2, l2⟩ := key (T.up i) [] st (fun _ h => h) hg (Post.refl _ _) (by simp)
    rw [← e2]
    exact ⟨g2, p2, fun _ u w hm => l2 (u, w) (by simpa using hm)⟩

theorem good_start : Good T conn e start := by
  refine ⟨fun u => .inl rfl, ?_, ?_, ?_⟩
  · simp [start, entries]
  · simp [start]
  · simp +decide [start]

theorem searchFrom_spec (hT : T.Ok) (he : e < T.n) :
    Good T conn e (searchFrom T conn e) ∧ (searchFrom T conn e).deep = false ∧
      (∀ j, j ≠ e → (searchFrom T conn e).delays j ≠ FOREVER_TAG →
        Closed T conn (searchFrom T conn e) j ((searchFrom T conn e).delays j)) ∧
      Closed T conn (searchFrom T conn e) e ZERO_TAG := by
  obtain ⟨g, p, c⟩ := search_spec (conn := conn) hT he (T.n + 1) e ZERO_TAG start [] good_start
    ⟨by decide, by decide, .inl ⟨rfl, rfl, rfl⟩⟩ List.nodup_nil (by simp) (by simp)
  exact ⟨g, p.deep rfl, fun j hj hne => p.closed j hj hne, c⟩

theorem delays_le_path (hT : T.Ok) (he : e < T.n) {u : Nat} {ws : List Int} (hp : Path T conn e u ws) :
    (searchFrom T conn e).delays u ≤ pathDelay ws := by
  obtain ⟨g, _, cl, ce⟩ := searchFrom_spec (conn := conn) hT he
  have hs := hT.small
  have hU : UINT_MAX = 4294967295 := rfl
  have zero_le : ∀ ws, ZERO_TAG ≤ pathDelay ws := by
    intro ws
    obtain ⟨h1, h2, h3⟩ := delay_pathDelay ws
    have hz1 : ZERO_TAG.time = 0 := rfl
    have hz2 : ZERO_TAG.microstep = 0 := rfl
    rw [Tag.le_def, hz1, hz2]; omega
  induction hp with
  | last u w hc hm => exact ce hc u w hm
  | step u i w ws hc hm _ ih =>
    by_cases hi : i = e
    · subst hi
      exact Tag.le_trans (ce hc u w hm)
        (through_mono w delay_zero (delay_pathDelay ws) (.inr (by decide)) (zero_le ws))
    · by_cases hf : (searchFrom T conn e).delays i = FOREVER_TAG
      · rw [hf] at ih
        have : pathDelay ws = FOREVER_TAG := Tag.le_antisymm (le_forever (delay_pathDelay ws)) ih
        have h2 := through_ge w (delay_pathDelay ws)
        rw [this] at h2
        show _ ≤ through w (pathDelay ws)
        rw [this]
        exact Tag.le_trans (le_forever (g.entry u).delay) h2
      · refine Tag.le_trans (cl i hi hf hc u w hm) (through_mono w (g.entry i).delay (delay_pathDelay ws) ?_ ih)
        rcases g.entry i with h | ⟨_, _, h, _⟩
        · exact .inl h
        · right; omega

theorem mem_minDelays {u : Nat} {d : Tag} (hT : T.Ok) (he : e < T.n) :
    (u, d) ∈ minDelays T conn e ↔ u < T.n ∧ d = (searchFrom T conn e).delays u ∧ d < FOREVER_TAG := by
  unfold minDelays
  simp only [List.mem_map, List.mem_filter, List.mem_range, decide_eq_true_eq, cmp_lt_zero, Prod.mk.injEq]
  constructor
  · rintro ⟨a, ⟨h1, h2⟩, rfl, rfl⟩; exact ⟨h1, rfl, h2⟩
  · rintro ⟨h1, rfl, h2⟩; exact ⟨u, ⟨h1, h2⟩, rfl, rfl⟩

end

/-! ## C26 -/

/-- C26: the entries of the table for `e` are exactly the nodes from which there is a path of finite delay to `e`, each
with the minimum of the delays of all these paths, of any length. -/
theorem C26_minimum_over_all_paths {T : Topology} (conn : Nat → Bool) {e : Nat} (hT : T.Ok) (he : e < T.n) (u : Nat)
    (d : Tag) :
    (u, d) ∈ minDelays T conn e ↔
      d ≠ FOREVER_TAG ∧ (∃ ws, Path T conn e u ws ∧ pathDelay ws = d) ∧ ∀ ws, Path T conn e u ws → d ≤ pathDelay ws := by
  rw [mem_minDelays hT he]
  obtain ⟨g, _, _, _⟩ := searchFrom_spec (conn := conn) hT he
  constructor
  · rintro ⟨hu, rfl, hlt⟩
    have hne : (searchFrom T conn e).delays u ≠ FOREVER_TAG := fun h => by
      rw [h] at hlt; exact Tag.lt_irrefl _ hlt
    refine ⟨hne, ?_, fun ws h => delays_le_path hT he h⟩
    rcases g.entry u with h | ⟨_, _, _, h⟩
    · exact absurd h hne
    · exact h.imp fun ws h => ⟨h.1, h.2.1⟩
  · rintro ⟨hne, ⟨ws, hp, hd⟩, hmin⟩
    have h1 := delays_le_path (conn := conn) hT he hp
    rw [hd] at h1
    have hfd : Delay d := hd ▸ delay_pathDelay ws
    have hlt : d < FOREVER_TAG := by
      rcases Tag.lt_or_eq_of_le (le_forever hfd) with h | h
      · exact h
      · exact absurd h hne
    rcases g.entry u with h | ⟨hu, _, _, ws', hp', hd', _⟩
    · rw [h] at h1
      exact absurd (Tag.lt_of_le_of_lt h1 hlt) (Tag.lt_irrefl _)
    · refine ⟨hu, Tag.le_antisymm ?_ h1, hlt⟩
      rw [← hd']; exact hmin ws' hp'

/-- C26: the flags of `e` tell whether there is a path of finite delay from `e` back to `e`, and whether there is one on
which no connection has a delay. -/
theorem C26_cycle_flags {T : Topology} (conn : Nat → Bool) {e : Nat} (hT : T.Ok) (he : e < T.n) :
    ((searchFrom T conn e).inCycle = true ↔ ∃ ws, Path T conn e e ws ∧ pathDelay ws ≠ FOREVER_TAG) ∧
    ((searchFrom T conn e).inZeroDelayCycle = true ↔ ∃ ws, Path T conn e e ws ∧ ∀ w ∈ ws, w < 0) := by
  obtain ⟨g, _, _, _⟩ := searchFrom_spec (conn := conn) hT he
  have hz : ∀ ws, pathDelay ws = ZERO_TAG ↔ ∀ w ∈ ws, w < 0 := by
    intro ws
    induction ws with
    | nil => simp [pathDelay]
    | cons w ws ih =>
      show through w (pathDelay ws) = ZERO_TAG ↔ _
      rw [through_eq_zero (delay_pathDelay ws), ih]; simp
  constructor
  · rw [g.cycle]
    constructor
    · intro h
      rcases g.entry e with k | ⟨_, _, _, ws, hp, hd, _⟩
      · exact absurd k h
      · exact ⟨ws, hp, by rw [hd]; exact h⟩
    · rintro ⟨ws, hp, hd⟩ h
      have h1 := delays_le_path (conn := conn) hT he hp
      rw [h] at h1
      exact hd (Tag.le_antisymm (le_forever (delay_pathDelay ws)) h1)
  · rw [g.zero]
    constructor
    · intro h
      rcases g.entry e with k | ⟨_, _, _, ws, hp, hd, _⟩
      · rw [h] at k; exact absurd k (by decide)
      · exact ⟨ws, hp, (hz ws).1 (by rw [hd, h])⟩
    · rintro ⟨ws, hp, hd⟩
      have h1 := delays_le_path (conn := conn) hT he hp
      rw [(hz ws).2 hd] at h1
      obtain ⟨a, b, c⟩ := (g.entry e).delay
      have hz1 : ZERO_TAG.time = 0 := rfl
      have hz2 : ZERO_TAG.microstep = 0 := rfl
      rw [Tag.le_def, hz1, hz2] at h1
      rw [Tag.ext_iff', hz1, hz2]; omega

/-- C26: the recursion ends, with a depth of at most the number of nodes plus one; and the number of entries is the one
counted during the search, so that the table allocated has the right size and the internal error of
core/federated/RTI/rti_common.c:368 does not occur; no node has two entries. -/
theorem C26_search_ends_and_counts {T : Topology} (conn : Nat → Bool) {e : Nat} (hT : T.Ok) (he : e < T.n) :
    (searchFrom T conn e).deep = false ∧ (minDelays T conn e).length = (searchFrom T conn e).count ∧
      ((minDelays T conn e).map Prod.fst).Nodup := by
  obtain ⟨g, hd, _, _⟩ := searchFrom_spec (conn := conn) hT he
  refine ⟨hd, ?_, ?_⟩
  · unfold minDelays
    rw [List.length_map, g.count, entries, List.countP_eq_length_filter]
    congr 1
    apply List.filter_congr
    intro k _
    rw [decide_eq_decide, cmp_lt_zero]
    constructor
    · intro h k'; rw [k'] at h; exact Tag.lt_irrefl _ h
    · intro h
      rcases Tag.lt_or_eq_of_le (le_forever (g.entry k).delay) with k' | k'
      · exact k'
      · exact absurd k' h
  · unfold minDelays
    rw [List.map_map]
    have : (Prod.fst ∘ fun i => (i, (searchFrom T conn e).delays i)) = id := rfl
    rw [this, List.map_id]
    exact List.nodup_range.filter _

/-! ### What the accumulated delay means -/

theorem delay_eq_add {t : Tag} (w : Int) (ht : Delay t) (hm : t = FOREVER_TAG ∨ t.microstep < UINT_MAX)
    (hf : t = FOREVER_TAG ∨ t.time < FOREVER) :
    lf_delay_tag t w = lf_tag_add t (lf_delay_tag ZERO_TAG w) := by
  obtain ⟨t1, t2, t3⟩ := id ht
  have hF : FOREVER = 9223372036854775807 := rfl
  have hN : NEVER = -9223372036854775808 := rfl
  have hft1 : FOREVER_TAG.time = FOREVER := rfl
  have hz1 : ZERO_TAG.time = 0 := rfl
  have hz2 : ZERO_TAG.microstep = 0 := rfl
  have key := add_cases ht (delay_edge w)
  by_cases htf : t = FOREVER_TAG
  · have e1 : lf_delay_tag t w = FOREVER_TAG := by
      have htt : t.time = FOREVER := by rw [htf]; rfl
      rcases lf_delay_tag_cases t w with h | h | h | h
      · rw [h.2, htf]
      · exact h.2.2.2
      · omega
      · omega
    rw [e1]
    have htt : t.time = FOREVER := by rw [htf]; rfl
    have hd := (delay_edge w).1
    rcases key with k | k | k | k
    · exact k.2.symm
    · omega
    · omega
    · omega
  · have hm' : t.microstep < UINT_MAX := hm.resolve_left htf
    have hf' : t.time < FOREVER := hf.resolve_left htf
    have hwr : wrapU32 (t.microstep + 1) = t.microstep + 1 := by
      simp only [wrapU32, UINT_MAX] at *; omega
    rcases @edge_cases w with h | h | h | h <;> rcases lf_delay_tag_cases t w with k' | k' | k' | k' <;>
      (try (exfalso; omega))
    · rw [k'.2, h.2]
      rw [h.2, hz1, hz2] at key
      rcases key with k | k | k | k
      · omega
      · omega
      · rw [k.2.2.2, Nat.add_zero]
      · omega
    · rw [k'.2.2.2, hwr, h.2]
      rw [h.2] at key
      dsimp only at key
      rcases key with k | k | k | k
      · omega
      · omega
      · rw [k.2.2.2]
      · omega
    · rw [k'.2.2.2, h.2.2]
      rw [h.2.2] at key
      dsimp only at key
      rcases key with k | k | k | k
      · exact k.2.symm
      · omega
      · omega
      · omega
    · rw [k'.2.2.2, h.2.2]
      rw [h.2.2] at key
      dsimp only at key
      rcases key with k | k | k | k
      · omega
      · rw [k.2.2]
      · omega
      · omega
    · rw [k'.2.2.2, h.2]
      rw [h.2, hft1] at key
      rcases key with k | k | k | k
      · exact k.2.symm
      · omega
      · omega
      · omega

theorem add_forever_left {b : Tag} (hb : Delay b) : lf_tag_add FOREVER_TAG b = FOREVER_TAG := by
  obtain ⟨b1, b2, b3⟩ := id hb
  have hft1 : FOREVER_TAG.time = FOREVER := rfl
  rcases add_cases (by decide : Delay FOREVER_TAG) hb with k | k | k | k
  · exact k.2
  · rw [hft1] at k; omega
  · rw [hft1] at k; omega
  · exact k.2.2.2

theorem add_forever_right {a : Tag} (ha : Delay a) : lf_tag_add a FOREVER_TAG = FOREVER_TAG := by
  obtain ⟨a1, a2, a3⟩ := id ha
  have hft1 : FOREVER_TAG.time = FOREVER := rfl
  rcases add_cases ha (by decide : Delay FOREVER_TAG) with k | k | k | k
  · exact k.2
  · rw [hft1] at k; omega
  · have hF : FOREVER = 9223372036854775807 := rfl
    rw [hft1] at k; omega
  · exact k.2.2.2

theorem pathDelay_form (ws : List Int) :
    pathDelay ws = FOREVER_TAG ∨ ((pathDelay ws).time < FOREVER ∧ (pathDelay ws).microstep ≤ ws.length) := by
  induction ws with
  | nil => right; decide
  | cons w ws ih =>
    rcases through_form w (delay_pathDelay ws) with h | h
    · exact .inl h
    · rcases ih with k | k
      · left
        show through w (pathDelay ws) = _
        rw [k]; exact add_forever_right (delay_edge w)
      · right
        refine ⟨h.1, Nat.le_trans h.2 ?_⟩
        simp only [List.length_cons]; omega

theorem arrival_eq {t : Tag} (ws : List Int) (ht : Delay t)
    (hfin : t = FOREVER_TAG ∨ (t.time < FOREVER ∧ t.microstep + ws.length ≤ UINT_MAX)) :
    arrival t ws = lf_tag_add t (pathDelay ws) := by
  induction ws generalizing t with
  | nil =>
    show t = lf_tag_add t ZERO_TAG
    obtain ⟨t1, t2, t3⟩ := id ht
    rcases hfin with h | h
    · rw [h]; decide
    · rw [C03_tag_add_zero t ht.valid (by have : NEVER < 0 := by decide
                                          omega) (by omega)]
  | cons w ws ih =>
    have hU : 0 < UINT_MAX := by decide
    show arrival (lf_delay_tag t w) ws = lf_tag_add t (through w (pathDelay ws))
    simp only [List.length_cons] at hfin
    have heq := delay_eq_add w ht (hfin.imp id fun h => by omega) (hfin.imp id fun h => h.1)
    have hd : Delay (lf_delay_tag t w) := by rw [heq]; exact delay_add ht (delay_edge w)
    have hfin' : lf_delay_tag t w = FOREVER_TAG ∨
        ((lf_delay_tag t w).time < FOREVER ∧ (lf_delay_tag t w).microstep + ws.length ≤ UINT_MAX) := by
      rcases hfin with h | h
      · left; rw [heq, h]; exact add_forever_left (delay_edge w)
      · rcases lf_delay_tag_cases t w with k | k | k | k
        · right; rw [k.2]; omega
        · left; exact k.2.2.2
        · right
          rw [k.2.2.2]
          refine ⟨h.1, ?_⟩
          dsimp only
          simp only [wrapU32, UINT_MAX] at *; omega
        · right
          rw [k.2.2.2]
          dsimp only
          omega
    rw [ih hd hfin', heq]
    rcases hfin with h | h
    · rw [h, add_forever_left (delay_edge w), add_forever_left (delay_pathDelay ws),
        add_forever_left (delay_through w (delay_pathDelay ws))]
    · rcases edge_microstep w with hw | hw
      · rcases pathDelay_form ws with hp | hp
        · rw [hp, add_forever_right (delay_add ht (delay_edge w))]
          unfold through
          rw [add_forever_right (delay_edge w), add_forever_right ht]
        · exact C03_tag_add_assoc t _ _ ht.valid (delay_edge w).valid (delay_pathDelay ws).valid ht.1 (delay_edge w).1
            (delay_pathDelay ws).1 (by omega)
      · unfold through
        rw [hw, add_forever_right ht, add_forever_left (delay_pathDelay ws), add_forever_right ht]

/-- C26: what the entries mean.  If `u` sends something at `t`, its earliest consequence at `e`, along any path, is at
`lf_tag_add t d`, where `d` is the entry of `u`; and if `u` has no entry, there is no consequence before `FOREVER_TAG`.
(Paths that are so long that microsteps overflow are excluded.) -/
theorem C26_earliest_consequence {T : Topology} (conn : Nat → Bool) {e : Nat} (hT : T.Ok) (he : e < T.n) (u : Nat)
    {t : Tag} (ht : 0 ≤ t.time ∧ t.time < FOREVER) :
    (∀ d, (u, d) ∈ minDelays T conn e →
      (t.microstep + T.n + 1 ≤ UINT_MAX → ∃ ws, Path T conn e u ws ∧ arrival t ws = lf_tag_add t d) ∧
      ∀ ws, Path T conn e u ws → t.microstep + ws.length ≤ UINT_MAX → t.microstep + T.n + 1 ≤ UINT_MAX →
        lf_tag_add t d ≤ arrival t ws) ∧
    ((∀ d, (u, d) ∉ minDelays T conn e) → ∀ ws, Path T conn e u ws → t.microstep + ws.length ≤ UINT_MAX →
      arrival t ws = FOREVER_TAG) := by
  have hU : UINT_MAX = 4294967295 := rfl
  obtain ⟨g, _, _, _⟩ := searchFrom_spec (conn := conn) hT he
  constructor
  · intro d hd
    have hd' := (C26_minimum_over_all_paths conn hT he u d).1 hd
    have hd2 := (mem_minDelays (conn := conn) hT he).1 hd
    constructor
    · intro hm
      rcases g.entry u with h | ⟨_, _, _, ws, hp, hpd, hl⟩
      · exact absurd (hd2.2.1.trans h) hd'.1
      · refine ⟨ws, hp, ?_⟩
        rw [hd2.2.1, ← hpd]
        exact arrival_eq ws ⟨ht.1, by omega, by omega⟩ (.inr ⟨ht.2, by omega⟩)
    · intro ws hp hl hm
      have ht' : Delay t := ⟨ht.1, by omega, by omega⟩
      rw [arrival_eq ws ht' (.inr ⟨ht.2, hl⟩)]
      refine add_mono_right ht' (hd2.2.1 ▸ (g.entry u).delay) (delay_pathDelay ws) ?_ (hd'.2.2 ws hp)
      right
      rcases g.entry u with h | ⟨_, _, h, _⟩
      · exact absurd (hd2.2.1.trans h) hd'.1
      · rw [hd2.2.1]; omega
  · intro hno ws hp hl
    have hF : (searchFrom T conn e).delays u = FOREVER_TAG := by
      rcases g.entry u with h | ⟨hu, hlt, _, _⟩
      · exact h
      · exfalso
        refine hno _ ((mem_minDelays (conn := conn) hT he).2 ⟨hu, rfl, ?_⟩)
        rw [Tag.lt_def]; left; exact hlt
    have h1 := delays_le_path (conn := conn) hT he hp
    rw [hF] at h1
    have h2 : pathDelay ws = FOREVER_TAG := Tag.le_antisymm (le_forever (delay_pathDelay ws)) h1
    have ht' : Delay t := ⟨ht.1, by omega, by omega⟩
    rw [arrival_eq ws ht' (.inr ⟨ht.2, hl⟩), h2]
    exact add_forever_right ht'

/-! ### Non-vacuity -/

/-- Four nodes: 0 and 1 form a cycle with a delay of 0 on one side, 2 feeds 0 with a delay of 5 and, through 1, of 10 ms
and nothing; 3 and 0 form a cycle without delay. -/
def demoT : Topology where
  n := 4
  up := fun
    | 0 => [(1, NEVER), (2, 5), (3, NEVER)]
    | 1 => [(0, 0), (2, 10)]
    | 3 => [(0, -1)]
    | _ => []
  down := fun
    | 0 => [1, 3]
    | 1 => [0]
    | 2 => [0, 1]
    | 3 => [0]
    | _ => []

theorem demoT_ok : demoT.Ok := by
  constructor
  · decide
  · intro i u w h
    match i with
    | 0 => simp [demoT] at h ⊢; omega
    | 1 => simp [demoT] at h ⊢; omega
    | 2 => simp [demoT] at h
    | 3 => simp [demoT] at h ⊢; omega
    | n + 4 => simp [demoT] at h
  · intro i u w h
    match i with
    | 0 => simp [demoT] at h; simp only [IsI64, NEVER, FOREVER] at *; omega
    | 1 => simp [demoT] at h; simp only [IsI64, NEVER, FOREVER] at *; omega
    | 2 => simp [demoT] at h
    | 3 => simp [demoT] at h; simp only [IsI64, NEVER, FOREVER] at *; omega
    | n + 4 => simp [demoT] at h

example : minDelays demoT (fun _ => true) 0 = [(0, ⟨0, 0⟩), (1, ⟨0, 0⟩), (2, ⟨5, 0⟩), (3, ⟨0, 0⟩)] ∧
    minDelays demoT (fun _ => true) 1 = [(0, ⟨0, 1⟩), (1, ⟨0, 1⟩), (2, ⟨5, 1⟩), (3, ⟨0, 1⟩)] ∧
    minDelays demoT (fun i => i ≠ 3) 3 = [] ∧
    (searchFrom demoT (fun _ => true) 0).inZeroDelayCycle = true ∧
    (searchFrom demoT (fun _ => true) 1).inZeroDelayCycle = false ∧
    (searchFrom demoT (fun _ => true) 1).inCycle = true := by decide +kernel

example : Path demoT (fun _ => true) 1 2 [5, 0] ∧ pathDelay [5, 0] = ⟨5, 1⟩ ∧ arrival ⟨100, 3⟩ [5, 0] = ⟨105, 1⟩ :=
  ⟨.step 2 0 5 [0] rfl (by decide) (.last 0 0 rfl (by decide)), by decide, by decide⟩

end ReactorC.Rti
