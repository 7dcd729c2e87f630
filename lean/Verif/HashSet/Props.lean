import Verif.HashSet.Model
import Mathlib.Tactic.Common
import Mathlib.Data.List.Nodup
import Mathlib.Data.List.Perm.Subperm
import Mathlib.Data.Nat.GCD.Basic
import Mathlib.Data.Nat.ModEq
import Mathlib.Data.List.NodupEquivFin

/-! # C35: the hash set behaves as a set -/

namespace ReactorC.HashSet

/-! ## Specification: a list without duplicates -/

/-- The legal arguments: `hashset_add` checks its argument; 1 must not be looked for or removed. -/
def OkOp : Op → Prop
  | .add _ => True
  | .remove x => x ≠ 1
  | .isMember x => x ≠ 1
  | .numItems => True

/-- Operations on a mathematical set, given as a list without duplicates, and their documented results. -/
def spec (l : List Nat) : Op → List Nat × Int
  | .add x => if x = 0 ∨ x = 1 then (l, -1) else if x ∈ l then (l, 0) else (x :: l, 1)
  | .remove x => (l.erase x, if x ∈ l then 1 else 0)
  | .isMember x => (l, if x ∈ l then 1 else 0)
  | .numItems => (l, l.length)

def specRun (l : List Nat) : List Op → List Nat × List Int
  | [] => (l, [])
  | o :: os =>
    let r := spec l o
    let q := specRun r.1 os
    (q.1, r.2 :: q.2)

/-! ## Probe sequences -/

/-- The `t`-th slot probed. -/
def slot (cap x t : Nat) : Nat := (73 * x + 5009 * t) % cap

theorem slot_zero (cap x : Nat) : slot cap x 0 = start cap x := by simp [slot, start]

theorem slot_succ (cap x t : Nat) : slot cap x (t + 1) = next cap (slot cap x t) := by
  simp only [slot, next, Nat.mod_add_mod, Nat.mul_add, Nat.mul_one, Nat.add_assoc]

theorem slot_lt {cap : Nat} (h : 0 < cap) (x t : Nat) : slot cap x t < cap := Nat.mod_lt _ h

theorem slot_inj (nbits x t u : Nat) (ht : t < 2 ^ nbits) (hu : u < 2 ^ nbits)
    (h : slot (2 ^ nbits) x t = slot (2 ^ nbits) x u) : t = u := by
  have h1 : 73 * x + 5009 * t ≡ 73 * x + 5009 * u [MOD 2 ^ nbits] := h
  have h2 : 5009 * t ≡ 5009 * u [MOD 2 ^ nbits] := Nat.ModEq.add_left_cancel' _ h1
  have hc : Nat.gcd (2 ^ nbits) 5009 = 1 := Nat.Coprime.pow_left _ (by decide)
  have h3 := Nat.ModEq.cancel_left_of_coprime hc h2
  unfold Nat.ModEq at h3
  rwa [Nat.mod_eq_of_lt ht, Nat.mod_eq_of_lt hu] at h3

/-- Every slot is probed within one round. -/
theorem slot_surj (nbits x i : Nat) (hi : i < 2 ^ nbits) : ∃ t, t < 2 ^ nbits ∧ slot (2 ^ nbits) x t = i := by
  have hnd : ((List.range (2 ^ nbits)).map (slot (2 ^ nbits) x)).Nodup := by
    refine List.Nodup.map_on ?_ List.nodup_range
    intro t ht u hu h
    rw [List.mem_range] at ht hu
    exact slot_inj nbits x t u ht hu h
  have hsub : (List.range (2 ^ nbits)).map (slot (2 ^ nbits) x) ⊆ List.range (2 ^ nbits) := by
    intro y hy
    obtain ⟨t, _, rfl⟩ := List.mem_map.mp hy
    exact List.mem_range.mpr (slot_lt (Nat.two_pow_pos _) _ _)
  have hperm := (hnd.subperm hsub).perm_of_length_le (by simp)
  have := hperm.mem_iff.mpr (List.mem_range.mpr hi)
  obtain ⟨t, ht, he⟩ := List.mem_map.mp this
  exact ⟨t, List.mem_range.mp ht, he⟩

theorem probe_spec (items : Nat → Nat) (cap x fuel t : Nat) (av : Option Nat) (e : Nat) (hte : t ≤ e)
    (hf : e < t + fuel) (he : items (slot cap x e) = 0) (hx : x ≠ 0) :
    (∃ u, t ≤ u ∧ items (slot cap x u) = x ∧ (∀ w, t ≤ w → w < u → items (slot cap x w) ≠ 0) ∧
      probe items cap x fuel (slot cap x t) av = .found (slot cap x u)) ∨
    (∃ u a, t ≤ u ∧ u ≤ e ∧ items (slot cap x u) = 0 ∧
      (∀ w, t ≤ w → w < u → items (slot cap x w) ≠ 0 ∧ items (slot cap x w) ≠ x) ∧
      probe items cap x fuel (slot cap x t) av = .empty (slot cap x u) a ∧
      (a = av ∨ ∃ w, t ≤ w ∧ w < u ∧ a = some (slot cap x w) ∧ items (slot cap x w) = 1)) := by
  induction fuel generalizing t av with
  | zero => omega
  | succ n ih =>
    simp only [probe]
    by_cases h0 : items (slot cap x t) = 0
    · right
      refine ⟨t, av, Nat.le_refl _, hte, h0, fun w h1 h2 => by omega, ?_, Or.inl rfl⟩
      rw [if_neg (by simpa using h0)]
    · rw [if_pos h0]
      by_cases h1 : items (slot cap x t) = x
      · left
        exact ⟨t, Nat.le_refl _, h1, fun w h2 h3 => by omega, if_pos h1⟩
      · rw [if_neg h1, ← slot_succ]
        have hne : t ≠ e := by rintro rfl; exact h0 he
        generalize hav : (if items (slot cap x t) = 1 ∧ av = none then some (slot cap x t) else av) = av'
        have hav' : av' = av ∨ (av' = some (slot cap x t) ∧ items (slot cap x t) = 1) := by
          rw [← hav]; split
          · rename_i h; exact Or.inr ⟨rfl, h.1⟩
          · exact Or.inl rfl
        rcases ih (t + 1) av' (by omega) (by omega) with ⟨u, g1, g2, g3, g4⟩ | ⟨u, a, g1, g2, g3, g4, g5, g6⟩
        · left
          refine ⟨u, by omega, g2, fun w h2 h3 => ?_, g4⟩
          by_cases hw : w = t
          · rw [hw]; exact h0
          · exact g3 w (by omega) h3
        · right
          refine ⟨u, a, by omega, g2, g3, fun w h2 h3 => ?_, g5, ?_⟩
          · by_cases hw : w = t
            · rw [hw]; exact ⟨h0, h1⟩
            · exact g4 w (by omega) h3
          · rcases g6 with g6 | ⟨w, w1, w2, w3, w4⟩
            · rcases hav' with h | ⟨h, h'⟩
              · exact Or.inl (g6.trans h)
              · exact Or.inr ⟨t, Nat.le_refl _, by omega, g6.trans h, h'⟩
            · exact Or.inr ⟨w, by omega, w2, w3, w4⟩

/-! ## Counting occupied slots -/

def occ (items : Nat → Nat) : Nat → Nat
  | 0 => 0
  | n + 1 => occ items n + (if items n ≠ 0 then 1 else 0)

theorem occ_le (items : Nat → Nat) (n : Nat) : occ items n ≤ n := by
  induction n with
  | zero => simp [occ]
  | succ n ih => simp only [occ]; split <;> omega

theorem occ_free {items : Nat → Nat} {n : Nat} (h : occ items n < n) : ∃ i, i < n ∧ items i = 0 := by
  induction n with
  | zero => omega
  | succ n ih =>
    simp only [occ] at h
    by_cases h0 : items n = 0
    · exact ⟨n, by omega, h0⟩
    · rw [if_pos h0] at h
      obtain ⟨i, h1, h2⟩ := ih (by omega)
      exact ⟨i, by omega, h2⟩

theorem occ_upd_ge (items : Nat → Nat) (i v n : Nat) (h : n ≤ i) : occ (upd items i v) n = occ items n := by
  induction n with
  | zero => rfl
  | succ n ih =>
    have : upd items i v n = items n := by simp only [upd]; rw [if_neg (by omega)]
    simp only [occ, ih (by omega), this]

theorem occ_upd (items : Nat → Nat) (i v n : Nat) (h : i < n) :
    occ (upd items i v) n + (if items i ≠ 0 then 1 else 0) = occ items n + (if v ≠ 0 then 1 else 0) := by
  induction n with
  | zero => omega
  | succ n ih =>
    simp only [occ]
    by_cases hin : i = n
    · subst hin
      rw [occ_upd_ge _ _ _ _ (Nat.le_refl _)]
      have : upd items i v i = v := by simp [upd]
      rw [this]; omega
    · have : upd items i v n = items n := by simp only [upd]; rw [if_neg (by omega)]
      rw [this]
      have := ih (by omega)
      omega

theorem occ_zero (n : Nat) : occ (fun _ => 0) n = 0 := by
  induction n with
  | zero => rfl
  | succ n ih => simp [occ, ih]

/-! ## Invariant -/

/-- The table represents the set `l`. -/
structure Rep (s : Set) (l : List Nat) : Prop where
  nh : s.hang = false
  nodup : l.Nodup
  legal : ∀ x ∈ l, 2 ≤ x
  sound : ∀ i, i < s.cap → s.items i = 0 ∨ s.items i = 1 ∨ s.items i ∈ l
  inj : ∀ i j, i < s.cap → j < s.cap → s.items i = s.items j → 2 ≤ s.items i → i = j
  reach : ∀ x ∈ l, ∃ t, t < s.cap ∧ s.items (slot s.cap x t) = x ∧ ∀ u, u < t → s.items (slot s.cap x u) ≠ 0
  len : s.nitems = l.length
  cnt : s.nitems + s.ndeleted = occ s.items s.cap

theorem Set.cap_pos (s : Set) : 0 < s.cap := Nat.two_pow_pos _

theorem Rep.congr {s : Set} {l l' : List Nat} (h : Rep s l) (hp : l.Perm l') : Rep s l' :=
  ⟨h.nh, hp.nodup_iff.mp h.nodup, fun x hx => h.legal x (hp.mem_iff.mpr hx),
    fun i hi => by rcases h.sound i hi with g | g | g
                   · exact Or.inl g
                   · exact Or.inr (Or.inl g)
                   · exact Or.inr (Or.inr (hp.mem_iff.mp g)),
    h.inj, fun x hx => h.reach x (hp.mem_iff.mpr hx), h.len.trans hp.length_eq, h.cnt⟩

theorem rep_empty (nbits : Nat) : Rep (create nbits) [] :=
  ⟨rfl, List.nodup_nil, by simp, fun _ _ => Or.inl rfl, fun i j _ _ _ h => by simp [create] at h, by simp, rfl,
    by simp [create, occ_zero]⟩

/-- Looking for `x`: found exactly if it is a member. -/
theorem probe_rep {s : Set} {l : List Nat} (h : Rep s l) (hfree : occ s.items s.cap < s.cap) {x : Nat} (hx : x ≠ 0)
    (hx1 : x ≠ 1) :
    (x ∈ l ∧ ∃ i, i < s.cap ∧ s.items i = x ∧ probe s.items s.cap x s.cap (start s.cap x) none = .found i) ∨
    (x ∉ l ∧ ∃ u a, u < s.cap ∧ s.items (slot s.cap x u) = 0 ∧
      (∀ w, w < u → s.items (slot s.cap x w) ≠ 0) ∧
      probe s.items s.cap x s.cap (start s.cap x) none = .empty (slot s.cap x u) a ∧
      (a = none ∨ ∃ w, w < u ∧ a = some (slot s.cap x w) ∧ s.items (slot s.cap x w) = 1)) := by
  obtain ⟨i, hi, hi0⟩ := occ_free hfree
  obtain ⟨e, he, hei⟩ := slot_surj s.nbits x i hi
  have he0 : s.items (slot s.cap x e) = 0 := by unfold Set.cap; rw [hei]; exact hi0
  rw [← slot_zero]
  rcases probe_spec s.items s.cap x s.cap 0 none e (by omega) (by simpa [Set.cap] using he) he0 hx with
    ⟨u, _, g2, g3, g4⟩ | ⟨u, a, _, g2, g3, g4, g5, g6⟩
  · left
    have hlt := slot_lt s.cap_pos x u
    refine ⟨?_, slot s.cap x u, hlt, g2, g4⟩
    rcases h.sound _ hlt with h0 | h0 | h0
    · omega
    · omega
    · rw [g2] at h0; exact h0
  · right
    refine ⟨?_, u, a, by simp only [Set.cap] at *; omega, g3, fun w hw => (g4 w (by omega) hw).1, g5, ?_⟩
    · intro hmem
      obtain ⟨t, ht, h1, h2⟩ := h.reach x hmem
      by_cases htu : t < u
      · exact (g4 t (by omega) htu).2 h1
      · by_cases hte : t = u
        · rw [hte, g3] at h1; omega
        · exact h2 u (by omega) g3
    · rcases g6 with g6 | ⟨w, _, w2, w3, w4⟩
      · exact Or.inl g6
      · exact Or.inr ⟨w, w2, w3, w4⟩

/-- Writing a new item into a slot reached before any empty one. -/
theorem insert_rep {s : Set} {l : List Nat} (h : Rep s l) {x u : Nat} (hx : 2 ≤ x) (hxl : x ∉ l) (hu : u < s.cap)
    (hold : s.items (slot s.cap x u) = 0 ∨ s.items (slot s.cap x u) = 1)
    (hpath : ∀ w, w < u → s.items (slot s.cap x w) ≠ 0) {d : Nat}
    (hd : s.nitems + 1 + d = occ s.items s.cap + (if s.items (slot s.cap x u) = 0 then 1 else 0)) :
    Rep { s with items := upd s.items (slot s.cap x u) x, nitems := s.nitems + 1, ndeleted := d } (x :: l) := by
  have hlt := slot_lt s.cap_pos x u
  generalize hj : slot s.cap x u = j at *
  have hcap : Set.cap { s with items := upd s.items j x, nitems := s.nitems + 1, ndeleted := d } = s.cap := rfl
  have hsame : upd s.items j x j = x := by simp [upd]
  have hoth : ∀ i, i ≠ j → upd s.items j x i = s.items i := by intro i hi; simp [upd, hi]
  have hxno : ∀ i, i < s.cap → s.items i ≠ x := by
    intro i hi he
    rcases h.sound i hi with g | g | g
    · omega
    · omega
    · exact hxl (by rw [← he]; exact g)
  have hmono : ∀ i, s.items i ≠ 0 → upd s.items j x i ≠ 0 := by
    intro i hi
    by_cases hij : i = j
    · rw [hij, hsame]; omega
    · rw [hoth i hij]; exact hi
  refine ⟨h.nh, List.nodup_cons.mpr ⟨hxl, h.nodup⟩, ?_, ?_, ?_, ?_, ?_, ?_⟩
  · intro y hy
    rcases List.mem_cons.mp hy with rfl | hy
    · exact hx
    · exact h.legal y hy
  · intro i hi
    show upd s.items j x i = 0 ∨ upd s.items j x i = 1 ∨ upd s.items j x i ∈ x :: l
    by_cases hij : i = j
    · rw [hij, hsame]; right; right; simp
    · rw [hoth i hij]
      rcases h.sound i hi with g | g | g
      · exact Or.inl g
      · exact Or.inr (Or.inl g)
      · exact Or.inr (Or.inr (List.mem_cons_of_mem _ g))
  · intro a b ha hb
    show upd s.items j x a = upd s.items j x b → 2 ≤ upd s.items j x a → a = b
    intro h1 h2
    by_cases haj : a = j <;> by_cases hbj : b = j
    · rw [haj, hbj]
    · rw [haj, hsame, hoth b hbj] at h1; exact absurd h1.symm (hxno b hb)
    · rw [hbj, hsame, hoth a haj] at h1; exact absurd h1 (hxno a ha)
    · rw [hoth a haj, hoth b hbj] at h1
      rw [hoth a haj] at h2
      exact h.inj a b ha hb h1 h2
  · intro y hy
    rw [hcap]
    show ∃ t, t < s.cap ∧ upd s.items j x (slot s.cap y t) = y ∧ ∀ u, u < t → upd s.items j x (slot s.cap y u) ≠ 0
    rcases List.mem_cons.mp hy with rfl | hy
    · exact ⟨u, hu, by rw [hj, hsame], fun w hw => hmono _ (hpath w hw)⟩
    · obtain ⟨t, t1, t2, t3⟩ := h.reach y hy
      refine ⟨t, t1, ?_, fun w hw => hmono _ (t3 w hw)⟩
      rw [hoth _ ?_, t2]
      intro hx2
      have := h.legal y hy
      rw [hx2] at t2
      rcases hold with g | g <;> omega
  · show s.nitems + 1 = _
    rw [h.len]; rfl
  · show s.nitems + 1 + d = occ (upd s.items j x) s.cap
    have hc := occ_upd s.items j x s.cap hlt
    rw [if_pos (show x ≠ 0 by omega)] at hc
    rcases hold with g | g
    · rw [g] at hc hd
      simp at hc hd; omega
    · rw [g] at hc hd
      simp at hc hd; omega

theorem addMember_rep {s : Set} {l : List Nat} (h : Rep s l) (hfree : occ s.items s.cap < s.cap) (x : Nat) :
    Rep (addMember s x).1 (spec l (.add x)).1 ∧ (addMember s x).2 = (spec l (.add x)).2 ∧
    (addMember s x).1.nbits = s.nbits := by
  unfold addMember
  simp only [spec]
  by_cases hx : x = 0 ∨ x = 1
  · rw [if_pos hx, if_pos hx]; exact ⟨h, rfl, rfl⟩
  · rw [if_neg hx, if_neg hx]
    simp only [not_or] at hx
    rcases probe_rep h hfree hx.1 hx.2 with ⟨hm, i, hi, _, hp⟩ | ⟨hm, u, a, hu, h0, hpath, hp, ha⟩
    · rw [hp, if_pos hm]; exact ⟨h, rfl, rfl⟩
    · rw [hp, if_neg hm]
      rcases ha with rfl | ⟨w, hw, rfl, hw1⟩
      · refine ⟨?_, rfl, rfl⟩
        have := h.cnt
        exact insert_rep (d := s.ndeleted) h (by omega) hm hu (Or.inl h0) hpath (by rw [if_pos h0]; omega)
      · refine ⟨?_, rfl, rfl⟩
        have hc := h.cnt
        -- a deleted slot exists, so the number of deleted items is not zero
        have hdel : 1 ≤ s.ndeleted := by
          by_contra hz
          have hocc : occ s.items s.cap = l.length := by rw [← hc, h.len]; omega
          -- the occupied slots of members, and the deleted slot, are too many
          have hlen : ∀ n, (∀ i, i < n → i < s.cap) →
              ((List.range n).filter (fun i => s.items i ≠ 0)).length = occ s.items n := by
            intro n
            induction n with
            | zero => intro _; rfl
            | succ n ih =>
              intro hn
              rw [List.range_succ, List.filter_append, List.length_append, ih (fun i hi => hn i (by omega))]
              simp only [occ]
              by_cases hz : s.items n = 0 <;> simp [hz]
          have hl := hlen s.cap (fun _ h => h)
          -- map members to slots
          choose f hf1 hf2 hf3 using h.reach
          have : ((slot s.cap x w) :: l.attach.map (fun y => slot s.cap y.1 (f y.1 y.2))).Nodup := by
            rw [List.nodup_cons]
            refine ⟨?_, ?_⟩
            · intro hmem
              obtain ⟨y, _, hy⟩ := List.mem_map.mp hmem
              have h1 := hf2 y.1 y.2
              rw [hy, hw1] at h1
              have := h.legal y.1 y.2
              omega
            · refine List.Nodup.map_on ?_ (List.nodup_attach.mpr h.nodup)
              intro y _ z _ hyz
              have h1 := hf2 y.1 y.2
              have h2 := hf2 z.1 z.2
              rw [hyz, h2] at h1
              exact Subtype.ext h1.symm
          have hsub : ((slot s.cap x w) :: l.attach.map (fun y => slot s.cap y.1 (f y.1 y.2))) ⊆
              (List.range s.cap).filter (fun i => s.items i ≠ 0) := by
            intro i hi
            rw [List.mem_filter, List.mem_range]
            rcases List.mem_cons.mp hi with rfl | hi
            · exact ⟨slot_lt s.cap_pos _ _, by simp [hw1]⟩
            · obtain ⟨y, _, rfl⟩ := List.mem_map.mp hi
              refine ⟨slot_lt s.cap_pos _ _, ?_⟩
              have := h.legal y.1 y.2
              rw [hf2 y.1 y.2]
              simp; omega
          have := (this.subperm hsub).length_le
          rw [hl, hocc] at this
          simp at this
          omega
        exact insert_rep (u := w) (d := s.ndeleted - 1) h (by omega) hm (by omega) (Or.inr hw1)
          (fun v hv => hpath v (by omega)) (by rw [hw1]; simp; omega)

/-- Re-adding the slots `is` of the old table. -/
theorem readd_rep {old : Nat → Nat} (is : List Nat) {s : Set} {l : List Nat} (h : Rep s l) (hd : s.ndeleted = 0)
    (hroom : l.length + is.length < s.cap)
    (hnd : ∀ i ∈ is, 2 ≤ old i → old i ∉ l) (hinj : ∀ i ∈ is, ∀ j ∈ is, old i = old j → 2 ≤ old i → i = j)
    (hisnd : is.Nodup) :
    ∃ l', Rep (readd old s is) l' ∧ (readd old s is).ndeleted = 0 ∧ (readd old s is).nbits = s.nbits ∧
      ∀ x, x ∈ l' ↔ x ∈ l ∨ (2 ≤ x ∧ ∃ i ∈ is, old i = x) := by
  induction is generalizing s l with
  | nil => exact ⟨l, h, hd, rfl, by simp⟩
  | cons i is ih =>
    have hocc : occ s.items s.cap < s.cap := by
      rw [← h.cnt, hd, h.len]; simp at hroom; omega
    obtain ⟨a1, a2, a3⟩ := addMember_rep h hocc (old i)
    obtain ⟨hi1, hi2⟩ := List.nodup_cons.mp hisnd
    have hcap : (addMember s (old i)).1.cap = s.cap := by simp only [Set.cap, a3]
    have hdel : (addMember s (old i)).1.ndeleted = 0 := by
      have e1 := a1.cnt
      unfold addMember
      split
      · exact hd
      · rename_i hx
        simp only [not_or] at hx
        rcases probe_rep h hocc hx.1 hx.2 with ⟨_, _, _, _, hp⟩ | ⟨_, u, a, _, _, _, hp, ha⟩
        · rw [hp]; exact hd
        · rw [hp]
          rcases ha with rfl | ⟨w, _, rfl, _⟩
          · exact hd
          · simp [hd]
    by_cases hx : old i = 0 ∨ old i = 1
    · have e : (spec l (.add (old i))).1 = l := by simp [spec, hx]
      rw [e] at a1
      obtain ⟨l', r1, r2, r3, r4⟩ := ih a1 hdel (by rw [hcap]; simp at hroom; omega)
        (fun j hj => hnd j (by simp [hj])) (fun j hj k hk => hinj j (by simp [hj]) k (by simp [hk])) hi2
      refine ⟨l', r1, r2, r3.trans a3, fun x => (r4 x).trans ?_⟩
      constructor
      · rintro (g | ⟨g1, j, g2, g3⟩)
        · exact Or.inl g
        · exact Or.inr ⟨g1, j, by simp [g2], g3⟩
      · rintro (g | ⟨g1, j, g2, g3⟩)
        · exact Or.inl g
        · rcases List.mem_cons.mp g2 with rfl | g2
          · omega
          · exact Or.inr ⟨g1, j, g2, g3⟩
    · have hx2 : 2 ≤ old i := by omega
      have hnl := hnd i (by simp) hx2
      have e : (spec l (.add (old i))).1 = old i :: l := by simp [spec, hx, hnl]
      rw [e] at a1
      obtain ⟨l', r1, r2, r3, r4⟩ := ih a1 hdel (by rw [hcap]; simp at hroom ⊢; omega)
        (fun j hj hj2 hm => by
          rcases List.mem_cons.mp hm with g | g
          · have := hinj j (by simp [hj]) i (by simp) g hj2
            subst this; exact hi1 hj
          · exact hnd j (by simp [hj]) hj2 g)
        (fun j hj k hk => hinj j (by simp [hj]) k (by simp [hk])) hi2
      refine ⟨l', r1, r2, r3.trans a3, fun x => (r4 x).trans ?_⟩
      constructor
      · rintro (g | ⟨g1, j, g2, g3⟩)
        · rcases List.mem_cons.mp g with rfl | g
          · exact Or.inr ⟨hx2, i, by simp, rfl⟩
          · exact Or.inl g
        · exact Or.inr ⟨g1, j, by simp [g2], g3⟩
      · rintro (g | ⟨g1, j, g2, g3⟩)
        · exact Or.inl (by simp [g])
        · rcases List.mem_cons.mp g2 with rfl | g2
          · exact Or.inl (by simp [g3])
          · exact Or.inr ⟨g1, j, g2, g3⟩

/-- Members are exactly the proper contents of the slots. -/
theorem Rep.mem_iff {s : Set} {l : List Nat} (h : Rep s l) (x : Nat) :
    x ∈ l ↔ 2 ≤ x ∧ ∃ i ∈ List.range s.cap, s.items i = x := by
  constructor
  · intro hx
    obtain ⟨t, _, t2, _⟩ := h.reach x hx
    exact ⟨h.legal x hx, _, List.mem_range.mpr (slot_lt s.cap_pos x t), t2⟩
  · rintro ⟨h1, i, hi, rfl⟩
    rcases h.sound i (List.mem_range.mp hi) with g | g | g
    · omega
    · omega
    · exact g

/-- The invariant: a represented set, not overloaded. -/
structure Inv (s : Set) (l : List Nat) : Prop where
  rep : Rep s l
  load : ¬ overloaded s

theorem load_free {c n A B : Nat} (hAB : A ≤ B) (h : ¬ A * c ≤ B * n) : n < c := by
  by_contra hc
  exact h (Nat.mul_le_mul hAB (by omega))

theorem load_double {c n A B : Nat} (hn : n ≤ c) (hc : 0 < c) (hAB : B < 2 * A) : ¬ A * (2 * c) ≤ B * (n + 0) := by
  intro h
  rw [Nat.mul_comm A, Nat.mul_comm B] at h
  have h1 : (n + 0) * B ≤ c * B := Nat.mul_le_mul_right _ (by omega)
  have h2 : c * B < c * (2 * A) := Nat.mul_lt_mul_of_pos_left hAB hc
  have h3 : c * (2 * A) = 2 * c * A := by rw [← Nat.mul_assoc, Nat.mul_comm c 2]
  omega

theorem load_zero {c A B : Nat} (hc : 0 < c) (hA : 0 < A) : ¬ A * c ≤ B * (0 + 0) := by
  rw [Nat.zero_add, Nat.mul_zero]
  exact Nat.not_le.mpr (Nat.mul_pos hA hc)

theorem Inv.free {s : Set} {l : List Nat} (h : Inv s l) : occ s.items s.cap < s.cap := by
  have := h.load
  unfold overloaded at this
  rw [h.rep.cnt] at this
  exact load_free (by decide) this

theorem maybeRehash_inv {s : Set} {l : List Nat} (h : Rep s l) : Inv (maybeRehash s) l := by
  unfold maybeRehash
  by_cases ho : overloaded s
  · rw [if_pos ho]
    have hb : Rep (bigger s) [] :=
      ⟨h.nh, List.nodup_nil, by simp, fun _ _ => Or.inl rfl, fun i j _ _ _ h => by simp [bigger] at h, by simp, rfl,
        by simp [bigger, occ_zero]⟩
    have hcap : (bigger s).cap = 2 * s.cap := by simp [Set.cap, bigger, pow_succ, Nat.mul_comm]
    have hpos := s.cap_pos
    obtain ⟨l', r1, r2, r3, r4⟩ := readd_rep (old := s.items) (List.range s.cap) hb rfl
      (by rw [hcap]; simp; omega) (by simp)
      (fun i hi j hj => h.inj i j (List.mem_range.mp hi) (List.mem_range.mp hj)) List.nodup_range
    have hperm : l'.Perm l := by
      rw [List.perm_ext_iff_of_nodup r1.nodup h.nodup]
      intro x
      rw [r4, h.mem_iff x]; simp
    have hrep := r1.congr hperm
    refine ⟨hrep, ?_⟩
    have hcap' : (readd s.items (bigger s) (List.range s.cap)).cap = 2 * s.cap := by
      rw [← hcap]; exact congrArg (2 ^ ·) r3
    have hn := hrep.len
    have hle : l.length ≤ s.cap := by
      rw [← h.len]
      have := occ_le s.items s.cap
      have := h.cnt
      omega
    unfold overloaded
    rw [hcap', r2, hn]
    exact load_double hle hpos (by decide)
  · rw [if_neg ho]; exact ⟨h, ho⟩

theorem remove_inv {s : Set} {l : List Nat} (h : Inv s l) {x : Nat} (hx1 : x ≠ 1) :
    Inv (remove s x).1 (l.erase x) ∧ (remove s x).2 = if x ∈ l then 1 else 0 := by
  unfold remove
  by_cases hx0 : x = 0
  · subst hx0
    have hn : 0 ∉ l := fun hm => by have := h.rep.legal 0 hm; omega
    -- the loop never finds 0, and stops at an empty slot
    have hp : ∀ fuel ii av i, probe s.items s.cap 0 fuel ii av ≠ .found i := by
      intro fuel
      induction fuel with
      | zero => intro ii av i; simp [probe]
      | succ n ih =>
        intro ii av i
        simp only [probe]
        by_cases hne : s.items ii = 0
        · rw [if_neg (by simpa using hne)]; simp
        · rw [if_pos hne, if_neg hne]; exact ih _ _ _
    have hl : ∀ fuel t e av, t ≤ e → e < t + fuel → s.items (slot s.cap 0 e) = 0 →
        probe s.items s.cap 0 fuel (slot s.cap 0 t) av ≠ .loops := by
      intro fuel
      induction fuel with
      | zero => intro t e av h1 h2; omega
      | succ n ih =>
        intro t e av h1 h2 h3
        simp only [probe]
        by_cases hne : s.items (slot s.cap 0 t) = 0
        · rw [if_neg (by simpa using hne)]; simp
        · rw [if_pos hne, if_neg hne, ← slot_succ]
          have : t ≠ e := by rintro rfl; exact hne h3
          exact ih (t + 1) e _ (by omega) (by omega) h3
    obtain ⟨i, hi, hi0⟩ := occ_free h.free
    obtain ⟨e, he, hei⟩ := slot_surj s.nbits 0 i hi
    have he0 : s.items (slot s.cap 0 e) = 0 := by unfold Set.cap; rw [hei]; exact hi0
    have hl' := hl s.cap 0 e none (by omega) (by simpa [Set.cap] using he) he0
    rw [slot_zero] at hl'
    cases hpr : probe s.items s.cap 0 s.cap (start s.cap 0) none with
    | loops => exact absurd hpr hl'
    | found i => exact absurd hpr (hp _ _ _ _)
    | empty a b => rw [List.erase_of_not_mem hn]; exact ⟨h, by simp [hn]⟩
  · rcases probe_rep h.rep h.free hx0 hx1 with ⟨hm, i, hi, hix, hp⟩ | ⟨hm, u, a, _, _, _, hp, _⟩
    · rw [hp, if_pos hm]
      refine ⟨⟨?_, ?_⟩, rfl⟩
      · have hr := h.rep
        have hsame : upd s.items i 1 i = 1 := by simp [upd]
        have hoth : ∀ j, j ≠ i → upd s.items i 1 j = s.items j := by intro j hj; simp [upd, hj]
        have hmono : ∀ j, s.items j ≠ 0 → upd s.items i 1 j ≠ 0 := by
          intro j hj
          by_cases hij : j = i
          · rw [hij, hsame]; omega
          · rw [hoth j hij]; exact hj
        have hpos : 0 < l.length := List.length_pos_of_mem hm
        refine ⟨hr.nh, hr.nodup.erase x, fun y hy => hr.legal y (List.mem_of_mem_erase hy), ?_, ?_, ?_, ?_, ?_⟩
        · intro j hj
          show upd s.items i 1 j = 0 ∨ upd s.items i 1 j = 1 ∨ upd s.items i 1 j ∈ l.erase x
          by_cases hij : j = i
          · rw [hij, hsame]; simp
          · rw [hoth j hij]
            rcases hr.sound j hj with g | g | g
            · exact Or.inl g
            · exact Or.inr (Or.inl g)
            · right; right
              rw [hr.nodup.mem_erase_iff]
              refine ⟨fun hx2 => ?_, g⟩
              have := hr.legal _ g
              exact hij (hr.inj j i hj hi (by rw [hx2, hix]) this)
        · intro a b ha hb
          show upd s.items i 1 a = upd s.items i 1 b → 2 ≤ upd s.items i 1 a → a = b
          intro h1 h2
          have ha' : a ≠ i := by intro hx; rw [hx, hsame] at h2; omega
          have hb' : b ≠ i := by intro hx; rw [h1, hx, hsame] at h2; omega
          rw [hoth a ha', hoth b hb'] at h1
          rw [hoth a ha'] at h2
          exact hr.inj a b ha hb h1 h2
        · intro y hy
          show ∃ t, t < s.cap ∧ upd s.items i 1 (slot s.cap y t) = y ∧ ∀ u, u < t → upd s.items i 1 (slot s.cap y u) ≠ 0
          rw [hr.nodup.mem_erase_iff] at hy
          obtain ⟨t, t1, t2, t3⟩ := hr.reach y hy.2
          refine ⟨t, t1, ?_, fun w hw => hmono _ (t3 w hw)⟩
          rw [hoth _ ?_, t2]
          intro hx2
          rw [hx2, hix] at t2
          exact hy.1 t2.symm
        · show s.nitems - 1 = _
          rw [List.length_erase_of_mem hm, hr.len]
        · show s.nitems - 1 + (s.ndeleted + 1) = occ (upd s.items i 1) s.cap
          have hc := occ_upd s.items i 1 s.cap hi
          have := hr.cnt
          have := hr.len
          rw [hix] at hc
          simp [hx0] at hc
          omega
      · have := h.load
        have hpos : 0 < l.length := List.length_pos_of_mem hm
        have hlen := h.rep.len
        intro ho
        apply this
        have e : s.nitems - 1 + (s.ndeleted + 1) = s.nitems + s.ndeleted := by omega
        unfold overloaded at ho ⊢
        rw [← e]; exact ho
    · rw [hp, if_neg hm, List.erase_of_not_mem hm]
      exact ⟨h, rfl⟩

theorem isMember_inv {s : Set} {l : List Nat} (h : Inv s l) {x : Nat} (hx1 : x ≠ 1) :
    (isMember s x).1 = s ∧ (isMember s x).2 = if x ∈ l then 1 else 0 := by
  have hr := (remove_inv h hx1)
  unfold isMember
  cases hp : probe s.items s.cap x s.cap (start s.cap x) none with
  | loops =>
    have := hr.1.rep.nh
    simp [remove, hp] at this
  | found i =>
    refine ⟨rfl, ?_⟩
    have h2 := hr.2
    simp only [remove, hp] at h2
    exact h2
  | empty a b =>
    refine ⟨rfl, ?_⟩
    have h2 := hr.2
    simp only [remove, hp] at h2
    exact h2

theorem exec_inv {s : Set} {l : List Nat} (h : Inv s l) (o : Op) (hok : OkOp o) :
    Inv (exec s o).1 (spec l o).1 ∧ (exec s o).2 = (spec l o).2 := by
  cases o with
  | add x =>
    obtain ⟨a1, a2, _⟩ := addMember_rep h.rep h.free x
    exact ⟨maybeRehash_inv a1, a2⟩
  | remove x => exact remove_inv h hok
  | isMember x =>
    obtain ⟨h1, h2⟩ := isMember_inv h hok
    simp only [exec, spec]
    rw [h1]; exact ⟨h, h2⟩
  | numItems => exact ⟨h, by simp only [exec, spec, h.rep.len]⟩

theorem run_inv {s : Set} {l : List Nat} (h : Inv s l) (ops : List Op) (hok : ∀ o ∈ ops, OkOp o) :
    Inv (run s ops).1 (specRun l ops).1 ∧ (run s ops).2 = (specRun l ops).2 := by
  induction ops generalizing s l with
  | nil => exact ⟨h, rfl⟩
  | cons o os ih =>
    obtain ⟨h1, h2⟩ := exec_inv h o (hok o (by simp))
    obtain ⟨h3, h4⟩ := ih h1 (fun o ho => hok o (by simp [ho]))
    exact ⟨h3, by simp only [run, specRun, h2, h4]⟩

theorem inv_create (nbits : Nat) : Inv (create nbits) [] := by
  refine ⟨rep_empty nbits, ?_⟩
  intro h
  unfold overloaded at h
  have e1 : (create nbits).nitems = 0 := rfl
  have e2 : (create nbits).ndeleted = 0 := rfl
  rw [e1, e2] at h
  exact load_zero (create nbits).cap_pos (by decide) h

/-! ## Iteration -/

theorem seek_cases (items : Nat → Nat) (fuel i : Nat) :
    (seek items fuel i = none ∧ ∀ j, i ≤ j → j < i + fuel → items j < 2) ∨
    ∃ k, seek items fuel i = some k ∧ i ≤ k ∧ k < i + fuel ∧ 2 ≤ items k ∧ ∀ j, i ≤ j → j < k → items j < 2 := by
  induction fuel generalizing i with
  | zero => left; exact ⟨rfl, fun j h1 h2 => by omega⟩
  | succ n ih =>
    simp only [seek]
    by_cases hc : items i ≠ 0 ∧ items i ≠ 1
    · rw [if_pos hc]; right
      exact ⟨i, rfl, Nat.le_refl _, by omega, by omega, fun j h1 h2 => by omega⟩
    · rw [if_neg hc]
      have hi : items i < 2 := by omega
      rcases ih (i + 1) with ⟨h1, h2⟩ | ⟨k, h1, h2, h3, h4, h5⟩
      · left; refine ⟨h1, fun j g1 g2 => ?_⟩
        by_cases hj : j = i
        · rw [hj]; exact hi
        · exact h2 j (by omega) (by omega)
      · right; refine ⟨k, h1, by omega, by omega, h4, fun j g1 g2 => ?_⟩
        by_cases hj : j = i
        · rw [hj]; exact hi
        · exact h5 j (by omega) g2

theorem hasNext_eq (s : Set) (i : Nat) : hasNext s i = (itNext s i).isSome := by
  unfold hasNext itNext
  split <;> rfl

theorem iterate_eq (s : Set) (hn : s.nitems = 0 → ∀ j, j < s.cap → s.items j < 2) (fuel i : Nat) (hi : i ≤ s.cap)
    (hf : s.cap ≤ i + fuel) :
    iterate s fuel i = ((List.range' i (s.cap - i)).map s.items).filter (fun v => decide (2 ≤ v)) := by
  have hnil : ∀ i n, (∀ j, i ≤ j → j < i + n → s.items j < 2) →
      ((List.range' i n).map s.items).filter (fun v => decide (2 ≤ v)) = [] := by
    intro i n h
    rw [List.filter_eq_nil_iff]
    intro a ha
    obtain ⟨j, hj, rfl⟩ := List.mem_map.mp ha
    rw [List.mem_range'_1] at hj
    have := h j hj.1 hj.2
    simp; omega
  induction fuel generalizing i with
  | zero =>
    have : s.cap - i = 0 := by omega
    rw [this]; rfl
  | succ n ih =>
    simp only [iterate, hasNext_eq]
    by_cases hc : s.nitems = 0 ∨ i = s.cap
    · have e : itNext s i = none := if_pos hc
      rw [e]
      simp only [Option.isSome_none, Bool.false_eq_true, if_false]
      rw [hnil]
      intro j h1 h2
      rcases hc with hc | hc
      · exact hn hc j (by omega)
      · omega
    · have e : itNext s i = seek s.items (s.cap - i) i := if_neg hc
      rw [e]
      rcases seek_cases s.items (s.cap - i) i with ⟨h1, h2⟩ | ⟨k, h1, h2, h3, h4, h5⟩
      · rw [h1]; simp only [Option.isSome_none, Bool.false_eq_true, if_false]
        rw [hnil _ _ h2]
      · rw [h1]; simp only [Option.isSome_some, if_true]
        rw [ih (k + 1) (by omega) (by omega)]
        have e : s.cap - i = (k - i) + ((s.cap - (k + 1)) + 1) := by omega
        rw [e, ← List.range'_append_1, List.map_append, List.filter_append, hnil i (k - i) (fun j g1 g2 => h5 j g1 (by omega))]
        have e2 : i + (k - i) = k := by omega
        rw [e2, List.range'_succ, List.map_cons, List.filter_cons, if_pos (by simpa using h4)]
        rfl

/-! ## The properties -/

/-- **C35** In every history of operations on a new hash set of any initial size, with legal arguments, every
result is that of the mathematical set, and every probing loop terminates. -/
theorem C35_hashset_is_set (nbits : Nat) (ops : List Op) (hok : ∀ o ∈ ops, OkOp o) :
    (run (create nbits) ops).2 = (specRun [] ops).2 ∧ (run (create nbits) ops).1.hang = false := by
  obtain ⟨h1, h2⟩ := run_inv (inv_create nbits) ops hok
  exact ⟨h2, h1.rep.nh⟩

/-- **C35** After any such history, iterating over the set yields each member exactly once and nothing
else. -/
theorem C35_iteration_yields_members (nbits : Nat) (ops : List Op) (hok : ∀ o ∈ ops, OkOp o) :
    (iterate (run (create nbits) ops).1 (run (create nbits) ops).1.cap 0).Perm (specRun [] ops).1 ∧
    (specRun [] ops).1.Nodup := by
  obtain ⟨h1, _⟩ := run_inv (inv_create nbits) ops hok
  have h := h1.rep
  refine ⟨?_, h.nodup⟩
  generalize (run (create nbits) ops).1 = s at *
  generalize (specRun [] ops).1 = l at *
  rw [iterate_eq s ?_ s.cap 0 (by omega) (by omega)]
  · rw [List.perm_ext_iff_of_nodup ?_ h.nodup]
    · intro x
      rw [h.mem_iff x, List.mem_filter, List.mem_map]
      simp only [Nat.sub_zero, List.mem_range'_1, List.mem_range, decide_eq_true_eq]
      constructor
      · rintro ⟨⟨i, hi, rfl⟩, h2⟩; exact ⟨h2, i, by omega, rfl⟩
      · rintro ⟨h2, i, hi, rfl⟩; exact ⟨⟨i, by omega, rfl⟩, h2⟩
    · rw [List.filter_map]
      refine List.Nodup.map_on ?_ ((List.nodup_range' ).filter _)
      intro a ha b hb hab
      simp only [List.mem_filter, List.mem_range'_1, Function.comp, decide_eq_true_eq] at ha hb
      exact h.inj a b (by omega) (by omega) hab ha.2
  · intro hz j hj
    by_contra hge
    rcases h.sound j hj with g | g | g
    · omega
    · omega
    · have := List.length_pos_of_mem g
      have := h.len
      omega

/-- The specification is a set: adding and removing affect membership of the given item only. -/
theorem C35_spec_membership (l : List Nat) (hl : l.Nodup) (x y : Nat) :
    (y ∈ (spec l (.add x)).1 ↔ y ∈ l ∨ (y = x ∧ 2 ≤ x)) ∧ (y ∈ (spec l (.remove x)).1 ↔ y ∈ l ∧ y ≠ x) := by
  constructor
  · simp only [spec]
    by_cases h1 : x = 0 ∨ x = 1
    · rw [if_pos h1]
      constructor
      · exact Or.inl
      · rintro (h | ⟨_, h⟩)
        · exact h
        · omega
    · rw [if_neg h1]
      have hx2 : 2 ≤ x := by omega
      by_cases h2 : x ∈ l
      · rw [if_pos h2]
        constructor
        · exact Or.inl
        · rintro (h | ⟨rfl, _⟩)
          · exact h
          · exact h2
      · rw [if_neg h2, List.mem_cons]
        tauto
  · simp only [spec]
    rw [hl.mem_erase_iff]; tauto

/-- The reserved item 1 must not be used: it matches deleted slots, so that it is reported as a member, and
removing it makes the number of items wrong. -/
theorem C35_reserved_item_matches_deleted :
    (run (create 3) [.add 5, .remove 5, .add 2, .isMember 1]).2 = [1, 1, 1, 0] ∧
    (run (create 3) [.add 9, .remove 9, .isMember 1]).2 = [1, 1, 1] ∧
    (run (create 3) [.add 2, .add 9, .remove 9, .remove 1, .isMember 2, .numItems]).2 = [1, 1, 1, 1, 1, 0] := by
  refine ⟨?_, ?_, ?_⟩ <;> decide +kernel

/-- A history with collisions (in a table of 4, items 4, 8 and 12 start at the same slot), deletion, reuse of a
deleted slot and rehashing. -/
example : (∀ o ∈ [Op.add 4, .add 8, .add 4, .remove 4, .isMember 8, .add 12, .add 16, .add 20, .isMember 4, .numItems],
      OkOp o) ∧
    (run (create 2) [.add 4, .add 8, .add 4, .remove 4, .isMember 8, .add 12, .add 16, .add 20, .isMember 4, .numItems]).2 =
      [1, 1, 0, 1, 1, 1, 1, 1, 0, 4] ∧
    (run (create 2) [.add 4, .add 8, .add 4, .remove 4, .isMember 8, .add 12, .add 16, .add 20]).1.nbits = 3 := by
  refine ⟨by simp [OkOp], by decide +kernel, by decide +kernel⟩

end ReactorC.HashSet
