import Verif.HashMap.Model
import Mathlib.Tactic.Common
import Mathlib.Data.List.Nodup
import Mathlib.Data.List.Perm.Subperm

/-! # C36: the hash map behaves as a finite map -/

namespace ReactorC.HashMap

variable {K V : Type} [DecidableEq K]

/-! ## Specification -/

/-- The value of the last `put` with key `k` in a history, most recent operation first. -/
def lastPut (k : K) : List (Op K V) → Option V
  | [] => none
  | .put k' v :: h => if k' = k then some v else lastPut k h
  | .get _ :: h => lastPut k h

/-- The distinct keys put in a history. -/
def keysPut : List (Op K V) → List K
  | [] => []
  | .put k _ :: h => if k ∈ keysPut h then keysPut h else k :: keysPut h
  | .get _ :: h => keysPut h

/-- What the documentation asks of the next operation: the key is not the reserved one; a value is read only
for a key present; a new key is put only when fewer keys than the capacity are present. -/
def OkOp (cap : Nat) (nothing : K) (h : List (Op K V)) : Op K V → Prop
  | .put k _ => k ≠ nothing ∧ (k ∈ keysPut h ∨ (keysPut h).length < cap)
  | .get k => k ≠ nothing ∧ k ∈ keysPut h

/-- A history (most recent first) followed by operations that satisfy the preconditions. -/
def OkRun (cap : Nat) (nothing : K) : List (Op K V) → List (Op K V) → Prop
  | _, [] => True
  | h, o :: os => OkOp cap nothing h o ∧ OkRun cap nothing (o :: h) os

/-- The results a map has to give. -/
def results : List (Op K V) → List (Op K V) → List (Option V)
  | _, [] => []
  | h, .put k v :: os => results (.put k v :: h) os
  | h, .get k :: os => lastPut k h :: results (.get k :: h) os

/-! ## Lemmas -/

theorem scan_some (key : Nat → K) (nothing k : K) (fuel i e : Nat) (he : i ≤ e) (hf : e < i + fuel)
    (hk : key e = nothing ∨ key e = k) :
    ∃ a, scan key nothing k fuel i = some a ∧ i ≤ a ∧ a ≤ e ∧ (key a = nothing ∨ key a = k) ∧
      ∀ j, i ≤ j → j < a → key j ≠ nothing ∧ key j ≠ k := by
  induction fuel generalizing i with
  | zero => omega
  | succ n ih =>
    simp only [scan]
    by_cases hc : key i ≠ nothing ∧ key i ≠ k
    · rw [if_pos hc]
      have hne : i ≠ e := by
        rintro rfl
        rcases hk with h | h
        · exact hc.1 h
        · exact hc.2 h
      obtain ⟨a, h1, h2, h3, h4, h5⟩ := ih (i + 1) (by omega) (by omega)
      refine ⟨a, h1, by omega, h3, h4, fun j hj hja => ?_⟩
      by_cases hji : j = i
      · subst hji; exact hc
      · exact h5 j (by omega) hja
    · rw [if_neg hc]
      refine ⟨i, rfl, Nat.le_refl _, he, ?_, fun j h1 h2 => by omega⟩
      by_cases h : key i = nothing
      · exact Or.inl h
      · right; by_contra h2; exact hc ⟨h, h2⟩

/-- The slot `j` can be reached from the ideal slot of its key: no empty entry lies before it in probe order. -/
def Reach (m : Map K V) (h j : Nat) : Prop :=
  (h ≤ j ∧ ∀ i, h ≤ i → i < j → m.key i ≠ m.nothing) ∨
  (j < h ∧ (∀ i, h ≤ i → i < m.cap → m.key i ≠ m.nothing) ∧ ∀ i, i < j → m.key i ≠ m.nothing)

structure Inv (hash : K → Nat) (cap : Nat) (nothing : K) (h : List (Op K V)) (m : Map K V) : Prop where
  nf : m.fault = false
  capE : m.cap = cap
  nothE : m.nothing = nothing
  sent : m.key m.cap = m.nothing
  inj : ∀ i j, i < m.cap → j < m.cap → m.key i = m.key j → m.key i ≠ m.nothing → i = j
  mem : ∀ i, i < m.cap → m.key i ≠ m.nothing → m.key i ∈ keysPut h
  pres : ∀ k, k ∈ keysPut h → k ≠ m.nothing ∧ ∃ j, j < m.cap ∧ m.key j = k ∧ m.val j = lastPut k h ∧
    Reach m (hash k % m.cap) j
  nodup : (keysPut h).Nodup

theorem inv_new (hash : K → Nat) (cap : Nat) (nothing : K) : Inv hash cap nothing [] (new cap nothing : Map K V) :=
  ⟨rfl, rfl, rfl, rfl, fun i j _ _ _ h => absurd rfl h, fun i _ h => absurd rfl h, by simp [keysPut], by simp [keysPut]⟩

theorem address_present {hash : K → Nat} {cap : Nat} {nothing : K} {h : List (Op K V)} {m : Map K V}
    (hi : Inv hash cap nothing h m) {k : K} (hk : k ∈ keysPut h) :
    ∃ j, address hash m k = .slot j ∧ j < m.cap ∧ m.key j = k ∧ m.val j = lastPut k h := by
  obtain ⟨hkn, j, hj, hjk, hjv, hr⟩ := hi.pres k hk
  have hcap : m.cap ≠ 0 := by omega
  have hmod : hash k % m.cap < m.cap := Nat.mod_lt _ (by omega)
  refine ⟨j, ?_, hj, hjk, hjv⟩
  unfold address
  rw [if_neg hcap]
  obtain ⟨a, e1, h2, h3, h4, h5⟩ := scan_some m.key m.nothing k (m.cap + 1 - hash k % m.cap) (hash k % m.cap) m.cap
    (by omega) (by omega) (Or.inl hi.sent)
  rw [e1]
  dsimp only
  rcases hr with ⟨r1, r2⟩ | ⟨r1, r2, r3⟩
  · -- found in the first pass
    have haj : a = j := by
      by_contra hne
      rcases Nat.lt_or_gt_of_ne hne with hlt | hgt
      · rcases h4 with h4 | h4
        · exact r2 a h2 hlt h4
        · exact hne (hi.inj a j (by omega) hj (h4.trans hjk.symm) (by rw [h4]; exact hkn))
      · exact (h5 j r1 hgt).2 hjk
    rw [if_neg (by omega), haj]
  · have ha : a = m.cap := by
      by_contra hne
      have hlt : a < m.cap := by omega
      rcases h4 with h4 | h4
      · exact r2 a h2 hlt h4
      · have := hi.inj a j hlt hj (h4.trans hjk.symm) (by rw [h4]; exact hkn)
        omega
    rw [if_pos ha]
    obtain ⟨b, e2, g2, g3, g4, g5⟩ := scan_some m.key m.nothing k (m.cap + 1) 0 m.cap (by omega) (by omega) (Or.inl hi.sent)
    rw [e2]
    dsimp only
    have hbj : b = j := by
      by_contra hne
      rcases Nat.lt_or_gt_of_ne hne with hlt | hgt
      · rcases g4 with g4 | g4
        · exact r3 b hlt g4
        · exact hne (hi.inj b j (by omega) hj (g4.trans hjk.symm) (by rw [g4]; exact hkn))
      · exact (g5 j (by omega) hgt).2 hjk
    rw [if_neg (by omega), hbj]

theorem address_new {hash : K → Nat} {cap : Nat} {nothing : K} {h : List (Op K V)} {m : Map K V}
    (hi : Inv hash cap nothing h m) {k : K} (hkn : k ≠ m.nothing) (hk : k ∉ keysPut h)
    (hroom : (keysPut h).length < m.cap) :
    ∃ j, address hash m k = .slot j ∧ j < m.cap ∧ m.key j = m.nothing ∧ Reach m (hash k % m.cap) j := by
  have hnk : ∀ i, i < m.cap → m.key i ≠ k := by
    intro i h1 h2
    exact hk (by rw [← h2]; exact hi.mem i h1 (by rw [h2]; exact hkn))
  -- there is an empty entry
  have hfree : ∃ e, e < m.cap ∧ m.key e = m.nothing := by
    by_contra hno
    have hall : ∀ i, i < m.cap → m.key i ≠ m.nothing := fun i h1 h2 => hno ⟨i, h1, h2⟩
    have hnd : ((List.range m.cap).map m.key).Nodup := by
      refine List.Nodup.map_on ?_ List.nodup_range
      intro x hx y hy hxy
      rw [List.mem_range] at hx hy
      exact hi.inj x y hx hy hxy (hall x hx)
    have hsub : (List.range m.cap).map m.key ⊆ keysPut h := by
      intro x hx
      obtain ⟨i, h1, rfl⟩ := List.mem_map.mp hx
      rw [List.mem_range] at h1
      exact hi.mem i h1 (hall i h1)
    have := (hnd.subperm hsub).length_le
    simp at this; omega
  obtain ⟨e, he, hek⟩ := hfree
  have hcap : m.cap ≠ 0 := by omega
  have hmod : hash k % m.cap < m.cap := Nat.mod_lt _ (by omega)
  unfold address
  rw [if_neg hcap]
  obtain ⟨a, e1, h2, h3, h4, h5⟩ := scan_some m.key m.nothing k (m.cap + 1 - hash k % m.cap) (hash k % m.cap) m.cap
    (by omega) (by omega) (Or.inl hi.sent)
  rw [e1]
  dsimp only
  by_cases ha : a = m.cap
  · rw [if_pos ha]
    have heh : e < hash k % m.cap := by
      by_contra hge
      exact (h5 e (by omega) (by omega)).1 hek
    obtain ⟨b, e2, g2, g3, g4, g5⟩ := scan_some m.key m.nothing k (m.cap + 1) 0 e (by omega) (by omega) (Or.inl hek)
    rw [e2]
    dsimp only
    refine ⟨b, if_neg (by omega), by omega, ?_, Or.inr ⟨by omega, ?_, ?_⟩⟩
    · exact g4.resolve_right (hnk b (by omega))
    · intro i h6 h7; exact (h5 i h6 (by omega)).1
    · intro i h6; exact (g5 i (by omega) h6).1
  · rw [if_neg ha]
    refine ⟨a, rfl, by omega, h4.resolve_right (hnk a (by omega)), Or.inl ⟨h2, ?_⟩⟩
    intro i h6 h7; exact (h5 i h6 h7).1

/-- Writing a key into an entry keeps all slots reachable. -/
theorem reach_write {m m' : Map K V} {h j : Nat} (hc : m'.cap = m.cap) (hn : m'.nothing = m.nothing)
    (hk : ∀ i, m.key i ≠ m.nothing → m'.key i ≠ m.nothing) (hr : Reach m h j) : Reach m' h j := by
  unfold Reach at *
  rw [hc, hn]
  rcases hr with ⟨r1, r2⟩ | ⟨r1, r2, r3⟩
  · exact Or.inl ⟨r1, fun i a b => hk i (r2 i a b)⟩
  · exact Or.inr ⟨r1, fun i a b => hk i (r2 i a b), fun i a => hk i (r3 i a)⟩

theorem put_inv {hash : K → Nat} {cap : Nat} {nothing : K} {h : List (Op K V)} {m : Map K V}
    (hi : Inv hash cap nothing h m) {k : K} {v : V} (hok : OkOp cap nothing h (.put k v)) :
    Inv hash cap nothing (.put k v :: h) (put hash m k v) := by
  obtain ⟨hkn, hroom⟩ := hok
  rw [← hi.nothE] at hkn
  rw [← hi.capE] at hroom
  by_cases hk : k ∈ keysPut h
  · obtain ⟨j, e, hj, hjk, hjv⟩ := address_present hi hk
    have hkeys : keysPut (.put k v :: h) = keysPut h := by simp [keysPut, hk]
    have hsame : ∀ i, (if i = j then k else m.key i) = m.key i := by
      intro i; by_cases hij : i = j
      · rw [if_pos hij, hij, hjk]
      · rw [if_neg hij]
    unfold put
    rw [e]
    dsimp only
    simp only [hsame]
    refine ⟨hi.nf, hi.capE, hi.nothE, hi.sent, hi.inj, ?_, ?_, by rw [hkeys]; exact hi.nodup⟩
    · rw [hkeys]; exact hi.mem
    · rw [hkeys]
      intro k' hk'
      obtain ⟨p1, j', p2, p3, p4, p5⟩ := hi.pres k' hk'
      refine ⟨p1, j', p2, p3, ?_, reach_write (m := m) rfl rfl (fun _ h => h) p5⟩
      by_cases hjj : j' = j
      · have : k = k' := by rw [← hjk, ← p3, hjj]
        simp [hjj, lastPut, this]
      · have : k ≠ k' := by
          intro hx; subst hx
          exact hjj (hi.inj j' j p2 hj (p3.trans hjk.symm) (by rw [p3]; exact p1))
        simp only [if_neg hjj, lastPut, if_neg this]; exact p4
  · obtain ⟨j, e, hj, hjk, hreach⟩ := address_new hi hkn hk (hroom.resolve_left hk)
    have hkeys : keysPut (.put k v :: h) = k :: keysPut h := by simp [keysPut, hk]
    have hnk : ∀ i, i < m.cap → m.key i ≠ k := by
      intro i h1 h2
      exact hk (by rw [← h2]; exact hi.mem i h1 (by rw [h2]; exact hkn))
    have hmono : ∀ i, m.key i ≠ m.nothing → (if i = j then k else m.key i) ≠ m.nothing := by
      intro i hn
      by_cases hij : i = j
      · rw [if_pos hij]; exact hkn
      · rw [if_neg hij]; exact hn
    unfold put
    rw [e]
    refine ⟨hi.nf, hi.capE, hi.nothE, ?_, ?_, ?_, ?_, ?_⟩
    · show (if m.cap = j then k else m.key m.cap) = m.nothing
      rw [if_neg (by omega)]; exact hi.sent
    · intro x y hx hy
      change x < m.cap at hx
      change y < m.cap at hy
      dsimp only
      intro h1 h2
      by_cases hxj : x = j <;> by_cases hyj : y = j
      · rw [hxj, hyj]
      · rw [if_pos hxj, if_neg hyj] at h1
        exact absurd h1.symm (hnk y hy)
      · rw [if_neg hxj, if_pos hyj] at h1
        exact absurd h1 (hnk x hx)
      · rw [if_neg hxj, if_neg hyj] at h1
        rw [if_neg hxj] at h2
        exact hi.inj x y hx hy h1 h2
    · intro x hx
      change x < m.cap at hx
      dsimp only
      rw [hkeys]
      by_cases hxj : x = j
      · rw [if_pos hxj]; simp
      · rw [if_neg hxj]; intro h1; exact List.mem_cons_of_mem _ (hi.mem x hx h1)
    · intro k' hk'
      rw [hkeys] at hk'
      by_cases hkk : k' = k
      · subst hkk
        refine ⟨hkn, j, hj, by simp, by simp [lastPut], ?_⟩
        exact reach_write (m := m) rfl rfl hmono hreach
      · have hk2 := (List.mem_cons.mp hk').resolve_left hkk
        obtain ⟨p1, j', p2, p3, p4, p5⟩ := hi.pres k' hk2
        have hjj : j' ≠ j := by
          rintro rfl
          rw [hjk] at p3; exact p1 p3.symm
        refine ⟨p1, j', p2, by simp only [if_neg hjj]; exact p3, ?_, reach_write (m := m) rfl rfl hmono p5⟩
        simp only [if_neg hjj, lastPut, if_neg (Ne.symm hkk)]; exact p4
    · rw [hkeys]; exact List.nodup_cons.mpr ⟨hk, hi.nodup⟩

theorem run_inv {hash : K → Nat} {cap : Nat} {nothing : K} (ops : List (Op K V)) :
    ∀ (h : List (Op K V)) (m : Map K V), Inv hash cap nothing h m → OkRun cap nothing h ops →
      (run hash m ops).2 = results h ops ∧ (run hash m ops).1.fault = false := by
  induction ops with
  | nil => intro h m hi _; exact ⟨rfl, hi.nf⟩
  | cons o os ih =>
    intro h m hi hok
    obtain ⟨h1, h2⟩ := hok
    cases o with
    | put k v => exact ih _ _ (put_inv hi h1) h2
    | get k =>
      obtain ⟨j, e, hj, hjk, hjv⟩ := address_present hi h1.2
      have hi' : Inv hash cap nothing (.get k :: h) m :=
        ⟨hi.nf, hi.capE, hi.nothE, hi.sent, hi.inj, hi.mem, hi.pres, hi.nodup⟩
      obtain ⟨g1, g2⟩ := ih _ _ hi' h2
      have eg : get hash m k = (m, lastPut k h) := by
        unfold get; rw [e]; dsimp only; rw [hjv]
      simp only [run, results, eg, g1]
      exact ⟨trivial, g2⟩

/-! ## The property -/

/-- **C36** For every hash function, capacity and history that uses no more distinct keys than the capacity
and reads only keys that are present, every read returns the value last put with that key, and no access is
out of bounds. -/
theorem C36_hashmap_is_map (hash : K → Nat) (cap : Nat) (nothing : K) (ops : List (Op K V))
    (hok : OkRun cap nothing [] ops) :
    (run hash (new cap nothing) ops).2 = results [] ops ∧ (run hash (new cap nothing) ops).1.fault = false :=
  run_inv ops [] _ (inv_new hash cap nothing) hok

/-- **C36** A key read is always one put before, so results are never the uninitialised value. -/
theorem C36_reads_are_values (h : List (Op K V)) (k : K) (hk : k ∈ keysPut h) : ∃ v, lastPut k h = some v := by
  induction h with
  | nil => simp [keysPut] at hk
  | cons o h ih =>
    cases o with
    | put k' v =>
      by_cases he : k' = k
      · exact ⟨v, by simp [lastPut, he]⟩
      · simp only [lastPut, if_neg he]
        apply ih
        simp only [keysPut] at hk
        split at hk
        · exact hk
        · exact (List.mem_cons.mp hk).resolve_left (Ne.symm he)
    | get _ => exact ih hk

/-- Beyond the precondition: one more distinct key than the capacity writes through a null pointer, and a map
of capacity zero divides by zero. -/
theorem C36_overfull_put_faults :
    (run (fun k : Nat => k) (new 2 0) [Op.put 1 10, Op.put 2 20, Op.put 3 30]).1.fault = true ∧
    (run (fun k : Nat => k) (new 0 0) [Op.put 1 10]).1.fault = true := by
  constructor <;> decide

/-- A full map with all keys colliding, wrapping around the end of the array. -/
example : OkRun 3 0 [] [Op.put 1 10, .put 2 20, .put 3 30, .put 1 11, .get 3, .get 1, .get 2] ∧
    (run (fun _ : Nat => 2) (new 3 0) [Op.put 1 10, .put 2 20, .put 3 30, .put 1 11, .get 3, .get 1, .get 2]).2 =
      [some 30, some 11, some 20] := by
  constructor
  · simp [OkRun, OkOp, keysPut]
  · decide

end ReactorC.HashMap
