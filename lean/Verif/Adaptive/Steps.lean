import Verif.Adaptive.Places

/-!
# The steps that move reactions
-/

set_option linter.unusedVariables false
set_option linter.unusedSimpArgs false

namespace ReactorC.Adaptive

open Np (Ev Who put)

section
variable {C : Config} {s s' : State} {w : Nat} {loc : Nat → Loc}

theorem put2_same {α : Type} (f : Nat → Nat → α) (l v : Nat) (a : α) : put f l (put (f l) v a) l v = a := by simp [put]

theorem put2_ne {α : Type} (f : Nat → Nat → α) {l v l' v' : Nat} (a : α) (h : l' = l → v' ≠ v) :
    put f l (put (f l) v a) l' v' = f l' v' := by
  unfold put
  split
  · rename_i e; subst e; simp [h rfl]
  · rfl

/-- A thread lowers the number of reactions of a worker and gets an index. -/
theorem Data.take (h : Data C s loc) {sn v : Nat} (hp : s.pc w = .get sn v) (hpos : 0 ≤ s.cnt s.cur v - 1)
    (hstore : ∀ t who r v i, s.pc t = .store who r v i → C.level r ≠ s.cur)
    (hpc : s'.pc = put s.pc w (.took v (s.cnt s.cur v - 1).toNat)) (hq : s'.queued = s.queued) (ha : s'.arr = s.arr)
    (hc : s'.cnt = put s.cnt s.cur (put (s.cnt s.cur) v (s.cnt s.cur v - 1)))
    (hcur : s'.cur = s.cur) (hnw : s'.nw = s.nw) (hnum : s'.num = s.num) :
    ∃ r, C.level r = s.cur ∧ loc r = .slot v (s.cnt s.cur v - 1).toNat ∧ Data C s' (put loc r (.with w .took)) := by
  obtain ⟨r, hr1, hr2⟩ := h.p.full s.cur v (s.cnt s.cur v - 1).toNat (by omega)
  refine ⟨r, hr1, hr2, ?_⟩
  have hpx : ∀ x, x ≠ w → s'.pc x = s.pc x := fun x hx => by rw [hpc, put_ne _ _ hx]
  have hpw : s'.pc w = .took v (s.cnt s.cur v - 1).toNat := by rw [hpc, put_same]
  obtain ⟨q1, q2, q3⟩ := h.p.slot r v _ hr2
  have harr : s.arr s.cur v (s.cnt s.cur v - 1).toNat = some r := by
    rcases q3 with k | ⟨t, who, k⟩
    · rw [hr1] at k; exact k
    · exact absurd hr1 (hstore _ _ _ _ _ k)
  have hne : ∀ x v' i', loc x = .slot v' i' → x ≠ r → C.level x = s.cur → v' = v → (i' : Int) < s.cnt s.cur v - 1 := by
    rintro x v' i' k kr kl rfl
    have k2 := (h.p.slot x _ _ k).2.1
    rw [kl] at k2
    by_cases e : i' = (s.cnt s.cur v' - 1).toNat
    · subst e; exact absurd (h.p.inj x r _ _ k hr2 (by rw [kl, hr1])) kr
    · omega
  refine ⟨⟨?_, ?_, ?_, ?_, ?_, ?_, ?_, ?_⟩, ⟨?_, ?_, ?_, ?_⟩, ⟨?_, ?_, ?_, ?_, ?_⟩⟩
  · intro x
    rw [hq, h.p.queued x]
    by_cases e : x = r
    · subst e; rw [put_same, hr2]; simp
    · rw [put_ne _ _ e]
  · intro x t k
    rw [ha, hcur]
    by_cases e : t = w
    · subst e
      rw [hpw]
      by_cases e : x = r
      · subst e; rw [put_same]
        simp only [Pc.Has, harr, Loc.with.injEq, true_and, and_true]
        exact eq_comm
      · rw [put_ne _ _ e, h.p.held x t k, hp]
        simp only [Pc.Has, harr, Option.some.injEq, false_iff, not_and]
        exact fun _ e' => e e'.symm
    · rw [hpx t e, ← h.p.held x t k]
      by_cases e' : x = r
      · subst e'; rw [put_same, hr2]; simp [Ne.symm e]
      · rw [put_ne _ _ e']
  · intro t v' i' k
    rw [ha, hcur]
    by_cases e : t = w
    · subst e
      rw [hpw] at k; cases k; rw [harr]; simp
    · rw [hpx t e] at k; exact h.p.took t v' i' k
  · intro x v' i' k
    by_cases e : x = r
    · subst e; rw [put_same] at k; cases k
    · rw [put_ne _ _ e] at k
      obtain ⟨k1, k2, k3⟩ := h.p.slot x v' i' k
      rw [hnw, ha, hc]
      refine ⟨k1, ?_, k3.elim .inl fun ⟨t, who, k⟩ => .inr ⟨t, who, ?_⟩⟩
      · by_cases e1 : C.level x = s.cur ∧ v' = v
        · obtain ⟨e1, rfl⟩ := e1
          rw [e1, put2_same]; exact hne x _ _ k e e1 rfl
        · rw [put2_ne _ _ (fun a b => e1 ⟨a, b⟩)]; exact k2
      · have : t ≠ w := by rintro rfl; rw [hp] at k; cases k
        rw [hpx t this]; exact k
  · intro t who x v' i' k
    have : t ≠ w := by rintro rfl; rw [hpw] at k; cases k
    rw [hpx t this] at k
    have k1 := h.p.store t who x v' i' k
    by_cases e : x = r
    · subst e; exact absurd hr1 (hstore _ _ _ _ _ k)
    · rw [put_ne _ _ e]; exact k1
  · intro l v' i' k
    rw [hc] at k
    by_cases e1 : l = s.cur ∧ v' = v
    · obtain ⟨rfl, rfl⟩ := e1
      rw [put2_same] at k
      obtain ⟨x, k1, k2⟩ := h.p.full s.cur v' i' (by omega)
      refine ⟨x, k1, ?_⟩
      have : x ≠ r := by
        rintro rfl
        rw [hr2] at k2
        injection k2 with _ k2
        omega
      rw [put_ne _ _ this]; exact k2
    · rw [put2_ne _ _ (fun a b => e1 ⟨a, b⟩)] at k
      obtain ⟨x, k1, k2⟩ := h.p.full l v' i' k
      refine ⟨x, k1, ?_⟩
      have : x ≠ r := by
        rintro rfl
        rw [hr2] at k2
        injection k2 with k2
        exact e1 ⟨by rw [← k1, hr1], k2.symm⟩
      rw [put_ne _ _ this]; exact k2
  · intro x y v' i' k1 k2 k3
    by_cases e : x = r
    · subst e; rw [put_same] at k1; cases k1
    · by_cases e' : y = r
      · subst e'; rw [put_same] at k2; cases k2
      · rw [put_ne _ _ e] at k1; rw [put_ne _ _ e'] at k2
        exact h.p.inj x y v' i' k1 k2 k3
  · intro x k
    by_cases e : x = r
    · subst e; exact h.p.prog x (by rw [hr2]; simp)
    · rw [put_ne _ _ e] at k; exact h.p.prog x k
  · intro x k
    rw [hcur]
    by_cases e : x = r
    · subst e; omega
    · rw [put_ne _ _ e] at k; exact h.l.low x k
  · intro x t k k1 k2
    rw [hcur]
    by_cases e : x = r
    · subst e; exact hr1
    · rw [put_ne _ _ e] at k1; exact h.l.here x t k k1 k2
  · intro t
    by_cases e : t = w
    · subst e; rw [hpw]; trivial
    · rw [hpx t e]; exact h.l.above t
  · intro t k
    rw [hcur]
    by_cases e : t = w
    · subst e; rw [hpw] at k; cases k
    · rw [hpx t e] at k; exact h.l.opens t k
  · intro l v' k
    rw [hcur] at k
    rw [hc, put2_ne _ _ (fun e => absurd e k)]; exact h.n.nonneg l v' k
  · intro v' k
    rw [hcur, hc] at k
    by_cases e : v' = v
    · subst e; rw [put2_same] at k; omega
    · rw [put2_ne _ _ (fun _ => e)] at k
      obtain ⟨t, sn', k⟩ := h.n.neg v' k
      have : t ≠ w := by rintro rfl; rw [hp] at k; cases k
      exact ⟨t, sn', by rw [hpx t this]; exact k⟩
  · intro t sn' v' k
    rw [hcur, hc]
    have : t ≠ w := by rintro rfl; rw [hpw] at k; cases k
    rw [hpx t this] at k
    have k1 := h.n.zeroed t sn' v' k
    by_cases e : v' = v
    · subst e; rw [put2_same]; omega
    · rw [put2_ne _ _ (fun _ => e)]; exact k1
  · rw [hnw]; exact h.n.nw
  · rw [hnum, hnw, hcur]; exact h.n.num

/-- A step that changes the numbers of reactions of a worker at the current level that has none. -/
theorem Data.recount (h : Data C s loc) {v : Nat} {c : Int} {p : Pc} (hle : s.cnt s.cur v ≤ 0) (hcle : c ≤ 0)
    (hpc : s'.pc = put s.pc w p) (ho : (∃ sn, s.pc w = .get sn v) ∨ ∃ sn, s.pc w = .zero sn v)
    (hp : (∃ sn, p = .zero sn v) ∨ c = 0 ∧ ∃ sn, p = .scan sn v)
    (hq : s'.queued = s.queued) (ha : s'.arr = s.arr)
    (hc : s'.cnt = put s.cnt s.cur (put (s.cnt s.cur) v c))
    (hcur : s'.cur = s.cur) (hnw : s'.nw = s.nw) (hnum : s'.num = s.num) : Data C s' loc := by
  have hpx : ∀ x, x ≠ w → s'.pc x = s.pc x := fun x hx => by rw [hpc, put_ne _ _ hx]
  have hpw : s'.pc w = p := by rw [hpc, put_same]
  have hstore : ∀ t who r v i, s'.pc t = .store who r v i ↔ s.pc t = .store who r v i := by
    intro t who r v i
    by_cases e : t = w
    · subst e
      rw [hpw]
      constructor
      · intro k; rw [k] at hp; rcases hp with ⟨_, e⟩ | ⟨_, _, e⟩ <;> cases e
      · intro k; rw [k] at ho; rcases ho with ⟨_, e⟩ | ⟨_, e⟩ <;> cases e
    · rw [hpx t e]
  refine ⟨⟨?_, ?_, ?_, ?_, ?_, ?_, h.p.inj, h.p.prog⟩, ⟨?_, ?_, ?_, ?_⟩, ⟨?_, ?_, ?_, ?_, ?_⟩⟩
  · rw [hq]; exact h.p.queued
  · intro r t k
    rw [ha, hcur, h.p.held r t k]
    by_cases e : t = w
    · subst e
      rw [hpw]
      constructor
      · intro k; rcases ho with ⟨_, e⟩ | ⟨_, e⟩ <;> rw [e] at k <;> exact k.elim
      · intro k; rcases hp with ⟨_, e⟩ | ⟨_, _, e⟩ <;> rw [e] at k <;> exact k.elim
    · rw [hpx t e]
  · intro t v i k
    rw [ha, hcur]
    by_cases e : t = w
    · subst e
      rw [hpw] at k; rw [k] at hp; rcases hp with ⟨_, e⟩ | ⟨_, _, e⟩ <;> cases e
    · rw [hpx t e] at k; exact h.p.took t v i k
  · intro r v' i k
    rw [hnw, hc, ha]
    obtain ⟨k1, k2, k3⟩ := h.p.slot r v' i k
    refine ⟨k1, ?_, k3.elim .inl fun ⟨t, who, k⟩ => .inr ⟨t, who, (hstore ..).2 k⟩⟩
    rw [put2_ne]
    · exact k2
    · rintro e rfl; rw [e] at k2; omega
  · intro t who r v i k
    exact h.p.store t who r v i ((hstore ..).1 k)
  · intro l v' i k
    rw [hc] at k
    by_cases e1 : l = s.cur ∧ v' = v
    · obtain ⟨rfl, rfl⟩ := e1
      rw [put2_same] at k; omega
    · rw [put2_ne _ _ (fun a b => e1 ⟨a, b⟩)] at k; exact h.p.full l v' i k
  · rw [hcur]; exact h.l.low
  · rw [hcur]; exact h.l.here
  · intro t
    by_cases e : t = w
    · subst e
      rw [hpw]; rcases hp with ⟨_, rfl⟩ | ⟨_, _, rfl⟩ <;> trivial
    · rw [hpx t e]; exact h.l.above t
  · intro t k
    rw [hcur]
    by_cases e : t = w
    · subst e; rw [hpw] at k; rcases hp with ⟨_, rfl⟩ | ⟨_, _, rfl⟩ <;> cases k
    · rw [hpx t e] at k; exact h.l.opens t k
  · intro l v' k
    rw [hcur] at k
    rw [hc, put2_ne _ _ (fun e => absurd e k)]; exact h.n.nonneg l v' k
  · intro v' k
    rw [hcur, hc] at k
    by_cases e : v' = v
    · subst e
      rw [put2_same] at k
      rcases hp with ⟨sn, e⟩ | ⟨e, _⟩
      · exact ⟨w, sn, by rw [hpw, e]⟩
      · omega
    · rw [put2_ne _ _ (fun _ => e)] at k
      obtain ⟨t, sn', k⟩ := h.n.neg v' k
      have : t ≠ w := by
        rintro rfl
        rcases ho with ⟨_, e'⟩ | ⟨_, e'⟩ <;> rw [e'] at k <;> cases k
        exact e rfl
      exact ⟨t, sn', by rw [hpx t this]; exact k⟩
  · intro t sn' v' k
    rw [hcur, hc]
    by_cases e : v' = v
    · subst e; rw [put2_same]; exact hcle
    · rw [put2_ne _ _ (fun _ => e)]
      have : t ≠ w := by
        rintro rfl
        rw [hpw] at k
        rcases hp with ⟨_, e'⟩ | ⟨_, _, e'⟩ <;> rw [e'] at k <;> cases k
        exact e rfl
      rw [hpx t this] at k
      exact h.n.zeroed t sn' v' k
  · rw [hnw]; exact h.n.nw
  · rw [hnum, hnw, hcur]; exact h.n.num

/-- A reaction changes hands between the statements of one thread: it is started, ended or put back. -/
theorem Data.change (h : Data C s loc) {p : Pc} {r : Nat} {k₀ : Kind} (L : Loc) (hr : loc r = .with w k₀) (hk : k₀ ≠ .fetching)
    (honly : ∀ x k, loc x = .with w k → x = r)
    (hL : (∃ k, L = .with w k ∧ k ≠ .fetching) ∨ L = .idle) (hhas : ∀ x k, p.Has (s.arr s.cur) x k ↔ x = r ∧ L = .with w k)
    (hpt : ∀ v i, p ≠ .took v i) (hps : ∀ who r v i, p ≠ .store who r v i) (hpz : ∀ sn v, p ≠ .zero sn v)
    (hps' : ∀ who r v i, s.pc w ≠ .store who r v i) (hpz' : ∀ sn v, s.pc w ≠ .zero sn v)
    (hpa : p.Above C.level) (hpo : p.opening = false)
    (hpc : s'.pc = put s.pc w p) (hq : s'.queued = put s.queued r (decide (L ≠ .idle))) (ha : s'.arr = s.arr) (hc : s'.cnt = s.cnt)
    (hcur : s'.cur = s.cur) (hnw : s'.nw = s.nw) (hnum : s'.num = s.num) : Data C s' (put loc r L) := by
  have hpx : ∀ x, x ≠ w → s'.pc x = s.pc x := fun x hx => by rw [hpc, put_ne _ _ hx]
  have hpw : s'.pc w = p := by rw [hpc, put_same]
  have hrm := h.p.prog r (by rw [hr]; simp)
  have hrl := h.l.here r w k₀ hr hk
  have hstore : ∀ t who r v i, s'.pc t = .store who r v i ↔ s.pc t = .store who r v i := by
    intro t who r v i
    by_cases e : t = w
    · subst e
      rw [hpw]
      exact ⟨fun k => (hps _ _ _ _ k).elim, fun k => (hps' _ _ _ _ k).elim⟩
    · rw [hpx t e]
  have hslot : ∀ x v i, put loc r L x = .slot v i ↔ loc x = .slot v i := by
    intro x v i
    by_cases e : x = r
    · subst e; rw [put_same, hr]
      rcases hL with ⟨k, rfl, _⟩ | rfl <;> simp
    · rw [put_ne _ _ e]
  have hidle : ∀ x, x ≠ r → put loc r L x = loc x := fun x hx => put_ne _ _ hx
  refine ⟨⟨?_, ?_, ?_, ?_, ?_, ?_, ?_, ?_⟩, ⟨?_, ?_, ?_, ?_⟩, ⟨?_, ?_, ?_, ?_, ?_⟩⟩
  · intro x
    rw [hq]
    by_cases e : x = r
    · subst e; rw [put_same, put_same]; simp
    · rw [put_ne _ _ e, put_ne _ _ e]; exact h.p.queued x
  · intro x t k
    rw [ha, hcur]
    by_cases e : t = w
    · subst e
      rw [hpw, hhas]
      by_cases e' : x = r
      · subst e'; rw [put_same]; simp
      · rw [put_ne _ _ e']
        exact ⟨fun k => absurd (honly x _ k) e', fun k => absurd k.1 e'⟩
    · rw [hpx t e, ← h.p.held x t k]
      by_cases e' : x = r
      · subst e'; rw [put_same, hr]
        rcases hL with ⟨k, rfl, _⟩ | rfl <;> simp [Ne.symm e]
      · rw [put_ne _ _ e']
  · intro t v i k
    rw [ha, hcur]
    by_cases e : t = w
    · subst e
      rw [hpw] at k; exact (hpt _ _ k).elim
    · rw [hpx t e] at k; exact h.p.took t v i k
  · intro x v i k
    rw [hnw, hc, ha]
    obtain ⟨k1, k2, k3⟩ := h.p.slot x v i ((hslot ..).1 k)
    exact ⟨k1, k2, k3.elim .inl fun ⟨t, who, k⟩ => .inr ⟨t, who, (hstore ..).2 k⟩⟩
  · intro t who x v i k
    exact (hslot ..).2 (h.p.store t who x v i ((hstore ..).1 k))
  · rw [hc]
    intro l v i k
    obtain ⟨x, k1, k2⟩ := h.p.full l v i k
    exact ⟨x, k1, (hslot ..).2 k2⟩
  · intro x y v i k1 k2 k3
    exact h.p.inj x y v i ((hslot ..).1 k1) ((hslot ..).1 k2) k3
  · intro x k
    by_cases e : x = r
    · subst e; exact hrm
    · rw [hidle x e] at k; exact h.p.prog x k
  · intro x k
    rw [hcur]
    by_cases e : x = r
    · subst e; omega
    · rw [hidle x e] at k; exact h.l.low x k
  · intro x t k k1 k2
    rw [hcur]
    by_cases e : x = r
    · subst e; exact hrl
    · rw [hidle x e] at k1; exact h.l.here x t k k1 k2
  · intro t
    by_cases e : t = w
    · subst e; rw [hpw]; exact hpa
    · rw [hpx t e]; exact h.l.above t
  · intro t k
    rw [hcur]
    by_cases e : t = w
    · subst e; rw [hpw, hpo] at k; cases k
    · rw [hpx t e] at k; exact h.l.opens t k
  · rw [hcur, hc]; exact h.n.nonneg
  · rw [hcur, hc]
    intro v k
    obtain ⟨t, sn, k⟩ := h.n.neg v k
    have : t ≠ w := by rintro rfl; exact hpz' _ _ k
    exact ⟨t, sn, by rw [hpx t this]; exact k⟩
  · rw [hcur, hc]
    intro t sn v k
    have : t ≠ w := by rintro rfl; rw [hpw] at k; exact hpz _ _ k
    rw [hpx t this] at k
    exact h.n.zeroed t sn v k
  · rw [hnw]; exact h.n.nw
  · rw [hnum, hnw, hcur]; exact h.n.num

/-- A reaction is triggered. -/
theorem Data.bring (h : Data C s loc) {r : Nat} {who : Who} (hr : loc r = .idle) (hmem : r ∈ C.reactions) (hp : s.pc w = back who)
    (hlow : s.cur ≤ C.level r) (hab : ∀ r', who = .running r' → C.level r' < C.level r)
    (hpc : s'.pc = put s.pc w (.fetch who r)) (hq : s'.queued = put s.queued r true) (ha : s'.arr = s.arr) (hc : s'.cnt = s.cnt)
    (hcur : s'.cur = s.cur) (hnw : s'.nw = s.nw) (hnum : s'.num = s.num) : Data C s' (put loc r (.with w .fetching)) := by
  have hpx : ∀ x, x ≠ w → s'.pc x = s.pc x := fun x hx => by rw [hpc, put_ne _ _ hx]
  have hpw : s'.pc w = .fetch who r := by rw [hpc, put_same]
  have hstore : ∀ t who' r' v i, s'.pc t = .store who' r' v i ↔ s.pc t = .store who' r' v i := by
    intro t who' r' v i
    by_cases e : t = w
    · subst e
      rw [hpw, hp]
      cases who <;> simp [back]
    · rw [hpx t e]
  have hslot : ∀ x v i, put loc r (.with w .fetching) x = .slot v i ↔ loc x = .slot v i := by
    intro x v i
    by_cases e : x = r
    · subst e; rw [put_same, hr]; simp
    · rw [put_ne _ _ e]
  have hidle : ∀ x, x ≠ r → put loc r (.with w .fetching) x = loc x := fun x hx => put_ne _ _ hx
  refine ⟨⟨?_, ?_, ?_, ?_, ?_, ?_, ?_, ?_⟩, ⟨?_, ?_, ?_, ?_⟩, ⟨?_, ?_, ?_, ?_, ?_⟩⟩
  · intro x
    rw [hq]
    by_cases e : x = r
    · subst e; rw [put_same, put_same]; simp
    · rw [put_ne _ _ e, put_ne _ _ e]; exact h.p.queued x
  · intro x t k
    rw [ha, hcur]
    by_cases e : t = w
    · subst e
      have h1 := h.p.held x t k
      rw [hp] at h1
      rw [hpw]
      by_cases e' : x = r
      · subst e'
        rw [put_same]
        rw [hr] at h1
        cases who with
        | running r' =>
          have := hab r' rfl
          have hne : x ≠ r' := by rintro rfl; omega
          simp [Pc.Has, hne, eq_comm]
        | _ => simp [Pc.Has, eq_comm]
      · rw [put_ne _ _ e', h1]
        cases who <;> simp [Pc.Has, back, e']
    · rw [hpx t e, ← h.p.held x t k]
      by_cases e' : x = r
      · subst e'; rw [put_same, hr]; simp [Ne.symm e]
      · rw [put_ne _ _ e']
  · intro t v i k
    rw [ha, hcur]
    by_cases e : t = w
    · subst e
      rw [hpw] at k; cases k
    · rw [hpx t e] at k; exact h.p.took t v i k
  · intro x v i k
    rw [hnw, hc, ha]
    obtain ⟨k1, k2, k3⟩ := h.p.slot x v i ((hslot ..).1 k)
    exact ⟨k1, k2, k3.elim .inl fun ⟨t, who, k⟩ => .inr ⟨t, who, (hstore ..).2 k⟩⟩
  · intro t who x v i k
    exact (hslot ..).2 (h.p.store t who x v i ((hstore ..).1 k))
  · rw [hc]
    intro l v i k
    obtain ⟨x, k1, k2⟩ := h.p.full l v i k
    exact ⟨x, k1, (hslot ..).2 k2⟩
  · intro x y v i k1 k2 k3
    exact h.p.inj x y v i ((hslot ..).1 k1) ((hslot ..).1 k2) k3
  · intro x k
    by_cases e : x = r
    · subst e; exact hmem
    · rw [hidle x e] at k; exact h.p.prog x k
  · intro x k
    rw [hcur]
    by_cases e : x = r
    · subst e; exact hlow
    · rw [hidle x e] at k; exact h.l.low x k
  · intro x t k k1 k2
    rw [hcur]
    by_cases e : x = r
    · subst e; rw [put_same] at k1; cases k1; exact absurd rfl k2
    · rw [hidle x e] at k1; exact h.l.here x t k k1 k2
  · intro t
    by_cases e : t = w
    · subst e; rw [hpw]
      cases who with
      | running r' => exact hab r' rfl
      | _ => trivial
    · rw [hpx t e]; exact h.l.above t
  · intro t k
    rw [hcur]
    by_cases e : t = w
    · subst e; rw [hpw] at k
      refine h.l.opens t ?_
      rw [hp]
      cases who <;> first | rfl | (cases k; done)
    · rw [hpx t e] at k; exact h.l.opens t k
  · rw [hcur, hc]; exact h.n.nonneg
  · rw [hcur, hc]
    intro v k
    obtain ⟨t, sn, k⟩ := h.n.neg v k
    have : t ≠ w := by rintro rfl; rw [hp] at k; cases who <;> cases k
    exact ⟨t, sn, by rw [hpx t this]; exact k⟩
  · rw [hcur, hc]
    intro t sn v k
    have : t ≠ w := by rintro rfl; rw [hpw] at k; cases k
    rw [hpx t this] at k
    exact h.n.zeroed t sn v k
  · rw [hnw]; exact h.n.nw
  · rw [hnum, hnw, hcur]; exact h.n.num

/-- The number of reactions of the worker is raised, which gives a slot. -/
theorem Data.insert (h : Data C s loc) {r v : Nat} {c : Int} {who : Who} (hp : s.pc w = .fetch who r)
    (hv : v = C.hash r % s.nw (C.level r)) (hcv : c = s.cnt (C.level r) v)
    (hquiet : C.level r = s.cur → ∀ t, t ≠ w → (s.pc t).plain = true)
    (hpc : s'.pc = put s.pc w (.store who r v c.toNat))
    (hq : s'.queued = s.queued) (ha : s'.arr = s.arr)
    (hc : s'.cnt = put s.cnt (C.level r) (put (s.cnt (C.level r)) v (c + 1)))
    (hcur : s'.cur = s.cur) (hnw : s'.nw = s.nw) (hnum : s'.num = s.num) :
    0 ≤ c ∧ Data C s' (put loc r (.slot v c.toNat)) := by
  have hpx : ∀ x, x ≠ w → s'.pc x = s.pc x := fun x hx => by rw [hpc, put_ne _ _ hx]
  have hpw : s'.pc w = .store who r v c.toNat := by rw [hpc, put_same]
  have hr : loc r = .with w .fetching := by
    rw [h.p.held, hp]
    cases who <;> simp [Pc.Has]
  have hpos : 0 ≤ c := by
    subst hcv
    by_cases e : C.level r = s.cur
    · by_contra hneg
      obtain ⟨t, sn, k⟩ := h.n.neg v (by rw [← e]; omega)
      have k1 := hquiet e t (by rintro rfl; rw [hp] at k; cases k)
      rw [k] at k1; cases k1
    · exact h.n.nonneg _ _ e
  have hnew : ∀ x v' i', loc x = .slot v' i' → C.level x = C.level r → v' = v → i' ≠ c.toNat := by
    rintro x v' i' k e rfl rfl
    have := (h.p.slot x _ _ k).2.1
    rw [e, ← hcv] at this
    omega
  have hne : ∀ x v' i', loc x = .slot v' i' → x ≠ r := by
    rintro x v' i' k rfl; rw [hr] at k; cases k
  refine ⟨hpos, ⟨⟨?_, ?_, ?_, ?_, ?_, ?_, ?_, ?_⟩, ⟨?_, ?_, ?_, ?_⟩, ⟨?_, ?_, ?_, ?_, ?_⟩⟩⟩
  · intro x
    rw [hq, h.p.queued x]
    by_cases e : x = r
    · subst e; rw [put_same, hr]; simp
    · rw [put_ne _ _ e]
  · intro x t k
    rw [ha, hcur]
    by_cases e : t = w
    · subst e
      have h1 := h.p.held x t k
      rw [hp] at h1
      rw [hpw]
      by_cases e' : x = r
      · subst e'
        rw [put_same]
        cases who with
        | running r' =>
          have := h.l.above t
          rw [hp] at this
          have hne : x ≠ r' := by
            rintro rfl; exact absurd this (by simp [Pc.Above])
          simp [Pc.Has, hne]
        | _ => simp [Pc.Has]
      · rw [put_ne _ _ e', h1]
        cases who <;> simp [Pc.Has, e']
    · rw [hpx t e, ← h.p.held x t k]
      by_cases e' : x = r
      · subst e'; rw [put_same, hr]; simp [Ne.symm e]
      · rw [put_ne _ _ e']
  · intro t v i k
    rw [ha, hcur]
    have : t ≠ w := by rintro rfl; rw [hpw] at k; cases k
    rw [hpx t this] at k; exact h.p.took t v i k
  · intro x v' i' k
    rw [hnw, hc, ha]
    by_cases e : x = r
    · subst e
      rw [put_same] at k; cases k
      refine ⟨hv, ?_, .inr ⟨w, who, hpw⟩⟩
      rw [put2_same]; omega
    · rw [put_ne _ _ e] at k
      obtain ⟨k1, k2, k3⟩ := h.p.slot x v' i' k
      refine ⟨k1, ?_, k3.elim .inl fun ⟨t, who', k⟩ => .inr ⟨t, who', ?_⟩⟩
      · by_cases e1 : C.level x = C.level r ∧ v' = v
        · obtain ⟨e1, rfl⟩ := e1
          rw [e1, put2_same, hcv]; rw [e1] at k2; omega
        · rw [put2_ne _ _ (fun a b => e1 ⟨a, b⟩)]; exact k2
      · have : t ≠ w := by rintro rfl; rw [hp] at k; cases k
        rw [hpx t this]; exact k
  · intro t who' x v' i' k
    by_cases e : t = w
    · subst e
      rw [hpw] at k; cases k; rw [put_same]
    · rw [hpx t e] at k
      have k1 := h.p.store t who' x v' i' k
      rw [put_ne _ _ (hne _ _ _ k1)]; exact k1
  · intro l v' i' k
    rw [hc] at k
    by_cases e1 : l = C.level r ∧ v' = v
    · obtain ⟨rfl, rfl⟩ := e1
      rw [put2_same] at k
      by_cases e2 : i' = c.toNat
      · subst e2; exact ⟨r, rfl, by rw [put_same]⟩
      · obtain ⟨x, k1, k2⟩ := h.p.full _ v' i' (show (i' : Int) < s.cnt (C.level r) v' by omega)
        exact ⟨x, k1, by rw [put_ne _ _ (hne _ _ _ k2)]; exact k2⟩
    · rw [put2_ne _ _ (fun a b => e1 ⟨a, b⟩)] at k
      obtain ⟨x, k1, k2⟩ := h.p.full l v' i' k
      exact ⟨x, k1, by rw [put_ne _ _ (hne _ _ _ k2)]; exact k2⟩
  · intro x y v' i' k1 k2 k3
    by_cases e : x = r
    · subst e
      rw [put_same] at k1; cases k1
      by_cases e' : y = x
      · exact e'.symm
      · rw [put_ne _ _ e'] at k2; exact absurd rfl (hnew y _ _ k2 k3.symm rfl)
    · rw [put_ne _ _ e] at k1
      by_cases e' : y = r
      · subst e'
        rw [put_same] at k2; cases k2
        exact absurd rfl (hnew x _ _ k1 k3 rfl)
      · rw [put_ne _ _ e'] at k2
        exact h.p.inj x y v' i' k1 k2 k3
  · intro x k
    by_cases e : x = r
    · subst e; exact h.p.prog x (by rw [hr]; simp)
    · rw [put_ne _ _ e] at k; exact h.p.prog x k
  · intro x k
    rw [hcur]
    by_cases e : x = r
    · subst e; exact h.l.low x (by rw [hr]; simp)
    · rw [put_ne _ _ e] at k; exact h.l.low x k
  · intro x t k k1 k2
    rw [hcur]
    by_cases e : x = r
    · subst e; rw [put_same] at k1; cases k1
    · rw [put_ne _ _ e] at k1; exact h.l.here x t k k1 k2
  · intro t
    by_cases e : t = w
    · subst e
      have := h.l.above t
      rw [hp] at this
      rw [hpw]
      cases who <;> exact this
    · rw [hpx t e]; exact h.l.above t
  · intro t k
    rw [hcur]
    by_cases e : t = w
    · subst e; rw [hpw] at k
      refine h.l.opens t ?_
      rw [hp]
      cases who <;> first | rfl | (cases k; done)
    · rw [hpx t e] at k; exact h.l.opens t k
  · intro l v' k
    rw [hcur] at k
    rw [hc]
    by_cases e1 : l = C.level r ∧ v' = v
    · obtain ⟨rfl, rfl⟩ := e1
      rw [put2_same]; omega
    · rw [put2_ne _ _ (fun a b => e1 ⟨a, b⟩)]; exact h.n.nonneg l v' k
  · intro v' k
    rw [hcur, hc] at k
    by_cases e1 : s.cur = C.level r ∧ v' = v
    · obtain ⟨e1, rfl⟩ := e1
      rw [e1, put2_same] at k; omega
    · rw [put2_ne _ _ (fun a b => e1 ⟨a, b⟩)] at k
      obtain ⟨t, sn', k⟩ := h.n.neg v' k
      have : t ≠ w := by rintro rfl; rw [hp] at k; cases k
      exact ⟨t, sn', by rw [hpx t this]; exact k⟩
  · intro t sn' v' k
    rw [hcur, hc]
    have : t ≠ w := by rintro rfl; rw [hpw] at k; cases k
    rw [hpx t this] at k
    have k1 := h.n.zeroed t sn' v' k
    rw [put2_ne]
    · exact k1
    · intro e
      have := hquiet e.symm t this
      rw [k] at this; cases this
  · rw [hnw]; exact h.n.nw
  · rw [hnum, hnw, hcur]; exact h.n.num

/-- The slot is written. -/
theorem Data.write (h : Data C s loc) {r v i : Nat} {who : Who} (hp : s.pc w = .store who r v i)
    (hquiet : C.level r = s.cur → ∀ t, t ≠ w → (s.pc t).plain = true)
    (hpc : s'.pc = put s.pc w (back who)) (hq : s'.queued = s.queued)
    (ha : s'.arr = put s.arr (C.level r) (put (s.arr (C.level r)) v (put (s.arr (C.level r) v) i (some r))))
    (hc : s'.cnt = s.cnt)
    (hcur : s'.cur = s.cur) (hnw : s'.nw = s.nw) (hnum : s'.num = s.num) : Data C s' loc := by
  have hpx : ∀ x, x ≠ w → s'.pc x = s.pc x := fun x hx => by rw [hpc, put_ne _ _ hx]
  have hpw : s'.pc w = back who := by rw [hpc, put_same]
  have hr := h.p.store w who r v i hp
  have harr : ∀ l v' i', (l = C.level r → v' = v → i' ≠ i) → s'.arr l v' i' = s.arr l v' i' := by
    intro l v' i' k
    rw [ha]
    by_cases e : l = C.level r ∧ v' = v
    · obtain ⟨rfl, rfl⟩ := e
      rw [put2_same, put_ne _ _ (k rfl rfl)]
    · rw [put2_ne _ _ (fun a b => e ⟨a, b⟩)]
  have hown : s'.arr (C.level r) v i = some r := by rw [ha, put2_same, put_same]
  have hcurr : ∀ t, (s.pc t).plain = false → t ≠ w → ∀ v' i', s'.arr s.cur v' i' = s.arr s.cur v' i' := by
    intro t k1 k2 v' i'
    refine harr _ _ _ fun e => ?_
    have := hquiet e.symm t k2
    rw [k1] at this; cases this
  refine ⟨⟨?_, ?_, ?_, ?_, ?_, ?_, h.p.inj, h.p.prog⟩, ⟨?_, ?_, ?_, ?_⟩, ⟨?_, ?_, ?_, ?_, ?_⟩⟩
  · rw [hq]; exact h.p.queued
  · intro x t k
    rw [hcur, h.p.held x t k]
    by_cases e : t = w
    · subst e
      rw [hpw, hp]
      cases who <;> simp [back, Pc.Has]
    · rw [hpx t e]
      cases hpt : (s.pc t).plain with
      | true => exact ⟨fun k => absurd k (Pc.plain_has hpt), fun k => absurd k (Pc.plain_has hpt)⟩
      | false =>
        have : s'.arr s.cur = s.arr s.cur := by funext v' i'; exact hcurr t hpt e v' i'
        rw [this]
  · intro t v' i' k
    rw [hcur]
    have : t ≠ w := by rintro rfl; rw [hpw] at k; cases who <;> cases k
    rw [hpx t this] at k
    rw [hcurr t (by rw [k]; rfl) this]
    exact h.p.took t v' i' k
  · intro x v' i' k
    rw [hnw, hc]
    obtain ⟨k1, k2, k3⟩ := h.p.slot x v' i' k
    refine ⟨k1, k2, ?_⟩
    by_cases e : x = r
    · subst e
      rw [hr] at k; cases k
      exact .inl hown
    · rcases k3 with k3 | ⟨t, who', k3⟩
      · left
        rw [harr]
        · exact k3
        · rintro e1 rfl rfl
          exact e (h.p.inj x r _ _ k hr e1)
      · right
        have : t ≠ w := by
          rintro rfl; rw [hp] at k3; cases k3; exact e rfl
        exact ⟨t, who', by rw [hpx t this]; exact k3⟩
  · intro t who' x v' i' k
    have : t ≠ w := by rintro rfl; rw [hpw] at k; cases who <;> cases k
    rw [hpx t this] at k
    exact h.p.store t who' x v' i' k
  · rw [hc]; exact h.p.full
  · rw [hcur]; exact h.l.low
  · rw [hcur]; exact h.l.here
  · intro t
    by_cases e : t = w
    · subst e
      rw [hpw]; cases who <;> trivial
    · rw [hpx t e]; exact h.l.above t
  · intro t k
    rw [hcur]
    by_cases e : t = w
    · subst e; rw [hpw] at k
      refine h.l.opens t ?_
      rw [hp]
      cases who <;> first | rfl | (cases k; done)
    · rw [hpx t e] at k; exact h.l.opens t k
  · rw [hcur, hc]; exact h.n.nonneg
  · rw [hcur, hc]
    intro v' k
    obtain ⟨t, sn, k⟩ := h.n.neg v' k
    have : t ≠ w := by rintro rfl; rw [hp] at k; cases k
    exact ⟨t, sn, by rw [hpx t this]; exact k⟩
  · rw [hcur, hc]
    intro t sn v' k
    have : t ≠ w := by rintro rfl; rw [hpw] at k; cases who <;> cases k
    rw [hpx t this] at k
    exact h.n.zeroed t sn v' k
  · rw [hnw]; exact h.n.nw
  · rw [hnum, hnw, hcur]; exact h.n.num

/-- The level changes, or the numbers of workers, when the current level is done. -/
theorem Data.switch (h : Data C s loc) {p : Pc} (hplain : ∀ t, (s.pc t).plain = true) (hp : p.plain = true)
    (hzero : ∀ v, s.cnt s.cur v ≤ 0) (hpc : s'.pc = put s.pc w p) (hq : s'.queued = s.queued) (ha : s'.arr = s.arr)
    (hc : s'.cnt = s.cnt) (hopen : ∀ t, t ≠ w → (s.pc t).opening = false) (hpo : p.opening = true → s'.cur = 0)
    (hlow : ∀ r, loc r ≠ .idle → s'.cur ≤ C.level r)
    (hnw : s'.nw = s.nw ∨ ((∀ r, loc r = .idle) ∧ ∀ l, C.cap l ≠ 0 → 1 ≤ s'.nw l ∧ s'.nw l ≤ C.maxw l))
    (hnum : s'.num = s'.nw s'.cur) : Data C s' loc := by
  have hpx : ∀ x, x ≠ w → s'.pc x = s.pc x := fun x hx => by rw [hpc, put_ne _ _ hx]
  have hpw : s'.pc w = p := by rw [hpc, put_same]
  have hpl : ∀ t, (s'.pc t).plain = true := by
    intro t
    by_cases e : t = w
    · subst e; rw [hpw]; exact hp
    · rw [hpx t e]; exact hplain t
  have hnn : ∀ l v, 0 ≤ s.cnt l v := by
    intro l v
    by_cases e : l = s.cur
    · subst e
      by_contra k
      obtain ⟨t, sn, k⟩ := h.n.neg v (by omega)
      have := hplain t
      rw [k] at this; cases this
    · exact h.n.nonneg l v e
  have hno : ∀ r t k, loc r ≠ .with t k := by
    intro r t k e
    exact Pc.plain_has (hplain t) ((h.p.held r t k).1 e)
  refine ⟨⟨?_, ?_, ?_, ?_, ?_, ?_, h.p.inj, h.p.prog⟩, ⟨?_, ?_, ?_, ?_⟩, ⟨?_, ?_, ?_, ?_, ?_⟩⟩
  · rw [hq]; exact h.p.queued
  · intro r t k
    exact ⟨fun e => absurd e (hno r t k), fun e => absurd e (Pc.plain_has (hpl t))⟩
  · intro t v i k
    have := hpl t
    rw [k] at this; cases this
  · intro r v i k
    rcases hnw with hnw | ⟨hnw, _⟩
    · obtain ⟨k1, k2, k3⟩ := h.p.slot r v i k
      rw [hnw, hc, ha]
      refine ⟨k1, k2, k3.elim .inl fun ⟨t, who, k⟩ => ?_⟩
      have := hplain t
      rw [k] at this; cases this
    · rw [hnw r] at k; cases k
  · intro t who r v i k
    have := hpl t
    rw [k] at this; cases this
  · rw [hc]; exact h.p.full
  · exact hlow
  · intro r t k e
    exact absurd e (hno r t k)
  · intro t
    have := hpl t
    cases e : s'.pc t <;> first | trivial | (rw [e] at this; cases this; done)
  · intro t k
    by_cases e : t = w
    · subst e; rw [hpw] at k; exact hpo k
    · rw [hpx t e, hopen t e] at k; cases k
  · intro l v _
    rw [hc]; exact hnn l v
  · intro v k
    rw [hc] at k
    have := hnn s'.cur v
    omega
  · intro t sn v k
    have := hpl t
    rw [k] at this; cases this
  · rcases hnw with hnw | ⟨_, hnw⟩
    · rw [hnw]; exact h.n.nw
    · exact hnw
  · exact hnum

end

end ReactorC.Adaptive
