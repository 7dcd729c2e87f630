import Verif.Np.Pool

/-!
# Where the queued reactions are

Every reaction whose status is `queued` is in exactly one place: in a slot of the array of its level, or in the hands of one
thread.
-/

set_option linter.unusedVariables false

namespace ReactorC.Np

inductive Loc
  | slot (i : Nat)
  | held (w : Nat)
deriving DecidableEq

/-- A thread at this statement has the reaction in its hands; `a` is the array `executing_reactions`. -/
def Pc.Holds (a : Nat → Option Nat) : Pc → Nat → Prop
  | .fetch who r', r | .store who r' _, r => r = r' ∨ who = .running r
  | .take i, r => a i = some r
  | .clear _ x, r => x = some r
  | .run r', r | .done r', r => r = r'
  | _, _ => False

def Pc.quiet : Pc → Bool
  | .fetch _ _ | .store _ _ _ | .take _ | .clear _ _ | .run _ | .done _ => false
  | _ => true

theorem Pc.quiet_holds {p : Pc} (h : p.quiet = true) (a : Nat → Option Nat) (r : Nat) : ¬ p.Holds a r := by
  cases p <;> simp [Pc.quiet] at h <;> simp [Pc.Holds]

structure Places (C : Config) (s : State) (loc : Nat → Option Loc) : Prop where
  q : ∀ r, s.queued r = true ↔ loc r ≠ none
  slot : ∀ r i, loc r = some (.slot i) → s.arr (C.level r) i = some r ∧ (i : Int) < s.idx (C.level r)
  held : ∀ r w, loc r = some (.held w) ↔ (s.pc w).Holds (s.arr s.exec) r
  fut : ∀ l (i : Nat), (i : Int) < s.idx l →
    (∃ r, loc r = some (.slot i) ∧ C.level r = l) ∨ (∃ w who r, s.pc w = .store who r i ∧ C.level r = l)
  entry : ∀ l i r, s.arr l i = some r →
    C.level r = l ∧ (loc r = some (.slot i) ∨ (l = s.exec ∧ ∃ w, s.pc w = .take i ∨ s.pc w = .clear i (some r)))
  store : ∀ w who r i, s.pc w = .store who r i → s.arr (C.level r) i = none ∧ (i : Int) < s.idx (C.level r)
  uniq : ∀ w w' who who' r r' i, s.pc w = .store who r i → s.pc w' = .store who' r' i → C.level r = C.level r' → w = w'
  take : ∀ w i, s.pc w = .take i → ∃ r, s.arr s.exec i = some r
  clear : ∀ w i x, s.pc w = .clear i x → ∃ r, x = some r ∧ s.arr s.exec i = some r

section
variable {C : Config} {s s' : State} {loc : Nat → Option Loc} {w : Nat}

/-- Steps that do not touch the queue. -/
theorem Places.calm (h : Places C s loc) {p : Pc} (hq : (s.pc w).quiet = true) (hp : p.quiet = true)
    (e1 : s'.pc = put s.pc w p) (e2 : s'.arr = s.arr) (e3 : s'.idx = s.idx) (e4 : s'.queued = s.queued)
    (e5 : s'.exec = s.exec ∨ ∀ x, (s.pc x).quiet = true) : Places C s' loc := by
  have hh : ∀ r x, (s'.pc x).Holds (s'.arr s'.exec) r ↔ (s.pc x).Holds (s.arr s.exec) r := by
    intro r x
    rw [e1]
    by_cases hx : x = w
    · subst hx
      rw [put_same]
      exact ⟨fun k => absurd k (Pc.quiet_holds hp _ _), fun k => absurd k (Pc.quiet_holds hq _ _)⟩
    · rw [put_other _ _ hx]
      rcases e5 with e5 | e5
      · rw [e2, e5]
      · exact ⟨fun k => absurd k (Pc.quiet_holds (e5 x) _ _), fun k => absurd k (Pc.quiet_holds (e5 x) _ _)⟩
  have hpc : ∀ x p', s'.pc x = p' → p'.quiet = false → s.pc x = p' := by
    intro x p' e hn
    rw [e1] at e
    rcases put_cases e with ⟨_, e⟩ | ⟨_, e⟩
    · rw [← e, hp] at hn; cases hn
    · exact e
  have hpc' : ∀ x p', s.pc x = p' → p'.quiet = false → s'.pc x = p' := by
    intro x p' e hn
    rw [e1, put_other _ _ ?_]
    · exact e
    · intro hx; subst hx; rw [e, hn] at hq; cases hq
  have hex : ∀ x p', s.pc x = p' → p'.quiet = false → s'.exec = s.exec := by
    intro x p' e hn
    rcases e5 with e5 | e5
    · exact e5
    · have := e5 x; rw [e, hn] at this; cases this
  refine ⟨fun r => ?_, fun r i k => ?_, fun r x => ?_, fun l i k => ?_, fun l i r k => ?_, fun x who r i k => ?_,
    fun x y who who' r r' i k k' e => ?_, fun x i k => ?_, fun x i y k => ?_⟩
  · rw [e4]; exact h.q r
  · rw [e2, e3]; exact h.slot r i k
  · rw [hh]; exact h.held r x
  · rw [e3] at k
    rcases h.fut l i k with k | ⟨x, who, r, k, e⟩
    · exact .inl k
    · exact .inr ⟨x, who, r, hpc' _ _ k rfl, e⟩
  · rw [e2] at k
    obtain ⟨k1, k2⟩ := h.entry l i r k
    refine ⟨k1, k2.imp id fun ⟨k3, x, k4⟩ => ?_⟩
    rcases k4 with k4 | k4
    · exact ⟨by rw [hex _ _ k4 rfl]; exact k3, x, .inl (hpc' _ _ k4 rfl)⟩
    · exact ⟨by rw [hex _ _ k4 rfl]; exact k3, x, .inr (hpc' _ _ k4 rfl)⟩
  · rw [e2, e3]; exact h.store _ _ _ _ (hpc _ _ k rfl)
  · exact h.uniq _ _ _ _ _ _ _ (hpc _ _ k rfl) (hpc _ _ k' rfl) e
  · rw [e2, hex _ _ (hpc _ _ k rfl) rfl]; exact h.take _ _ (hpc _ _ k rfl)
  · rw [e2, hex _ _ (hpc _ _ k rfl) rfl]; exact h.clear _ _ _ (hpc _ _ k rfl)

/-- The index of a level without reactions is reset. -/
theorem Places.zero (h : Places C s loc) {l : Nat} (hl : s.idx l ≤ 0) (v : Int) (hv : v ≤ 0) :
    Places C { s with idx := put s.idx l v } loc := by
  have hi : ∀ l' (i : Nat), (i : Int) < s.idx l' → (i : Int) < put s.idx l v l' := by
    intro l' i k
    by_cases hl' : l' = l
    · subst hl'; omega
    · rw [put_other _ _ hl']; exact k
  have hi' : ∀ l' (i : Nat), (i : Int) < put s.idx l v l' → (i : Int) < s.idx l' := by
    intro l' i k
    by_cases hl' : l' = l
    · subst hl'; rw [put_same] at k; omega
    · rw [put_other _ _ hl'] at k; exact k
  exact ⟨h.q, fun r i k => ⟨(h.slot r i k).1, hi _ _ (h.slot r i k).2⟩, h.held, fun l i k => h.fut l i (hi' _ _ k), h.entry,
    fun x who r i k => ⟨(h.store _ _ _ _ k).1, hi _ _ (h.store _ _ _ _ k).2⟩, h.uniq, h.take, h.clear⟩

/-- A worker gets the index of a reaction. -/
theorem Places.pop (h : Places C s loc) {l : Nat} (hp : s.pc w = .dec l) (hl : l = s.exec) (h0 : 0 ≤ s.idx l - 1)
    (hst : ∀ x who r i, s.pc x = .store who r i → C.level r ≠ l) :
    ∃ loc', Places C { s with idx := put s.idx l (s.idx l - 1), pc := put s.pc w (.take (s.idx l - 1).toNat) } loc' := by
  generalize hi : (s.idx l - 1).toNat = i
  have hi' : (i : Int) = s.idx l - 1 := by omega
  obtain ⟨r, hr, hrl⟩ : ∃ r, loc r = some (.slot i) ∧ C.level r = l := by
    rcases h.fut l i (by omega) with k | ⟨x, who, r, k, e⟩
    · exact k
    · exact absurd e (hst _ _ _ _ k)
  have harr := (h.slot r i hr).1
  rw [hrl] at harr
  have hidx : ∀ l', l' ≠ l → put s.idx l (s.idx l - 1) l' = s.idx l' := fun l' e => put_other _ _ e
  refine ⟨put loc r (some (.held w)), fun r' => ?_, fun r' j k => ?_, fun r' x => ?_, fun l' j k => ?_, fun l' j r' k => ?_,
    fun x who r' j k => ?_, fun x y who who' r' r'' j k k' e => ?_, fun x j k => ?_, fun x j y k => ?_⟩
  · show s.queued r' = true ↔ _
    by_cases e : r' = r
    · subst e; rw [put_same, h.q, hr]; simp
    · rw [put_other _ _ e]; exact h.q r'
  · show s.arr (C.level r') j = some r' ∧ (j : Int) < put s.idx l (s.idx l - 1) (C.level r')
    rcases put_cases k with ⟨_, k⟩ | ⟨e, k⟩
    · cases k
    · obtain ⟨k1, k2⟩ := h.slot r' j k
      refine ⟨k1, ?_⟩
      by_cases hl' : C.level r' = l
      · rw [hl', put_same]
        rw [hl'] at k1 k2
        have : j ≠ i := by
          intro hj; subst hj; rw [harr] at k1; cases k1; exact e rfl
        omega
      · rw [put_other _ _ hl']; exact k2
  · show _ ↔ (put s.pc w (.take i) x).Holds (s.arr s.exec) r'
    by_cases hx : x = w
    · subst hx
      rw [put_same]
      show _ ↔ s.arr s.exec i = some r'
      rw [← hl, harr]
      by_cases e : r' = r
      · subst e; rw [put_same]; simp
      · rw [put_other _ _ e, h.held, hp]
        simp only [Pc.Holds, Option.some.injEq, false_iff]
        exact fun k => e k.symm
    · rw [put_other _ _ hx]
      by_cases e : r' = r
      · subst e
        rw [put_same]
        constructor
        · intro k; cases k; exact absurd rfl hx
        · intro k; rw [← h.held, hr] at k; cases k
      · rw [put_other _ _ e]; exact h.held r' x
  · replace k : (j : Int) < put s.idx l (s.idx l - 1) l' := k
    have hj : (j : Int) < s.idx l' ∧ ¬ (l' = l ∧ j = i) := by
      by_cases hl' : l' = l
      · subst hl'; rw [put_same] at k
        exact ⟨by omega, fun e => by omega⟩
      · rw [put_other _ _ hl'] at k; exact ⟨k, fun e => hl' e.1⟩
    rcases h.fut l' j hj.1 with ⟨r', k1, k2⟩ | ⟨x, who, r', k1, e⟩
    · refine .inl ⟨r', ?_, k2⟩
      rw [put_other _ _ ?_]
      · exact k1
      · intro e; subst e
        rw [hr] at k1; cases k1
        exact hj.2 ⟨by rw [← k2, hrl], rfl⟩
    · refine .inr ⟨x, who, r', ?_, e⟩
      show put s.pc w (.take i) x = _
      rw [put_other _ _ ?_]
      · exact k1
      · intro hx; subst hx; rw [hp] at k1; cases k1
  · obtain ⟨k1, k2⟩ := h.entry l' j r' k
    refine ⟨k1, ?_⟩
    by_cases e : r' = r
    · subst e
      right
      have hj : j = i := by
        rcases k2 with k2 | ⟨k3, x, k4⟩
        · rw [hr] at k2; cases k2; rfl
        · exfalso
          have : (s.pc x).Holds (s.arr s.exec) r' := by
            rcases k4 with k4 | k4
            · rw [k4]
              show s.arr s.exec j = some r'
              rw [← k3]; exact k
            · rw [k4]; exact rfl
          rw [← h.held, hr] at this; cases this
      subst hj
      exact ⟨by rw [← k1, hrl]; exact hl, w, .inl (put_same _ _ _)⟩
    · rw [put_other _ _ e]
      refine k2.imp id fun ⟨k3, x, k4⟩ => ⟨k3, x, ?_⟩
      have hx : x ≠ w := by
        intro hx; subst hx; rw [hp] at k4; rcases k4 with k4 | k4 <;> cases k4
      show put s.pc w (.take i) x = _ ∨ put s.pc w (.take i) x = _
      rw [put_other _ _ hx]; exact k4
  · rcases put_cases k with ⟨_, k⟩ | ⟨hx, k⟩
    · cases k
    · obtain ⟨k1, k2⟩ := h.store _ _ _ _ k
      refine ⟨k1, ?_⟩
      show (j : Int) < put s.idx l (s.idx l - 1) (C.level r')
      rw [put_other _ _ (hst _ _ _ _ k)]; exact k2
  · rcases put_cases k with ⟨_, k⟩ | ⟨hx, k⟩
    · cases k
    · rcases put_cases k' with ⟨_, k'⟩ | ⟨hx, k'⟩
      · cases k'
      · exact h.uniq _ _ _ _ _ _ _ k k' e
  · rcases put_cases k with ⟨_, k⟩ | ⟨hx, k⟩
    · cases k; exact ⟨r, by show s.arr s.exec i = _; rw [← hl]; exact harr⟩
    · exact h.take _ _ k
  · rcases put_cases k with ⟨_, k⟩ | ⟨hx, k⟩
    · cases k
    · exact h.clear _ _ _ k

/-- A worker reads the slot. -/
theorem Places.look (h : Places C s loc) {i : Nat} (hp : s.pc w = .take i) (f : Bool) :
    Places C { s with fault := f, pc := put s.pc w (.clear i (s.arr s.exec i)) } loc := by
  obtain ⟨r, hr⟩ := h.take w i hp
  have hne : ∀ x p, put s.pc w (Pc.clear i (s.arr s.exec i)) x = p → (∀ y, p ≠ .clear i y) → s.pc x = p := by
    intro x p k hn
    rcases put_cases k with ⟨_, k⟩ | ⟨_, k⟩
    · exact absurd k.symm (hn _)
    · exact k
  have hback : ∀ x p, s.pc x = p → p ≠ .take i → put s.pc w (Pc.clear i (s.arr s.exec i)) x = p := by
    intro x p k hn
    by_cases hx : x = w
    · subst hx; rw [hp] at k; exact absurd k.symm hn
    · rw [put_other _ _ hx]; exact k
  refine ⟨h.q, h.slot, fun r' x => ?_, fun l j k => ?_, fun l j r' k => ?_, fun x who r' j k => ?_,
    fun x y who who' r' r'' j k k' e => ?_, fun x j k => ?_, fun x j y k => ?_⟩
  · show _ ↔ (put s.pc w (.clear i (s.arr s.exec i)) x).Holds (s.arr s.exec) r'
    rw [h.held]
    by_cases hx : x = w
    · subst hx; rw [put_same, hp]; exact Iff.rfl
    · rw [put_other _ _ hx]
  · rcases h.fut l j k with k | ⟨x, who, r', k, e⟩
    · exact .inl k
    · exact .inr ⟨x, who, r', hback _ _ k (by simp), e⟩
  · obtain ⟨k1, k2⟩ := h.entry l j r' k
    refine ⟨k1, k2.imp id fun ⟨k3, x, k4⟩ => ⟨k3, ?_⟩⟩
    by_cases hx : x = w
    · subst hx
      refine ⟨x, .inr ?_⟩
      rw [hp] at k4
      rcases k4 with k4 | k4
      · cases k4
        show put s.pc x _ x = _
        rw [put_same, ← k3, k]
      · cases k4
    · refine ⟨x, ?_⟩
      show put s.pc w _ x = _ ∨ put s.pc w _ x = _
      rw [put_other _ _ hx]; exact k4
  · exact h.store _ _ _ _ (hne _ _ k (by simp))
  · exact h.uniq _ _ _ _ _ _ _ (hne _ _ k (by simp)) (hne _ _ k' (by simp)) e
  · exact h.take _ _ (hne _ _ k (by simp))
  · rcases put_cases k with ⟨_, k⟩ | ⟨_, k⟩
    · cases k; exact ⟨r, hr, hr⟩
    · exact h.clear _ _ _ k

/-- A worker empties the slot and starts the reaction. -/
theorem Places.start (h : Places C s loc) {i r : Nat} (hp : s.pc w = .clear i (some r)) (H : List Ev) :
    Places C { s with arr := put s.arr s.exec (put (s.arr s.exec) i none), pc := put s.pc w (.run r), hist := H } loc := by
  have hr : s.arr s.exec i = some r := by
    obtain ⟨r', e, k⟩ := h.clear _ _ _ hp
    cases e; exact k
  have hloc : loc r = some (.held w) := (h.held r w).2 (by rw [hp]; rfl)
  have harr : ∀ l j, (l ≠ s.exec ∨ j ≠ i) → put s.arr s.exec (put (s.arr s.exec) i none) l j = s.arr l j := by
    intro l j k
    by_cases hl : l = s.exec
    · subst hl; rw [put_same, put_other _ _ (k.resolve_left (fun n => n rfl))]
    · rw [put_other _ _ hl]
  have harr' : ∀ l j x, put s.arr s.exec (put (s.arr s.exec) i none) l j = some x → s.arr l j = some x ∧ ¬ (l = s.exec ∧ j = i) := by
    intro l j x k
    by_cases hl : l = s.exec
    · subst hl
      rw [put_same] at k
      rcases put_cases k with ⟨_, k⟩ | ⟨hj, k⟩
      · cases k
      · exact ⟨k, fun e => hj e.2⟩
    · rw [put_other _ _ hl] at k; exact ⟨k, fun e => hl e.1⟩
  -- no other thread is about to take from this slot
  have hother : ∀ x j y, x ≠ w → s.pc x = .take j ∨ s.pc x = .clear j (some y) → j ≠ i := by
    intro x j y hx k hj
    subst hj
    have : (s.pc x).Holds (s.arr s.exec) r := by
      rcases k with k | k
      · rw [k]; exact hr
      · rw [k]
        obtain ⟨r', e, k'⟩ := h.clear _ _ _ k
        cases e
        rw [hr] at k'; cases k'
        exact rfl
    rw [← h.held, hloc] at this
    cases this
    exact hx rfl
  have hne : ∀ x p, put s.pc w (Pc.run r) x = p → p ≠ .run r → s.pc x = p ∧ x ≠ w := by
    intro x p k hn
    rcases put_cases k with ⟨_, k⟩ | ⟨hx, k⟩
    · exact absurd k.symm hn
    · exact ⟨k, hx⟩
  refine ⟨h.q, fun r' j k => ?_, fun r' x => ?_, fun l j k => ?_, fun l j r' k => ?_, fun x who r' j k => ?_,
    fun x y who who' r' r'' j k k' e => ?_, fun x j k => ?_, fun x j y k => ?_⟩
  · obtain ⟨k1, k2⟩ := h.slot r' j k
    refine ⟨?_, k2⟩
    show put s.arr s.exec (put (s.arr s.exec) i none) (C.level r') j = _
    rw [harr]
    · exact k1
    · by_contra hc
      obtain ⟨c1, c2⟩ := not_or.1 hc
      have c1 := Classical.not_not.1 c1
      have c2 := Classical.not_not.1 c2
      rw [c1, c2, hr] at k1; cases k1
      rw [hloc] at k; cases k
  · show _ ↔ (put s.pc w (.run r) x).Holds (put s.arr s.exec (put (s.arr s.exec) i none) s.exec) r'
    rw [put_same, h.held]
    by_cases hx : x = w
    · subst hx; rw [put_same, hp]
      show some r = some r' ↔ r' = r
      constructor
      · intro e; cases e; rfl
      · intro e; rw [e]
    · rw [put_other _ _ hx]
      cases hpx : s.pc x with
      | take j =>
        show s.arr s.exec j = some r' ↔ put (s.arr s.exec) i none j = some r'
        rw [put_other _ _ (hother x j 0 hx (.inl hpx))]
      | _ => exact Iff.rfl
  · rcases h.fut l j k with k2 | ⟨x, who, r', k2, e⟩
    · exact .inl k2
    · refine .inr ⟨x, who, r', ?_, e⟩
      show put s.pc w _ x = _
      rw [put_other _ _ ?_]
      · exact k2
      · intro hx; subst hx; rw [hp] at k2; cases k2
  · obtain ⟨k, kn⟩ := harr' _ _ _ k
    obtain ⟨k1, k2⟩ := h.entry l j r' k
    refine ⟨k1, k2.imp id fun ⟨k3, x, k4⟩ => ⟨k3, x, ?_⟩⟩
    have hx : x ≠ w := by
      intro hx; subst hx
      rw [hp] at k4
      rcases k4 with k4 | k4
      · cases k4
      · cases k4; exact kn ⟨k3, rfl⟩
    show put s.pc w _ x = _ ∨ put s.pc w _ x = _
    rw [put_other _ _ hx]; exact k4
  · obtain ⟨k, hx⟩ := hne _ _ k (by simp)
    obtain ⟨k1, k2⟩ := h.store _ _ _ _ k
    refine ⟨?_, k2⟩
    show put s.arr s.exec (put (s.arr s.exec) i none) (C.level r') j = _
    cases hc : put s.arr s.exec (put (s.arr s.exec) i none) (C.level r') j with
    | none => rfl
    | some y => rw [(harr' _ _ _ hc).1] at k1; cases k1
  · exact h.uniq _ _ _ _ _ _ _ (hne _ _ k (by simp)).1 (hne _ _ k' (by simp)).1 e
  · obtain ⟨k, hx⟩ := hne _ _ k (by simp)
    obtain ⟨y, hy⟩ := h.take _ _ k
    refine ⟨y, ?_⟩
    show put s.arr s.exec _ s.exec j = _
    rw [put_same, put_other _ _ (hother x j 0 hx (.inl k))]; exact hy
  · obtain ⟨k, hx⟩ := hne _ _ k (by simp)
    obtain ⟨z, e, hz⟩ := h.clear _ _ _ k
    refine ⟨z, e, ?_⟩
    show put s.arr s.exec _ s.exec j = _
    subst e
    rw [put_same, put_other _ _ (hother x j z hx (.inr k))]; exact hz

/-- A reaction has ended. -/
theorem Places.finish (h : Places C s loc) {r : Nat} (hp : s.pc w = .run r) (H : List Ev) :
    Places C { s with pc := put s.pc w (.done r), hist := H } loc := by
  have hne : ∀ x p, put s.pc w (Pc.done r) x = p → p ≠ .done r → s.pc x = p := by
    intro x p k hn
    rcases put_cases k with ⟨_, k⟩ | ⟨_, k⟩
    · exact absurd k.symm hn
    · exact k
  have hback : ∀ x p, s.pc x = p → p ≠ .run r → put s.pc w (Pc.done r) x = p := by
    intro x p k hn
    by_cases hx : x = w
    · subst hx; rw [hp] at k; exact absurd k.symm hn
    · rw [put_other _ _ hx]; exact k
  refine ⟨h.q, h.slot, fun r' x => ?_, fun l j k => ?_, fun l j r' k => ?_, fun x who r' j k => ?_,
    fun x y who who' r' r'' j k k' e => ?_, fun x j k => ?_, fun x j y k => ?_⟩
  · show _ ↔ (put s.pc w (.done r) x).Holds (s.arr s.exec) r'
    rw [h.held]
    by_cases hx : x = w
    · subst hx; rw [put_same, hp]; exact Iff.rfl
    · rw [put_other _ _ hx]
  · rcases h.fut l j k with k | ⟨x, who, r', k, e⟩
    · exact .inl k
    · exact .inr ⟨x, who, r', hback _ _ k (by simp), e⟩
  · obtain ⟨k1, k2⟩ := h.entry l j r' k
    refine ⟨k1, k2.imp id fun ⟨k3, x, k4⟩ => ⟨k3, x, k4.imp (fun k => hback _ _ k (by simp)) fun k => hback _ _ k (by simp)⟩⟩
  · exact h.store _ _ _ _ (hne _ _ k (by simp))
  · exact h.uniq _ _ _ _ _ _ _ (hne _ _ k (by simp)) (hne _ _ k' (by simp)) e
  · exact h.take _ _ (hne _ _ k (by simp))
  · exact h.clear _ _ _ (hne _ _ k (by simp))

/-- Its status becomes `inactive`. -/
theorem Places.done (h : Places C s loc) {r : Nat} (hp : s.pc w = .done r) :
    Places C { s with queued := put s.queued r false, pc := put s.pc w .check } (put loc r none) := by
  have hloc : loc r = some (.held w) := (h.held r w).2 (by rw [hp]; rfl)
  have hne : ∀ x p, put s.pc w Pc.check x = p → p ≠ .check → s.pc x = p := by
    intro x p k hn
    rcases put_cases k with ⟨_, k⟩ | ⟨_, k⟩
    · exact absurd k.symm hn
    · exact k
  have hback : ∀ x p, s.pc x = p → p ≠ .done r → put s.pc w Pc.check x = p := by
    intro x p k hn
    by_cases hx : x = w
    · subst hx; rw [hp] at k; exact absurd k.symm hn
    · rw [put_other _ _ hx]; exact k
  have hl : ∀ r' y, put loc r none r' = some y → loc r' = some y := by
    intro r' y k
    rcases put_cases k with ⟨_, k⟩ | ⟨_, k⟩
    · cases k
    · exact k
  have hl' : ∀ r' j, loc r' = some (.slot j) → put loc r none r' = some (.slot j) := by
    intro r' j k
    rw [put_other _ _ ?_]
    · exact k
    · intro e; subst e; rw [hloc] at k; cases k
  refine ⟨fun r' => ?_, fun r' j k => h.slot r' j (hl _ _ k), fun r' x => ?_, fun l j k => ?_, fun l j r' k => ?_,
    fun x who r' j k => ?_, fun x y who who' r' r'' j k k' e => ?_, fun x j k => ?_, fun x j y k => ?_⟩
  · show put s.queued r false r' = true ↔ _
    by_cases e : r' = r
    · subst e; rw [put_same, put_same]; simp
    · rw [put_other _ _ e, put_other _ _ e]; exact h.q r'
  · show _ ↔ (put s.pc w .check x).Holds (s.arr s.exec) r'
    by_cases hx : x = w
    · subst hx
      rw [put_same]
      refine ⟨fun k => ?_, fun k => absurd k (by simp [Pc.Holds])⟩
      have := (h.held _ _).1 (hl _ _ k)
      rw [hp] at this
      replace this : r' = r := this
      subst this; rw [put_same] at k; cases k
    · rw [put_other _ _ hx]
      refine ⟨fun k => (h.held _ _).1 (hl _ _ k), fun k => ?_⟩
      rw [put_other _ _ ?_]
      · exact (h.held _ _).2 k
      · intro e; subst e
        rw [← h.held, hloc] at k; cases k; exact hx rfl
  · rcases h.fut l j k with ⟨r', k, e⟩ | ⟨x, who, r', k, e⟩
    · exact .inl ⟨r', hl' _ _ k, e⟩
    · exact .inr ⟨x, who, r', hback _ _ k (by simp), e⟩
  · obtain ⟨k1, k2⟩ := h.entry l j r' k
    exact ⟨k1, k2.imp (hl' _ _)
      fun ⟨k3, x, k4⟩ => ⟨k3, x, k4.imp (fun k => hback _ _ k (by simp)) fun k => hback _ _ k (by simp)⟩⟩
  · exact h.store _ _ _ _ (hne _ _ k (by simp))
  · exact h.uniq _ _ _ _ _ _ _ (hne _ _ k (by simp)) (hne _ _ k' (by simp)) e
  · exact h.take _ _ (hne _ _ k (by simp))
  · exact h.clear _ _ _ (hne _ _ k (by simp))

theorem Who.pc_holds (who : Who) (a : Nat → Option Nat) (r : Nat) : who.pc.Holds a r ↔ who = .running r := by
  cases who with
  | boot => exact ⟨fun k => k.elim, fun k => by cases k⟩
  | events => exact ⟨fun k => k.elim, fun k => by cases k⟩
  | running r' =>
    refine ⟨fun k => ?_, fun k => ?_⟩
    · rw [show r = r' from k]
    · cases k; exact rfl

theorem Who.pc_ne (who : Who) : (∀ i, who.pc ≠ .take i) ∧ (∀ i x, who.pc ≠ .clear i x) ∧ (∀ w r i, who.pc ≠ .store w r i) := by
  cases who <;> simp [Who.pc]

/-- A reaction is triggered. -/
theorem Places.trigger (h : Places C s loc) {who : Who} {r : Nat} (hp : s.pc w = who.pc) (hr : s.queued r = false)
    (H : List Ev) : Places C { s with hist := H, queued := put s.queued r true, pc := put s.pc w (.fetch who r) }
      (put loc r (some (.held w))) := by
  have hloc : loc r = none := by
    cases hc : loc r with
    | none => rfl
    | some y => have := (h.q r).2 (by rw [hc]; simp); rw [hr] at this; cases this
  have hne : ∀ x p, put s.pc w (Pc.fetch who r) x = p → p ≠ .fetch who r → s.pc x = p := by
    intro x p k hn
    rcases put_cases k with ⟨_, k⟩ | ⟨_, k⟩
    · exact absurd k.symm hn
    · exact k
  have hback : ∀ x p, s.pc x = p → p ≠ who.pc → put s.pc w (Pc.fetch who r) x = p := by
    intro x p k hn
    by_cases hx : x = w
    · subst hx; rw [hp] at k; exact absurd k.symm hn
    · rw [put_other _ _ hx]; exact k
  have hl' : ∀ r' y, loc r' = some y → put loc r (some (.held w)) r' = some y := by
    intro r' y k
    rw [put_other _ _ ?_]
    · exact k
    · intro e; subst e; rw [hloc] at k; cases k
  obtain ⟨n1, n2, n3⟩ := who.pc_ne
  refine ⟨fun r' => ?_, fun r' j k => ?_, fun r' x => ?_, fun l j k => ?_, fun l j r' k => ?_,
    fun x who r' j k => ?_, fun x y who who' r' r'' j k k' e => ?_, fun x j k => ?_, fun x j y k => ?_⟩
  · show put s.queued r true r' = true ↔ _
    by_cases e : r' = r
    · subst e; rw [put_same, put_same]; simp
    · rw [put_other _ _ e, put_other _ _ e]; exact h.q r'
  · rcases put_cases k with ⟨_, k⟩ | ⟨_, k⟩
    · cases k
    · exact h.slot r' j k
  · show _ ↔ (put s.pc w (.fetch who r) x).Holds (s.arr s.exec) r'
    by_cases hx : x = w
    · subst hx
      rw [put_same]
      show _ ↔ r' = r ∨ who = .running r'
      by_cases e : r' = r
      · subst e; rw [put_same]; simp
      · rw [put_other _ _ e, h.held, hp, who.pc_holds]
        simp [e]
    · rw [put_other _ _ hx, ← h.held]
      by_cases e : r' = r
      · subst e; rw [put_same, hloc]
        constructor
        · intro k; cases k; exact absurd rfl hx
        · intro k; cases k
      · rw [put_other _ _ e]
  · rcases h.fut l j k with ⟨r', k, e⟩ | ⟨x, who', r', k, e⟩
    · exact .inl ⟨r', hl' _ _ k, e⟩
    · exact .inr ⟨x, who', r', hback _ _ k (fun e => n3 _ _ _ e.symm), e⟩
  · obtain ⟨k1, k2⟩ := h.entry l j r' k
    exact ⟨k1, k2.imp (hl' _ _)
      fun ⟨k3, x, k4⟩ => ⟨k3, x, k4.imp (fun k => hback _ _ k (fun e => n1 _ e.symm)) fun k => hback _ _ k (fun e => n2 _ _ e.symm)⟩⟩
  · exact h.store _ _ _ _ (hne _ _ k (by simp))
  · exact h.uniq _ _ _ _ _ _ _ (hne _ _ k (by simp)) (hne _ _ k' (by simp)) e
  · exact h.take _ _ (hne _ _ k (by simp))
  · exact h.clear _ _ _ (hne _ _ k (by simp))

/-- A thread gets a free slot. -/
theorem Places.fetch (h : Places C s loc) {who : Who} {r : Nat} (hp : s.pc w = .fetch who r) (h0 : 0 ≤ s.idx (C.level r))
    (hex : ∀ x j y, s.pc x = .take j ∨ s.pc x = .clear j y → s.exec ≠ C.level r) (f : Bool) :
    Places C { s with
      idx := put s.idx (C.level r) (s.idx (C.level r) + 1)
      fault := f
      pc := put s.pc w (.store who r (s.idx (C.level r)).toNat) } loc := by
  generalize hi : (s.idx (C.level r)).toNat = i
  have hi' : (i : Int) = s.idx (C.level r) := by omega
  have hempty : s.arr (C.level r) i = none := by
    cases hc : s.arr (C.level r) i with
    | none => rfl
    | some y =>
      obtain ⟨k1, k2⟩ := h.entry _ _ _ hc
      rcases k2 with k2 | ⟨k3, x, k4⟩
      · have := (h.slot _ _ k2).2
        rw [k1] at this; omega
      · exact absurd k3.symm (hex x i (some y) k4)
  have hidx : ∀ l (j : Nat), (j : Int) < s.idx l → (j : Int) < put s.idx (C.level r) (s.idx (C.level r) + 1) l := by
    intro l j k
    by_cases hl : l = C.level r
    · subst hl; rw [put_same]; omega
    · rw [put_other _ _ hl]; exact k
  have hne : ∀ x p, put s.pc w (Pc.store who r i) x = p → (∀ a b c, p ≠ .store a b c) → s.pc x = p := by
    intro x p k hn
    rcases put_cases k with ⟨_, k⟩ | ⟨_, k⟩
    · exact absurd k.symm (hn _ _ _)
    · exact k
  have hback : ∀ x p, s.pc x = p → p ≠ .fetch who r → put s.pc w (Pc.store who r i) x = p := by
    intro x p k hn
    by_cases hx : x = w
    · subst hx; rw [hp] at k; exact absurd k.symm hn
    · rw [put_other _ _ hx]; exact k
  refine ⟨h.q, fun r' j k => ⟨(h.slot r' j k).1, hidx _ _ (h.slot r' j k).2⟩, fun r' x => ?_, fun l j k => ?_, fun l j r' k => ?_,
    fun x who' r' j k => ?_, fun x y who' who'' r' r'' j k k' e => ?_, fun x j k => ?_, fun x j y k => ?_⟩
  · show _ ↔ (put s.pc w (.store who r i) x).Holds (s.arr s.exec) r'
    rw [h.held]
    by_cases hx : x = w
    · subst hx; rw [put_same, hp]; exact Iff.rfl
    · rw [put_other _ _ hx]
  · replace k : (j : Int) < put s.idx (C.level r) (s.idx (C.level r) + 1) l := k
    by_cases hj : l = C.level r ∧ j = i
    · exact .inr ⟨w, who, r, by rw [hj.2]; exact put_same _ _ _, hj.1.symm⟩
    · have : (j : Int) < s.idx l := by
        by_cases hl : l = C.level r
        · subst hl; rw [put_same] at k
          have : j ≠ i := fun e => hj ⟨rfl, e⟩
          omega
        · rw [put_other _ _ hl] at k; exact k
      rcases h.fut l j this with k | ⟨x, who', r', k, e⟩
      · exact .inl k
      · exact .inr ⟨x, who', r', hback _ _ k (by simp), e⟩
  · obtain ⟨k1, k2⟩ := h.entry l j r' k
    exact ⟨k1, k2.imp id
      fun ⟨k3, x, k4⟩ => ⟨k3, x, k4.imp (fun k => hback _ _ k (by simp)) fun k => hback _ _ k (by simp)⟩⟩
  · rcases put_cases k with ⟨_, k⟩ | ⟨_, k⟩
    · cases k
      refine ⟨hempty, ?_⟩
      show (i : Int) < put s.idx (C.level r) (s.idx (C.level r) + 1) (C.level r)
      rw [put_same]; omega
    · exact ⟨(h.store _ _ _ _ k).1, hidx _ _ (h.store _ _ _ _ k).2⟩
  · rcases put_cases k with ⟨hx, k⟩ | ⟨hx, k⟩
    · rcases put_cases k' with ⟨hy, k'⟩ | ⟨hy, k'⟩
      · rw [hx, hy]
      · cases k
        have := (h.store _ _ _ _ k').2
        rw [← e] at this
        omega
    · rcases put_cases k' with ⟨hy, k'⟩ | ⟨hy, k'⟩
      · cases k'
        have := (h.store _ _ _ _ k).2
        rw [e] at this
        omega
      · exact h.uniq _ _ _ _ _ _ _ k k' e
  · exact h.take _ _ (hne _ _ k (by simp))
  · exact h.clear _ _ _ (hne _ _ k (by simp))

/-- It writes to the slot. -/
theorem Places.put (h : Places C s loc) {who : Who} {r i : Nat} (hp : s.pc w = .store who r i)
    (hwho : ∀ r', who = .running r' → r' ≠ r) (f : Bool) :
    Places C { s with
      arr := put s.arr (C.level r) (put (s.arr (C.level r)) i (some r))
      fault := f
      pc := put s.pc w who.pc } (put loc r (some (.slot i))) := by
  obtain ⟨hempty, hlt⟩ := h.store _ _ _ _ hp
  have hloc : loc r = some (.held w) := (h.held r w).2 (by rw [hp]; exact .inl rfl)
  obtain ⟨n1, n2, n3⟩ := who.pc_ne
  have harr : ∀ l j y, s.arr l j = some y → Np.put s.arr (C.level r) (Np.put (s.arr (C.level r)) i (some r)) l j = some y := by
    intro l j y k
    by_cases hl : l = C.level r
    · subst hl
      rw [put_same, put_other _ _ ?_]
      · exact k
      · intro e; subst e; rw [hempty] at k; cases k
    · rw [put_other _ _ hl]; exact k
  have harr' : ∀ l j y, Np.put s.arr (C.level r) (Np.put (s.arr (C.level r)) i (some r)) l j = y →
      (l = C.level r ∧ j = i ∧ y = some r) ∨ (s.arr l j = y ∧ ¬ (l = C.level r ∧ j = i)) := by
    intro l j y k
    by_cases hl : l = C.level r
    · subst hl
      rw [put_same] at k
      rcases put_cases k with ⟨e, k⟩ | ⟨e, k⟩
      · exact .inl ⟨rfl, e, k.symm⟩
      · exact .inr ⟨k, fun k => e k.2⟩
    · rw [put_other _ _ hl] at k; exact .inr ⟨k, fun k => hl k.1⟩
  have hne : ∀ x p, Np.put s.pc w who.pc x = p → p ≠ who.pc → s.pc x = p ∧ x ≠ w := by
    intro x p k hn
    rcases put_cases k with ⟨_, k⟩ | ⟨hx, k⟩
    · exact absurd k.symm hn
    · exact ⟨k, hx⟩
  have hback : ∀ x p, s.pc x = p → p ≠ .store who r i → Np.put s.pc w who.pc x = p := by
    intro x p k hn
    by_cases hx : x = w
    · subst hx; rw [hp] at k; exact absurd k.symm hn
    · rw [put_other _ _ hx]; exact k
  have hl' : ∀ r' j, loc r' = some (.slot j) → Np.put loc r (some (.slot i)) r' = some (.slot j) := by
    intro r' y k
    rw [put_other _ _ ?_]
    · exact k
    · intro e; subst e; rw [hloc] at k; cases k
  refine ⟨fun r' => ?_, fun r' j k => ?_, fun r' x => ?_, fun l j k => ?_, fun l j r' k => ?_,
    fun x who' r' j k => ?_, fun x y who' who'' r' r'' j k k' e => ?_, fun x j k => ?_, fun x j y k => ?_⟩
  · show s.queued r' = true ↔ _
    by_cases e : r' = r
    · subst e; rw [put_same, h.q, hloc]; simp
    · rw [put_other _ _ e]; exact h.q r'
  · show Np.put s.arr (C.level r) (Np.put (s.arr (C.level r)) i (some r)) (C.level r') j = _ ∧ _
    rcases put_cases k with ⟨e, k⟩ | ⟨_, k⟩
    · cases k; subst e; rw [put_same, put_same]; exact ⟨rfl, hlt⟩
    · exact ⟨harr _ _ _ (h.slot r' j k).1, (h.slot r' j k).2⟩
  · show _ ↔ (Np.put s.pc w who.pc x).Holds (Np.put s.arr (C.level r) (Np.put (s.arr (C.level r)) i (some r)) s.exec) r'
    by_cases hx : x = w
    · subst hx
      rw [put_same, who.pc_holds]
      by_cases e : r' = r
      · subst e; rw [put_same]
        constructor
        · intro k; cases k
        · intro k; exact absurd rfl (hwho _ k)
      · rw [put_other _ _ e, h.held, hp]
        show (r' = r ∨ who = .running r') ↔ _
        simp [e]
    · rw [put_other _ _ hx]
      have hh : (s.pc x).Holds (Np.put s.arr (C.level r) (Np.put (s.arr (C.level r)) i (some r)) s.exec) r' ↔
          (s.pc x).Holds (s.arr s.exec) r' := by
        cases hpx : s.pc x with
        | take j =>
          obtain ⟨y, hy⟩ := h.take _ _ hpx
          show Np.put s.arr (C.level r) (Np.put (s.arr (C.level r)) i (some r)) s.exec j = some r' ↔ s.arr s.exec j = some r'
          rw [harr _ _ _ hy, hy]
        | _ => exact Iff.rfl
      rw [hh, ← h.held]
      by_cases e : r' = r
      · subst e; rw [put_same, hloc]
        constructor
        · intro k; cases k
        · intro k; cases k; exact absurd rfl hx
      · rw [put_other _ _ e]
  · by_cases hj : l = C.level r ∧ j = i
    · exact .inl ⟨r, by rw [put_same, hj.2], hj.1.symm⟩
    · rcases h.fut l j k with ⟨r', k, e⟩ | ⟨x, who', r', k, e⟩
      · exact .inl ⟨r', hl' _ _ k, e⟩
      · refine .inr ⟨x, who', r', hback _ _ k ?_, e⟩
        intro k'; cases k'; exact hj ⟨e.symm, rfl⟩
  · rcases harr' _ _ _ k with ⟨e1, e2, e3⟩ | ⟨k, _⟩
    · cases e3
      exact ⟨e1.symm, .inl (by rw [put_same, e2])⟩
    · obtain ⟨k1, k2⟩ := h.entry l j r' k
      exact ⟨k1, k2.imp (hl' _ _)
        fun ⟨k3, x, k4⟩ => ⟨k3, x, k4.imp (fun k => hback _ _ k (by simp)) fun k => hback _ _ k (by simp)⟩⟩
  · obtain ⟨kk, hx⟩ := hne _ _ k (fun e => n3 _ _ _ e.symm)
    obtain ⟨k1, k2⟩ := h.store _ _ _ _ kk
    refine ⟨?_, k2⟩
    show Np.put s.arr (C.level r) (Np.put (s.arr (C.level r)) i (some r)) (C.level r') j = _
    rcases harr' (C.level r') j _ rfl with ⟨e1, e2, _⟩ | ⟨e, _⟩
    · subst e2
      exact absurd (h.uniq _ _ _ _ _ _ _ kk hp e1) hx
    · rw [← e]; exact k1
  · exact h.uniq _ _ _ _ _ _ _ (hne _ _ k (fun e => n3 _ _ _ e.symm)).1 (hne _ _ k' (fun e => n3 _ _ _ e.symm)).1 e
  · obtain ⟨k, hx⟩ := hne _ _ k (fun e => n1 _ e.symm)
    obtain ⟨y, hy⟩ := h.take _ _ k
    exact ⟨y, harr _ _ _ hy⟩
  · obtain ⟨k, hx⟩ := hne _ _ k (fun e => n2 _ _ e.symm)
    obtain ⟨z, e, hz⟩ := h.clear _ _ _ k
    exact ⟨z, e, harr _ _ _ hz⟩

theorem Places.init (C : Config) : Places C (init C) (fun _ => none) := by
  have hpc : ∀ x, (Np.init C).pc x = .check ∨ (Np.init C).pc x = .boot ∨ (Np.init C).pc x = .exited := by
    intro x
    show (if x < C.n then Pc.check else if x = C.n then Pc.boot else Pc.exited) = _ ∨
      (if x < C.n then Pc.check else if x = C.n then Pc.boot else Pc.exited) = _ ∨
      (if x < C.n then Pc.check else if x = C.n then Pc.boot else Pc.exited) = _
    split
    · exact .inl rfl
    · split
      · exact .inr (.inl rfl)
      · exact .inr (.inr rfl)
  have no : ∀ x p, (Np.init C).pc x = p → p.quiet = true := by
    intro x p k
    rcases hpc x with h | h | h <;> rw [h] at k <;> subst k <;> rfl
  refine ⟨fun r => ?_, fun r i k => (by cases k), fun r x => ?_, fun l i k => ?_, fun l i r k => (by cases k), fun x who r i k => ?_,
    fun x y who who' r r' i k k' e => ?_, fun x i k => ?_, fun x i y k => ?_⟩
  · show false = true ↔ _
    simp
  · exact ⟨fun k => (by cases k), fun k => absurd k (Pc.quiet_holds (no x _ rfl) _ _)⟩
  · replace k : (i : Int) < 0 := k
    omega
  · cases no _ _ k
  · cases no _ _ k
  · cases no _ _ k
  · cases no _ _ k

end

end ReactorC.Np
