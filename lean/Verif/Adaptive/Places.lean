import Verif.Adaptive.Crew

/-!
# Where the reactions are

Each reaction is idle, has a slot in one of the arrays (perhaps still to be written), or is with a thread: about to be
inserted, taken out, being executed, or executed.
-/

set_option linter.unusedVariables false
set_option linter.unusedSimpArgs false

namespace ReactorC.Adaptive

open Np (Ev Who put)

/-- What a thread does with a reaction. -/
inductive Kind
  | fetching
  | took
  | running
  | ended
deriving DecidableEq, Repr

inductive Loc
  | idle
  | slot (v i : Nat)
  | with (t : Nat) (k : Kind)
deriving DecidableEq, Repr

/-- A thread at this statement has the reaction; `a` is the array of the current level. -/
def Pc.Has (a : Nat → Nat → Option Nat) (r : Nat) : Pc → Kind → Prop
  | .fetch (.running r') r'', k => (k = .fetching ∧ r = r'') ∨ (k = .running ∧ r = r')
  | .fetch _ r'', k => k = .fetching ∧ r = r''
  | .store (.running r') _ _ _, k => k = .running ∧ r = r'
  | .run r', k => k = .running ∧ r = r'
  | .done r', k => k = .ended ∧ r = r'
  | .took v i, k => k = .took ∧ a v i = some r
  | _, _ => False

/-- The statements at which a thread has nothing to do with reactions. -/
def Pc.plain : Pc → Bool
  | .fetch _ _ | .store _ _ _ _ | .run _ | .done _ | .took _ _ | .zero _ _ => false
  | _ => true

/-- The first reactions of a tag are triggered, or the tag advances. -/
def Pc.opening : Pc → Bool
  | .boot | .fetch .boot _ | .store .boot _ _ _ | .tag | .events | .fetch .events _ | .store .events _ _ _ => true
  | _ => false

/-- A reaction triggers reactions of higher levels. -/
def Pc.Above (level : Nat → Nat) : Pc → Prop
  | .fetch (.running r') r => level r' < level r
  | .store (.running r') r _ _ => level r' < level r
  | _ => True

structure Places (C : Config) (s : State) (loc : Nat → Loc) : Prop where
  queued : ∀ r, s.queued r = true ↔ loc r ≠ .idle
  held : ∀ r t k, loc r = .with t k ↔ (s.pc t).Has (s.arr s.cur) r k
  took : ∀ t v i, s.pc t = .took v i → s.arr s.cur v i ≠ none
  slot : ∀ r v i, loc r = .slot v i → v = C.hash r % s.nw (C.level r) ∧ (i : Int) < s.cnt (C.level r) v ∧
    (s.arr (C.level r) v i = some r ∨ ∃ t who, s.pc t = .store who r v i)
  store : ∀ t who r v i, s.pc t = .store who r v i → loc r = .slot v i
  full : ∀ l v (i : Nat), (i : Int) < s.cnt l v → ∃ r, C.level r = l ∧ loc r = .slot v i
  inj : ∀ r r' v i, loc r = .slot v i → loc r' = .slot v i → C.level r = C.level r' → r = r'
  prog : ∀ r, loc r ≠ .idle → r ∈ C.reactions

structure Levels (C : Config) (s : State) (loc : Nat → Loc) : Prop where
  low : ∀ r, loc r ≠ .idle → s.cur ≤ C.level r
  here : ∀ r t k, loc r = .with t k → k ≠ .fetching → C.level r = s.cur
  above : ∀ t, (s.pc t).Above C.level
  opens : ∀ t, (s.pc t).opening = true → s.cur = 0

structure Numbers (C : Config) (s : State) : Prop where
  nonneg : ∀ l v, l ≠ s.cur → 0 ≤ s.cnt l v
  neg : ∀ v, s.cnt s.cur v < 0 → ∃ t sn, s.pc t = .zero sn v
  zeroed : ∀ t sn v, s.pc t = .zero sn v → s.cnt s.cur v ≤ 0
  nw : ∀ l, C.cap l ≠ 0 → 1 ≤ s.nw l ∧ s.nw l ≤ C.maxw l
  num : s.num = s.nw s.cur

structure Data (C : Config) (s : State) (loc : Nat → Loc) : Prop where
  p : Places C s loc
  l : Levels C s loc
  n : Numbers C s

section
variable {C : Config} {s s' : State} {w : Nat} {loc : Nat → Loc}

theorem Pc.plain_has {p : Pc} (h : p.plain = true) {a : Nat → Nat → Option Nat} {r : Nat} {k : Kind} : ¬ p.Has a r k := by
  cases p <;> first | exact id | (cases h; done)

theorem cap_ne {r : Nat} (h : r ∈ C.reactions) : C.cap (C.level r) ≠ 0 := by
  unfold Config.cap
  have : r ∈ C.reactions.filter (fun x => decide (C.level x = C.level r)) := List.mem_filter.2 ⟨h, by simp⟩
  intro e
  rw [List.length_eq_zero_iff] at e
  rw [e] at this; cases this

/-- The worker in whose array a reaction is has a number below the number of workers for the level. -/
theorem Data.slot_lt (h : Data C s loc) {r v i : Nat} (hr : loc r = .slot v i) : v < s.nw (C.level r) := by
  have h1 := h.p.prog r (by rw [hr]; simp)
  have h2 := (h.n.nw _ (cap_ne h1)).1
  rw [(h.p.slot r v i hr).1]
  exact Nat.mod_lt _ h2

/-- Beyond the number of workers of the current level there are no reactions. -/
theorem Data.beyond (h : Data C s loc) {v : Nat} (hv : s.num ≤ v) : s.cnt s.cur v ≤ 0 := by
  by_contra hc
  obtain ⟨r, h1, h2⟩ := h.p.full s.cur v 0 (by omega)
  have := h.slot_lt h2
  rw [h1, ← h.n.num] at this
  omega

/-- A move that has nothing to do with reactions. -/
theorem Data.move (h : Data C s loc) {p : Pc} (hpc : s'.pc = put s.pc w p) (ho : (s.pc w).plain = true) (hp : p.plain = true)
    (hopen : p.opening = true → s.cur = 0) (hq : s'.queued = s.queued) (ha : s'.arr = s.arr) (hc : s'.cnt = s.cnt)
    (hcur : s'.cur = s.cur) (hnw : s'.nw = s.nw) (hnum : s'.num = s.num) : Data C s' loc := by
  have hpx : ∀ x, x ≠ w → s'.pc x = s.pc x := fun x hx => by rw [hpc, put_ne _ _ hx]
  have hpw : s'.pc w = p := by rw [hpc, put_same]
  have hstore : ∀ t who r v i, s'.pc t = .store who r v i ↔ s.pc t = .store who r v i := by
    intro t who r v i
    by_cases e : t = w
    · subst e
      rw [hpw]
      constructor
      · intro k; rw [k] at hp; cases hp
      · intro k; rw [k] at ho; cases ho
    · rw [hpx t e]
  have hzero : ∀ t sn v, s'.pc t = .zero sn v ↔ s.pc t = .zero sn v := by
    intro t sn v
    by_cases e : t = w
    · subst e
      rw [hpw]
      constructor
      · intro k; rw [k] at hp; cases hp
      · intro k; rw [k] at ho; cases ho
    · rw [hpx t e]
  refine ⟨⟨?_, ?_, ?_, ?_, ?_, ?_, h.p.inj, h.p.prog⟩, ⟨?_, ?_, ?_, ?_⟩, ⟨?_, ?_, ?_, ?_, ?_⟩⟩
  · rw [hq]; exact h.p.queued
  · intro r t k
    rw [ha, hcur, h.p.held r t k]
    by_cases e : t = w
    · subst e
      rw [hpw]
      exact ⟨fun k => absurd k (Pc.plain_has ho), fun k => absurd k (Pc.plain_has hp)⟩
    · rw [hpx t e]
  · intro t v i k
    rw [ha, hcur]
    by_cases e : t = w
    · subst e
      rw [hpw] at k; rw [k] at hp; cases hp
    · rw [hpx t e] at k; exact h.p.took t v i k
  · intro r v i k
    rw [hnw, hc, ha]
    obtain ⟨k1, k2, k3⟩ := h.p.slot r v i k
    exact ⟨k1, k2, k3.elim .inl fun ⟨t, who, k⟩ => .inr ⟨t, who, (hstore ..).2 k⟩⟩
  · intro t who r v i k
    exact h.p.store t who r v i ((hstore ..).1 k)
  · rw [hc]; exact h.p.full
  · rw [hcur]; exact h.l.low
  · rw [hcur]; exact h.l.here
  · intro t
    by_cases e : t = w
    · subst e
      rw [hpw]; cases p <;> first | trivial | (cases hp; done)
    · rw [hpx t e]; exact h.l.above t
  · intro t k
    rw [hcur]
    by_cases e : t = w
    · subst e; rw [hpw] at k; exact hopen k
    · rw [hpx t e] at k; exact h.l.opens t k
  · rw [hcur, hc]; exact h.n.nonneg
  · rw [hcur, hc]
    intro v k
    obtain ⟨t, sn, k⟩ := h.n.neg v k
    exact ⟨t, sn, (hzero ..).2 k⟩
  · rw [hcur, hc]
    intro t sn v k
    exact h.n.zeroed t sn v ((hzero ..).1 k)
  · rw [hnw]; exact h.n.nw
  · rw [hnum, hnw, hcur]; exact h.n.num

end

end ReactorC.Adaptive
