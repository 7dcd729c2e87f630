import Verif.Leave.Frames
import Mathlib.Algebra.Order.BigOperators.Group.Finset
import Mathlib.Algebra.BigOperators.Intervals

/-!
# The end of the RTI: invariants
-/

set_option linter.unusedSimpArgs false
set_option linter.unusedVariables false

namespace ReactorC.Leave
open ReactorC.Net

theorem upd_same {α : Type} (f : Nat → α) (i : Nat) (v : α) : upd f i v i = v := by simp [upd]
theorem upd_ne {α : Type} (f : Nat → α) {i j : Nat} (v : α) (h : j ≠ i) : upd f i v j = f j := by simp [upd, h]

/-- All federates have left in order. -/
def Joined (F : Federation) (s : State) : Prop := ∀ i, i < F.n → (s.ended i).isSome = true

structure Inv (F : Federation) (s : State) : Prop where
  read : ∀ i, ∃ ms : List (List Byte), (∀ m ∈ ms, IsMessage rtiReads F.big m ∧ ¬ Leaves m) ∧
    F.stream i = ms.flatten ++ s.todo i
  how : ∀ i e, s.ended i = some e → i < F.n ∧ rtiNext F.big (s.todo i) = .inr e ∧ e ≠ .fatal
  error : s.error = true ↔ ∃ i, s.ended i = some .failed
  joining : ∀ k, s.main = .joining k → k ≤ F.n ∧ (∀ i, i < k → (s.ended i).isSome = true) ∧ ∀ j, s.told j = false
  exited : ∀ c, s.main = .exited c →
    (Joined F s ∧ (c = if s.error then 1 else 0) ∧ ∀ j, s.told j = false) ∨
    (c = 1 ∧ ∀ j, s.told j = (decide (j < F.n) && (s.ended j).isNone))

theorem Inv.init (F : Federation) : Inv F (init F) where
  read i := ⟨[], fun m hm => (by cases hm), rfl⟩
  how i e h := by cases h
  error := ⟨fun h => (by cases h), fun ⟨i, h⟩ => (by cases h)⟩
  joining k h := by
    have : (0 : Nat) = k := by simpa [Leave.init] using h
    subst this
    exact ⟨Nat.zero_le _, fun i hi => absurd hi (Nat.not_lt_zero _), fun _ => rfl⟩
  exited c h := by cases h

theorem Inv.die {F : Federation} {s : State} (v : Inv F s) : Inv F (die F s) where
  read := v.read
  how := v.how
  error := v.error
  joining k h := by cases h
  exited c h := .inr ⟨by cases h; rfl, fun j => rfl⟩

theorem Inv.step {F : Federation} {s t : State} (v : Inv F s) (h : Step F s t) : Inv F t := by
  cases h with
  | handle k i m rest hm hi hn hx =>
    obtain ⟨h1, h2, h3⟩ := rtiNext_inl hx
    refine ⟨fun j => ?_, fun j e he => ?_, v.error, v.joining, fun c hc => ?_⟩
    · by_cases e : j = i
      · subst e
        obtain ⟨ms, k1, k2⟩ := v.read j
        refine ⟨ms ++ [m], fun x hx => ?_, ?_⟩
        · rcases List.mem_append.1 hx with k | k
          · exact k1 x k
          · rw [List.mem_singleton.1 k]; exact ⟨h1, h2⟩
        · show _ = _ ++ upd s.todo j rest j
          rw [upd_same, k2, h3]; simp
      · obtain ⟨ms, k1, k2⟩ := v.read j
        refine ⟨ms, k1, ?_⟩
        show _ = _ ++ upd s.todo i rest j
        rw [upd_ne _ _ e, k2]
    · have hji : j ≠ i := fun k => by rw [k] at he; dsimp only at he; rw [hn] at he; cases he
      show _ ∧ rtiNext F.big (upd s.todo i rest j) = _ ∧ _
      rw [upd_ne _ _ hji]; exact v.how j e he
    · have hc : s.main = .exited c := hc
      rw [hm] at hc; cases hc
  | undeliverable k i d m rest hm hi hn hx hw hcr => exact v.die
  | fatal k i hm hi hn hx => exact v.die
  | left k i e hm hi hn hx he =>
    have hsome : ∀ j, (s.ended j).isSome = true → (upd s.ended i (some e) j).isSome = true := by
      intro j hj
      by_cases h : j = i
      · rw [h, upd_same]; rfl
      · rw [upd_ne _ _ h]; exact hj
    refine ⟨v.read, fun j e' he' => ?_, ?_, fun k' hk => ?_, fun c hc => ?_⟩
    · by_cases h : j = i
      · subst h
        have : upd s.ended j (some e) j = some e' := he'
        rw [upd_same] at this
        cases this
        exact ⟨hi, hx, he⟩
      · have : upd s.ended i (some e) j = some e' := he'
        rw [upd_ne _ _ h] at this
        exact v.how j e' this
    · show (s.error || decide (e = .failed)) = true ↔ ∃ j, upd s.ended i (some e) j = some .failed
      rw [Bool.or_eq_true, v.error, decide_eq_true_iff]
      constructor
      · rintro (⟨j, hj⟩ | rfl)
        · refine ⟨j, ?_⟩
          rw [upd_ne _ _ (fun k => by rw [k, hn] at hj; cases hj)]; exact hj
        · exact ⟨i, upd_same _ _ _⟩
      · rintro ⟨j, hj⟩
        by_cases h : j = i
        · rw [h, upd_same] at hj; cases hj; exact .inr rfl
        · rw [upd_ne _ _ h] at hj; exact .inl ⟨j, hj⟩
    · obtain ⟨a, b, c⟩ := v.joining k' hk
      exact ⟨a, fun j hj => hsome j (b j hj), c⟩
    · have hc : s.main = .exited c := hc
      rw [hm] at hc; cases hc
  | join k hm hk he =>
    refine ⟨v.read, v.how, v.error, fun k' hk' => ?_, fun c hc => (by cases hc)⟩
    have : k + 1 = k' := by simpa using hk'
    subst this
    obtain ⟨a, b, c⟩ := v.joining k hm
    refine ⟨hk, fun i hi => ?_, c⟩
    by_cases h : i = k
    · rw [h]; exact he
    · exact b i (by omega)
  | finish hm =>
    obtain ⟨a, b, c⟩ := v.joining _ hm
    refine ⟨v.read, v.how, v.error, fun k' hk' => (by cases hk'), fun c' hc => .inl ⟨fun i hi => b i hi, ?_, c⟩⟩
    have : (if s.error then 1 else 0) = c' := by simpa using hc
    exact this.symm

theorem reach_inv {F : Federation} {k : Nat} {s : State} (r : Reach F k s) : Inv F s := by
  induction r with
  | init => exact .init F
  | step _ h ih => exact ih.step h

/-! ## The steps that remain -/

/-- What remains to be read from one federate. -/
def left1 (s : State) (i : Nat) : Nat := (s.todo i).length + bif (s.ended i).isNone then 1 else 0

/-- What remains to be done. -/
def togo (F : Federation) (s : State) : Nat :=
  match s.main with
  | .exited _ => 0
  | .joining k => (Finset.range F.n).sum (left1 s) + (F.n - k) + 1

theorem togo_joining {F : Federation} {s : State} {k : Nat} (h : s.main = .joining k) :
    togo F s = (Finset.range F.n).sum (left1 s) + (F.n - k) + 1 := by
  unfold togo
  rw [h]

theorem togo_step {F : Federation} {s t : State} (h : Step F s t) : togo F t < togo F s := by
  have lower : ∀ (i : Nat) (s t : State), i < F.n → left1 t i < left1 s i → (∀ j, j ≠ i → left1 t j = left1 s j) →
      (Finset.range F.n).sum (left1 t) < (Finset.range F.n).sum (left1 s) := by
    intro i s t hi h1 h2
    refine Finset.sum_lt_sum (fun j _ => ?_) ⟨i, Finset.mem_range.2 hi, h1⟩
    by_cases e : j = i
    · subst e; exact Nat.le_of_lt h1
    · exact Nat.le_of_eq (h2 j e)
  have dead : ∀ k, s.main = .joining k → togo F (die F s) < togo F s := by
    intro k hk
    rw [togo_joining hk]
    exact Nat.succ_pos _
  cases h with
  | handle k i m rest hm hi hn hx =>
    obtain ⟨h1, h2, h3⟩ := rtiNext_inl hx
    have hne := List.length_pos_iff.2 h1.ne_nil
    have := lower i s { s with todo := upd s.todo i rest } hi (by
      unfold left1
      dsimp only
      rw [upd_same, h3, List.length_append]; omega) (fun j hj => by
      unfold left1
      dsimp only
      rw [upd_ne _ _ hj])
    rw [togo_joining hm, togo_joining (k := k) (by exact hm)]
    omega
  | undeliverable k i d m rest hm hi hn hx hw hcr => exact dead k hm
  | fatal k i hm hi hn hx => exact dead k hm
  | left k i e hm hi hn hx he =>
    have := lower i s { s with ended := upd s.ended i (some e), error := s.error || decide (e = .failed) } hi (by
      unfold left1
      dsimp only
      rw [upd_same, hn]; simp) (fun j hj => by
      unfold left1
      dsimp only
      rw [upd_ne _ _ hj])
    rw [togo_joining hm, togo_joining (k := k) (by exact hm)]
    omega
  | join k hm hk he =>
    have : (Finset.range F.n).sum (left1 { s with main := .joining (k + 1) }) = (Finset.range F.n).sum (left1 s) := rfl
    rw [togo_joining hm, togo_joining (k := k + 1) rfl]
    omega
  | finish hm =>
    rw [togo_joining hm]
    exact Nat.succ_pos _

theorem reach_togo {F : Federation} {k : Nat} {s : State} (r : Reach F k s) : k + togo F s ≤ togo F (init F) := by
  induction r with
  | init => omega
  | step _ h ih => have := togo_step h; omega

theorem has_step {F : Federation} {s : State} (v : Inv F s) : (∃ c, s.main = .exited c) ∨ ∃ t, Step F s t := by
  cases hm : s.main with
  | exited c => exact .inl ⟨c, rfl⟩
  | joining k =>
    right
    obtain ⟨a, b, _⟩ := v.joining k hm
    by_cases hk : k = F.n
    · subst hk; exact ⟨_, .finish s hm⟩
    have hk : k < F.n := by omega
    cases he : s.ended k with
    | some e => exact ⟨_, .join s k hm hk (by rw [he]; rfl)⟩
    | none =>
      cases hx : rtiNext F.big (s.todo k) with
      | inl p => exact ⟨_, .handle s k k p.1 p.2 hm hk he hx⟩
      | inr e =>
        by_cases hf : e = .fatal
        · subst hf; exact ⟨_, .fatal s k k hm hk he hx⟩
        · exact ⟨_, .left s k k e hm hk he hx hf⟩

/-- How a thread ends is determined by what is read. -/
theorem same_end {big : Bool} {ms ns : List (List Byte)} {s t : List Byte} {e f : End}
    (hm : ∀ m ∈ ms, IsMessage rtiReads big m ∧ ¬ Leaves m) (hn : ∀ m ∈ ns, IsMessage rtiReads big m ∧ ¬ Leaves m)
    (he : rtiNext big s = .inr e) (hf : rtiNext big t = .inr f) (h : ms.flatten ++ s = ns.flatten ++ t) :
    ms = ns ∧ e = f := by
  have h1 := rtiListen_messages hm he ((ms.flatten ++ s).length + 1) (by simp)
  have h2 := rtiListen_messages hn hf ((ms.flatten ++ s).length + 1) (by rw [h]; simp)
  rw [← h, h1] at h2
  simpa using h2

end ReactorC.Leave
