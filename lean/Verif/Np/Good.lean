import Verif.Np.Spec

/-!
# Facts about the record of what happened
-/

set_option linter.unusedVariables false

namespace ReactorC.Np

/-- What the record says, whatever the state. -/
structure Good (first : Nat → Nat → Prop) (h : List Ev) : Prop where
  once : ∀ r, starts r (thisTag h) ≤ 1 ∧ finishes r (thisTag h) ≤ starts r (thisTag h)
  asked : ∀ r, starts r (thisTag h) ≠ 0 → Ev.trigger r ∈ thisTag h
  order : Order first (thisTag h)
  past : ∀ later e before, h = later ++ e :: before → e = .advance ∨ e = .stop →
    Complete (thisTag before) ∧ Order first (thisTag before)
  last : ∀ later before, h = later ++ .stop :: before → later = []

section
variable {first : Nat → Nat → Prop}

theorem Good.more {h : List Ev} (g : Good first h) {e : Ev} (he : e ≠ .advance)
    (h1 : ∀ r, starts r (e :: thisTag h) ≤ 1 ∧ finishes r (e :: thisTag h) ≤ starts r (e :: thisTag h))
    (h2 : ∀ r, starts r (e :: thisTag h) ≠ 0 → Ev.trigger r ∈ e :: thisTag h)
    (h3 : Order first (e :: thisTag h))
    (h4 : e = .stop → Complete (thisTag h)) (h5 : Ev.stop ∉ h) : Good first (e :: h) := by
  have ht : thisTag (e :: h) = e :: thisTag h := by cases e <;> first | rfl | exact absurd rfl he
  refine ⟨by rw [ht]; exact h1, by rw [ht]; exact h2, by rw [ht]; exact h3, fun a e' b k ke => ?_, fun a b k => ?_⟩
  · cases a with
    | nil =>
      cases k
      rcases ke with ke | ke
      · exact absurd ke he
      · exact ⟨h4 ke, g.order⟩
    | cons x a => cases k; exact g.past _ _ _ rfl ke
  · cases a with
    | nil => rfl
    | cons x a => cases k; exact absurd (by simp) h5

theorem Good.close {h : List Ev} (g : Good first h) (h4 : Complete (thisTag h)) (h5 : Ev.stop ∉ h) : Good first (.advance :: h) := by
  refine ⟨fun r => ⟨Nat.zero_le _, Nat.le_refl _⟩, fun r k => absurd rfl k, fun a x r' b k => ?_, fun a e' b k ke => ?_,
    fun a b k => ?_⟩
  · have := congrArg List.length k
    simp [thisTag] at this
  · cases a with
    | nil => cases k; exact ⟨h4, g.order⟩
    | cons x a => cases k; exact g.past _ _ _ rfl ke
  · cases a with
    | nil => rfl
    | cons x a => cases k; exact absurd (by simp) h5

/-- An event that is not the start of a reaction keeps the order. -/
theorem Order.more {q : List Ev} (h : Order first q) {e : Ev} (he : ∀ w r, e ≠ .start w r) :
    Order first (e :: q) := by
  intro a x r' b k r hl hs
  cases a with
  | nil => exact absurd (List.cons.inj k).1 (he x r')
  | cons y a =>
    refine h a x r' b (List.cons.inj k).2 r hl ?_
    cases e <;> first | exact hs | exact absurd rfl (he _ _)

theorem Good.init (first : Nat → Nat → Prop) : Good first [] :=
  ⟨fun _ => ⟨Nat.zero_le _, Nat.le_refl _⟩, fun _ k => absurd rfl k, fun a x r b k => (by cases a <;> cases k),
    fun a e b k => (by cases a <;> cases k), fun a b k => (by cases a <;> cases k)⟩

end

end ReactorC.Np
