import Verif.Memory.Model
import Mathlib.Tactic.Tauto

/-! # Sequences of accesses that are safe -/

namespace Verif.Memory

/-- The addresses a sequence reads or frees. -/
def targets : List Act → List Nat
  | [] => []
  | .read none :: l => targets l
  | .read (some a) :: l => a :: targets l
  | .free none :: l => targets l
  | .free (some a) :: l => a :: targets l

/-- The addresses a sequence frees. -/
def frees : List Act → List Nat
  | [] => []
  | .read _ :: l => frees l
  | .free none :: l => frees l
  | .free (some a) :: l => a :: frees l

/-- Nothing is accessed after it was freed, and nothing is read through a null pointer. -/
def Ordered : List Act → Prop
  | [] => True
  | .read p :: l => p ≠ none ∧ Ordered l
  | .free none :: l => Ordered l
  | .free (some a) :: l => a ∉ targets l ∧ Ordered l

theorem mem_targets {l : List Act} {a : Nat} :
    a ∈ targets l ↔ Act.read (some a) ∈ l ∨ Act.free (some a) ∈ l := by
  induction l with
  | nil => simp [targets]
  | cons x l ih =>
      rcases x with (_ | b) | (_ | b) <;> simp [targets, ih] <;> tauto

theorem mem_frees {l : List Act} {a : Nat} : a ∈ frees l ↔ Act.free (some a) ∈ l := by
  induction l with
  | nil => simp [frees]
  | cons x l ih =>
      rcases x with (_ | b) | (_ | b) <;> simp [frees, ih]

theorem frees_targets {l : List Act} {a : Nat} (h : a ∈ frees l) : a ∈ targets l :=
  mem_targets.2 (.inr (mem_frees.1 h))

theorem ordered_append {x y : List Act} (hx : Ordered x) (hy : Ordered y)
    (h : ∀ a ∈ frees x, a ∉ targets y) : Ordered (x ++ y) := by
  induction x with
  | nil => exact hy
  | cons q x ih =>
      rcases q with p | (_ | b)
      · exact ⟨hx.1, ih hx.2 h⟩
      · exact ih hx h
      · refine ⟨?_, ih hx.2 fun a ha => h a (by simp [frees, ha])⟩
        show b ∉ targets (x ++ y)
        have h1 := hx.1
        have h2 := h b (by simp [frees])
        rw [mem_targets] at h1 h2 ⊢
        simp only [List.mem_append]
        tauto

theorem ordered_flatMap {α : Type} {f : α → List Act} {obj : α → List Nat} {l : List α}
    (h1 : ∀ x ∈ l, Ordered (f x)) (h2 : ∀ x ∈ l, ∀ a ∈ targets (f x), a ∈ obj x)
    (h3 : (l.flatMap obj).Nodup) : Ordered (l.flatMap f) := by
  induction l with
  | nil => trivial
  | cons x l ih =>
      rw [List.flatMap_cons] at h3 ⊢
      obtain ⟨-, h4, h5⟩ := List.nodup_append.1 h3
      refine ordered_append (h1 x (by simp)) (ih (fun y hy => h1 y (by simp [hy]))
        (fun y hy => h2 y (by simp [hy])) h4) ?_
      intro a ha ht
      have h6 := h2 x (by simp) a (frees_targets ha)
      have h7 : a ∈ l.flatMap obj := by
        rw [mem_targets] at ht
        simp only [List.mem_flatMap] at ht ⊢
        rcases ht with ⟨y, hy, hm⟩ | ⟨y, hy, hm⟩
        · exact ⟨y, hy, h2 y (by simp [hy]) a (mem_targets.2 (.inl hm))⟩
        · exact ⟨y, hy, h2 y (by simp [hy]) a (mem_targets.2 (.inr hm))⟩
      exact h5 a h6 a h7 rfl

/-- A sequence in order on allocated memory is defined, and frees what it frees. -/
theorem exec_ok {l : List Act} : ∀ {h : Heap}, Ordered l → (∀ a ∈ targets l, h a = true) →
    ∃ h', exec l h = some h' ∧ ∀ a, h' a = true ↔ h a = true ∧ a ∉ frees l := by
  induction l with
  | nil =>
      intro h _ _
      exact ⟨h, rfl, by simp [frees]⟩
  | cons x l ih =>
      intro h ho ht
      rcases x with (_ | b) | (_ | b)
      · exact absurd rfl ho.1
      · obtain ⟨h', e, hh⟩ := ih (h := h) ho.2 fun a ha => ht a (by simp [targets, ha])
        have hb := ht b (by simp [targets])
        exact ⟨h', by simp [exec, Act.exec, hb, e], by simpa [frees] using hh⟩
      · obtain ⟨h', e, hh⟩ := ih (h := h) ho fun a ha => ht a (by simp [targets, ha])
        exact ⟨h', by simp [exec, Act.exec, e], by simpa [frees] using hh⟩
      · have hb := ht b (by simp [targets])
        obtain ⟨h', e, hh⟩ := ih (h := Function.update h b false) ho.2 (by
          intro a ha
          have : a ≠ b := by
            rintro rfl
            exact ho.1 ha
          rw [Function.update_of_ne this]
          exact ht a (by simp [targets, ha]))
        refine ⟨h', by simp [exec, Act.exec, hb, e], ?_⟩
        intro a
        rw [hh]
        simp only [frees, List.mem_cons, not_or]
        by_cases hab : a = b
        · subst hab
          simp
        · rw [Function.update_of_ne hab]
          tauto

theorem exec_append (x y : List Act) (h : Heap) : exec (x ++ y) h = (exec x h).bind (exec y) := by
  induction x generalizing h with
  | nil => rfl
  | cons a x ih =>
      simp only [List.cons_append, exec]
      cases a.exec h with
      | none => rfl
      | some h' => exact ih h'

theorem act_mono {x : Act} {h h' : Heap} (e : x.exec h = some h') (a : Nat) (ha : h a = false) : h' a = false := by
  match x with
  | .read none => cases e
  | .read (some b) =>
      simp only [Act.exec] at e
      split at e
      · cases e
        exact ha
      · cases e
  | .free none => cases e; exact ha
  | .free (some b) =>
      simp only [Act.exec] at e
      split at e
      · cases e
        by_cases hab : a = b
        · subst hab
          simp
        · simp [hab, ha]
      · cases e

/-- Nothing is allocated by accesses. -/
theorem exec_mono {l : List Act} : ∀ {h h' : Heap}, exec l h = some h' → ∀ a, h a = false → h' a = false := by
  induction l with
  | nil => intro h h' e a ha; cases e; exact ha
  | cons x l ih =>
      intro h h' e a ha
      simp only [exec] at e
      cases hx : x.exec h with
      | none => rw [hx] at e; cases e
      | some h1 =>
          rw [hx] at e
          exact ih e a (act_mono hx a ha)

/-- What was freed is not allocated. -/
theorem exec_frees {l : List Act} : ∀ {h h' : Heap}, exec l h = some h' → ∀ a ∈ frees l, h' a = false := by
  induction l with
  | nil => intro h h' _ a ha; simp [frees] at ha
  | cons x l ih =>
      intro h h' e a ha
      simp only [exec] at e
      cases hx : x.exec h with
      | none => rw [hx] at e; cases e
      | some h1 =>
          rw [hx] at e
          rcases List.mem_cons.1 (mem_frees.1 ha) with hxa | hl
          · subst hxa
            refine exec_mono e a ?_
            simp only [Act.exec] at hx
            split at hx
            · cases hx
              simp
            · cases hx
          · exact ih e a (mem_frees.2 hl)

end Verif.Memory
