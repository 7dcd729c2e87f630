import Verif.Tag.Model

/-!
# Specification vocabulary for tags

The lexicographic order on tags, independent of `lf_tag_compare`.
-/

namespace ReactorC

/-- Lexicographic strict order: time first, then microstep. -/
instance : LT Tag := ⟨fun a b => a.time < b.time ∨ (a.time = b.time ∧ a.microstep < b.microstep)⟩

/-- Lexicographic order: time first, then microstep. -/
instance : LE Tag := ⟨fun a b => a.time < b.time ∨ (a.time = b.time ∧ a.microstep ≤ b.microstep)⟩

theorem Tag.lt_def (a b : Tag) :
    a < b ↔ a.time < b.time ∨ (a.time = b.time ∧ a.microstep < b.microstep) := Iff.rfl

theorem Tag.le_def (a b : Tag) :
    a ≤ b ↔ a.time < b.time ∨ (a.time = b.time ∧ a.microstep ≤ b.microstep) := Iff.rfl

instance (a b : Tag) : Decidable (a < b) := by rw [Tag.lt_def]; infer_instance
instance (a b : Tag) : Decidable (a ≤ b) := by rw [Tag.le_def]; infer_instance

/-- Saturating sum of times: the exact sum clipped to `[NEVER, FOREVER]`, where
`NEVER` and `FOREVER` stand for minus and plus infinity (`NEVER` wins). -/
def satAdd (a b : Int) : Int :=
  if a = NEVER ∨ b = NEVER then NEVER
  else if a = FOREVER ∨ b = FOREVER then FOREVER
  else max NEVER (min FOREVER (a + b))

end ReactorC
