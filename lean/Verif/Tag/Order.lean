import Verif.Tag.Lemmas
import Mathlib.Order.Defs.LinearOrder

/-! The lexicographic order on tags as a Mathlib `LinearOrder`. -/

namespace ReactorC

instance : LinearOrder Tag where
  le_refl := Tag.le_refl
  le_trans _ _ _ := Tag.le_trans
  le_antisymm _ _ := Tag.le_antisymm
  le_total := Tag.le_total
  lt_iff_le_not_ge _ _ := Tag.lt_iff_le_not_le
  toDecidableLE := fun a b => inferInstance
  toDecidableLT := fun a b => inferInstance

end ReactorC
