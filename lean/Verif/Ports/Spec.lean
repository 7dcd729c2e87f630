import Verif.Ports.Model

/-!
# Ports, specification

The default ports are 15045 to 15060 (include/core/federated/network/net_common.h:213-218, 242-248).
-/

namespace ReactorC.Ports.Spec

/-- The ports that are tried when no port has been given. -/
def IsDefault (p : Nat) : Prop := 15045 ≤ p ∧ p ≤ 15060

instance (p : Nat) : Decidable (IsDefault p) := inferInstanceAs (Decidable (_ ∧ _))

/-- From time `s` on the RTI of the federate answers on port `r`, and nobody else acknowledges the federate on any of the
default ports. -/
structure RtiAt (w : World) (r s : Nat) : Prop where
  there : ∀ t, s ≤ t → w.answer t r = .reply .ack
  alone : ∀ t p, IsDefault p → p ≠ r → w.answer t p ≠ .reply .ack

/-- No attempt takes longer than `d`, with what the sleep before the next is too long. -/
def Within (w : World) (d : Nat) : Prop := ∀ k, w.cost k + w.over (k + 1) ≤ d

end ReactorC.Ports.Spec
