import Mathlib.Data.List.Basic

/-!
# Permuted mixed-radix numbers

Models core/mixed_radix.c, used by generated code to enumerate the ports and banks of a connection.
-/

namespace ReactorC.MixedRadix

/-- `mixed_radix_int_t`, include/core/mixed_radix.h:101-106.  `size` is the length of `digits`; the pointers to
radixes and permutation are lists.  Digits and radixes are taken as non-negative. -/
structure Num where
  digits : List Nat
  radixes : List Nat
  perm : List Nat
deriving DecidableEq, Repr

/-- The loop of `mixed_radix_incr`, core/mixed_radix.c:46-59, over the permutation entries not yet visited.
Incrementing a digit cannot overflow `int`, since a digit in range is less than an `int`. -/
def incrLoop (radixes : List Nat) : List Nat → List Nat → List Nat
  | [], digits => digits.set (digits.length - 1) 0
  | p :: ps, digits =>
    if digits.getD p 0 + 1 ≥ radixes.getD p 0 then incrLoop radixes ps (digits.set p 0)
    else digits.set p (digits.getD p 0 + 1)

/-- `mixed_radix_incr`, core/mixed_radix.c:42-60. -/
def incr (m : Num) : Num := { m with digits := incrLoop m.radixes (m.perm.take m.digits.length) m.digits }

/-- INT_MAX for the `int` in which the value is computed. -/
def intMax : Nat := 2147483647

/-- The loop of `mixed_radix_parent`, core/mixed_radix.c:75-79, over (digit, radix) pairs; `none` when signed
arithmetic overflows. -/
def parentLoop : List (Nat × Nat) → Nat → Nat → Option Nat
  | [], result, _ => some result
  | (d, r) :: rest, result, factor =>
    if factor * d ≤ intMax ∧ result + factor * d ≤ intMax ∧ factor * r ≤ intMax then
      parentLoop rest (result + factor * d) (factor * r)
    else none

/-- `mixed_radix_parent`, core/mixed_radix.c:69-81. -/
def parent (m : Num) (n : Nat) : Option Nat := parentLoop ((m.digits.zip m.radixes).drop n) 0 1

/-- `mixed_radix_to_int`, core/mixed_radix.c:86. -/
def toInt (m : Num) : Option Nat := parent m 0

end ReactorC.MixedRadix
