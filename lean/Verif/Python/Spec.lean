import Verif.Python.Model

/-! # What Python programs expect of ports -/

namespace ReactorC.Python

/-- The last value that a port was set to; `none` if it never was. -/
def lastSet : List Ev → Nat → Option Nat
  | [], _ => none
  | .set q v :: l, p => if q = p then v else lastSet l p
  | .tag :: l, p => lastSet l p

/-- Whether the port was set at the current tag. -/
def setNow : List Ev → Nat → Bool
  | [], _ => false
  | .set q _ :: l, p => decide (q = p) || setNow l p
  | .tag :: _, _ => false

/-- The ports of the program whose value is `v`. -/
def portsWith (s : State) (v : Nat) : List Nat := (List.range s.n).filter fun p => (s.port p).value = some v

/-- `next(port)`, `k` times. -/
def nexts (s : State) (c : Nat) : Nat → State
  | 0 => s
  | k + 1 => (iterNext (nexts s c k) c).1

end ReactorC.Python
