import Verif.Sensor.Model

/-!
# What a sensor simulator should do
-/

namespace ReactorC.Sensor.Spec
open ReactorC.Printing (Text)

/-- What the user should see: all that was posted before the windows were closed. -/
def wanted (posted : List (Kind × Text)) : List (Kind × Text) := posted.takeWhile fun e => e.1 ≠ .close

/-- A registration: a key and an action, which may be NULL. -/
abbrev Registration := Int × Option Nat

/-- The documented codes: everything fine, key in use, key not supported, no action. -/
def OK : Int := 0
def IN_USE : Int := 1
def NOT_SUPPORTED : Int := 2
def NULL_ACTION : Int := 3

/-- The supported keys: newline, the printable characters and delete, and 0 for any key. -/
def Supported (key : Int) : Prop := key = 10 ∨ key = 0 ∨ 32 ≤ key ∧ key ≤ 127

instance (k : Int) : Decidable (Supported k) := by unfold Supported; infer_instance

/-- The action for a key: the first one that was registered for it. -/
def actionFor (l : List Registration) (key : Int) : Option Nat :=
  l.findSome? fun r => if r.1 = key ∧ Supported key then r.2 else none

/-- The code that a registration should give after others. -/
def code (before : List Registration) (r : Registration) : Int :=
  if r.2 = none then NULL_ACTION
  else if ¬ Supported r.1 then NOT_SUPPORTED
  else if (actionFor before r.1).isSome then IN_USE
  else OK

/-- What typing a key should schedule: the action for the key, then the action for any key.  Code 0 cannot be typed on a keyboard as a key of its own. -/
def scheduled (l : List Registration) (c : Int) : List Nat := (if c = 0 then [] else (actionFor l c).toList) ++ (actionFor l 0).toList

end ReactorC.Sensor.Spec
