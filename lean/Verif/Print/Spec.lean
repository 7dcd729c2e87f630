import Verif.Print.Model

/-!
# C91: specification of messages
-/

namespace ReactorC.Printing

/-- Who prints the message: nothing without a federation, the RTI, or the federate with its number and name. -/
def header (c : Config) : Text :=
  if c.id < 0 then []
  else if c.rti then "RTI: ".toList
  else "Fed ".toList ++ decimal c.id.toNat ++ " (".toList ++ strip c.name ++ "): ".toList

/-- A message: who prints it, of which kind it is, and a newline after it. -/
def line (c : Config) (k : Kind) (t : Text) : Text := header c ++ k.prefix ++ t ++ ['\n']

/-- The messages up to which level are printed: the greater one of the level with which the program was compiled and the level of the registered function. -/
def wanted (c : Config) (s : State) : Int := max c.compiled s.level

/-- The number of a federate is an `int`, and its name has no `%`. -/
def Config.Ok (c : Config) : Prop := c.id < 2147483648 ∧ '%' ∉ c.name

end ReactorC.Printing
