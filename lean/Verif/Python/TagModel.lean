import Verif.Tag.Spec
import Mathlib.Data.Nat.Digits.Defs

/-!
# Tags in Python

Models python/lib/python_tag.c and the fields for federated execution of
python/include/python_capsule_extension.h.  Arguments that are not integers (an exception) are not modelled.
-/

namespace ReactorC.Python

/-- What matters of the machine: the order of bytes, and the size of `long` (64 bits on Linux and macOS, 32 bits on Windows and
on 32-bit machines). -/
structure Machine where
  bigEndian : Bool
  long64 : Bool
deriving DecidableEq, Repr

/-- The conversion `k` of `PyArg_ParseTupleAndKeywords` stores an `unsigned long` without a check for overflow; `Tag_init`,
python_tag.c:83-89, gives it the address of the `uint32_t` microstep.  With a `long` of 64 bits the other half is stored in the padding
after the field. -/
def storeMicrostep (M : Machine) (m : Int) : Nat :=
  if M.long64 = true then
    if M.bigEndian = true then (m % 2 ^ 64).toNat / 2 ^ 32 else (m % 2 ^ 64).toNat % 2 ^ 32
  else (m % 2 ^ 32).toNat

/-- `Tag(time, microstep)`: `Tag_init`, python_tag.c:83-89; `L` raises an exception if the value does not fit into a
`long long`. -/
def Tag_init (M : Machine) (time microstep : Int) : Option Tag :=
  if IsI64 time then some ⟨time, storeMicrostep M microstep⟩ else none

/-- The operators of Python. -/
inductive Cmp
  | lt | le | eq | ne | gt | ge
deriving DecidableEq, Repr

/-- `Tag_richcompare`, python_tag.c:98-130, for two tags. -/
def Tag_richcompare (a b : Tag) : Cmp → Bool
  | .lt => lf_tag_compare a b < 0
  | .le => lf_tag_compare a b ≤ 0
  | .eq => lf_tag_compare a b = 0
  | .ne => lf_tag_compare a b ≠ 0
  | .gt => lf_tag_compare a b > 0
  | .ge => lf_tag_compare a b ≥ 0

/-- `py_tag_compare`, python_tag.c:60-74, for two tags. -/
def py_tag_compare (a b : Tag) : Int := lf_tag_compare a b

/-- A digit. -/
def digit (d : Nat) : Char := (['0', '1', '2', '3', '4', '5', '6', '7', '8', '9'][d]?).getD '0'

/-- `PyObject_Str` of an integer that is not negative. -/
def natStr (n : Nat) : List Char := if n = 0 then ['0'] else ((Nat.digits 10 n).reverse.map digit)

/-- `PyObject_Str` of an integer. -/
def intStr (x : Int) : List Char := if x < 0 then '-' :: natStr x.natAbs else natStr x.natAbs

/-- `Tag_str`, python_tag.c:160-173. -/
def Tag_str (t : Tag) : List Char :=
  "Tag(time=".toList ++ intStr t.time ++ ", microstep=".toList ++ intStr t.microstep ++ ")".toList

/-- How the field `physical_time_of_arrival` of a port object is read, python_capsule_extension.h:30-60. -/
inductive Member
  /-- centralized coordination: the field is declared `T_INT` -/
  | tInt
  /-- decentralized coordination: the field is declared `T_LONG` -/
  | tLong
deriving DecidableEq, Repr

/-- Reading an `int` at the address of the `int64_t`. -/
def lowInt (M : Machine) (t : Int) : Int :=
  let half := if M.bigEndian = true then (t % 2 ^ 64) / 2 ^ 32 else t % 2 ^ 32
  if half < 2 ^ 31 then half else half - 2 ^ 32

/-- `port.physical_time_of_arrival`, python_capsule_extension.h:37-39 and 53-55. -/
def arrival (M : Machine) : Member → Int → Int
  | .tInt, t => lowInt M t
  | .tLong, t => if M.long64 = true then t else lowInt M t

end ReactorC.Python
