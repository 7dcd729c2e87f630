import Mathlib.Data.List.Basic

/-!
# C99: what the command lines of the tools that convert traces mean
-/

namespace ReactorC.TraceArgs.Spec

/-! ## trace_to_csv -/

/-- The units of time, in nanoseconds. -/
def units : List (List Char × Int) :=
  [("nsec".toList, 1), ("usec".toList, 1000), ("msec".toList, 1000000), ("sec".toList, 1000000000),
   ("min".toList, 60000000000), ("hour".toList, 3600000000000), ("day".toList, 86400000000000),
   ("week".toList, 604800000000000)]

/-- A part of a command line: a trace file, or the beginning or the end of the interval that is converted, as a numeral and a unit. -/
inductive Part
  | file (name : List Char)
  | start (numeral unit : List Char)
  | stop (numeral unit : List Char)

def Part.words : Part → List (List Char)
  | .file f => [f]
  | .start n u => ["-s".toList, n, u]
  | .stop n u => ["-e".toList, n, u]

/-- What is converted: a file, and the records from `start` on and before `stop`. -/
structure Request where
  file : Option (List Char)
  start : Int
  stop : Int

/-- All records. -/
def everything : Request := ⟨none, - 2 ^ 63, 2 ^ 63 - 1⟩

/-- What a numeral with a unit denotes: `number` gives the value of the numeral. -/
def Denotes (number : List Char → Int) (n u : List Char) (t : Int) : Prop :=
  (number n ≠ 0 ∨ n.head? = some '0') ∧ ∃ p f, (p, f) ∈ units ∧ p <+: u ∧ t = f * number n

/-- The requests that the parts of a command line lead to, the later ones replacing the earlier ones.  A trace file has a name that ends in
`.lft`. -/
inductive Means (number : List Char → Int) (opens : List Char → Bool) : List Part → Request → Request → Prop
  | nil (r) : Means number opens [] r r
  | file (f ps r r') : ".lft".toList <:+ f → opens f = true → Means number opens ps { r with file := some f } r' →
      Means number opens (.file f :: ps) r r'
  | start (n u t ps r r') : Denotes number n u t → Means number opens ps { r with start := t } r' →
      Means number opens (.start n u :: ps) r r'
  | stop (n u t ps r r') : Denotes number n u t → Means number opens ps { r with stop := t } r' →
      Means number opens (.stop n u :: ps) r r'

/-! ## trace_to_influxdb -/

/-- An option with its value, or the name of the file. -/
inductive Item
  | token (long : Bool) (v : List Char)
  | host (long : Bool) (v : List Char)
  | port (long : Bool) (v : List Char)
  | org (long : Bool) (v : List Char)
  | bucket (long : Bool) (v : List Char)
  | file (f : List Char)

def Item.words : Item → List (List Char)
  | .token l v => [if l then "--token".toList else "-t".toList, v]
  | .host l v => [if l then "--host".toList else "-h".toList, v]
  | .port l v => [if l then "--port".toList else "-p".toList, v]
  | .org l v => [if l then "--org".toList else "-o".toList, v]
  | .bucket l v => [if l then "--bucket".toList else "-b".toList, v]
  | .file f => [f]

/-- The names of options. -/
def options : List (List Char) :=
  ["-t", "--token", "-h", "--host", "-p", "--port", "-o", "--org", "-b", "--bucket"].map String.toList

/-- No file has the name of an option. -/
def Item.Ok : Item → Prop
  | .file f => f ∉ options
  | _ => True

def Item.token? : Item → Option (List Char) | .token _ v => some v | _ => none
def Item.host? : Item → Option (List Char) | .host _ v => some v | _ => none
def Item.port? : Item → Option (List Char) | .port _ v => some v | _ => none
def Item.org? : Item → Option (List Char) | .org _ v => some v | _ => none
def Item.bucket? : Item → Option (List Char) | .bucket _ v => some v | _ => none
def Item.file? : Item → Option (List Char) | .file f => some f | _ => none

/-- The last value given, if there is one. -/
def last (f : Item → Option (List Char)) (items : List Item) : Option (List Char) := (items.filterMap f).getLast?

end ReactorC.TraceArgs.Spec
