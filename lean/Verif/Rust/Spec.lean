import Verif.Rust.Model

/-!
# What the generated code means

A reader of the generated Rust code, and what a user expects of it.
-/

namespace ReactorC.Rust

/-- Characters of names in Rust that are used here. -/
def Letter (c : Char) : Prop := c.isUpper = true ∨ c.isLower = true ∨ c.isDigit = true

instance (c : Char) : Decidable (Letter c) := inferInstanceAs (Decidable (_ ∨ _ ∨ _))

/-- The words of a text: the parts between characters that are neither letters nor digits. -/
def words : Text → List Text
  | [] => [[]]
  | c :: t => if Letter c then (match words t with
      | w :: ws => (c :: w) :: ws
      | [] => [[c]]) else [] :: words t

/-- A word with its first letter in upper case and the others in lower case. -/
def capitalize : Text → Text
  | [] => []
  | c :: t => c.toUpper :: t.map Char.toLower

/-- The name of the variant for a description. -/
def camel (t : Text) : Text := (words t).flatMap capitalize

/-- The lines of a text; each ends with a line feed. -/
def linesOf : Text → List Text
  | [] => []
  | c :: t => if c = '\n' then [] :: linesOf t else (match linesOf t with
      | l :: ls => (c :: l) :: ls
      | [] => [[c]])

/-- The text without `s` at its beginning. -/
def lit (s : String) (t : Text) : Option Text := if s.toList <+: t then some (t.drop s.toList.length) else none

/-- A name at the beginning. -/
def ident (t : Text) : Option (Text × Text) :=
  let w := t.takeWhile (fun c => decide (Letter c))
  if w = [] ∨ w.head?.any Char.isDigit then none else some (w, t.dropWhile (fun c => decide (Letter c)))

/-- A number at the beginning. -/
def number (t : Text) : Option (Nat × Text) :=
  let w := t.takeWhile Char.isDigit
  if w = [] then none else some (w.foldl (fun n c => 10 * n + (c.toNat - 48)) 0, t.dropWhile Char.isDigit)

/-- A literal that is a format without arguments: up to the quotation mark, without backslashes and braces. -/
def format (t : Text) : Option (Text × Text) :=
  let w := t.takeWhile (· ≠ '"')
  if '\\' ∈ w ∨ '{' ∈ w ∨ '}' ∈ w then none else some (w, t.dropWhile (· ≠ '"'))

/-- `Name = 7,` -/
def readVariant (l : Text) : Option (Text × Nat) := do
  let t ← lit "    " l
  let (v, t) ← ident t
  let t ← lit " = " t
  let (n, t) ← number t
  if t = [','] then some (v, n) else none

/-- `EventType::Name => write!(f, "text"),` -/
def readCase (l : Text) : Option (Text × Text) := do
  let t ← lit "            EventType::" l
  let (v, t) ← ident t
  let t ← lit " => write!(f, \"" t
  let (s, t) ← format t
  if t = "\"),".toList then some (v, s) else none

/-- `7 => Ok(EventType::Name),` -/
def readFrom (l : Text) : Option (Nat × Text) := do
  let t ← lit "            " l
  let (n, t) ← number t
  let t ← lit " => Ok(EventType::" t
  let (v, t) ← ident t
  if t = "),".toList then some (n, v) else none

/-- Lines up to one that is given, each read. -/
def section_ {α : Type} (f : Text → Option α) (stop : Text) : List Text → Option (List α × List Text)
  | [] => none
  | l :: ls => if l = stop then some ([], ls) else do
    let a ← f l
    let (as, r) ← section_ f stop ls
    some (a :: as, r)

/-- Lines that must be there as they are. -/
def expect : List String → List Text → Option (List Text)
  | [], ls => some ls
  | s :: ss, l :: ls => if l = s.toList then expect ss ls else none
  | _ :: _, [] => none

/-- The code that was read: the variants with their numbers, what is displayed, and what numbers are converted to. -/
structure Code where
  variants : List (Text × Nat)
  display : List (Text × Text)
  from_ : List (Nat × Text)
deriving DecidableEq

/-- Reading the code. -/
def readCode (t : Text) : Option Code := do
  let ls ← expect ["/// Do not edit. Code in this file is generated from", "/// reactor-c/util/tracing/codegen/src/tracepoint_to_rs.c", "", "#[derive(Debug)]",
    "pub enum EventType {"] (linesOf t)
  let (vs, ls) ← section_ readVariant "}".toList ls
  let ls ← expect ["", "impl std::fmt::Display for EventType {", "    fn fmt(&self, f: &mut std::fmt::Formatter<'_>) -> std::fmt::Result {", "        match self {"] ls
  let (ds, ls) ← section_ readCase "        }".toList ls
  let ls ← expect ["    }", "}", "", "impl EventType {", "    pub fn try_from_int(i: i32) -> Result<Self, &'static str> {", "        match i {"] ls
  let (fs, ls) ← section_ readFrom "            _ => Err(\"invalid event type\"),".toList ls
  let ls ← expect ["        }", "    }", "}"] ls
  if ls = [] then some ⟨vs, ds, fs⟩ else none

/-- The compiler accepts the code if no two variants have the same name or number and every variant is displayed. -/
def Code.Accepted (c : Code) : Prop :=
  (c.variants.map (·.1)).Nodup ∧ (c.variants.map (·.2)).Nodup ∧ (∀ v ∈ c.variants.map (·.1), v ∈ c.display.map (·.1)) ∧
    (∀ v ∈ c.display.map (·.1), v ∈ c.variants.map (·.1)) ∧ (∀ v ∈ c.from_.map (·.2), v ∈ c.variants.map (·.1))

/-- `EventType::try_from_int(i)`: the first case that fits. -/
def Code.tryFromInt (c : Code) (i : Nat) : Option Text := (c.from_.find? (fun x => x.1 = i)).map (·.2)

/-- `v.to_string()`. -/
def Code.toString (c : Code) (v : Text) : Option Text := (c.display.find? (fun x => x.1 = v)).map (·.2)

/-- `v as i32`. -/
def Code.asInt (c : Code) (v : Text) : Option Nat := (c.variants.find? (fun x => x.1 = v)).map (·.2)

/-- Descriptions from which code can be generated: ASCII, with a first letter, no quotation marks, backslashes, braces or line breaks. -/
def GoodName (n : Text) : Prop :=
  (∀ c ∈ n, c ≠ nul ∧ c ≠ '"' ∧ c ≠ '\\' ∧ c ≠ '{' ∧ c ≠ '}' ∧ c ≠ '\n') ∧ camel n ≠ [] ∧ (camel n).head?.all (fun c => !c.isDigit) = true

instance (n : Text) : Decidable (GoodName n) := inferInstanceAs (Decidable (_ ∧ _ ∧ _))

end ReactorC.Rust
