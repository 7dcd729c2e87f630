import Verif.Influx.Model

/-!
# Specification: the line protocol

A line has a measurement, tags, fields and perhaps a time.  `read` reads lines as the documentation of InfluxDB describes them: in names a backslash before a character that would end the name stands for that
character; other backslashes stand for themselves; in strings, a backslash before a quote or backslash stands for it.
-/

namespace ReactorC.Influx

inductive Value
  | str (v : Text)
  | flt (shown : Text)
  | int (n : Int)
  | bool (b : Bool)
deriving DecidableEq

structure Line where
  meas : Text
  tags : List (Text × Text)
  fields : List (Text × Value)
  time : Option Int
deriving DecidableEq

/-- The argument that gives a field. -/
def field : Text × Value → Item
  | (k, .str v) => .str k v
  | (k, .flt s) => .flt k s
  | (k, .int n) => .int k n
  | (k, .bool b) => .bool k b

/-- The arguments that give a line. -/
def Line.items (l : Line) : List Item :=
  .meas l.meas :: (l.tags.map (fun t => .tag t.1 t.2) ++ l.fields.map field ++ l.time.toList.map .ts)

/-- A name up to a character of `stop`; a backslash before a character of `esc` stands for that character. -/
def word (esc stop : List Char) : Text → Text × Text
  | [] => ([], [])
  | [c] => if c ∈ stop then ([], [c]) else ([c], [])
  | c :: d :: r =>
    if c = '\\' ∧ d ∈ esc then let w := word esc stop r; (d :: w.1, w.2)
    else if c ∈ stop then ([], c :: d :: r)
    else let w := word esc stop (d :: r); (c :: w.1, w.2)

/-- A string up to its closing quote. -/
def quoted : Text → Option (Text × Text)
  | [] => none
  | [c] => if c = '"' then some ([], []) else none
  | c :: d :: r =>
    if c = '\\' ∧ (d = '"' ∨ d = '\\') then (quoted r).map (fun w => (d :: w.1, w.2))
    else if c = '"' then some ([], d :: r)
    else (quoted (d :: r)).map (fun w => (c :: w.1, w.2))

/-- A number in decimal notation. -/
def readInt : Text → Option Int
  | '-' :: t => if t ≠ [] ∧ t.all Char.isDigit then some (-(Nat.ofDigitChars 10 t 0 : Int)) else none
  | t => if t ≠ [] ∧ t.all Char.isDigit then some (Nat.ofDigitChars 10 t 0) else none

/-- Whether a text is a floating point number: characters of `-123.45`, `inf` and `nan`, but not the notation of an integer (which ends in `i`), or of a Boolean. -/
def isFloat (t : Text) : Bool := t ≠ [] ∧ t.all (fun c => c.isDigit ∨ c = '.' ∨ c = '-')

/-- The value of a field. -/
def readValue : Text → Option (Value × Text)
  | '"' :: r => (quoted r).map (fun w => (.str w.1, w.2))
  | t =>
    let w := t.takeWhile (fun c => c ≠ ',' ∧ c ≠ ' ' ∧ c ≠ '\n')
    let r := t.dropWhile (fun c => c ≠ ',' ∧ c ≠ ' ' ∧ c ≠ '\n')
    if w = ['t'] then some (.bool true, r)
    else if w = ['f'] then some (.bool false, r)
    else if w.getLast? = some 'i' then (readInt w.dropLast).map (fun n => (.int n, r))
    else if isFloat w then some (.flt w, r)
    else none

/-- The stops of names. -/
def stops : List Char := [',', '=', ' ', '\n']

/-- Tags, each of which begins with a comma. -/
def readTags : Nat → Text → Option (List (Text × Text) × Text)
  | n + 1, ',' :: t =>
    let k := word [',', '=', ' '] stops t
    match k.2 with
    | '=' :: t =>
      let v := word [',', '=', ' '] stops t
      (readTags n v.2).map (fun w => ((k.1, v.1) :: w.1, w.2))
    | _ => none
  | _, t => some ([], t)

/-- Fields, with commas between them. -/
def readFields : Nat → Text → Option (List (Text × Value) × Text)
  | 0, _ => none
  | n + 1, t =>
    let k := word [',', '=', ' '] stops t
    match k.2 with
    | '=' :: t =>
      (readValue t).bind fun v =>
        match v.2 with
        | ',' :: t => (readFields n t).map (fun w => ((k.1, v.1) :: w.1, w.2))
        | t => some ([(k.1, v.1)], t)
    | _ => none

/-- The time, if there is one, and the end of the line. -/
def readTime : Text → Option (Option Int × Text)
  | '\n' :: t => some (none, t)
  | ' ' :: t =>
    (readInt (t.takeWhile (· ≠ '\n'))).bind fun n =>
      match t.dropWhile (· ≠ '\n') with
      | _ :: t => some (some n, t)
      | [] => none
  | _ => none

/-- One line. -/
def readLine (t : Text) : Option (Line × Text) :=
  let m := word [',', ' '] [',', ' ', '\n'] t
  (readTags t.length m.2).bind fun g =>
    match g.2 with
    | ' ' :: t => (readFields (t.length + 1) t).bind fun f => (readTime f.2).map fun e => (⟨m.1, g.1, f.1, e.1⟩, e.2)
    | _ => none

/-- At most `n` lines. -/
def readLines : Nat → Text → Option (List Line)
  | _, [] => some []
  | 0, _ => none
  | n + 1, t => (readLine t).bind fun l => (readLines n l.2).map (l.1 :: ·)

/-- What a text says. -/
def read (t : Text) : Option (List Line) := readLines t.length t

/-- The names that are written as they are meant: no line breaks and no backslash at the end. -/
def GoodName (t : Text) : Prop := '\n' ∉ t ∧ t.getLast? ≠ some '\\' ∧ nul ∉ t

/-- The values that are written as they are meant. -/
def GoodValue : Value → Prop
  | .str v => '\\' ∉ v ∧ nul ∉ v
  | .flt s => isFloat s = true
  | _ => True

/-- The lines that are written as they are meant; there must be a field. -/
def Good (l : Line) : Prop :=
  GoodName l.meas ∧ (∀ t ∈ l.tags, GoodName t.1 ∧ GoodName t.2) ∧ (∀ f ∈ l.fields, GoodName f.1 ∧ GoodValue f.2) ∧ l.fields ≠ []


/-- The length of a text when a backslash is put before some characters. -/
def cost (esc : List Char) (t : Text) : Nat := t.length + t.countP (· ∈ esc)

/-- The length of what is written for a value. -/
def Value.size : Value → Nat
  | .str v => cost ['"'] v + 2
  | .flt s => s.length
  | .int n => (decimal n).length + 1
  | .bool _ => 1

/-- The length of what is written for a line: one character comes before each key, value and time, and one at the end. -/
def Line.size (l : Line) : Nat :=
  cost [',', ' '] l.meas + (l.tags.map (fun t => cost [',', '=', ' '] t.1 + cost [',', '=', ' '] t.2 + 2)).sum
    + (l.fields.map (fun f => cost [',', '=', ' '] f.1 + f.2.size + 2)).sum + (l.time.map (fun n => (decimal n).length + 1)).getD 0 + 1

/-! ### What a record means -/

/-- The names of the events that are not about federates, in the order of their numbers. -/
def localEvent : Nat → Option String
  | 0 => "Reaction starts"
  | 1 => "Reaction ends"
  | 2 => "Reaction deadline missed"
  | 3 => "Schedule called"
  | 4 => "User-defined event"
  | 5 => "User-defined valued event"
  | 6 => "Worker wait starts"
  | 7 => "Worker wait ends"
  | 8 => "Scheduler advancing time starts"
  | 9 => "Scheduler advancing time ends"
  | 10 => "Federated marker"
  | _ => none

/-- The first of the described objects that has a property. -/
def described (os : List Object) (p : Object → Bool) (other : String) : Text :=
  match os.find? p with
  | some o => o.description
  | none => other.toList

/-- The line that a record with the given event should become. -/
def recordLine (os : List Object) (event : String) (r : Record) : Line where
  meas := event.toList
  tags := [("Reactor".toList, described os (fun o => o.pointer == r.pointer) "NO REACTOR"),
    ("Reaction".toList, if r.dst < 0 then "none".toList else Nat.toDigits 10 r.dst.toNat)]
  fields := [("Worker".toList, .int r.src), ("Logical Time".toList, .int r.logical), ("Microstep".toList, .int r.microstep),
    ("Trigger Name".toList, .str (described os (fun o => o.isTrigger && o.trigger == r.trigger) "NO TRIGGER")), ("Extra Delay".toList, .int r.delay)]
  time := some r.physical

/-- The lines of the local records, in order. -/
def recordLines (os : List Object) (rs : List Record) : List Line := rs.filterMap (fun r => (localEvent r.event).map (fun e => recordLine os e r))

end ReactorC.Influx
