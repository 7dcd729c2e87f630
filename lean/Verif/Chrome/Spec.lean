import Verif.Chrome.Model

/-!
# What the viewer is shown

A reader of JSON and the events that a user expects in the file.
-/

namespace ReactorC.Chrome

/-! ## JSON -/

/-- JSON without fractions, Booleans and null. -/
inductive Json
  | str (s : Text)
  | int (n : Int)
  | obj (ms : List (Text × Json))
  | arr (es : List Json)

/-- White space. -/
def isWs (c : Char) : Bool := c = ' ' ∨ c = '\n' ∨ c = '\r' ∨ c = '\t'

/-- The text without white space at its beginning. -/
def ws (t : Text) : Text := t.dropWhile isWs

/-- Characters that stand for themselves in a string. -/
def plain (c : Char) : Bool := c ≠ '"' ∧ c ≠ '\\' ∧ 32 ≤ c.toNat

/-- The rest of a string; escapes are not read. -/
def string (t : Text) : Option (Text × Text) :=
  match t.dropWhile plain with
  | [] => none
  | c :: u => if c = '"' then some (t.takeWhile plain, u) else none

/-- The value of digits. -/
def digitsValue (w : Text) : Nat := w.foldl (fun n c => 10 * n + (c.toNat - 48)) 0

/-- An integer. -/
def number (t : Text) : Option (Json × Text) :=
  let neg := t.head? = some '-'
  let u := if neg then t.tail else t
  let w := u.takeWhile Char.isDigit
  if w = [] then none else some (.int (if neg then - (digitsValue w : Int) else digitsValue w), u.dropWhile Char.isDigit)

mutual

/-- A value at the beginning of a text. -/
def value : Nat → Text → Option (Json × Text)
  | 0, _ => none
  | n + 1, t =>
    match ws t with
    | [] => none
    | c :: u =>
      if c = '"' then (string u).map fun x => (.str x.1, x.2)
      else if c = '{' then (if (ws u).head? = some '}' then some (.obj [], (ws u).tail) else (members n u).map fun x => (.obj x.1, x.2))
      else if c = '[' then (if (ws u).head? = some ']' then some (.arr [], (ws u).tail) else (elements n u).map fun x => (.arr x.1, x.2))
      else number (c :: u)

/-- The members of an object up to the closing brace. -/
def members : Nat → Text → Option (List (Text × Json) × Text)
  | 0, _ => none
  | n + 1, t =>
    match ws t with
    | [] => none
    | c :: u =>
      if c ≠ '"' then none
      else (string u).bind fun k =>
        match ws k.2 with
        | [] => none
        | c :: u =>
          if c ≠ ':' then none
          else (value n u).bind fun v =>
            match ws v.2 with
            | [] => none
            | c :: u =>
              if c = ',' then (members n u).map fun x => ((k.1, v.1) :: x.1, x.2)
              else if c = '}' then some ([(k.1, v.1)], u)
              else none

/-- The elements of an array up to the closing bracket. -/
def elements : Nat → Text → Option (List Json × Text)
  | 0, _ => none
  | n + 1, t =>
    (value n t).bind fun v =>
      match ws v.2 with
      | [] => none
      | c :: u =>
        if c = ',' then (elements n u).map fun x => (v.1 :: x.1, x.2)
        else if c = ']' then some ([v.1], u)
        else none

end

/-- A text that is JSON as a whole. -/
def read (t : Text) : Option Json :=
  (value (t.length + 1) t).bind fun v => if ws v.2 = [] then some v.1 else none

/-! ## What is expected -/

/-- The name that the table has for a pointer, if there is one. -/
def nameOf (table : List Object) (p : Nat) : Option Text := (table.find? fun x => x.pointer = p).map (·.description)

/-- The place in the table of a pointer, 0 when there is none. -/
def placeOf (table : List Object) (p : Nat) : Nat := if ∃ x ∈ table, x.pointer = p then table.findIdx (fun x => x.pointer = p) else 0

/-- The name that the table has for a trigger, if there is one. -/
def triggerOf (table : List Object) (t : Nat) : Option Text := (table.find? fun x => x.trigger = t ∧ x.type = 1).map (·.description)

/-- The place of a trigger. -/
def triggerPlace (table : List Object) (t : Nat) : Nat :=
  if ∃ x ∈ table, x.trigger = t ∧ x.type = 1 then table.findIdx (fun x => x.trigger = t ∧ x.type = 1) else 0

/-- Microseconds, without the fraction, between the start and a time. -/
def micros (start t : Int) : Int := (t - start).tdiv 1000

/-- Records that are shown: not of the communication between federates, and not a microsecond or more before the start. -/
def IsShown (start : Int) (r : Record) : Prop := r.event ≤ 10 ∧ start - r.physical < 1000 ∧ start - r.logical < 1000

instance (start : Int) (r : Record) : Decidable (IsShown start r) := inferInstanceAs (Decidable (_ ∧ _ ∧ _))

/-- The name under which a record is shown when its pointer is not in the table. -/
def unnamed (event : Nat) : Text :=
  if event = 6 ∨ event = 7 then "WAIT".toList else if event = 8 then "ADVANCE TIME".toList else "NO REACTOR".toList

/-- An event of the viewer. -/
def event (name cat ph : Text) (tid pid ts : Int) (args : List (Text × Json)) : Json :=
  .obj [("name".toList, .str name), ("cat".toList, .str cat), ("ph".toList, .str ph), ("tid".toList, .int tid), ("pid".toList, .int pid), ("ts".toList, .int ts),
    ("args".toList, .obj args)]

/-- Additional information about a record. -/
def details (start : Int) (r : Record) : List (Text × Json) :=
  [("reaction".toList, if 0 ≤ r.dst then .int r.dst else .str "UNKNOWN".toList), ("logical time".toList, .int (micros start r.logical)),
   ("physical time".toList, .int (micros start r.physical)), ("microstep".toList, .int r.microstep)]

/-- The time at which a record is shown: physical time; without `-p`, logical time for what users trace and the time for which an action is scheduled. -/
def timeOf (po : Bool) (start : Int) (r : Record) : Int :=
  if po = true then micros start r.physical
  else if r.event = 3 then micros start r.logical + r.delay.tdiv 1000
  else if r.event = 4 ∨ r.event = 5 then micros start r.logical
  else micros start r.physical

/-- The phase in which a record is shown: begin, end, counter or instant. -/
def phaseOf (event : Nat) : Text :=
  if event = 0 ∨ event = 6 ∨ event = 8 then "B".toList
  else if event = 1 ∨ event = 7 ∨ event = 9 then "E".toList
  else if event = 5 then "C".toList
  else "i".toList

/-- The process in which a record is shown: the execution, one per reactor, user events, and others. -/
def processOf (table : List Object) (r : Record) : Int :=
  if r.event = 3 then placeOf table r.pointer + 1
  else if r.event = 4 ∨ r.event = 5 then 1000000
  else if r.event = 2 ∨ r.event = 10 then 2000000
  else 0

/-- The thread in which a record is shown: the trigger, the user event, or the worker. -/
def threadOf (table : List Object) (r : Record) : Int :=
  if r.event = 3 then triggerPlace table r.trigger
  else if r.event = 4 ∨ r.event = 5 then placeOf table r.pointer
  else r.src

/-- The event for a record. -/
def mainEvent (po : Bool) (start : Int) (table : List Object) (r : Record) : Json :=
  event (if r.event = 3 then (triggerOf table r.trigger).getD "NONE".toList else (nameOf table r.pointer).getD (unnamed r.event))
    (eventNames.getD r.event []) (phaseOf r.event) (threadOf table r) (processOf table r) (timeOf po start r)
    (if r.event = 5 then [("value".toList, .int r.delay)] else details start r)

/-- The event in logical time for the start of a reaction. -/
def reactionEvent (start : Int) (table : List Object) (r : Record) : Json :=
  event ("reaction ".toList ++ decimal r.dst) "Reaction".toList "i".toList (1024 + r.dst) (placeOf table r.pointer + 1) (micros start r.logical)
    [("microstep".toList, .int r.microstep), ("physical time".toList, .int (micros start r.physical))]

/-- The events for a record. -/
def expected (po : Bool) (start : Int) (table : List Object) (r : Record) : List Json :=
  if IsShown start r then mainEvent po start table r :: (if r.event = 0 ∧ po = false then [reactionEvent start table r] else []) else []

/-- The greatest number of a list, at least 0. -/
def greatest (l : List Int) : Int := l.foldl max 0

/-- The greatest number of a worker. -/
def lastWorker (start : Int) (rs : List Record) : Int := greatest ((rs.filter (fun r => IsShown start r)).map (·.src))

/-- The greatest number of a reaction in logical time. -/
def lastReaction (po : Bool) (start : Int) (rs : List Record) : Int :=
  greatest ((rs.filter (fun r => IsShown start r ∧ r.event = 0 ∧ po = false)).map (·.dst))

/-- A name for a thread. -/
def namedThread (pid tid : Int) (name : Text) : Json :=
  .obj [("name".toList, .str "thread_name".toList), ("ph".toList, .str "M".toList), ("pid".toList, .int pid), ("tid".toList, .int tid),
    ("args".toList, .obj [("name".toList, .str name)])]

/-- A name for a process. -/
def namedProcess (pid : Int) (name : Text) : Json :=
  .obj [("name".toList, .str "process_name".toList), ("ph".toList, .str "M".toList), ("pid".toList, .int pid), ("args".toList, .obj [("name".toList, .str name)])]

/-- The names of workers. -/
def workers (last : Int) : List Json :=
  (List.range last.toNat).flatMap fun (k : Nat) => List.replicate 3 (namedThread 0 (k + 1 : Nat) ("Worker ".toList ++ decimal (k + 1 : Nat)))

/-- The names of reactions. -/
def reactions (size : Nat) (last : Int) : List Json :=
  (List.range size).flatMap fun (i : Nat) => (List.range (last + 1).toNat).map fun (n : Nat) =>
    namedThread (i + 1 : Nat) ((n : Int) + 1024) ("Reaction ".toList ++ decimal n)

/-- The name of an object. -/
def objectLabel (table : List Object) (i : Nat) (x : Object) : List Json :=
  if x.type = 0 then [namedProcess (i + 1) ("Reactor ".toList ++ x.description ++ " reactions, actions, and timers in logical time".toList)]
  else if x.type = 1 then [namedThread (placeOf table x.pointer + 1) i ("Trigger ".toList ++ x.description)]
  else if x.type = 2 then [namedThread 1000000 i x.description]
  else []

/-- The names of objects. -/
def labels (table : List Object) : List Json := table.zipIdx.flatMap fun x => objectLabel table x.2 x.1

/-- The name of the program: its first object. -/
def program (table : List Object) : Text := ((table.head?).map (·.description)).getD "(null)".toList

/-- All names. -/
def names (po : Bool) (start : Int) (table : List Object) (rs : List Record) : List Json :=
  [namedThread 0 0 "Main thread".toList] ++ workers (lastWorker start rs) ++ reactions table.length (lastReaction po start rs) ++ labels table ++
  [namedProcess 0 ("Execution of ".toList ++ program table),
   namedProcess 1000000 ("User events in ".toList ++ program table ++ ", shown in physical time:".toList)]

/-- The document. -/
def document (po : Bool) (start : Int) (table : List Object) (rs : List Record) : Json :=
  .obj [("traceEvents".toList, .arr (rs.flatMap (expected po start table) ++ names po start table rs))]

/-- Descriptions that can stand in a string as they are. -/
def PlainTable (table : List Object) : Prop := ∀ x ∈ table, ∀ c ∈ x.description, plain c = true

/-- Records with at most three digits for reactions, and microsteps that `int` can hold. -/
def Small (r : Record) : Prop := -1 ≤ r.dst ∧ r.dst < 1000 ∧ r.microstep < 2 ^ 31

instance (table : List Object) : Decidable (PlainTable table) := inferInstanceAs (Decidable (∀ x ∈ table, _))
instance (r : Record) : Decidable (Small r) := inferInstanceAs (Decidable (_ ∧ _ ∧ _))

end ReactorC.Chrome
