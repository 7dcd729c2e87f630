import Mathlib.Data.List.Basic

/-!
# Printing of messages

Models core/utils/util.c.  `printf` is modelled for conversions of one character (`%d`, `%s`, ...) and `%%`; an argument is the text that it is converted to, and a conversion without an argument, or a `%` at the end,
is undefined behaviour.  `malloc` is taken to succeed; a call of `vfprintf` writes its text as a whole.
-/

namespace ReactorC.Printing

abbrev Text := List Char

/-- `vprintf`: what is printed for a format and arguments; `none` is undefined behaviour. -/
def render : Text → List Text → Option Text
  | [], _ => some []
  | c :: f, as =>
    if c = '%' then
      match f with
      | [] => none
      | d :: f =>
        if d = '%' then (render f as).map ('%' :: ·)
        else
          match as with
          | [] => none
          | a :: as => (render f as).map (a ++ ·)
    else (render f as).map (c :: ·)

/-- `snprintf(message, n, ...)` writes at most `n - 1` characters. -/
def snprintf (n : Nat) (s : Text) : Text := s.take (n - 1)

/-- The functions for messages. -/
inductive Kind | info | log | debug | error | warning | fatal
deriving DecidableEq

/-- `LOG_LEVEL_ERROR` to `LOG_LEVEL_DEBUG`, logging/api/logging.h:24-28, as the functions use them, core/utils/util.c:145-193. -/
def Kind.level : Kind → Int
  | .error => 0
  | .fatal => 0
  | .warning => 1
  | .info => 2
  | .log => 3
  | .debug => 4

/-- The prefixes, core/utils/util.c:84, 153-192. -/
def Kind.prefix : Kind → Text
  | .info => []
  | .log => "LOG: ".toList
  | .debug => "DEBUG: ".toList
  | .error => "ERROR: ".toList
  | .warning => "WARNING: ".toList
  | .fatal => "FATAL ERROR: ".toList

/-- What happens: text on stdout (`none`: undefined behaviour), a call of the registered function with a format and arguments, or the end of the process. -/
inductive Event
  | stdout (t : Option Text)
  | call (format : Text) (args : List Text)
  | exit (status : Nat)
deriving DecidableEq

/-- `LOG_LEVEL`, which is 2 by default (logging/api/logging_macros.h:12-15); whether this is the RTI; `_lf_my_fed_id` and the name of the first environment. -/
structure Config where
  compiled : Nat
  rti : Bool
  id : Int
  name : Text

/-- `print_message_function` (whether it is not NULL) and `print_message_level`, core/utils/util.c:62-69. -/
structure State where
  registered : Bool := false
  level : Int := -1
  out : List Event := []
deriving DecidableEq

/-- `print_level`, core/utils/util.c:97-108. -/
def printLevel (c : Config) (s : State) : Int :=
  let l : Int := c.compiled
  let l := if l < s.level then s.level else l
  if l < 0 then 2 else l

/-- The number of a federate in decimal notation. -/
def decimal (n : Nat) : Text := Nat.toDigits 10 n

/-- The name without `federate__`, core/utils/util.c:130-132. -/
def strip (name : Text) : Text := if name.take 10 = "federate__".toList then name.drop 10 else name

/-- The format that is used in place of the given one, core/utils/util.c:115-136. -/
def message (c : Config) (pre format : Text) : Text :=
  if c.id < 0 then snprintf (pre.length + format.length + 32) (pre ++ format ++ ['\n'])
  else if c.rti then snprintf (pre.length + format.length + 37) ("RTI: ".toList ++ pre ++ format ++ ['\n'])
  else snprintf (pre.length + format.length + c.name.length + 32)
    ("Fed ".toList ++ decimal c.id.toNat ++ " (".toList ++ strip c.name ++ "): ".toList ++ pre ++ format ++ ['\n'])

/-- `_lf_message_print`, core/utils/util.c:90-143. -/
def print (c : Config) (s : State) (k : Kind) (format : Text) (args : List Text) : State :=
  if k.level ≤ printLevel c s then
    let m := message c k.prefix format
    { s with out := s.out ++ [if s.registered then .call m args else .stdout (render m args)] }
  else s

/-- `lf_print_error_and_exit`, core/utils/util.c:195-202. -/
def printAndExit (c : Config) (s : State) (format : Text) (args : List Text) : State :=
  let s := print c s .fatal format args
  { s with out := s.out ++ [.exit 1] }

/-- `lf_print_error_system_failure`, core/utils/util.c:204-213; `after` says what printing does to `errno`, `describe` is `strerror`. -/
def printSystemFailure (c : Config) (s : State) (after : Nat → Nat) (describe : Nat → Text) (errno : Nat) (format : Text) (args : List Text) : State :=
  let s := print c s .error format args
  printAndExit c s "Error %d: %s".toList [decimal (after errno), describe (after errno)]

/-- `lf_register_print_function`, core/utils/util.c:215-218. -/
def register (s : State) (function : Bool) (level : Int) : State := { s with registered := function, level := level }

/-- `LF_PRINT_LOG` and `LF_PRINT_DEBUG`, logging/api/logging_macros.h:12-70. -/
def macroPrint (c : Config) (s : State) (debug : Bool) (format : Text) (args : List Text) : State :=
  if (if debug then 4 else 3) ≤ c.compiled then print c s (if debug then .debug else .log) format args else s

end ReactorC.Printing
