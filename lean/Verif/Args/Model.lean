import Mathlib.Data.List.Basic

/-!
# Command-line arguments

Models `process_args` of core/reactor_common.c.  Strings are lists of characters (without the terminating zero).  Reading
`argv` at an index that is not less than `argc` is an outcome of its own.

Simplifications: numbers are integers, so overflow in `atoll`, `atoi` and in the multiplication by the unit is left out;
`lf_parse_rti_addr` (core/federated/federate.c), which uses regular expressions and is modelled in `Verif.RtiAddr`, is an arbitrary predicate here; what is
printed is left out.
-/

namespace ReactorC.Args

abbrev Str := List Char

/-- The parameters set: `fast`, `duration`, `keepalive_specified`, `_lf_number_of_workers`, the federation identifier and
the address of the RTI. -/
structure Settings where
  fast : Bool
  duration : Int
  keepalive : Bool
  workers : Int
  federation : Str
  rti : Str
deriving DecidableEq, Repr

/-- Whether the program is a federate (`FEDERATED` defined), and which RTI addresses can be parsed. -/
structure Config where
  federated : Bool
  rtiOk : Str → Bool

inductive Outcome
  /-- returns 1 -/
  | accepted (s : Settings)
  /-- returns 0 -/
  | rejected
  /-- reads `argv` out of bounds -/
  | fault
deriving DecidableEq, Repr

/-- `isspace` -/
def isSpace (c : Char) : Bool := c = ' ' || c = '\t' || c = '\n' || c = '\x0b' || c = '\x0c' || c = '\r'

/-- The value of a digit. -/
def digit (c : Char) : Nat := c.toNat - 48

/-- The leading digits, as a number. -/
def digits (acc : Nat) : Str → Nat
  | [] => acc
  | c :: l => if c.isDigit then digits (10 * acc + digit c) l else acc

/-- The C library's `atoll` and `atoi`: white space, a sign, digits, and anything. -/
def atoll (s : Str) : Int :=
  match s.dropWhile isSpace with
  | '-' :: l => - (digits 0 l : Int)
  | '+' :: l => digits 0 l
  | l => digits 0 l

/-- `strncmp(s, p, n) == 0`, where `p` has length `n`. -/
def startsWith (s p : Str) : Bool := p.isPrefixOf s

/-- The multiplication by the unit, core/reactor_common.c:951-972 and tag/api/tag.h:12-37. -/
def scale (duration : Int) (units : Str) : Option Int :=
  if startsWith units "sec".toList then some (1000000000 * duration)
  else if startsWith units "msec".toList then some (1000000 * duration)
  else if startsWith units "usec".toList then some (1000 * duration)
  else if startsWith units "nsec".toList then some duration
  else if startsWith units "min".toList then some (60000000000 * duration)
  else if startsWith units "hour".toList then some (3600000000000 * duration)
  else if startsWith units "day".toList then some (86400000000000 * duration)
  else if startsWith units "week".toList then some (604800000000000 * duration)
  else none

/-- The loop of `process_args`, core/reactor_common.c:910-1049, with the index `i`.  `fuel` is at least the number of
remaining arguments. -/
def process (cfg : Config) (argv : List Str) : Nat → Nat → Settings → Outcome
  | 0, i, s => if argv.length ≤ i then .accepted s else .fault
  | fuel + 1, i, s =>
    if argv.length ≤ i then .accepted s
    else
      match argv[i]? with
      | none => .fault
      | some arg =>
        if arg = "-f".toList ∨ arg = "--fast".toList then
          if argv.length < i + 2 then .rejected
          else
            match argv[i + 1]? with
            | none => .fault
            | some spec =>
              if spec = "true".toList then process cfg argv fuel (i + 2) { s with fast := true }
              else if spec = "false".toList then process cfg argv fuel (i + 2) { s with fast := false }
              else process cfg argv fuel (i + 2) s
        else if arg = "-o".toList ∨ arg = "--timeout".toList ∨ arg = "-timeout".toList then
          if argv.length < i + 3 then .rejected
          else
            match argv[i + 1]?, argv[i + 2]? with
            | some spec, some units =>
              if atoll spec = 0 ∧ startsWith spec "0".toList = false then .rejected
              else
                match scale (atoll spec) units with
                | none => .rejected
                | some d => process cfg argv fuel (i + 3) { s with duration := d }
            | _, _ => .fault
        else if arg = "-k".toList ∨ arg = "--keepalive".toList then
          if argv.length < i + 2 then .rejected
          else
            match argv[i + 1]? with
            | none => .fault
            | some spec =>
              if spec = "true".toList then process cfg argv fuel (i + 2) { s with keepalive := true }
              else if spec = "false".toList then process cfg argv fuel (i + 2) { s with keepalive := false }
              else process cfg argv fuel (i + 2) s
        else if arg = "-w".toList ∨ arg = "--workers".toList then
          if argv.length < i + 2 then .rejected
          else
            match argv[i + 1]? with
            | none => .fault
            | some spec =>
              process cfg argv fuel (i + 2) { s with workers := if atoll spec ≤ 0 then 1 else atoll spec }
        else if cfg.federated = true ∧ (arg = "-i".toList ∨ arg = "--id".toList) then
          if argv.length < i + 2 then .rejected
          else
            match argv[i + 1]? with
            | none => .fault
            | some fid => process cfg argv fuel (i + 2) { s with federation := fid }
        else if cfg.federated = true ∧ (arg = "-r".toList ∨ arg = "--rti".toList) then
          if argv.length < i + 2 then .rejected
          else
            match argv[i + 1]? with
            | none => .fault
            | some addr =>
              if cfg.rtiOk addr then process cfg argv fuel (i + 2) { s with rti := addr } else .rejected
        else if arg = "--ros-args".toList then process cfg argv fuel (i + 1) s
        else .rejected

/-- `process_args`, core/reactor_common.c:910-1049: `argv[0]` is the name of the program. -/
def process_args (cfg : Config) (argv : List Str) (s : Settings) : Outcome := process cfg argv argv.length 1 s

end ReactorC.Args
