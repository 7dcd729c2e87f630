import Mathlib.Data.List.Basic

/-!
# Generating Rust code from the types of trace events

Models util/tracing/codegen/src/tracepoint_to_rs.c.  Texts are C strings without their NUL, one `Char` per byte; `malloc` is taken to
succeed.
-/

namespace ReactorC.Rust

abbrev Text := List Char

/-- The byte that ends strings. -/
abbrev nul : Char := Char.ofNat 0

/-- `is_alphanumeric`, util/tracing/codegen/src/tracepoint_to_rs.c:9. -/
def isAlphanumeric (c : Char) : Bool := ('0' ≤ c ∧ c ≤ '9') ∨ ('A' ≤ c ∧ c ≤ 'Z') ∨ ('a' ≤ c ∧ c ≤ 'z')

/-- The loop of `to_camel_case`, util/tracing/codegen/src/tracepoint_to_rs.c:14-27, in the memory `buf`; `none`: behind the memory is read
or written.  The first argument bounds the number of rounds. -/
def camelLoop : Nat → Text → Bool → Nat → Nat → Option Text
  | 0, _, _, _, _ => none
  | k + 1, buf, up, i, j =>
    match buf[i]? with
    | none => none
    | some c =>
      if c = nul then (if j < buf.length then some (buf.set j nul) else none)
      else if isAlphanumeric c = false then camelLoop k buf true (i + 1) j
      else if j < buf.length then camelLoop k (buf.set j (if up then c.toUpper else c.toLower)) false (i + 1) (j + 1)
      else none

/-- `to_camel_case` on the copy that `do_for_each_camelcase` makes, util/tracing/codegen/src/tracepoint_to_rs.c:11-28, 44-62: the memory has
one byte more than the name; the result is the string that is in it. -/
def camelCase (s : Text) : Option Text := (camelLoop (s.length + 1) (s ++ [nul]) true 0 0).map (fun b => b.takeWhile (· ≠ nul))

/-- `print_enum_variant`, `print_match_case` and `print_from_int`, util/tracing/codegen/src/tracepoint_to_rs.c:32-42. -/
def enumVariant (i : Nat) (camel _name : Text) : Text := "    ".toList ++ camel ++ " = ".toList ++ Nat.toDigits 10 i ++ ",".toList
def matchCase (_i : Nat) (camel name : Text) : Text :=
  "            EventType::".toList ++ camel ++ " => write!(f, \"".toList ++ name ++ "\"),".toList
def fromInt (i : Nat) (camel _name : Text) : Text :=
  "            ".toList ++ Nat.toDigits 10 i ++ " => Ok(EventType::".toList ++ camel ++ "),".toList

/-- `do_for_each_camelcase`, util/tracing/codegen/src/tracepoint_to_rs.c:44-62, from the name with number `i` on. -/
def forEach (f : Nat → Text → Text → Text) (i : Nat) : List Text → Option (List Text)
  | [] => some []
  | n :: ns =>
    match camelCase n, forEach f (i + 1) ns with
    | some c, some ls => some (f i c n :: ls)
    | _, _ => none

/-- `print_warning`, util/tracing/codegen/src/tracepoint_to_rs.c:81-84. -/
def warning : List Text := ["/// Do not edit. Code in this file is generated from".toList, "/// reactor-c/util/tracing/codegen/src/tracepoint_to_rs.c".toList]

/-- `print_rs_enum`, util/tracing/codegen/src/tracepoint_to_rs.c:74-79. -/
def rsEnum (vs : List Text) : List Text := ["#[derive(Debug)]".toList, "pub enum EventType {".toList] ++ vs ++ ["}".toList]

/-- `print_display_impl`, util/tracing/codegen/src/tracepoint_to_rs.c:64-72. -/
def displayImpl (ms : List Text) : List Text :=
  ["impl std::fmt::Display for EventType {".toList, "    fn fmt(&self, f: &mut std::fmt::Formatter<'_>) -> std::fmt::Result {".toList, "        match self {".toList] ++ ms ++
    ["        }".toList, "    }".toList, "}".toList]

/-- `print_rs_from_int`, util/tracing/codegen/src/tracepoint_to_rs.c:86-95. -/
def rsFromInt (fs : List Text) : List Text :=
  ["impl EventType {".toList, "    pub fn try_from_int(i: i32) -> Result<Self, &'static str> {".toList, "        match i {".toList] ++ fs ++
    ["            _ => Err(\"invalid event type\"),".toList, "        }".toList, "    }".toList, "}".toList]

/-- `main`, util/tracing/codegen/src/tracepoint_to_rs.c:97-105: the lines that are printed. -/
def generate (names : List Text) : Option (List Text) :=
  match forEach enumVariant 0 names, forEach matchCase 0 names, forEach fromInt 0 names with
  | some vs, some ms, some fs => some (warning ++ [[]] ++ rsEnum vs ++ [[]] ++ displayImpl ms ++ [[]] ++ rsFromInt fs)
  | _, _, _ => none

/-- What is printed. -/
def printed (names : List Text) : Option Text := (generate names).map (fun ls => ls.flatMap (fun l => l ++ ['\n']))

/-- `trace_event_names`, trace/api/types/trace_types.h:81-138. -/
def eventNames : List String :=
  ["Reaction starts",
   "Reaction ends",
   "Reaction deadline missed",
   "Schedule called",
   "User-defined event",
   "User-defined valued event",
   "Worker wait starts",
   "Worker wait ends",
   "Scheduler advancing time starts",
   "Scheduler advancing time ends",
   "Federated marker",
   "Sending ACK",
   "Sending FAILED",
   "Sending TIMESTAMP",
   "Sending NET",
   "Sending LTC",
   "Sending STOP_REQ",
   "Sending STOP_REQ_REP",
   "Sending STOP_GRN",
   "Sending FED_ID",
   "Sending PTAG",
   "Sending TAG",
   "Sending REJECT",
   "Sending RESIGN",
   "Sending PORT_ABS",
   "Sending CLOSE_RQ",
   "Sending TAGGED_MSG",
   "Sending P2P_TAGGED_MSG",
   "Sending MSG",
   "Sending P2P_MSG",
   "Sending ADR_AD",
   "Sending ADR_QR",
   "Receiving ACK",
   "Receiving FAILED",
   "Receiving TIMESTAMP",
   "Receiving NET",
   "Receiving LTC",
   "Receiving STOP_REQ",
   "Receiving STOP_REQ_REP",
   "Receiving STOP_GRN",
   "Receiving FED_ID",
   "Receiving PTAG",
   "Receiving TAG",
   "Receiving REJECT",
   "Receiving RESIGN",
   "Receiving PORT_ABS",
   "Receiving CLOSE_RQ",
   "Receiving TAGGED_MSG",
   "Receiving P2P_TAGGED_MSG",
   "Receiving MSG",
   "Receiving P2P_MSG",
   "Receiving ADR_AD",
   "Receiving ADR_QR",
   "Receiving UNIDENTIFIED"]

/-- `NUM_EVENT_TYPES`, trace/api/types/trace_types.h:18-76. -/
def NUM_EVENT_TYPES : Nat := 54

end ReactorC.Rust
