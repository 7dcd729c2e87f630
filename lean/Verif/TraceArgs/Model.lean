import Verif.Args.Model
import Verif.Chrome.Model

/-!
# The command lines of the tools that convert traces

Models `process_args`, `string_to_instant` and what `main` does before the trace is read, of util/tracing/trace_to_csv.c, and the loop over
the arguments of util/tracing/trace_to_influxdb.c.  (For util/tracing/trace_to_chrome.c see `Verif.Chrome`.)  Strings are lists of
characters, without the terminating zero; the arguments after the name of the program are a list.

Simplifications: numbers are integers, so overflow in `atoll`, `atoi` and in the multiplication by the unit is left out; whether a file
can be opened depends on its name only; allocating memory does not fail; what is printed is left out.
-/

namespace ReactorC.TraceArgs

open ReactorC.Args (Str atoll startsWith scale)
open ReactorC.Chrome (rootName)

/-! ## trace_to_csv -/

/-- `strcmp(strrchr(arg, '\0') - 4, ".lft") == 0`, util/tracing/trace_to_csv.c:418: the last four characters, of which some are those in
front of the argument in memory, `before`, if the argument is shorter. -/
def isTrace (before arg : Str) : Bool := decide ((before ++ arg).drop ((before ++ arg).length - 4) = ".lft".toList)

/-- `string_to_instant`, util/tracing/trace_to_csv.c:377-412: -1 for an error. -/
def stringToInstant (spec units : Str) : Int :=
  if atoll spec = 0 ∧ startsWith spec "0".toList = false then -1 else (scale (atoll spec) units).getD (-1)

/-- What `process_args` sets: the file that is open (the one that `root` is made of), `start_time` and `end_time`. -/
structure Csv where
  file : Option Str
  start : Int
  stop : Int
deriving DecidableEq, Repr

/-- The initial values, util/tracing/trace_to_csv.c:460-461; `NEVER` and `FOREVER`, tag/api/tag.h:33, 35. -/
def Csv.init : Csv := ⟨none, - 2 ^ 63, 2 ^ 63 - 1⟩

inductive Parsed
  /-- `process_args` returns 0 -/
  | done (s : Csv)
  /-- it returns -1 -/
  | error
  /-- the usage is printed, and the program exits with status 0 -/
  | usage
  /-- a trace file cannot be opened: the program exits with status 2 (util/tracing/trace_util.c:112-116) -/
  | noFile
deriving DecidableEq, Repr

/-- `process_args`, util/tracing/trace_to_csv.c:414-457.  `opens` tells which files can be opened; `before k` is what is in memory in
front of the argument after which there are `k` others. -/
def process (opens : Str → Bool) (before : Nat → Str) : List Str → Csv → Parsed
  | [], s => .done s
  | a :: as, s =>
    if isTrace (before as.length) a then
      if opens a then process opens before as { s with file := some a } else .noFile
    else if a = "-s".toList then
      match as with
      | spec :: units :: rest =>
        if stringToInstant spec units = -1 then .error
        else process opens before rest { s with start := stringToInstant spec units }
      | _ => .error
    else if a = "-e".toList then
      match as with
      | spec :: units :: rest =>
        if stringToInstant spec units = -1 then .error
        else process opens before rest { s with stop := stringToInstant spec units }
      | _ => .error
    else .usage

/-- What the program does. -/
inductive Action
  /-- the records of `file` with a logical time from `start` on and before `stop` are written to `csv`, and the summary to `summary` -/
  | convert (file csv summary : Str) (start stop : Int)
  /-- the program ends with this status -/
  | exit (status : Int)
  /-- the uninitialized pointer `root` is used -/
  | undefined
deriving DecidableEq, Repr

/-- `main`, util/tracing/trace_to_csv.c:459-484; `creates` tells which files can be opened for writing. -/
def csvMain (opens creates : Str → Bool) (before : Nat → Str) (args : List Str) : Action :=
  match process opens before args .init with
  | .error => .exit (-1)
  | .usage => .exit 0
  | .noFile => .exit 2
  | .done s =>
    match s.file with
    | none => .undefined
    | some f =>
      if creates (rootName f ++ ".csv".toList) && creates (rootName f ++ "_summary.csv".toList) then
        .convert f (rootName f ++ ".csv".toList) (rootName f ++ "_summary.csv".toList) s.start s.stop
      else .exit 2

/-! ## trace_to_influxdb -/

/-- What is set by the arguments: `influx_v2_client` (util/tracing/influxdb.h:49-57) and `filename`. -/
structure Influx where
  token : Option Str
  host : Str
  port : Int
  org : Str
  bucket : Str
  file : Option Str
deriving DecidableEq, Repr

/-- The defaults, util/tracing/trace_to_influxdb.c:203-210. -/
def Influx.init : Influx := ⟨none, "localhost".toList, 8086, "iCyPhy".toList, "test".toList, none⟩

/-- The loop over the arguments, util/tracing/trace_to_influxdb.c:212-255; `none` if the value of an option is missing, and the program
exits with status 1. -/
def influxArgs : List Str → Influx → Option Influx
  | [], s => some s
  | a :: as, s =>
    if a = "-t".toList ∨ a = "--token".toList then
      match as with
      | [] => none
      | v :: rest => influxArgs rest { s with token := some v }
    else if a = "-h".toList ∨ a = "--host".toList then
      match as with
      | [] => none
      | v :: rest => influxArgs rest { s with host := v }
    else if a = "-p".toList ∨ a = "--port".toList then
      match as with
      | [] => none
      | v :: rest => influxArgs rest { s with port := atoll v }
    else if a = "-o".toList ∨ a = "--org".toList then
      match as with
      | [] => none
      | v :: rest => influxArgs rest { s with org := v }
    else if a = "-b".toList ∨ a = "--bucket".toList then
      match as with
      | [] => none
      | v :: rest => influxArgs rest { s with bucket := v }
    else influxArgs as { s with file := some a }

/-- What the program does. -/
inductive Upload
  | upload (token host : Str) (port : Int) (org bucket file : Str)
  | exit (status : Int)
deriving DecidableEq, Repr

/-- `main`, util/tracing/trace_to_influxdb.c:198-266; the port is the one that is connected to (util/tracing/influxdb.h:118). -/
def influxMain (opens : Str → Bool) (args : List Str) : Upload :=
  if args = [] then .exit 0
  else
    match influxArgs args .init with
    | none => .exit 1
    | some s =>
      match s.token, s.file with
      | none, _ => .exit 1
      | some _, none => .exit 1
      | some t, some f => if opens f then .upload t s.host s.port s.org s.bucket f else .exit 2

/-- The number of records that are reported as written, where each call of `read_and_write_trace` returned one of the numbers of the list,
util/tracing/trace_to_influxdb.c:269-273. -/
def reported : List Nat → Nat → Nat
  | [], num => num
  | result :: more, num => if result ≠ 0 then reported more result else num

end ReactorC.TraceArgs
