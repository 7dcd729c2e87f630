import Verif.Args.Model

/-!
# How the arguments of a program reach it: the defaults of the program, the command line, and `start` of a Python module

Models the beginning of `lf_reactor_c_main` (core/reactor.c:303-309 and core/threaded/reactor_threaded.c:986-994), and
`_lf_py_parse_argv_impl` and `py_main` (python/lib/pythontarget.c:199-308).
-/

namespace ReactorC.Args

/-- What becomes of a program. -/
inductive Started
  /-- it runs with these settings -/
  | runs (s : Settings)
  /-- it ends, having printed how to use it -/
  | refuses
  /-- it reads the arguments out of bounds -/
  | fault
deriving DecidableEq, Repr

/-- `process_args(default_argc, default_argv) && process_args(argc, argv)`, core/reactor.c:309 and
core/threaded/reactor_threaded.c:992; `second` is the second call. -/
def both (cfg : Config) (defaults : List Str) (second : Settings → Outcome) (s : Settings) : Started :=
  match process_args cfg defaults s with
  | .accepted m =>
    match second m with
    | .accepted t => .runs t
    | .rejected => .refuses
    | .fault => .fault
  | .rejected => .refuses
  | .fault => .fault

/-- `lf_reactor_c_main` with `argc` the length of `argv`.  `defaults` is `default_argv`, which the generated
`lf_set_default_command_line_options` sets; `default_argc` is its length, 0 if it is not set. -/
def mainWith (cfg : Config) (defaults argv : List Str) (s : Settings) : Started :=
  both cfg defaults (process_args cfg argv) s

/-- `process_args(argc, NULL)`: `argv` is read if there is more than the name of the program. -/
def processNull (argc : Int) (s : Settings) : Outcome := if 1 < argc then .fault else .accepted s

namespace Py

/-- The characters of a Python string; `none` is a surrogate, which has no encoding. -/
abbrev PyStr := List (Option Char)

/-- Python objects as far as they matter: strings, lists, and others. -/
inductive Item
  | str (s : PyStr)
  | other
deriving DecidableEq, Repr

inductive Obj
  | list (l : List Item)
  | notList
deriving DecidableEq, Repr

/-- `PyUnicode_AsEncodedString(…, "UTF-8", "strict")` and `PyBytes_AsString`, pythontarget.c:235-243: the characters up to the first zero, which
ends C strings.  A character stands for its bytes. -/
def encode : Item → Option Str
  | .other => none
  | .str s => if none ∈ s then none else some ((s.filterMap id).takeWhile (· ≠ '\x00'))

/-- The result of `_lf_py_parse_argv_impl`. -/
inductive Parsed
  /-- `argv`, and `*argc` is its length -/
  | argv (l : List Str)
  /-- no `argv`, and `*argc` as given; `none` if it is not set -/
  | null (argc : Option Int)
  /-- `lf_print_error_and_exit` -/
  | exits
deriving DecidableEq, Repr

/-- The loop, pythontarget.c:226-249. -/
def convert : List Item → List Str → Parsed
  | [], acc => .argv acc
  | x :: l, acc =>
    match encode x with
    | none => .exits
    | some c => convert l (acc ++ [c])

/-- `_lf_py_parse_argv_impl`, pythontarget.c:199-253; `args` are the arguments of `start`.  For an object that is not a list `PyList_Size` gives -1, so that
`malloc` is asked for nearly 2⁶⁴ bytes and gives `NULL`, the loop is not entered, and `*argc` is 2⁶⁴ - 1, which is -1 as an
`int` (pythontarget.c:303). -/
def parseArgv (moduleName : Str) (args : List Obj) : Parsed :=
  match args with
  | [] => .argv [moduleName]
  | [.list l] => convert l []
  | [.notList] => .null (some (-1))
  | _ :: _ :: _ => .null none

/-- `py_main`, pythontarget.c:277-308, as far as the arguments are concerned; `none`: the process exits.  `junk` is what is found in `argc` if
it is not set. -/
def start (cfg : Config) (moduleName : Str) (defaults : List Str) (junk : Int) (args : List Obj) (s : Settings) : Option Started :=
  match parseArgv moduleName args with
  | .argv l => some (mainWith cfg defaults l s)
  | .null argc => some (both cfg defaults (processNull (argc.getD junk)) s)
  | .exits => none

end Py

end ReactorC.Args
