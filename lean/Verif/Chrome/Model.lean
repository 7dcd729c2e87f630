import Mathlib.Data.List.Basic

/-!
# Converting a trace for the event viewer of Chrome

Models util/tracing/trace_to_chrome.c: what the tool writes for the records and objects that util/tracing/trace_util.c has read (for this see Verif.Trace.File).  Texts are C strings without their NUL, one `Char` per byte.
Event types are not negative; times are integers whose differences and sums are taken to fit into 64 bits, and so does every other number fit into its type.
-/

namespace ReactorC.Chrome

abbrev Text := List Char

/-- `object_description_t`, trace/api/trace.h:35-40; the types are `trace_reactor` 0, `trace_trigger` 1 and `trace_user` 2, trace/api/trace.h:22-26. -/
structure Object where
  pointer : Nat
  trigger : Nat
  type : Nat
  description : Text
deriving DecidableEq

/-- `trace_record_t`, include/core/tracepoint.h:49-59. -/
structure Record where
  event : Nat
  pointer : Nat
  src : Int
  dst : Int
  logical : Int
  microstep : Nat
  physical : Int
  trigger : Nat
  delay : Int
deriving DecidableEq

/-- `get_object_description`, util/tracing/trace_util.c:139-153: the description and the index. -/
def getObjectDescription (table : List Object) (pointer : Nat) : Option Text × Nat :=
  match table.findIdx? fun x => x.pointer = pointer with
  | some i => (table[i]?.map Object.description, i)
  | none => (none, 0)

/-- `get_trigger_name`, util/tracing/trace_util.c:164-178. -/
def getTriggerName (table : List Object) (trigger : Nat) : Option Text × Nat :=
  match table.findIdx? fun x => x.trigger = trigger && x.type = 1 with
  | some i => (table[i]?.map Object.description, i)
  | none => (none, 0)

/-- `%d` and `%lld`. -/
def decimal : Int → Text
  | .ofNat n => Nat.toDigits 10 n
  | .negSucc n => '-' :: Nat.toDigits 10 (n + 1)

/-- What `%d` takes a number of 32 bits for. -/
def asInt (n : Nat) : Int := if n % 2 ^ 32 < 2 ^ 31 then (n % 2 ^ 32 : Nat) else (n % 2 ^ 32 : Nat) - 2 ^ 32

/-- `trace_event_names` up to `federated`, trace/api/types/trace_types.h:81-92. -/
def eventNames : List Text :=
  ["Reaction starts".toList, "Reaction ends".toList, "Reaction deadline missed".toList, "Schedule called".toList, "User-defined event".toList,
   "User-defined valued event".toList, "Worker wait starts".toList, "Worker wait ends".toList, "Scheduler advancing time starts".toList,
   "Scheduler advancing time ends".toList, "Federated marker".toList]

/-- `reaction_name`: `snprintf` to four bytes, util/tracing/trace_to_chrome.c:82, 88-91. -/
def reactionName (dst : Int) : Text := if 0 ≤ dst then (decimal dst).take 3 else "\"UNKNOWN\"".toList

/-- `reactor_name`, util/tracing/trace_to_chrome.c:93-104; the test for the begin of an advance of time is there twice. -/
def reactorName (table : List Object) (r : Record) : Text :=
  match (getObjectDescription table r.pointer).1 with
  | some d => d
  | none =>
    if r.event = 6 ∨ r.event = 7 then "WAIT".toList
    else if r.event = 8 ∨ r.event = 8 then "ADVANCE TIME".toList
    else "NO REACTOR".toList

/-- `elapsed_physical_time` and `elapsed_logical_time`, util/tracing/trace_to_chrome.c:117, 119. -/
def elapsed (start t : Int) : Int := (t - start).tdiv 1000

/-- `args` before the `switch`, util/tracing/trace_to_chrome.c:135-143. -/
def usualArgs (start : Int) (r : Record) : Text :=
  "{\"reaction\": ".toList ++ reactionName r.dst ++ ",\"logical time\": ".toList ++ decimal (elapsed start r.logical) ++
  ",\"physical time\": ".toList ++ decimal (elapsed start r.physical) ++ ",\"microstep\": ".toList ++ decimal (asInt r.microstep) ++ "}".toList

/-- What the `switch` determines. -/
structure Shown where
  phase : Text
  pid : Int
  tid : Int
  timestamp : Int
  name : Text
  args : Text

/-- The `switch`, util/tracing/trace_to_chrome.c:113-203; `po` is `physical_time_only`. -/
def shown (po : Bool) (start : Int) (table : List Object) (r : Record) : Shown :=
  let ph := elapsed start r.physical
  let lo := elapsed start r.logical
  let args := usualArgs start r
  let name := reactorName table r
  let reactor : Nat := (getObjectDescription table r.pointer).2
  match r.event with
  | 0 => ⟨"B".toList, 0, r.src, ph, name, args⟩
  | 1 => ⟨"E".toList, 0, r.src, ph, name, args⟩
  | 3 => ⟨"i".toList, reactor + 1, (getTriggerName table r.trigger).2, if po then ph else lo + r.delay.tdiv 1000,
          (getTriggerName table r.trigger).1.getD "NONE".toList, args⟩
  | 4 => ⟨"i".toList, 1000000, reactor, if po then ph else lo, name, args⟩
  | 5 => ⟨"C".toList, 1000000, reactor, if po then ph else lo, name, "{\"value\": ".toList ++ decimal r.delay ++ "}".toList⟩
  | 6 => ⟨"B".toList, 0, r.src, ph, name, args⟩
  | 7 => ⟨"E".toList, 0, r.src, ph, name, args⟩
  | 8 => ⟨"B".toList, 0, r.src, ph, name, args⟩
  | 9 => ⟨"E".toList, 0, r.src, ph, name, args⟩
  | _ => ⟨"i".toList, 2000000, r.src, ph, name, args⟩

/-- The first `fprintf` for a record, util/tracing/trace_to_chrome.c:204-214. -/
def line (event : Nat) (s : Shown) : Text :=
  "{\"name\": \"".toList ++ s.name ++ "\", \"cat\": \"".toList ++ eventNames.getD event [] ++ "\", \"ph\": \"".toList ++ s.phase ++
  "\", \"tid\": ".toList ++ decimal s.tid ++ ", \"pid\": ".toList ++ decimal s.pid ++ ", \"ts\": ".toList ++ decimal s.timestamp ++
  ", \"args\": ".toList ++ s.args ++ "},\n".toList

/-- The second `fprintf`, util/tracing/trace_to_chrome.c:223-250; the name is printed to 13 bytes. -/
def instant (start : Int) (table : List Object) (r : Record) : Text :=
  "{\"name\": \"".toList ++ ("reaction ".toList ++ decimal r.dst).take 12 ++ "\", \"cat\": \"Reaction\", \"ph\": \"i\", \"tid\": ".toList ++
  decimal (1024 + r.dst) ++ ", \"pid\": ".toList ++ decimal ((getObjectDescription table r.pointer).2 + 1) ++ ", \"ts\": ".toList ++
  decimal (elapsed start r.logical) ++ ", \"args\": {\"microstep\": ".toList ++ decimal (asInt r.microstep) ++ ", \"physical time\": ".toList ++
  decimal (elapsed start r.physical) ++ "}},\n".toList

/-- What is written and the greatest numbers that were seen, util/tracing/trace_to_chrome.c:46-47, 66-67. -/
structure State where
  out : Text
  maxThread : Int
  maxReaction : Int

/-- One record, util/tracing/trace_to_chrome.c:82-251. -/
def record (po : Bool) (start : Int) (table : List Object) (s : State) (r : Record) : State :=
  if r.event > 10 then s
  else if elapsed start r.physical < 0 then s
  else if elapsed start r.logical < 0 then s
  else
    let s : State := { s with
      out := s.out ++ line r.event (shown po start table r)
      maxThread := if r.src > s.maxThread then r.src else s.maxThread }
    if r.event = 0 ∧ po = false then
      { s with
        out := s.out ++ instant start table r
        maxReaction := if r.dst > s.maxReaction then r.dst else s.maxReaction }
    else s

/-- The loop of `main` over chunks and the loop of `read_and_write_trace` over records, util/tracing/trace_to_chrome.c:76-81, 252, 441-442. -/
def records (po : Bool) (start : Int) (table : List Object) (s : State) (rs : List Record) : State := rs.foldl (record po start table) s

/-- `"thread_name"`, util/tracing/trace_to_chrome.c:273-301, 308-317. -/
def threadName (pid tid : Int) (name : Text) : Text :=
  "{\"name\": \"thread_name\", \"ph\": \"M\", \"pid\": ".toList ++ decimal pid ++ ", \"tid\": ".toList ++ decimal tid ++
  ", \"args\": {\"name\": \"".toList ++ name ++ "\"}},\n".toList

/-- `"thread_name"` without a blank in front of the arguments, util/tracing/trace_to_chrome.c:327-337, 350-361. -/
def threadLabel (pid tid : Int) (name : Text) : Text :=
  "{\"name\": \"thread_name\", \"ph\": \"M\", \"pid\": ".toList ++ decimal pid ++ ", \"tid\": ".toList ++ decimal tid ++
  ",\"args\": {\"name\": \"".toList ++ name ++ "\"}},\n".toList

/-- `"process_name"`, util/tracing/trace_to_chrome.c:339-348, 365-373, 400-408; the last one has no comma. -/
def processName (pid : Int) (name : Text) (last : Bool) : Text :=
  "{\"name\": \"process_name\", \"ph\": \"M\", \"pid\": ".toList ++ decimal pid ++ ", \"args\": {\"name\": \"".toList ++ name ++
  (if last then "\"}}\n".toList else "\"}},\n".toList)

/-- The names of worker threads, util/tracing/trace_to_chrome.c:271-303; `PID_FOR_WORKER_WAIT` and `PID_FOR_WORKER_ADVANCING_TIME` are 0, so that each is written three times. -/
def workerNames (max : Int) : Text :=
  (List.range max.toNat).flatMap fun (k : Nat) =>
    let n := threadName 0 (k + 1 : Nat) ("Worker ".toList ++ decimal (k + 1 : Nat))
    n ++ n ++ n

/-- The names of reactions, util/tracing/trace_to_chrome.c:305-319. -/
def reactionNames (size : Nat) (max : Int) : Text :=
  (List.range size).flatMap fun (i : Nat) => (List.range (max + 1).toNat).flatMap fun (n : Nat) =>
    threadName (i + 1 : Nat) ((n : Int) + 1024) ("Reaction ".toList ++ decimal n)

/-- One entry of the table, util/tracing/trace_to_chrome.c:322-363. -/
def objectName (table : List Object) (i : Nat) (x : Object) : Text :=
  if x.type = 1 then threadLabel ((getObjectDescription table x.pointer).2 + 1) i ("Trigger ".toList ++ x.description)
  else if x.type = 0 then processName (i + 1) ("Reactor ".toList ++ x.description ++ " reactions, actions, and timers in logical time".toList) false
  else if x.type = 2 then threadLabel 1000000 i x.description
  else []

/-- `top_level`, util/tracing/trace_util.c:51-52, 262-264; without any object it is `NULL`, which `%s` is taken to print like this. -/
def topLevel (table : List Object) : Text :=
  match table with
  | [] => "(null)".toList
  | x :: _ => x.description

/-- `write_metadata_events`, util/tracing/trace_to_chrome.c:260-409. -/
def metadata (table : List Object) (s : State) : Text :=
  "{\"name\": \"thread_name\", \"ph\": \"M\", \"pid\": 0, \"tid\": 0, \"args\": {\"name\": \"Main thread\"}},\n".toList ++
  workerNames s.maxThread ++ reactionNames table.length s.maxReaction ++
  table.zipIdx.flatMap (fun x => objectName table x.2 x.1) ++
  processName 0 ("Execution of ".toList ++ topLevel table) false ++
  processName 1000000 ("User events in ".toList ++ topLevel table ++ ", shown in physical time:".toList) true

/-- What `main` writes, util/tracing/trace_to_chrome.c:438-445. -/
def output (po : Bool) (start : Int) (table : List Object) (rs : List Record) : Text :=
  let s := records po start table ⟨[], 0, 0⟩ rs
  "{ \"traceEvents\": [\n".toList ++ s.out ++ metadata table s ++ "]}\n".toList

/-- What follows the last `c`, if there is one: `strrchr`. -/
def afterLast (c : Char) (t : Text) : Text := (t.reverse.takeWhile (· ≠ c)).reverse

/-- `root_name`, util/tracing/trace_util.c:89-108. -/
def rootName (path : Text) : Text :=
  let name := afterLast '/' path
  if '.' ∈ name then name.take (name.length - (afterLast '.' name).length - 1) else name

/-- The name of the file that is written, util/tracing/trace_to_chrome.c:431-435. -/
def outputName (path : Text) : Text := rootName path ++ ".json".toList

/-- What `main` makes of the arguments, util/tracing/trace_to_chrome.c:411-427: `usage` for an unknown option or without a name, or the flag and the last name.  A file must not have the empty string as name. -/
inductive Command
  | usage (status : Nat)
  | convert (po : Bool) (file : Text)
deriving DecidableEq

/-- The loop over the arguments. -/
def arguments (po : Bool) (file : Option Text) : List Text → Command
  | [] => match file with
    | none => .usage 0
    | some f => .convert po f
  | a :: as =>
    if a.take 2 = "-p".toList ∨ a.take 10 = "--physical".toList then arguments true file as
    else if a.head? = some '-' then .usage 1
    else arguments po (some a) as

end ReactorC.Chrome
