import Mathlib.Data.List.Basic

/-!
# Uploading a trace to InfluxDB

Models the formatting of lines and `post_curl` of util/tracing/influxdb.h and the loop of util/tracing/trace_to_influxdb.c.  Texts are C strings without their NUL, one `Char` per byte; the buffer is a list of bytes of
which some are not initialized.  `realloc` and `malloc` are taken to succeed for sizes that are not negative.  The text of a floating point number is given.  `send_udp` is not modelled, for `post_http` see Verif.Http; here an
answer is a number.
-/

namespace ReactorC.Influx

abbrev Text := List Char

/-- The byte that ends strings. -/
abbrev nul : Char := Char.ofNat 0

/-- The arguments of `post_curl` up to `INFLUX_END`, util/tracing/influxdb.h:31-38, 65-72; `bad` is a type that is not known; the text of a floating point number is what `%.*lf` prints. -/
inductive Item
  | meas (m : Text)
  | tag (k v : Text)
  | str (k v : Text)
  | flt (k : Text) (shown : Text)
  | int (k : Text) (n : Int)
  | bool (k : Text) (b : Bool)
  | ts (n : Int)
  | bad
deriving DecidableEq

/-- `IF_TYPE_*`, util/tracing/influxdb.h:65-72. -/
def Item.type : Item → Nat
  | .meas _ => 1
  | .tag _ _ => 2
  | .str _ _ => 3
  | .flt _ _ => 4
  | .int _ _ => 5
  | .bool _ _ => 6
  | .ts _ => 7
  | .bad => 8

/-- The key of a tag or field. -/
def Item.key : Item → Text
  | .tag k _ | .str k _ | .flt k _ | .int k _ | .bool k _ => k
  | _ => []

/-- The buffer: `len`, the first `used` bytes (`none` is a byte that was not initialized), and whether a NUL follows them. -/
structure Buf where
  len : Nat
  data : List (Option Char)
  ended : Bool
deriving DecidableEq

/-- How formatting can go wrong: the code frees the buffer and returns -1, or it writes behind the buffer. -/
inductive Wrong | refused | overflow
deriving DecidableEq

/-- `_begin_line`, util/tracing/influxdb.h:325-330. -/
def begin : Buf := ⟨0x100, [], false⟩

/-- `_APPEND` with the text that `snprintf` prints, util/tracing/influxdb.h:339-349.  `snprintf` writes at most `len - used` bytes, the last of which is a NUL, and returns the length of the whole text; when this is
not less than `len - used`, the buffer is enlarged, but nothing is printed again. -/
def append (b : Buf) (t : Text) : Except Wrong Buf :=
  let used := b.data.length
  if b.len < used then .error .overflow
  else if used + t.length < b.len then .ok { b with data := b.data ++ t.map some, ended := true }
  else
    let room := b.len - used
    let cells := if room = 0 then List.replicate t.length none
      else (t.take (room - 1)).map some ++ [some nul] ++ List.replicate (t.length - room) none
    .ok { len := 2 * b.len, data := b.data ++ cells, ended := false }

/-- Writing `n` bytes after enlarging the buffer at most once, util/tracing/influxdb.h:432-435, 439-442. -/
def copy (b : Buf) (t : Text) : Except Wrong Buf :=
  let len := if b.data.length + t.length > b.len then 2 * b.len else b.len
  if b.data.length + t.length > len then .error .overflow
  else .ok { len := len, data := b.data ++ t.map some, ended := false }

/-- `_escaped_append`, util/tracing/influxdb.h:427-447; `esc` is `escape_seq`; `n` bounds the iterations and is greater than the length of `src`. -/
def escapedAppend (esc : List Char) : Nat → Buf → Text → Except Wrong Buf
  | 0, b, _ => .ok b
  | n + 1, b, src => do
    let seg := src.takeWhile (· ∉ esc)
    let b ← (if 0 < seg.length then copy b seg else .ok b : Except Wrong Buf)
    match src.dropWhile (· ∉ esc) with
    | [] => .ok b
    | c :: rest =>
      let b ← copy b ['\\', c]
      escapedAppend esc n b rest

/-- `_escaped_append` for a whole string. -/
def escaped (esc : List Char) (b : Buf) (src : Text) : Except Wrong Buf := escapedAppend esc (src.length + 1) b src

/-- `%lld`. -/
def decimal : Int → Text
  | .ofNat n => Nat.toDigits 10 n
  | .negSucc n => '-' :: Nat.toDigits 10 (n + 1)

/-- What is done for tags and fields before the `switch`, util/tracing/influxdb.h:363-370. -/
def key (b : Buf) (last : Nat) (i : Item) : Except Wrong Buf :=
  if 2 ≤ i.type ∧ i.type ≤ 6 then
    if last < 1 ∨ last > (if i.type = 2 then 2 else 6) then .error .refused
    else do
      let b ← append b [if last ≤ 2 ∧ i.type > 2 then ' ' else ',']
      let b ← escaped [',', '=', ' '] b i.key
      append b ['=']
  else .ok b

/-- The `switch`, util/tracing/influxdb.h:371-411. -/
def value (b : Buf) (last : Nat) (i : Item) : Except Wrong Buf :=
  match i with
  | .meas m => do
    let b ← (if last ≠ 0 then append b ['\n'] else .ok b : Except Wrong Buf)
    if last ≠ 0 ∧ last ≤ 2 then .error .refused else escaped [',', ' '] b m
  | .tag _ v => escaped [',', '=', ' '] b v
  | .str _ v => do
    let b ← append b ['"']
    let b ← escaped ['"'] b v
    append b ['"']
  | .flt _ shown => append b shown
  | .int _ n => append b (decimal n ++ ['i'])
  | .bool _ x => append b [if x then 't' else 'f']
  | .ts n => if last < 3 ∨ last > 6 then .error .refused else append b (' ' :: decimal n)
  | .bad => .error .refused

/-- The loop of `_format_line2`, util/tracing/influxdb.h:361-424. -/
def formatLoop (b : Buf) (last : Nat) : List Item → Except Wrong Buf
  | [] => do
    let b ← append b ['\n']
    if last ≤ 2 then .error .refused else .ok b
  | i :: is => do
    let b ← key b last i
    let b ← value b last i
    formatLoop b i.type is

/-- `_format_line`, util/tracing/influxdb.h:332-336. -/
def formatLine (is : List Item) : Except Wrong Buf := formatLoop begin 0 is

/-- The C string at the beginning of the buffer; `none` when it depends on bytes that were not initialized. -/
def cstring (ended : Bool) : List (Option Char) → Option Text
  | [] => if ended then some [] else none
  | none :: _ => none
  | some c :: r => if c = nul then some [] else (cstring ended r).map (c :: ·)

/-- `influx_v2_client_t`, util/tracing/influxdb.h:49-58; `port` 0 and `none` stand for defaults. -/
structure Client where
  host : Option Text
  port : Nat
  org : Text
  bucket : Text
  precision : Option Text
  token : Text

/-- The text of the URL, util/tracing/influxdb.h:284-285. -/
def url (c : Client) : Text :=
  "http://".toList ++ c.host.getD "localhost".toList ++ [':'] ++ Nat.toDigits 10 (if c.port = 0 then 8086 else c.port) ++ "/api/v2/write?org=".toList ++ c.org
    ++ "&bucket=".toList ++ c.bucket ++ "&precision=".toList ++ c.precision.getD "ns".toList

/-- What is sent: URL, header and body; `none` is undefined behaviour. -/
structure Request where
  url : Text
  header : Text
  body : Option Text
deriving DecidableEq

/-- `post_curl` up to `curl_easy_perform`, util/tracing/influxdb.h:263-302.  The result of formatting is not checked: for -1 the URL is printed to what `malloc` returns for the greatest size.  The URL is printed to as
many bytes as the *line* has, and the header to 120 bytes.  The body ends at the first NUL. -/
def postCurl (c : Client) (is : List Item) : Option Request :=
  match formatLine is with
  | .error _ => none
  | .ok b =>
    let header := "Authorization: Token ".toList ++ c.token
    if header.length + 1 > 120 then none
    else some { url := (url c).take (b.data.length - 1), header := header, body := cstring b.ended b.data }

/-- `object_description_t`, trace/api/types/trace_types.h; `isTrigger` says that the type is `trace_trigger`. -/
structure Object where
  pointer : Nat
  trigger : Nat
  isTrigger : Bool
  description : Text

/-- `get_object_description`, util/tracing/trace_util.c:139-153. -/
def objectDescription (os : List Object) (p : Nat) : Option Text := (os.find? (fun o => o.pointer = p)).map (·.description)

/-- `get_trigger_name`, util/tracing/trace_util.c:164-178. -/
def triggerName (os : List Object) (t : Nat) : Option Text := (os.find? (fun o => o.trigger = t ∧ o.isTrigger)).map (·.description)

/-- `trace_record_nodeps_t`. -/
structure Record where
  event : Nat
  pointer : Nat
  src : Int
  dst : Int
  logical : Int
  microstep : Nat
  physical : Int
  trigger : Nat
  delay : Int

/-- `trace_event_names` up to `federated`, trace/api/types/trace_types.h:78-89. -/
def eventNames : List Text :=
  ["Reaction starts", "Reaction ends", "Reaction deadline missed", "Schedule called", "User-defined event", "User-defined valued event",
   "Worker wait starts", "Worker wait ends", "Scheduler advancing time starts", "Scheduler advancing time ends", "Federated marker"].map String.toList

/-- `reaction_name`: `snprintf` to four bytes, util/tracing/trace_to_influxdb.c:163-167. -/
def reactionName (dst : Int) : Text := if 0 ≤ dst then (decimal dst).take 3 else "none".toList

/-- The arguments of `post_curl` for a record, util/tracing/trace_to_influxdb.c:163-189. -/
def recordItems (os : List Object) (r : Record) : List Item :=
  [.meas (eventNames.getD r.event []),
   .tag "Reactor".toList ((objectDescription os r.pointer).getD "NO REACTOR".toList), .tag "Reaction".toList (reactionName r.dst),
   .int "Worker".toList r.src, .int "Logical Time".toList r.logical,
   .int "Microstep".toList r.microstep, .str "Trigger Name".toList ((triggerName os r.trigger).getD "NO TRIGGER".toList),
   .int "Extra Delay".toList r.delay, .ts r.physical]

/-- What the tool has done: the requests that were sent, how many answers were received, and whether behaviour was undefined. -/
structure Run where
  sent : List Request
  undef : Bool
deriving DecidableEq

/-- The loop of `read_and_write_trace` over the records of a chunk, util/tracing/trace_to_influxdb.c:157-195; `answer n` is the result of the `n`-th request; `true` says that the chunk was completed. -/
def upload (c : Client) (os : List Object) (answer : Nat → Int) (s : Run) : List Record → Run × Bool
  | [] => (s, true)
  | r :: rs =>
    if r.event > 10 then upload c os answer s rs
    else
      match postCurl c (recordItems os r) with
      | none => ({ s with undef := true }, false)
      | some q =>
        let s := { s with sent := s.sent ++ [q] }
        if answer (s.sent.length - 1) ≠ 0 then (s, false) else upload c os answer s rs

/-- The loop of `main` over the chunks that `read_trace` reads and the number that is printed at the end, util/tracing/trace_to_influxdb.c:268-273. -/
def uploadAll (c : Client) (os : List Object) (answer : Nat → Int) (s : Run) (num : Nat) : List (List Record) → Run × Nat
  | [] => (s, num)
  | ch :: chs =>
    if ch.length = 0 then (s, num)
    else
      let r := upload c os answer s ch
      if r.2 then uploadAll c os answer r.1 ch.length chs else (r.1, num)

end ReactorC.Influx
