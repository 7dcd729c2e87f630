import Mathlib.Data.List.Basic

/-!
# Posting lines over HTTP

Models `post_http_send_line` of util/tracing/influxdb.h:81-202.  Texts are lists of bytes, one `Char` per byte.
-/

namespace ReactorC.Http

abbrev Text := List Char

/-- The byte zero. -/
abbrev nul : Char := Char.ofNat 0

/-! ## The request -/

/-- `influx_client_t`, util/tracing/influxdb.h:22-29; the user, the password and the token may be `NULL`. -/
structure Client where
  host : Text
  db : Text
  usr : Option Text
  pwd : Option Text
  token : Option Text
deriving DecidableEq

/-- The text that `snprintf` is to print for a line of `n` bytes, util/tracing/influxdb.h:97-106. -/
def header (c : Client) (n : Nat) : Text :=
  "POST /write?db=".toList ++ c.db ++ "&u=".toList ++ c.usr.getD [] ++ "&p=".toList ++ c.pwd.getD [] ++ " HTTP/1.1\r\n".toList
    ++ "Host: ".toList ++ c.host ++ "\r\n".toList ++ "Accept: application/json\r\n".toList ++ "Content-type: text/plain\r\n".toList
    ++ "Authorization: Token ".toList ++ c.token.getD [] ++ "\r\n".toList ++ "Content-Length: ".toList ++ Nat.toDigits 10 n
    ++ "\r\n".toList ++ "\r\n".toList

/-- What `writev` is given, util/tracing/influxdb.h:91-112, 147: `snprintf` prints at most 0x7ff bytes and a NUL and returns the
length of the whole text; if this is more, the buffer is enlarged to 0x1000 bytes but the loop is left, so the bytes behind the
NUL are whatever the memory held (`heap`).  `none`: bytes behind the buffer are read. -/
def sent (c : Client) (line : Text) (heap : Nat → Char) : Option Text :=
  let h := header c line.length
  if h.length < 0x800 then some (h ++ line)
  else if h.length ≤ 0x1000 then some (h.take 0x7ff ++ nul :: (List.range (h.length - 0x800)).map heap ++ line)
  else none

/-! ## The connection -/

/-- What comes in on the socket: bytes that came together, or an error of `recv`. -/
inductive Event
  | data (c : Char) (t : Text)
  | fail
deriving DecidableEq

/-- `recv` for `n` bytes, util/tracing/influxdb.h:155: `none` is -1; when nothing is left, the server has closed the connection, and
`recv` returns 0, as it does for no bytes. -/
def recv (n : Nat) : List Event → Option (Text × List Event)
  | [] => some ([], [])
  | .fail :: _ => none
  | .data c t :: r =>
    if n = 0 then some ([], .data c t :: r)
    else some ((c :: t).take n, match (c :: t).drop n with
      | [] => r
      | d :: ds => .data d ds :: r)

/-- The buffer and the socket: the first byte of the buffer, the bytes of it that were received and not read yet
(`iov_base[len]` to `iov_base[iov_len - 1]`), `iov_len`, and what will come in. -/
structure Conn where
  first : Char
  got : Text
  size : Nat
  inc : List Event
deriving DecidableEq

/-- `_GET_NEXT_CHAR`, util/tracing/influxdb.h:153-157.  When nothing was received the first byte of the buffer is read all the same,
and `iov_len`, which is then 0, is the number of bytes asked for ever after. -/
def next (s : Conn) : Char × Conn :=
  match s.got with
  | c :: r => (c, { s with got := r })
  | [] =>
    match recv s.size s.inc with
    | none => (nul, s)
    | some ([], inc) => (s.first, { s with size := 0, inc := inc })
    | some (c :: r, inc) => (c, ⟨c, r, r.length + 1, inc⟩)

/-! ## The answer -/

/-- Where the code is that reads the answer, util/tracing/influxdb.h:174-194: before the status, in it, before the end of a line, at
the beginning of a line, in the text of a header of which some is left to be compared (in its number, when nothing is left), behind a
carriage return, in the body with some bytes left, at the end; `undef` is an overflow of an `int`. -/
inductive Ctl
  | version
  | code
  | seek
  | first
  | field (left : Text)
  | cr
  | body (n : Nat)
  | done (r : Int)
  | undef
deriving DecidableEq

/-- `ret_code` and `content_length`. -/
structure Parser where
  ctl : Ctl
  ret : Nat
  len : Nat
deriving DecidableEq

/-- The digit of `_GET_NUMBER`, util/tracing/influxdb.h:167. -/
def isDigit (c : Char) : Bool := '0' ≤ c ∧ c ≤ '9'

/-- What is returned, util/tracing/influxdb.h:200. -/
def result (ret : Nat) : Int := if ret / 100 = 2 then 0 else ret

/-- The loop over the body, util/tracing/influxdb.h:186-188, with `n` bytes left. -/
def inBody (p : Parser) (n : Nat) : Parser := { p with ctl := if n = 0 then .done (result p.ret) else .body n }

/-- `n * 10 + (ch - '0')`, util/tracing/influxdb.h:167. -/
def addDigit (n : Nat) (c : Char) : Nat := n * 10 + (c.toNat - '0'.toNat)

/-- One byte of the answer, util/tracing/influxdb.h:158-194. -/
def step (p : Parser) (c : Char) : Parser :=
  match p.ctl with
  | .version => if c = nul then { p with ctl := .done (-8) } else if c = ' ' then { p with ctl := .code } else p
  | .code =>
    if c = nul then { p with ctl := .done (-8) }
    else if isDigit c then
      if addDigit p.ret c ≤ 2147483647 then { p with ret := addDigit p.ret c } else { p with ctl := .undef }
    else { p with ctl := .seek }
  | .seek => if c = nul then { p with ctl := .done (-8) } else if c = '\n' then { p with ctl := .first } else p
  | .first =>
    if c = 'C' then { p with ctl := .field "ontent-Length: ".toList }
    else if c = '\r' then { p with ctl := .cr }
    else if c = nul then { p with ctl := .done (-10) }
    else { p with ctl := .seek }
  | .field (w :: r) =>
    if c = w then { p with ctl := .field r }
    else if c = nul then { p with ctl := .done (-10) }
    else { p with ctl := .seek }
  | .field [] =>
    if c = nul then { p with ctl := .done (-8) }
    else if isDigit c then
      if addDigit p.len c ≤ 2147483647 then { p with len := addDigit p.len c } else { p with ctl := .undef }
    else { p with ctl := .seek }
  | .cr =>
    if c = '\n' then inBody p p.len
    else if c = nul then { p with ctl := .done (-10) }
    else { p with ctl := .seek }
  | .body n => if c = nul then { p with ctl := .done (result p.ret) } else inBody p (n - 1)
  | .done _ => p
  | .undef => p

/-- The state before the first byte of the answer, util/tracing/influxdb.h:82, 151, 174. -/
def start : Parser := ⟨.version, 0, 0⟩

/-- The connection then: the buffer of `cap` bytes begins with the request, `len` and `iov_len` are both `cap`. -/
def opened (cap : Nat) (inc : List Event) : Conn := ⟨'P', [], cap, inc⟩

/-- Reading `n` bytes. -/
def run : Nat → Parser → Conn → Parser × Conn
  | 0, p, s => (p, s)
  | n + 1, p, s => run n (step p (next s).1) (next s).2

/-! ## The stages -/

/-- What the system does. -/
structure Env where
  malloc : Bool
  enlarge : Bool
  realloc : Bool
  resolves : Bool
  socket : Bool
  connects : Bool
  written : Bool

/-- What is done with the line, the header and the socket. -/
inductive Act | takeHeader | freeHeader | freeLine | openSocket | closeSocket
deriving DecidableEq

/-- The stages of `post_http_send_line`, util/tracing/influxdb.h:90-201; `answer` is the result of reading the answer.  When the buffer
cannot be enlarged, `iov_base` is `NULL` already when it is freed. -/
def post (e : Env) (answer : Int) : Int × List Act :=
  if e.malloc = false then (-2, [.freeLine])
  else if e.enlarge = true ∧ e.realloc = false then (-3, [.takeHeader, .freeLine])
  else if e.resolves = false then (-4, [.takeHeader, .freeLine, .freeHeader])
  else if e.socket = false then (-5, [.takeHeader, .freeLine, .freeHeader])
  else if e.connects = false then (-6, [.takeHeader, .openSocket, .closeSocket, .freeHeader, .freeLine])
  else if e.written = false then (-7, [.takeHeader, .openSocket, .closeSocket, .freeHeader, .freeLine])
  else (answer, [.takeHeader, .openSocket, .closeSocket, .freeHeader, .freeLine])

end ReactorC.Http
