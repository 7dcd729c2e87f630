import Verif.Http.Model

/-!
# Answers of a server, and how a server reads a request
-/

namespace ReactorC.Http

/-- The bytes that come in before an error or the end. -/
def flow : List Event → Text
  | .data c t :: r => c :: t ++ flow r
  | _ => []

/-- An answer up to the empty line: the version, the digits of the status, the rest of the first line, and the headers. -/
structure Answer where
  version : Text
  status : Text
  reason : Text
  headers : List Text

/-- The bytes of an answer up to the empty line. -/
def Answer.text (a : Answer) : Text :=
  a.version ++ ' ' :: (a.status ++ (a.reason ++ "\r\n".toList ++ (a.headers.flatMap (fun h => h ++ "\r\n".toList) ++ "\r\n".toList)))

/-- The number that digits stand for. -/
def value (t : Text) : Nat := t.foldl (fun n c => 10 * n + (c.toNat - 48)) 0

/-- A header with the length of the body. -/
def announces (h : Text) : Prop := "Content-Length: ".toList <+: h

instance (h : Text) : Decidable (announces h) := inferInstanceAs (Decidable (_ <+: h))

/-- The length that such a header gives. -/
def announced (h : Text) : Nat := value ((h.drop 16).takeWhile Char.isDigit)

/-- Answers: lines have no line breaks and no zeros; headers are not empty; numbers fit into an `int`; at most one header gives the
length of the body. -/
structure Answer.Good (a : Answer) : Prop where
  version : ∀ c ∈ a.version, c ≠ ' ' ∧ c ≠ nul
  status : ∀ c ∈ a.status, c.isDigit = true
  small : value a.status ≤ 2147483647
  reason : ∀ c ∈ a.reason, c ≠ '\n' ∧ c ≠ nul
  space : ∀ c, a.reason.head? = some c → c = ' '
  lines : ∀ h ∈ a.headers, h ≠ [] ∧ ∀ c ∈ h, c ≠ '\n' ∧ c ≠ nul
  length : ∀ h ∈ a.headers, announces h → announced h ≤ 2147483647
  once : (a.headers.filter (fun h => decide (announces h))).length ≤ 1

/-- The length of the body: what the header says that gives it, or 0. -/
def Answer.length (a : Answer) : Nat := ((a.headers.find? (fun h => decide (announces h))).map announced).getD 0

/-- The call returns `r`, when `inc` comes in. -/
def Returns (cap : Nat) (inc : List Event) (r : Int) : Prop := ∃ n, (run n start (opened cap inc)).1.ctl = .done r

/-- The end of the headers: an empty line. -/
def blank : Text := "\n\r\n".toList

/-- The text without `s` at its beginning. -/
def lit (s : String) (t : Text) : Option Text := if s.toList <+: t then some (t.drop s.toList.length) else none

/-- The text before `c`, and the text from it on. -/
def upTo (c : Char) (t : Text) : Text × Text := (t.takeWhile (· ≠ c), t.dropWhile (· ≠ c))

/-- What a server reads. -/
structure Request where
  db : Text
  usr : Text
  pwd : Text
  host : Text
  token : Text
  body : Text
deriving DecidableEq

/-- Reading a request: the query, the headers, and as many bytes as the header says. -/
def readRequest (t : Text) : Option Request := do
  let t ← lit "POST /write?db=" t
  let (db, t) := upTo '&' t
  let t ← lit "&u=" t
  let (usr, t) := upTo '&' t
  let t ← lit "&p=" t
  let (pwd, t) := upTo ' ' t
  let t ← lit " HTTP/1.1\r\nHost: " t
  let (host, t) := upTo '\r' t
  let t ← lit "\r\nAccept: application/json\r\nContent-type: text/plain\r\nAuthorization: Token " t
  let (token, t) := upTo '\r' t
  let t ← lit "\r\nContent-Length: " t
  let (digits, t) := upTo '\r' t
  let t ← lit "\r\n\r\n" t
  if t.length = value digits then some ⟨db, usr, pwd, host, token, t⟩ else none

end ReactorC.Http
