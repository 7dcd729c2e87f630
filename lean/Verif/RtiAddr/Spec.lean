import Verif.RtiAddr.Model

/-! # What an address is

`[user@]host[:port]`, with the characters and lengths the source allows. -/

namespace Verif.RtiAddr

/-- The parts of an address. -/
structure Addr where
  user : Option (List Char)
  host : List Char
  port : Option (List Char)
  deriving DecidableEq

/-- `user@`, or nothing. -/
def userPart : Option (List Char) → List Char
  | none => []
  | some u => u ++ ['@']

/-- `:port`, or nothing. -/
def portPart : Option (List Char) → List Char
  | none => []
  | some p => ':' :: p

/-- The text of an address: `user@host:port`, where `user@` and `:port` may be missing. -/
def Addr.text (a : Addr) : List Char := userPart a.user ++ a.host ++ portPart a.port

/-- The characters and lengths of the parts are possible ones. -/
structure Addr.Lexical (a : Addr) : Prop where
  user : ∀ u, a.user = some u → 1 ≤ u.length ∧ u.length ≤ 254 ∧ ∀ x ∈ u, isUserChar x = true
  host : 1 ≤ a.host.length ∧ a.host.length ≤ 255 ∧ ∀ x ∈ a.host, isHostChar x = true
  port : ∀ p, a.port = some p → 1 ≤ p.length ∧ p.length ≤ 5 ∧ ∀ x ∈ p, isNum x = true

/-- An address as the manual of the command line asks for it: a login name of up to 32 characters, a host name or number
that begins with a letter or a digit, and a port number. -/
structure Addr.WellFormed (a : Addr) : Prop where
  user : ∀ u, a.user = some u →
    ∃ x n, u = x :: n ∧ (isLow x = true ∨ x = '_') ∧ (∀ y ∈ n, isName y = true) ∧ n.length ≤ 31
  host : ∃ x n, a.host = x :: n ∧ isWord x = true ∧ (∀ y ∈ n, isHostChar y = true) ∧ n.length ≤ 254
  port : ∀ p, a.port = some p → 1 ≤ p.length ∧ p.length ≤ 5 ∧ (∀ x ∈ p, isNum x = true) ∧ atoi p ≤ 65535

/-- The characters that can occur in an address. -/
def isAddrChar (c : Char) : Bool := isHostChar c || c == '@' || c == ':'

end Verif.RtiAddr
