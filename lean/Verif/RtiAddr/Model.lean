import Mathlib.Data.List.Basic

/-! # The address of the RTI on the command line

A federate takes the option `--rti [user]@[host]:[port]` and connects to the RTI it names.  The text is taken apart with
POSIX extended regular expressions (core/federated/network/net_util.c:448-560), checked, and stored by
`lf_parse_rti_addr` (core/federated/federate.c:2279-2311); `lf_connect_to_rti`
(core/federated/federate.c:1893-1912) reads what was stored.

The regular expressions of the source are written as syntax trees (`Re`), and `regexec` is the rule of POSIX: of all
matches the one that begins first and among those the longest.  `regexec` is a function; that it finds exactly what
the rule says is proved in `Verif.RtiAddr.Lemmas`.  A C string is a list of characters. -/

namespace Verif.RtiAddr

/-- A regular expression: a bracket expression or a plain character (`cls`), nothing, juxtaposition, `|`, a group whose
text is remembered under its number, and a repetition `{lo,hi}` (`hi = none` for `*`, `+` and `{lo,}`).  POSIX extended
regular expressions have no other constructs in core/federated/network/net_util.c:484-491 and 523, apart from `^` and
`$`, which are in `Branch`. -/
inductive Re
  | cls (p : Char → Bool)
  | eps
  | seq (a b : Re)
  | alt (a b : Re)
  | grp (k : Nat) (a : Re)
  | rep (a : Re) (lo : Nat) (hi : Option Nat)

/-- What groups remember. -/
abbrev Caps := List (Nat × List Char)

/-- `pow f n t`: what can remain of `t` after `n` consecutive pieces, when `f` says what can remain after one. -/
def pow (f : List Char → List (List Char)) : Nat → List Char → List (List Char)
  | 0, t => [t]
  | n + 1, t => (f t).flatMap (pow f n)

/-- All ways in which the expression matches a beginning of the text: what remains, and what the groups took.
Simplification: a group inside a repetition is not remembered (no such group is read in net_util.c:525-527). -/
def Re.ends : Re → List Char → List (List Char × Caps)
  | .cls _, [] => []
  | .cls p, x :: t => if p x then [(t, [])] else []
  | .eps, t => [(t, [])]
  | .seq a b, t => (a.ends t).flatMap fun q => (b.ends q.1).map fun q' => (q'.1, q.2 ++ q'.2)
  | .alt a b, t => a.ends t ++ b.ends t
  | .grp k a, t => (a.ends t).map fun q => (q.1, (k, t.take (t.length - q.1.length)) :: q.2)
  | .rep a lo hi, t =>
      (List.range' lo (hi.getD (lo + t.length) + 1 - lo)).flatMap fun n =>
        (pow (fun t => (a.ends t).map Prod.fst) n t).map fun r => (r, [])

/-- One alternative at the top of an expression: `^` in front, `$` behind, and the expression between.  In a POSIX
extended regular expression `|` binds weaker than juxtaposition, so in `^A|B$` the anchor `^` belongs to `A` only and
`$` to `B` only. -/
structure Branch where
  bol : Bool
  eol : Bool
  re : Re

/-- An expression as given to `regcomp`. -/
abbrev Pattern := List Branch

/-- The matches that begin where `t` begins; `first` says whether that is the beginning of the whole text. -/
def Pattern.at (p : Pattern) (first : Bool) (t : List Char) : List (List Char × Caps) :=
  p.flatMap fun b =>
    if b.bol && !first then [] else (b.re.ends t).filter fun q => !b.eol || q.1.isEmpty

/-- The longest of some matches: the one after which least remains. -/
def longest : List (List Char × Caps) → Option (List Char × Caps)
  | [] => none
  | q :: l =>
      match longest l with
      | none => some q
      | some q' => if q'.1.length < q.1.length then some q' else some q

/-- The first position at which there is a match, and the longest match there. -/
def Pattern.from (p : Pattern) (first : Bool) : List Char → Option (List Char × Caps)
  | [] => longest (p.at first [])
  | x :: t =>
      match longest (p.at first (x :: t)) with
      | some q => some q
      | none => Pattern.from p false t

/-- `regexec` (POSIX; called in core/federated/network/net_util.c:459 and 544): `none` when there is no match, else the
texts of the groups.  Trusted: that the C library follows POSIX. -/
def regexec (p : Pattern) (s : List Char) : Option Caps := (p.from true s).map Prod.snd

/-! ## The expressions of the source -/

def isLow (c : Char) : Bool := 'a' ≤ c && c ≤ 'z'
def isUp (c : Char) : Bool := 'A' ≤ c && c ≤ 'Z'
def isNum (c : Char) : Bool := '0' ≤ c && c ≤ '9'

/-- `[a-zA-Z0-9_-]` -/
def isUserChar (c : Char) : Bool := isLow c || isUp c || isNum c || c == '_' || c == '-'
/-- `[a-zA-Z0-9._-]` -/
def isHostChar (c : Char) : Bool := isUserChar c || c == '.'
/-- `[a-z0-9]` -/
def isWord (c : Char) : Bool := isLow c || isNum c
/-- `[a-z0-9_-]` -/
def isName (c : Char) : Bool := isLow c || isNum c || c == '_' || c == '-'

/-- A plain character. -/
def Re.chr (c : Char) : Re := .cls (· == c)
/-- `a?`. -/
def Re.opt (a : Re) : Re := .alt a .eps

/-- `(([a-zA-Z0-9_-]{1,254})@)?([a-zA-Z0-9._-]{1,255})(:([0-9]{1,5}))?`
(core/federated/network/net_util.c:523).  Groups 1 and 4, which are not read, are not numbered. -/
def addrPattern : Pattern :=
  [{ bol := false
     eol := false
     re := .seq (.opt (.seq (.grp 2 (.rep (.cls isUserChar) 1 (some 254))) (.chr '@')))
            (.seq (.grp 3 (.rep (.cls isHostChar) 1 (some 255)))
              (.opt (.seq (.chr ':') (.grp 5 (.rep (.cls isNum) 1 (some 5)))))) }]

/-- `(25[0-5]|(2[0-4]|1{0,1}[0-9]){0,1}[0-9])` -/
def octetRe : Re :=
  .alt (.seq (.chr '2') (.seq (.chr '5') (.cls fun c => '0' ≤ c && c ≤ '5')))
    (.seq (.rep (.alt (.seq (.chr '2') (.cls fun c => '0' ≤ c && c ≤ '4'))
                      (.seq (.rep (.chr '1') 0 (some 1)) (.cls isNum))) 0 (some 1))
      (.cls isNum))

/-- `((25[0-5]|(2[0-4]|1{0,1}[0-9]){0,1}[0-9])\.){3,3}(25[0-5]|(2[0-4]|1{0,1}[0-9]){0,1}[0-9])`
(core/federated/network/net_util.c:484). -/
def ipv4Pattern : Pattern :=
  [{ bol := false
     eol := false
     re := .seq (.rep (.seq octetRe (.chr '.')) 3 (some 3)) octetRe }]

/-- `[a-z0-9]+(-[a-z0-9]+)*` -/
def labelRe : Re :=
  .seq (.rep (.cls isWord) 1 none) (.rep (.seq (.chr '-') (.rep (.cls isWord) 1 none)) 0 none)

/-- `^([a-z0-9]+(-[a-z0-9]+)*)|(([a-z0-9]+(-[a-z0-9]+)*\.)+[a-z]{2,})$`
(core/federated/network/net_util.c:485). -/
def hostPattern : Pattern :=
  [{ bol := true
     eol := false
     re := labelRe },
   { bol := false
     eol := true
     re := .seq (.rep (.seq labelRe (.chr '.')) 1 none) (.rep (.cls isLow) 2 none) }]

/-- `^[a-z_]([a-z0-9_-]{0,31}|[a-z0-9_-]{0,30}\$)$` (core/federated/network/net_util.c:491). -/
def userPattern : Pattern :=
  [{ bol := true
     eol := true
     re := .seq (.cls fun c => isLow c || c == '_')
            (.alt (.rep (.cls isName) 0 (some 31)) (.seq (.rep (.cls isName) 0 (some 30)) (.chr '$'))) }]

/-! ## The checks -/

/-- `match_regex` (core/federated/network/net_util.c:448-464). -/
def matchRegex (p : Pattern) (s : List Char) : Bool := (regexec p s).isSome

/-- `atoi` of digits. -/
def atoi (s : List Char) : Nat := s.foldl (fun n c => 10 * n + (c.toNat - '0'.toNat)) 0

/-- `validate_port` (core/federated/network/net_util.c:466-480). -/
def validatePort (s : List Char) : Bool :=
  let n := min s.length 6
  if n < 1 || n > 5 then false
  else if !s.all isNum then false
  else atoi s ≤ 65535

/-- `validate_host` (core/federated/network/net_util.c:482-487). -/
def validateHost (s : List Char) : Bool := matchRegex ipv4Pattern s || matchRegex hostPattern s

/-- `validate_user` (core/federated/network/net_util.c:489-493). -/
def validateUser (s : List Char) : Bool := matchRegex userPattern s

/-- `rti_addr_info_t` (include/core/federated/network/net_util.h:331-338): a missing field has its flag `has_…` off. -/
structure Info where
  user : Option (List Char) := none
  host : Option (List Char) := none
  port : Option (List Char) := none
  deriving DecidableEq

/-- `extract_match_group` (core/federated/network/net_util.c:495-505): a group that took no part in the match is left
out, one of a bad size makes the whole extraction fail (outer `none`). -/
def extractGroup (c : Caps) (k maxLen : Nat) : Option (Option (List Char)) :=
  match c.lookup k with
  | none => some none
  | some w => if w.length > maxLen || w.length < 1 then none else some (some w)

/-- `extract_match_groups` and `extract_rti_addr_info` (core/federated/network/net_util.c:507-560): after a failure all
fields are cleared (`memset`). -/
def extractInfo (s : List Char) : Info :=
  match regexec addrPattern s with
  | none => {}
  | some c =>
      match extractGroup c 2 255, extractGroup c 3 255, extractGroup c 5 5 with
      | some u, some h, some p => { user := u, host := h, port := p }
      | _, _, _ => {}

/-- `federation_metadata` (include/core/federated/federate.h:196-201; initial values in core/federated/federate.c:94-95).
A port of −1 means that none was given. -/
structure Meta where
  host : Option (List Char) := none
  port : Int := -1
  user : Option (List Char) := none
  deriving DecidableEq

/-- `parse_rti_code_t` (include/core/federated/federate.h:203). -/
inductive Code
  | success | invalidPort | invalidHost | invalidUser | failedToParse
  deriving DecidableEq

/-- The part of `lf_parse_rti_addr` after the port (core/federated/federate.c:2301-2309). -/
def parseUser (i : Info) (m : Meta) : Code × Meta :=
  match i.user with
  | none => (.success, m)
  | some u => if validateUser u then (.success, { m with user := some u }) else (.invalidUser, m)

/-- The part of `lf_parse_rti_addr` after the host (core/federated/federate.c:2294-2310). -/
def parsePort (i : Info) (m : Meta) : Code × Meta :=
  match i.port with
  | none => parseUser i m
  | some p => if validatePort p then parseUser i { m with port := atoi p } else (.invalidPort, m)

/-- `lf_parse_rti_addr` (core/federated/federate.c:2279-2311).  When the result is not `success` the program prints an
error and its usage and does not start (core/reactor_common.c:1017-1038). -/
def parseRtiAddr (m : Meta) (s : List Char) : Code × Meta :=
  let i := extractInfo s
  if i.host.isNone && i.port.isNone && i.user.isNone then (.failedToParse, m)
  else
    match i.host with
    | none => parsePort i m
    | some h => if validateHost h then parsePort i { m with host := some h } else (.invalidHost, m)

/-- `DEFAULT_PORT` (include/core/federated/network/net_common.h:248). -/
def defaultPort : Nat := 15045

/-- What `lf_connect_to_rti` does first (core/federated/federate.c:1893-1912): the host and the port it tries first;
`hostname` and `port` are those compiled into the program. -/
def connectTo (m : Meta) (hostname : List Char) (port : Int) : List Char × Nat :=
  let h := m.host.getD hostname
  let p := if m.port ≥ 0 then m.port else port
  let uport := if p < 0 ∨ p > 32767 then defaultPort else p.toNat
  (h, if uport = 0 then defaultPort else uport)

end Verif.RtiAddr
