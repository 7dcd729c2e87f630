import Mathlib.Tactic.Common

/-! # Model for C54: printing times -/

namespace ReactorC.Print

/-- The character buffer: its contents up to the terminating zero, as a list. -/
abbrev Text := List Char

/-- `snprintf(buffer + pos, size, ...)` of the text `str`: writes at most `size - 1` characters at position `pos` and
ends the string there. -/
def snprintf (text : Text) (pos size : Nat) (str : Text) : Text := text.take pos ++ str.take (size - 1)

/-- The conversion `%lld` of a non-negative number. -/
def lld (n : Nat) : Text := Nat.toDigits 10 n

/-- The conversion `%03lld` of a non-negative number. -/
def lld03 (n : Nat) : Text := List.replicate (3 - (lld n).length) '0' ++ lld n

/-- The loop `while (time > 0) { clauses[count++] = time; time = time / 1000; }`, core/tag.c:244-247: the contents of
the array. -/
def clauses (time : Nat) : List Nat :=
  if time = 0 then [] else time :: clauses (time / 1000)
termination_by time
decreasing_by omega

/-- The loop of core/tag.c:262-267.  Arguments: the clauses still to print, the text, the position, the result. -/
def printRest : List Nat → Text → Nat → Nat → Text × Nat
  | [], text, _, result => (text, result)
  | c :: cs, text, pos, result => printRest cs (snprintf text pos 8 (',' :: lld03 (c % 1000))) (pos + 4) (result + 4)

/-- `lf_comma_separated_time`, core/tag.c:228-269, writing at position `pos`.  Yields the text and the number
returned; `none` when the array is overrun or read at index -1. -/
def lf_comma_separated_time (text : Text) (pos : Nat) (time : Int) : Option (Text × Nat) :=
  if time = 0 then some (snprintf text pos 2 ['0'], 1)
  else if time < 0 then
    -- a minus sign is printed, the loop is not entered, and `clauses[-1]` is read
    none
  else if 7 < (clauses time.toNat).length then none
  else
    match (clauses time.toNat).reverse with
    | [] => none
    | top :: rest =>
      let toPrint := top % 1000
      let text := snprintf text pos 5 (lld toPrint)
      let n := if toPrint ≥ 100 then 3 else if toPrint ≥ 10 then 2 else 1
      some (printRest rest text (pos + n) n)

/-- The local variables of `lf_readable_time`. -/
structure Local where
  text : Text
  /-- `buffer - original_buffer` -/
  pos : Nat
  time : Int
  lead : Bool

/-- `if (lead == true) { snprintf(buffer, 3, ", "); buffer += 2; }`, core/tag.c:161-164 and the like. -/
def separator (s : Local) : Local :=
  if s.lead then { s with text := snprintf s.text s.pos 3 [',', ' '], pos := s.pos + 2 } else s

/-- Prints a number at the current position and moves it, and then a label: core/tag.c:154-158 and the like. -/
def piece (s : Local) (n : Int) (rest : Int) (size : Nat) (label : Text) (adv : Nat) : Option Local :=
  (lf_comma_separated_time s.text s.pos n).map fun r =>
    { s with
      text := snprintf r.1 (s.pos + r.2) size label
      pos := s.pos + r.2 + adv
      time := rest
      lead := true }

/-- One of the five blocks for a unit, core/tag.c:152-207.  The block for weeks does not print a separator, but
`lead` is false there. -/
def block (s : Local) (unit : Int) (size : Nat) (label : Text) (adv : Nat) : Option Local :=
  if s.time > unit then piece (separator s) (s.time.tdiv unit) (s.time.tmod unit) size label adv else some s

/-- The last block, core/tag.c:208-224. -/
def lastBlock (s : Local) : Option Local :=
  if s.time > 0 then
    if s.time.tmod 1000000 = 0 then piece (separator s) (s.time.tdiv 1000000) 0 4 [' ', 'm', 's'] 3
    else if s.time.tmod 1000 = 0 then piece (separator s) (s.time.tdiv 1000) 0 4 [' ', 'u', 's'] 3
    else piece (separator s) s.time 0 4 [' ', 'n', 's'] 3
  else some s

/-- `lf_readable_time`, core/tag.c:145-226.  Units: WEEKS, DAYS, HOURS, MINUTES, SECONDS of tag/api/tag.h:23-31. -/
def lf_readable_time (time : Int) : Option (Text × Nat) :=
  if time ≤ 0 then some (snprintf [] 0 2 ['0'], 1)
  else
    (block { text := [], pos := 0, time := time, lead := false } 604800000000000 7 [' ', 'w', 'e', 'e', 'k', 's'] 6).bind fun s =>
    (block s 86400000000000 3 [' ', 'd'] 2).bind fun s =>
    (block s 3600000000000 3 [' ', 'h'] 2).bind fun s =>
    (block s 60000000000 5 [' ', 'm', 'i', 'n'] 4).bind fun s =>
    (block s 1000000000 3 [' ', 's'] 2).bind fun s =>
    (lastBlock s).map fun s => (s.text, s.pos)

/-! ## Specification -/

/-- The units of time a user reads, with their length in nanoseconds. -/
inductive TimeUnit
  | weeks | d | h | min | s | ms | us | ns
deriving DecidableEq, Repr

def TimeUnit.nanoseconds : TimeUnit → Int
  | .weeks => 7 * 24 * 3600 * 1000000000
  | .d => 24 * 3600 * 1000000000
  | .h => 3600 * 1000000000
  | .min => 60 * 1000000000
  | .s => 1000000000
  | .ms => 1000000
  | .us => 1000
  | .ns => 1

def TimeUnit.name : TimeUnit → Text
  | .weeks => ['w', 'e', 'e', 'k', 's']
  | .d => ['d']
  | .h => ['h']
  | .min => ['m', 'i', 'n']
  | .s => ['s']
  | .ms => ['m', 's']
  | .us => ['u', 's']
  | .ns => ['n', 's']

/-- `text` shows the number `n` in decimal with a comma before each group of three digits, counted from the right:
without its commas it is the decimal representation, and the commas are exactly at the places 3, 7, 11, ... from
the right. -/
def Shows (text : Text) (n : Nat) : Prop :=
  text.filter (· ≠ ',') = Nat.toDigits 10 n ∧
    ∀ i (h : i < text.length), text.reverse[i]'(by simpa using h) = ',' ↔ i % 4 = 3

/-- `text` shows the components `l`: number, blank, unit, separated by a comma and a blank. -/
inductive ShowsAll : Text → List (Nat × TimeUnit) → Prop
  | one (t : Text) (n : Nat) (u : TimeUnit) : Shows t n → ShowsAll (t ++ ' ' :: u.name) [(n, u)]
  | more (s t : Text) (l : List (Nat × TimeUnit)) (n : Nat) (u : TimeUnit) : ShowsAll s l → Shows t n →
      ShowsAll (s ++ [',', ' '] ++ (t ++ ' ' :: u.name)) (l ++ [(n, u)])

/-- What the components add up to. -/
def total (l : List (Nat × TimeUnit)) : Int := (l.map fun c => (c.1 : Int) * c.2.nanoseconds).sum

end ReactorC.Print
