import Mathlib.Data.List.Basic

/-!
# The hash set

Models core/utils/hashset/hashset.c and hashset_itr.c: open addressing with step 5009 in a table whose size is
a power of two, with 0 for an empty slot and 1 for a deleted item.  Items are pointers, here natural numbers;
since `mask` is the table size minus one, `mask & x` is `x % capacity`, also for products that wrap modulo
2^64.  Loops take fuel; when the fuel, the table size, is exhausted the loop would go around for ever, which
sets `hang`.  Not modelled: allocation failure and the undefined `1 << nbits` for `nbits > 30`.
-/

namespace ReactorC.HashSet

/-- `struct hashset_st`, include/core/utils/hashset/hashset.h:30-38. -/
structure Set where
  nbits : Nat
  items : Nat → Nat
  nitems : Nat
  ndeleted : Nat
  hang : Bool

def Set.cap (s : Set) : Nat := 2 ^ s.nbits

/-- `hashset_create`, core/utils/hashset/hashset.c:29-46. -/
def create (nbits : Nat) : Set :=
  { nbits := nbits
    items := fun _ => 0
    nitems := 0
    ndeleted := 0
    hang := false }

/-- Outcome of probing. -/
inductive Probe
  | found (slot : Nat)
  | empty (slot : Nat) (available : Option Nat)
  | loops
deriving DecidableEq, Repr

/-- `mask & (prime_1 * item)`, core/utils/hashset/hashset.c:66. -/
def start (cap item : Nat) : Nat := (73 * item) % cap

/-- `mask & (ii + prime_2)`, core/utils/hashset/hashset.c:82. -/
def next (cap ii : Nat) : Nat := (ii + 5009) % cap

/-- The probing loop, core/utils/hashset/hashset.c:72-84, 126-135 and 142-148 (the last two do not use
`available`). -/
def probe (items : Nat → Nat) (cap item : Nat) : Nat → Nat → Option Nat → Probe
  | 0, _, _ => .loops
  | fuel + 1, ii, av =>
    if items ii ≠ 0 then
      if items ii = item then .found ii
      else probe items cap item fuel (next cap ii) (if items ii = 1 ∧ av = none then some ii else av)
    else .empty ii av

def upd (f : Nat → Nat) (i v : Nat) : Nat → Nat := fun j => if j = i then v else f j

/-- `hashset_add_member`, core/utils/hashset/hashset.c:60-94. -/
def addMember (s : Set) (item : Nat) : Set × Int :=
  if item = 0 ∨ item = 1 then (s, -1)
  else
    match probe s.items s.cap item s.cap (start s.cap item) none with
    | .loops => ({ s with hang := true }, 0)
    | .found _ => (s, 0)
    | .empty _ (some a) =>
      ({ s with
          items := upd s.items a item
          nitems := s.nitems + 1
          ndeleted := s.ndeleted - 1 }, 1)
    | .empty ii none =>
      ({ s with
          items := upd s.items ii item
          nitems := s.nitems + 1 }, 1)

/-- The load test of `maybe_rehash`, core/utils/hashset/hashset.c:100.  The float `0.85f` is 14260634 / 2^24,
and its product with a power of two is exact.  The conversion of the sum to float is exact below 2^24; the
rounding above is not modelled. -/
def overloaded (s : Set) : Prop := 14260634 * s.cap ≤ 16777216 * (s.nitems + s.ndeleted)

instance (s : Set) : Decidable (overloaded s) := inferInstanceAs (Decidable (_ ≤ _))

/-- The new table of `maybe_rehash`, core/utils/hashset/hashset.c:103-108. -/
def bigger (s : Set) : Set :=
  { s with
    nbits := s.nbits + 1
    items := fun _ => 0
    nitems := 0
    ndeleted := 0 }

/-- The loop re-adding the old items, core/utils/hashset/hashset.c:110-112. -/
def readd (old : Nat → Nat) (s : Set) : List Nat → Set
  | [] => s
  | i :: is => readd old (addMember s (old i)).1 is

/-- `maybe_rehash`, core/utils/hashset/hashset.c:96-115. -/
def maybeRehash (s : Set) : Set :=
  if overloaded s then readd s.items (bigger s) (List.range s.cap) else s

/-- `hashset_add`, core/utils/hashset/hashset.c:117-121. -/
def add (s : Set) (item : Nat) : Set × Int :=
  let r := addMember s item
  (maybeRehash r.1, r.2)

/-- `hashset_remove`, core/utils/hashset/hashset.c:123-137. -/
def remove (s : Set) (item : Nat) : Set × Int :=
  match probe s.items s.cap item s.cap (start s.cap item) none with
  | .loops => ({ s with hang := true }, 0)
  | .found ii =>
    ({ s with
        items := upd s.items ii 1
        nitems := s.nitems - 1
        ndeleted := s.ndeleted + 1 }, 1)
  | .empty _ _ => (s, 0)

/-- `hashset_is_member`, core/utils/hashset/hashset.c:139-150. -/
def isMember (s : Set) (item : Nat) : Set × Int :=
  match probe s.items s.cap item s.cap (start s.cap item) none with
  | .loops => ({ s with hang := true }, 0)
  | .found _ => (s, 1)
  | .empty _ _ => (s, 0)

/-- The search loops of the iterator, core/utils/hashset/hashset_itr.c:46-50 and 66-73: the first index from
`i` holding an item, among the `fuel` last slots. -/
def seek (items : Nat → Nat) : Nat → Nat → Option Nat
  | 0, _ => none
  | fuel + 1, i => if items i ≠ 0 ∧ items i ≠ 1 then some i else seek items fuel (i + 1)

/-- `hashset_iterator_has_next`, core/utils/hashset/hashset_itr.c:37-54; `index` is the field `index` plus
one. -/
def hasNext (s : Set) (index : Nat) : Bool :=
  if s.nitems = 0 ∨ index = s.cap then false else (seek s.items (s.cap - index) index).isSome

/-- `hashset_iterator_next`, core/utils/hashset/hashset_itr.c:56-76; `none` is -1. -/
def itNext (s : Set) (index : Nat) : Option Nat :=
  if s.nitems = 0 ∨ index = s.cap then none else seek s.items (s.cap - index) index

/-- The loop `while (hashset_iterator_has_next(it)) { hashset_iterator_next(it); ... hashset_iterator_value(it) }`
of a user; value: core/utils/hashset/hashset_itr.c:78-84.  Fuel: at most one step per slot. -/
def iterate (s : Set) : Nat → Nat → List Nat
  | 0, _ => []
  | fuel + 1, index =>
    if hasNext s index then
      match itNext s index with
      | some i => s.items i :: iterate s fuel (i + 1)
      | none => []
    else []

inductive Op
  | add (x : Nat) | remove (x : Nat) | isMember (x : Nat) | numItems
deriving Repr, DecidableEq

def exec (s : Set) : Op → Set × Int
  | .add x => add s x
  | .remove x => remove s x
  | .isMember x => isMember s x
  | .numItems => (s, s.nitems)

def run (s : Set) : List Op → Set × List Int
  | [] => (s, [])
  | o :: os =>
    let r := exec s o
    let q := run r.1 os
    (q.1, r.2 :: q.2)

end ReactorC.HashSet
