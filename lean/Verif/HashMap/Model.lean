import Mathlib.Data.List.Basic

/-!
# The hash map

Models include/core/utils/impl/hashmap.h, a header instantiated with a key type `K`, a value type `V` and a
hash function `HASH_OF`.  The memory of the `capacity + 1` entries is given by the functions `key` and `val`;
accessing an index above `capacity` is out of bounds.  The value of an entry never written is `none`.
-/

namespace ReactorC.HashMap

variable {K V : Type} [DecidableEq K]

/-- `HASHMAP(t)`, include/core/utils/impl/hashmap.h:34-44; `fault` is added for undefined behaviour: a null or
out of bounds access, or a division by zero.  The field `num_entries` is never read and is left out. -/
structure Map (K V : Type) where
  key : Nat → K
  val : Nat → Option V
  cap : Nat
  nothing : K
  fault : Bool

/-- `HASHMAP(new)`, include/core/utils/impl/hashmap.h:101-119. -/
def new (cap : Nat) (nothing : K) : Map K V :=
  { key := fun _ => nothing
    val := fun _ => none
    cap := cap
    nothing := nothing
    fault := false }

/-- The probing loop `while ((address->key != nothing) & (address->key != key)) address++`,
include/core/utils/impl/hashmap.h:86-87 and 90-91, from index `i`; `fuel` is the number of entries from `i` to
the end of the array, and `none` is an access behind the end. -/
def scan (key : Nat → K) (nothing k : K) : Nat → Nat → Option Nat
  | 0, _ => none
  | fuel + 1, i => if key i ≠ nothing ∧ key i ≠ k then scan key nothing k fuel (i + 1) else some i

/-- Result of looking for an entry. -/
inductive Addr
  | slot (i : Nat)
  | null
  | bad
deriving DecidableEq, Repr

/-- `HASHMAP(get_actual_address)` and `HASHMAP(get_ideal_address)`,
include/core/utils/impl/hashmap.h:70-97. -/
def address (hash : K → Nat) (m : Map K V) (k : K) : Addr :=
  if m.cap = 0 then .bad
  else
    match scan m.key m.nothing k (m.cap + 1 - hash k % m.cap) (hash k % m.cap) with
    | none => .bad
    | some a =>
      if a = m.cap then
        match scan m.key m.nothing k (m.cap + 1) 0 with
        | none => .bad
        | some b => if b = m.cap then .null else .slot b
      else .slot a

/-- `HASHMAP(put)`, include/core/utils/impl/hashmap.h:126-131. -/
def put (hash : K → Nat) (m : Map K V) (k : K) (v : V) : Map K V :=
  match address hash m k with
  | .slot i =>
    { m with
      key := fun j => if j = i then k else m.key j
      val := fun j => if j = i then some v else m.val j }
  | _ => { m with fault := true }

/-- `HASHMAP(get)`, include/core/utils/impl/hashmap.h:133-137. -/
def get (hash : K → Nat) (m : Map K V) (k : K) : Map K V × Option V :=
  match address hash m k with
  | .slot i => (m, m.val i)
  | _ => ({ m with fault := true }, none)

inductive Op (K V : Type)
  | put (k : K) (v : V)
  | get (k : K)
deriving Repr, DecidableEq

/-- Runs operations, collecting the results of `get`. -/
def run (hash : K → Nat) (m : Map K V) : List (Op K V) → Map K V × List (Option V)
  | [] => (m, [])
  | .put k v :: os => run hash (put hash m k v) os
  | .get k :: os =>
    let r := get hash m k
    let q := run hash r.1 os
    (q.1, r.2 :: q.2)

end ReactorC.HashMap
