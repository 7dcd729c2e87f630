import Mathlib.Data.List.Basic

/-!
# Ports in Python reactions

Models python/lib/python_port.c, `convert_C_port_to_py` and the reference counts of `py_schedule`
(python/lib/pythontarget.c).  A reaction in Python gets an object for each port, here called capsule
(`generic_port_capsule_struct`); it reads `port.value` and `port.is_present`, calls `port.set(value)`,
and indexes or iterates over multiports.

Reference counts are explicit: an object whose count has become 0 is freed, and `fault` becomes true when a
freed object is used.  `None` is `none`; its reference count is not modelled (it is never freed).

Simplified: a token of a port is made by `py_port_set` only and referred to by its port only, so releasing it is
calling its destructor `python_count_decrement`; allocation does not fail; one thread (the reactions hold the
global interpreter lock).
-/

namespace ReactorC.Python

/-- What happened; not in the code, for the statements only. -/
inductive Ev
  /-- the port was set to a value -/
  | set (p : Nat) (v : Option Nat)
  /-- a new tag began -/
  | tag
deriving DecidableEq, Repr

/-- What a capsule stands for: a port (`width` is -2) or the channels of a multiport, python_port.c:117-121. -/
inductive Target
  | single (p : Nat)
  | multi (chans : List Nat)
deriving DecidableEq, Repr

/-- `generic_port_capsule_struct`, python/include/python_port.h:76-83. -/
structure Capsule where
  /-- reference count of the capsule -/
  rc : Nat
  target : Target
  value : Option Nat
  present : Bool
  /-- `current_index` -/
  index : Nat
  /-- not in the code: whether it was made by `convert_C_port_to_py`, as an argument of a reaction -/
  isArg : Bool
  /-- not in the code: how often the port had been set when `value` was stored -/
  seen : Nat
deriving DecidableEq, Repr

/-- The fields of `generic_port_instance_struct` that are used here, python/include/python_port.h:57-67; the value of
the token is `value`. -/
structure CPort where
  value : Option Nat
  present : Bool
deriving DecidableEq, Repr

structure State where
  /-- number of ports of the program -/
  n : Nat
  port : Nat → CPort
  /-- reference counts of the values -/
  rc : Nat → Nat
  /-- first value never made -/
  nObj : Nat
  cap : Nat → Capsule
  /-- first capsule never made -/
  nCap : Nat
  /-- the references to values that the program has (variables, lists, ...) -/
  held : Nat → Nat
  /-- the references to capsules that the program and the code that calls its reactions have -/
  heldCap : Nat → Nat
  /-- not in the code: how often a value was scheduled -/
  scheduled : Nat → Nat
  /-- not in the code: what happened, the latest first -/
  log : List Ev
  fault : Bool

/-- Function update. -/
def upd {α : Type} (f : Nat → α) (i : Nat) (x : α) : Nat → α := fun j => if j = i then x else f j

/-- How often a port was set. -/
def setCount (l : List Ev) (p : Nat) : Nat :=
  (l.filter fun e => match e with
    | .set q _ => q = p
    | .tag => false).length

/-- `Py_INCREF`: a use of the object. -/
def incref (s : State) : Option Nat → State
  | none => s
  | some v => { s with rc := upd s.rc v (s.rc v + 1), fault := s.fault || decide (s.rc v = 0) }

/-- `Py_XDECREF`: a use of the object; it is freed when the count becomes 0. -/
def decref (s : State) : Option Nat → State
  | none => s
  | some v => { s with rc := upd s.rc v (s.rc v - 1), fault := s.fault || decide (s.rc v = 0) }

/-- A new capsule. -/
def addCap (s : State) (c : Capsule) (held : Nat) : State :=
  { s with cap := upd s.cap s.nCap c, nCap := s.nCap + 1, heldCap := upd s.heldCap s.nCap held }

/-- `convert_C_port_to_py`, python/lib/pythontarget.c:431-474: the value is not `INCREF`ed. -/
def convert (s : State) : Target → State
  | .single p =>
    addCap s ⟨1, .single p, (s.port p).value, (s.port p).present, 0, true, setCount s.log p⟩ 1
  | .multi chans => addCap s ⟨1, .multi chans, none, false, 0, true, 0⟩ 1

/-- The new capsule for a channel of a multiport, python_port.c:205-224 and 266-285: `tp_new` returns it with one reference,
and `Py_XINCREF(pyport)` adds one; the value is not `INCREF`ed. -/
def item (s : State) (p : Nat) : State :=
  addCap s ⟨2, .single p, (s.port p).value, (s.port p).present, 0, false, setCount s.log p⟩ 1

/-- What a call returns to the program. -/
inductive Res
  | nothing
  /-- a value; `none` is `None` -/
  | value (v : Option Nat)
  | capsule (c : Nat)
  | bool (b : Bool)
  /-- an exception -/
  | raises
  /-- `NULL` without an exception: the iteration ends -/
  | stop
deriving DecidableEq, Repr

/-- A capsule that nobody has made: where `tp_new` leaves what it returns, python_port.c:139-151. -/
def emptyCapsule : Capsule := ⟨1, .multi [], none, false, 0, false, 0⟩

/-- `PyLong_AsLong`: -1 when the integer does not fit (an exception is set, which the caller ignores), python_port.c:248. -/
def asLong (k : Int) : Int := if -(2 ^ 63) ≤ k ∧ k < 2 ^ 63 then k else -1

/-- `py_port_capsule_get_item`, python_port.c:230-289; the key is an integer or not (`none`).  A port that is not a multiport
returns itself, without `INCREF`; the caller of the function gets one reference. -/
def getItem (s : State) (c : Nat) (key : Option Int) : State × Res :=
  match (s.cap c).target with
  | .single _ => ({ s with heldCap := upd s.heldCap c (s.heldCap c + 1) }, .capsule c)
  | .multi chans =>
    match key with
    | none => (s, .raises)
    | some k =>
      if asLong k = -3 then (addCap s emptyCapsule 0, .raises)
      else if 0 ≤ asLong k then
        match chans[(asLong k).toNat]? with
        | some p => (item s p, .capsule s.nCap)
        | none => ({ s with fault := true }, .nothing)
      else ({ s with fault := true }, .nothing)

/-- `py_port_iter`, python_port.c:163-168. -/
def iter (s : State) (c : Nat) : State × Res :=
  ({ s with
      cap := upd s.cap c { s.cap c with index := 0, rc := (s.cap c).rc + 1 }
      heldCap := upd s.heldCap c (s.heldCap c + 1) }, .capsule c)

/-- `py_port_iter_next`, python_port.c:177-215; the capsule made in the first line is never released if none is
returned. -/
def iterNext (s : State) (c : Nat) : State × Res :=
  match (s.cap c).target with
  | .single _ => (addCap s emptyCapsule 0, .raises)
  | .multi [] => (addCap s emptyCapsule 0, .raises)
  | .multi (q :: qs) =>
    match (q :: qs)[(s.cap c).index]? with
    | none => ({ addCap s emptyCapsule 0 with
                  cap := upd (addCap s emptyCapsule 0).cap c { s.cap c with index := 0 } }, .stop)
    | some p => ({ item s p with
                    cap := upd (item s p).cap c { s.cap c with index := (s.cap c).index + 1 } }, .capsule s.nCap)

/-- `lf_set_token` with a new token, include/api/reaction_macros.h:127-133, lf_token.c:337-363: the previous token is released,
its destructor decrements the count of its value. -/
def setToken (s : State) (p : Nat) (v : Option Nat) : State :=
  let s' := decref s (s.port p).value
  { s' with port := upd s'.port p ⟨v, true⟩, log := .set p v :: s'.log }

/-- `py_port_set`, python_port.c:80-112.  The argument of a multiport would be taken for a port: a fault. -/
def set (s : State) (c : Nat) (v : Option Nat) : State × Res :=
  match (s.cap c).target with
  | .multi _ => ({ s with fault := true }, .nothing)
  | .single p =>
    let s' := incref (setToken s p v) v
    ({ s' with
        cap := upd s'.cap c { s'.cap c with value := v, present := true, seen := setCount s'.log p } }, .nothing)

/-- Reading `port.value`, python_port.c:345: `T_OBJECT` members are returned with a new reference. -/
def read (s : State) (c : Nat) : State × Res :=
  let v := (s.cap c).value
  let s' := incref s v
  (match v with
    | none => s'
    | some x => { s' with held := upd s'.held x (s'.held x + 1) }, .value v)

/-- The program gives up a reference to a capsule; `py_port_capsule_dealloc`, python_port.c:119-123, releases the value
with the last one. -/
def dropCap (s : State) (c : Nat) : State × Res :=
  let s' := { s with
    heldCap := upd s.heldCap c (s.heldCap c - 1)
    cap := upd s.cap c { s.cap c with rc := (s.cap c).rc - 1 } }
  (if (s.cap c).rc = 1 then decref s' (s.cap c).value else s', .nothing)

/-- What happens in a Python program. -/
inductive Op
  /-- the program makes an object -/
  | new
  /-- the program copies a reference (an assignment) -/
  | dup (v : Nat)
  /-- the program gives up a reference (`del`, the end of a function) -/
  | drop (v : Nat)
  /-- a reaction with the port among its arguments is called -/
  | convert (t : Target)
  /-- `port[key]` -/
  | getItem (c : Nat) (key : Option Int)
  /-- `iter(port)` -/
  | iter (c : Nat)
  /-- `next(port)` -/
  | iterNext (c : Nat)
  /-- `port.set(value)` -/
  | set (c : Nat) (v : Option Nat)
  /-- `port.value` -/
  | read (c : Nat)
  /-- `port.is_present` -/
  | isPresent (c : Nat)
  /-- a reference to a port object is given up -/
  | dropCap (c : Nat)
  /-- `action.schedule(offset, value)` -/
  | schedule (v : Nat)
  /-- the next tag begins: all ports are absent, reactor_common.c:228-253 -/
  | newTag
deriving Repr

def exec (s : State) : Op → State × Res
  | .new => ({ s with rc := upd s.rc s.nObj 1, held := upd s.held s.nObj 1, nObj := s.nObj + 1 }, .value (some s.nObj))
  | .dup v => ({ incref s (some v) with held := upd s.held v (s.held v + 1) }, .nothing)
  | .drop v => ({ decref s (some v) with held := upd s.held v (s.held v - 1) }, .nothing)
  | .convert t => (convert s t, .capsule s.nCap)
  | .getItem c k => getItem s c k
  | .iter c => iter s c
  | .iterNext c => iterNext s c
  | .set c v => set s c v
  | .read c => read s c
  | .isPresent c => (s, .bool (s.cap c).present)
  | .dropCap c => dropCap s c
  -- `py_schedule`, pythontarget.c:96-106: one `Py_INCREF`; no destructor is set for the token, and the field of the
  -- capsule is overwritten
  | .schedule v => ({ incref s (some v) with scheduled := upd s.scheduled v (s.scheduled v + 1) }, .nothing)
  | .newTag => ({ s with port := fun p => { s.port p with present := false }, log := .tag :: s.log }, .nothing)

def run (s : State) (ops : List Op) : State := ops.foldl (fun s o => (exec s o).1) s

/-- The state before the first reaction. -/
def start (n : Nat) : State where
  n := n
  port := fun _ => ⟨none, false⟩
  rc := fun _ => 0
  nObj := 0
  cap := fun _ => emptyCapsule
  nCap := 0
  held := fun _ => 0
  heldCap := fun _ => 0
  scheduled := fun _ => 0
  log := []
  fault := false

/-! ## Discipline -/

/-- The target is made of ports of the program; the width of a multiport is an `int`. -/
def Target.inRange (n : Nat) : Target → Prop
  | .single p => p < n
  | .multi chans => (∀ p ∈ chans, p < n) ∧ chans.length < 2 ^ 31

/-- What every Python program does: it uses objects that it has made and has references to. -/
def Legal (s : State) : Op → Prop
  | .new => True
  | .dup v => 0 < s.held v
  | .drop v => 0 < s.held v
  | .convert t => t.inRange s.n
  | .getItem c _ => c < s.nCap ∧ 0 < s.heldCap c
  | .iter c => c < s.nCap ∧ 0 < s.heldCap c
  | .iterNext c => c < s.nCap ∧ 0 < s.heldCap c
  | .set c v => (c < s.nCap ∧ 0 < s.heldCap c) ∧ ∀ x, v = some x → 0 < s.held x
  | .read c => c < s.nCap ∧ 0 < s.heldCap c
  | .isPresent c => c < s.nCap ∧ 0 < s.heldCap c
  | .dropCap c => c < s.nCap ∧ 0 < s.heldCap c
  | .schedule v => 0 < s.held v
  | .newTag => True

/-- What a program must observe in addition: it reads the value of a port only if the port has not been set since the
port object was made (or was set through this object); it indexes multiports only, with integers in range; it does not set a
multiport as a whole; and the code that calls reactions never gives up its reference to the arguments. -/
def Careful (s : State) : Op → Prop
  | .read c => ∀ p, (s.cap c).target = .single p → (s.cap c).seen = setCount s.log p
  | .getItem c k => ∃ chans, (s.cap c).target = .multi chans ∧ ∀ i, k = some i → 0 ≤ i ∧ i < chans.length
  | .set c _ => ∃ p, (s.cap c).target = .single p
  | .dropCap c => (s.cap c).isArg = true → 2 ≤ s.heldCap c
  | _ => True

/-- A program whose operations all satisfy `P`. -/
def Follows (P : State → Op → Prop) : State → List Op → Prop
  | _, [] => True
  | s, o :: os => P s o ∧ Follows P (exec s o).1 os

end ReactorC.Python
