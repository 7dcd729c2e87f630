import Mathlib.Data.List.Basic

/-!
# Presence flags, sparse multiports and multiport iteration

Models `lf_set_present` (both runtimes), `_lf_start_time_step` and the multiport iterator of
`core/port.c`.
-/

namespace ReactorC.Port

/-- `lf_sparse_io_record_t`, include/core/lf_token.h:110-115.  `chans` is the array `present_channels`; the
C field `capacity` is its length, so it is not stored separately. -/
structure Sparse where
  /-- number of entries in use, or -1 after an overflow -/
  size : Int
  chans : List Nat
deriving Repr, DecidableEq

/-- The part of `lf_port_base_t` (include/core/lf_token.h:140-148) the presence machinery uses.
Presence flags are identified by the address `field` of the `is_present` member, sparse records by
an index `record`. -/
structure Port where
  /-- `source_reactor != NULL` -/
  hasSource : Bool
  field : Nat
  /-- `sparse_record` (or NULL) -/
  record : Option Nat
  /-- `destination_channel`, negative when there is none -/
  chan : Int
deriving Repr, DecidableEq

/-- The part of `environment_t` (include/core/environment.h:58-62) that concerns presence. `int`
counters are unbounded here: the C counters would have to be incremented 2^31 times in one tag to
differ. -/
structure Env where
  /-- the presence flags themselves -/
  fields : Nat → Bool
  /-- `is_present_fields`; its length is `is_present_fields_size` -/
  all : List Nat
  /-- `is_present_fields_abbreviated`, allocated with the same length -/
  abbr : List Nat
  /-- `is_present_fields_abbreviated_size` -/
  abbrSize : Nat
  recs : Nat → Sparse
  /-- `sparse_io_record_sizes`: the records whose size is reset -/
  regs : List Nat

/-- Function update, used for stores to a flag or to a record. -/
def upd {α : Type} (f : Nat → α) (i : Nat) (v : α) : Nat → α := fun j => if j = i then v else f j

/-- Registering a presence flag and setting it: core/reactor.c:51-56 (the same statements are in
`_lf_pop_events`, core/reactor_common.c:306-318, for the status of an action; there a periodic timer's
status is set without being registered, which concerns timers only). -/
def markPresent (e : Env) (f : Nat) : Env :=
  { e with
    abbr := if e.abbrSize < e.all.length then e.abbr.set e.abbrSize f else e.abbr
    abbrSize := e.abbrSize + 1
    fields := upd e.fields f true }

/-- The sparse-record part of `lf_set_present`, core/reactor.c:59-67. -/
def addChannel (s : Sparse) (c : Nat) : Sparse :=
  if s.size ≥ 0 then
    let next := s.size.toNat
    if next ≥ s.chans.length then { s with size := -1 }
    else { size := s.size + 1, chans := s.chans.set next c }
  else s

/-- `lf_set_present`, core/reactor.c:47-68 (single-threaded runtime). -/
def lf_set_present (e : Env) (p : Port) : Env :=
  if p.hasSource = false then e
  else
    let e := markPresent e p.field
    match p.record with
    | none => e
    | some r => if p.chan ≥ 0 then { e with recs := upd e.recs r (addChannel (e.recs r) p.chan.toNat) } else e

/-- Writing `false` through each pointer of a list, the loop core/reactor_common.c:182-184. -/
def clearAll (fields : Nat → Bool) : List Nat → (Nat → Bool)
  | [] => fields
  | f :: fs => clearAll (upd fields f false) fs

/-- Resetting the sizes of registered sparse records, core/reactor_common.c:186-196. -/
def resetSizes (recs : Nat → Sparse) : List Nat → (Nat → Sparse)
  | [] => recs
  | r :: rs => resetSizes (upd recs r { recs r with size := 0 }) rs

/-- `_lf_start_time_step`, core/reactor_common.c:164-197, for `execution_started`.  The release of
token copies is in `Verif.Token`; the FEDERATED part is not modelled here. -/
def lf_start_time_step (e : Env) : Env :=
  let toClear := if e.abbrSize > e.all.length then e.all else e.abbr.take e.abbrSize
  { e with
    fields := clearAll e.fields toClear
    recs := resetSizes e.recs e.regs
    abbrSize := 0 }

/-! ## The multiport iterator -/

/-- `lf_multiport_iterator_t`, include/core/port.h:88-93, without the constant members. -/
structure Iter where
  next : Int
  idx : Int
deriving Repr, DecidableEq

/-- The scanning loops core/port.c:83-90 and 120-127: the first present channel from `start` on, or
-1. Reading past the array of ports is `none`. -/
def scan (fields : Nat → Bool) (ports : List Port) (width : Nat) : Nat → Nat → Option Int
  | 0, _ => some (-1)
  | fuel + 1, start =>
    if start < width then
      match ports[start]? with
      | none => none
      | some p => if fields p.field then some start else scan fields ports width fuel (start + 1)
    else some (-1)

/-- `qsort` with `compare_sizes` over the first `size` entries, core/port.c:42-50,74-76.  The C library's
`qsort` is represented by a merge sort; for numbers all correct sorts give the same result. -/
def sortPrefix (s : Sparse) : Sparse :=
  { s with chans := (s.chans.take s.size.toNat).mergeSort (fun a b => decide (a ≤ b)) ++ s.chans.drop s.size.toNat }

/-- `_lf_multiport_iterator_impl`, core/port.c:59-92.  Returns the iterator and the environment, in which
the record has been sorted; `none` when an array is read out of bounds. -/
def iterInit (e : Env) (ports : List Port) (width : Int) : Option (Env × Iter) :=
  if width ≤ 0 then some (e, ⟨-1, -1⟩)
  else
    match ports[0]? with
    | none => none
    | some p0 =>
      let classic := (scan e.fields ports width.toNat width.toNat 0).map fun n => (e, Iter.mk n (-1))
      match p0.record with
      | none => classic
      | some r =>
        let s := e.recs r
        if s.size ≥ 0 then
          if s.size > 0 then
            let s' := if s.size > 1 then sortPrefix s else s
            match s'.chans[(0 : Nat)]? with
            | none => none
            | some c => some ({ e with recs := upd e.recs r s' }, Iter.mk (c : Int) (-1))
          else some (e, ⟨-1, -1⟩)
        else classic

/-- `lf_multiport_next`, core/port.c:99-132.  `none` when an array is read out of bounds. -/
def iterNext (e : Env) (ports : List Port) (width : Int) (it : Iter) : Option (Int × Iter) :=
  if it.idx < 0 then some (it.next, { it with idx := 0 })
  else if it.next < 0 ∨ width ≤ 0 then some (-1, it)
  else
    match ports[it.idx.toNat]? with
    | none => none
    | some p =>
      let classic :=
        (scan e.fields ports width.toNat width.toNat (it.next.toNat + 1)).map fun n => (n, { it with next := n })
      match p.record with
      | none => classic
      | some r =>
        let s := e.recs r
        if s.size ≥ 0 then
          if it.idx + 1 ≥ s.size then some (-1, ⟨-1, it.idx + 1⟩)
          else
            match s.chans[(it.idx + 1).toNat]? with
            | none => none
            | some c => some ((c : Int), ⟨c, it.idx + 1⟩)
        else classic

/-! ## The threaded runtime -/

/-- Program counter of a thread inside `lf_set_present` of the threaded runtime,
core/threaded/reactor_threaded.c:174-195. -/
inductive Pc
  | idle
  /-- after the fetch-and-add on the abbreviated size, which returned `i` (179) -/
  | gotSlot (p : Port) (i : Nat)
  /-- after the store to the abbreviated list (180-182) -/
  | stored (p : Port)
  /-- after `*is_present_field = true` (183) -/
  | marked (p : Port)
  /-- after reading `size >= 0` (186) -/
  | checked (p : Port) (r : Nat)
  /-- after the fetch-and-add on the sparse size, which returned `next` (187) -/
  | gotChan (p : Port) (r : Nat) (next : Int)
deriving Repr, DecidableEq

/-- A thread: the calls of `lf_set_present` it has still to make and where it is in the current one. -/
structure Thr where
  todo : List Port
  pc : Pc

/-- Shared memory and threads. -/
structure TState where
  env : Env
  thr : List Thr

/-- One atomic action of a thread: core/threaded/reactor_threaded.c:174-195.  Each memory access of
the function that another thread can see is one step. -/
def thrStep (e : Env) (t : Thr) : Option (Env × Thr) :=
  match t.pc with
  | .idle =>
    match t.todo with
    | [] => none
    | p :: rest =>
      if p.hasSource = false then some (e, ⟨rest, .idle⟩)
      else some ({ e with abbrSize := e.abbrSize + 1 }, ⟨rest, .gotSlot p e.abbrSize⟩)
  | .gotSlot p i =>
    some ({ e with abbr := if i < e.all.length then e.abbr.set i p.field else e.abbr }, ⟨t.todo, .stored p⟩)
  | .stored p => some ({ e with fields := upd e.fields p.field true }, ⟨t.todo, .marked p⟩)
  | .marked p =>
    match p.record with
    | none => some (e, ⟨t.todo, .idle⟩)
    | some r =>
      if p.chan ≥ 0 ∧ (e.recs r).size ≥ 0 then some (e, ⟨t.todo, .checked p r⟩)
      else some (e, ⟨t.todo, .idle⟩)
  | .checked p r =>
    some ({ e with recs := upd e.recs r { e.recs r with size := (e.recs r).size + 1 } },
      ⟨t.todo, .gotChan p r (e.recs r).size⟩)
  | .gotChan p r next =>
    -- the cast to `size_t` makes a negative `next` larger than any capacity
    if next < 0 ∨ next ≥ (e.recs r).chans.length then
      some ({ e with recs := upd e.recs r { e.recs r with size := -1 } }, ⟨t.todo, .idle⟩)
    else
      some ({ e with
          recs := upd e.recs r { e.recs r with chans := (e.recs r).chans.set next.toNat p.chan.toNat } },
        ⟨t.todo, .idle⟩)

/-- One step of the program: any thread that can move moves. -/
inductive TStep : TState → TState → Prop
  | mk (s : TState) (i : Nat) (t : Thr) (e' : Env) (t' : Thr) :
      s.thr[i]? = some t → thrStep s.env t = some (e', t') → TStep s ⟨e', s.thr.set i t'⟩

/-- Any interleaving of any length. -/
inductive TSteps : TState → TState → Prop
  | refl (s) : TSteps s s
  | tail {s t u} : TSteps s t → TStep t u → TSteps s u

end ReactorC.Port
