import Verif.Memory.Model

/-! # Who owns which memory, and the proper use of the functions -/

namespace Verif.Memory

/-- The memory of a list of records: the records and what they hold. -/
def recs (l : List (Nat × Nat)) : List Nat := l.flatMap fun q => [q.1, q.2]

/-- The memory of a reactor: its structure and what is recorded in it. -/
def memOf (allocs : Nat → List (Nat × Nat)) (self : Nat) : List Nat := self :: recs (allocs self)

/-- The memory of a reactor. -/
abbrev reactorMemory (s : St) (self : Nat) : List Nat := memOf s.allocs self

/-- The memory of an environment. -/
def Env.memory (e : Env) : List Nat := Field.all.filterMap e.ptr ++ e.events ++ e.recycled

/-- All memory that somebody has a pointer to. -/
def owned (s : St) : List Nat :=
  (s.toFree.flatMap fun q => q.1 :: memOf s.allocs q.2) ++ s.own.flatMap (memOf s.allocs) ++
    (s.toFree.map Prod.snd).filterMap s.mutex ++ s.envs.flatMap Env.memory ++ s.loose

/-- The functions are used as include/core/reactor.h:90-130 says and as generated code does: memory is recorded on
reactors that exist; `lf_free_reactor` is called once, for reactors that were not allocated with `lf_new_reactor`; a
reactor gets at most one mutex, and has one when it has watchdogs; no more watchdogs are put into an environment than
were announced. -/
def Proper (s : St) : Op → Prop
  | .allocate self => self ∈ s.toFree.map Prod.snd ∨ self ∈ s.own
  | .freeLoose a => a ∈ s.loose
  | .freeReactor self => self ∈ s.own
  | .newMutex self => self ∈ s.toFree.map Prod.snd ∧ s.mutex self = none
  | .addWatchdog i self => ∃ e, s.envs[i]? = some e ∧ e.bases.length < e.cfg.watchdogs ∧
      self ∈ s.toFree.map Prod.snd ∧ (s.mutex self).isSome
  | _ => True

/-- The states that proper histories lead to. -/
inductive Reach : St → Prop
  | init : Reach St.init
  | step {s s' : St} (o : Op) (h : Reach s) (hp : Proper s o) (e : apply s o = some s') : Reach s'

/-- The reactors whose watchdogs `termination` looks at. -/
def watched (s : St) : List Nat :=
  match s.envs with
  | [] => []
  | e :: _ => if e.cfg.singleThreaded then [] else e.bases

/-- The memory that is not freed at the end: memory and reactors allocated without a record, all events, the arrays of
watchdogs, and the mutexes of reactors other than those with watchdogs in the first environment. -/
def Leaks (s : St) (a : Nat) : Prop :=
  a ∈ s.loose ∨ (∃ r ∈ s.own, a ∈ reactorMemory s r) ∨
  (∃ e ∈ s.envs, a ∈ e.events ∨ a ∈ e.recycled ∨ e.ptr .watchdogs = some a) ∨
  ∃ r ∈ s.toFree.map Prod.snd, s.mutex r = some a ∧ r ∉ watched s

end Verif.Memory
