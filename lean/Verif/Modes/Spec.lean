import Verif.Modes.Model

/-! # What is meant by an active mode, by the mode a reactor goes to, and by the events of a trigger -/

namespace ReactorC.Modes
open ReactorC ReactorC.Sched

/-- The contract of the code generator: a modal reactor comes after the ones around it, and the initial mode is one of its
own modes. -/
structure Prog.Ok (P : Prog) : Prop where
  order : ∀ i p, i < P.n → P.parent i = some p → P.owner p < i
  initial : ∀ i, i < P.n → P.owner (P.initial i) = i

/-- A mode is active if it is the current mode of its reactor and the mode around that reactor, if any, is active. -/
inductive IsActive (P : Prog) (current : Nat → Nat) : Nat → Prop
  | mk (md : Nat) : current (P.owner md) = md → (∀ p, P.parent (P.owner md) = some p → IsActive P current p) →
      IsActive P current md

/-- Where modal reactor `i` goes at the end of a tag, and how, given what has been requested: if the mode around it is
being entered with a reset, to its initial mode with a reset; otherwise where a reaction has asked it to go. -/
def target (P : Prog) (next : Nat → Option Nat) (change : Nat → Change) (i : Nat) : Option (Nat × Change) :=
  match P.parent i with
  | none => (next i).map (fun md => (md, change i))
  | some p =>
    if _h : P.owner p < i then
      if target P next change (P.owner p) = some (p, .reset_transition) then some (P.initial i, .reset_transition)
      else (next i).map (fun md => (md, change i))
    else (next i).map (fun md => (md, change i))
termination_by i

/-- The contract of the code generator for timers, and about modes of triggers. -/
structure Prog.TimersOk (P : Prog) : Prop where
  own : ∀ t md, P.tmode t = some md → P.owner md < P.n
  are : ∀ t ∈ P.timers, (P.trigs t).isTimer = true
  nodup : P.timers.Nodup
  logical : ∀ t, (P.trigs t).isTimer = true → (P.trigs t).isPhysical = false
  offset : ∀ t, (P.trigs t).isTimer = true → 0 ≤ (P.trigs t).offset
  period : ∀ t, (P.trigs t).isTimer = true → 0 ≤ (P.trigs t).period
  policy : ∀ t, (P.trigs t).isTimer = true → (P.trigs t).policy = .defer

/-- The events of a trigger (or the dummy events). -/
def ofT (o : Option Nat) (q : List Event) : List Event := q.filter (fun ev => ev.trigger = o)

/-- The suspended events of a trigger. -/
def suspT (t : Nat) (l : List Susp) : List Susp := l.filter (fun x => x.ev.trigger = some t)

/-- The payload and the time of an event. -/
def key (ev : Event) : Option Nat × Int := (ev.token, ev.tag.time)

end ReactorC.Modes
