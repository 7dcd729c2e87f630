import Verif.Det.Spec
import Verif.Np.Good

/-!
# A program that is executed by a scheduler

Puts the memory and the bodies of reactions on top of the model of a scheduler, in which what reactions do is left open.  Every
access to a cell is a step of its own; the steps of reactions that execute at the same time alternate arbitrarily with each
other and with the steps of the scheduler.
-/

namespace ReactorC.Det

open Np (Ev put)

/-- A scheduler: its states, the first one, its steps, the record of what happened, and whether a thread is triggering the
reactions of a new tag (or of the start tag). -/
structure Sys (σ : Type) where
  init : σ
  Step : σ → σ → Prop
  hist : σ → List Ev
  popping : σ → Prop

/-- The states that the scheduler can reach. -/
inductive Sys.Reach {σ : Type} (S : Sys σ) : σ → Prop
  | init : S.Reach S.init
  | step {s s' : σ} : S.Reach s → S.Step s s' → S.Reach s'

/-- What is needed of a scheduler: its record is good (`Np.Good`: every triggered reaction is executed once at each tag, in the
order given by `first`), a step adds at most one event, and reactions start and tags end only when the reactions of the tag
have been triggered. -/
structure Sys.Sound {σ : Type} (S : Sys σ) (first : Nat → Nat → Prop) : Prop where
  start : S.hist S.init = [] ∧ S.popping S.init
  good : ∀ s, S.Reach s → Np.Good first (S.hist s)
  one : ∀ s s', S.Reach s → S.Step s s' → S.hist s' = S.hist s ∨ ∃ e, S.hist s' = e :: S.hist s
  calm : ∀ s s', S.Reach s → S.Step s s' → ∀ e, S.hist s' = e :: S.hist s → S.popping s → ∃ r, e = .trigger r
  opens : ∀ s s', S.Reach s → S.Step s s' → S.hist s' = .advance :: S.hist s → S.popping s'

variable {Cell Val : Type} [DecidableEq Cell] {σ : Type}

/-- The memory, what the executing reactions still have to do, the reactions of the tag that have not been triggered yet, and
the memory at the end of each tag that has been completed, the latest one first. -/
structure Mem (Cell Val : Type) where
  cells : Cell → Val
  code : Nat → Option (Code Cell Val)
  due : List Nat
  ends : List (Cell → Val)

/-- The states that a program can reach when it is executed by the scheduler. -/
inductive Run (S : Sys σ) (P : Program Cell Val) : σ → Mem Cell Val → Prop
  | init : Run S P S.init ⟨P.memory, fun _ => none, P.first, []⟩
  /-- the scheduler makes a step that is not recorded; it goes on from triggering the reactions of the tag when it has
  triggered all of them -/
  | quiet {s s' : σ} {m : Mem Cell Val} : Run S P s m → S.Step s s' → S.hist s' = S.hist s →
      (S.popping s → S.popping s' ∨ m.due = []) → Run S P s' m
  /-- a reaction of the tag is triggered -/
  | event {s s' : σ} {m : Mem Cell Val} (r : Nat) : Run S P s m → S.Step s s' → S.hist s' = .trigger r :: S.hist s →
      S.popping s → r ∈ m.due → (S.popping s' ∨ m.due.erase r = []) →
      Run S P s' { m with due := m.due.erase r }
  /-- a reaction triggers another one -/
  | trigger {s s' : σ} {m : Mem Cell Val} (q r : Nat) (k : Code Cell Val) : Run S P s m → S.Step s s' →
      S.hist s' = .trigger r :: S.hist s → (S.popping s → S.popping s' ∨ m.due = []) →
      m.code q = some (.trigger r k) → Run S P s' { m with code := put m.code q (some k) }
  /-- a worker starts with a reaction -/
  | start {s s' : σ} {m : Mem Cell Val} (w r : Nat) : Run S P s m → S.Step s s' → S.hist s' = .start w r :: S.hist s →
      Run S P s' { m with code := put m.code r (some (P.body r)) }
  /-- a reaction reads a cell -/
  | read {s : σ} {m : Mem Cell Val} (q : Nat) (c : Cell) (k : Val → Code Cell Val) : Run S P s m →
      m.code q = some (.read c k) → Run S P s { m with code := put m.code q (some (k (m.cells c))) }
  /-- a reaction writes to a cell -/
  | write {s : σ} {m : Mem Cell Val} (q : Nat) (c : Cell) (v : Val) (k : Code Cell Val) : Run S P s m →
      m.code q = some (.write c v k) → Run S P s { m with cells := set m.cells c v, code := put m.code q (some k) }
  /-- a reaction ends -/
  | finish {s s' : σ} {m : Mem Cell Val} (w r : Nat) : Run S P s m → S.Step s s' → S.hist s' = .finish w r :: S.hist s →
      m.code r = some .done → Run S P s' { m with code := put m.code r none }
  /-- the tag advances -/
  | advance {s s' : σ} {m : Mem Cell Val} : Run S P s m → S.Step s s' → S.hist s' = .advance :: S.hist s →
      Run S P s' { m with cells := (P.next m.cells).1, due := (P.next m.cells).2, ends := m.cells :: m.ends }
  /-- the last tag is completed -/
  | stop {s s' : σ} {m : Mem Cell Val} : Run S P s m → S.Step s s' → S.hist s' = .stop :: S.hist s →
      Run S P s' { m with ends := m.cells :: m.ends }

end ReactorC.Det
