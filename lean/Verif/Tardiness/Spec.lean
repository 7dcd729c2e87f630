import Verif.Tardiness.Model

/-! # What is to be invoked at a tag -/

namespace ReactorC.Tardiness

/-- The reactions to which a tardy message matters: those triggered by one, and those enabled by such a reaction when that has
no handler for it (its body is invoked). Reactions that only receive messages from the network have no say. -/
inductive Owed (p : Program) (x : Inst) : Nat → Prop
  | direct {r} : (r, true) ∈ x.popped → Owed p x r
  | via {r d} : Owed p x r → (p.handler r = false ∨ p.input r = true) → d ∈ x.prod r .body → Owed p x d

/-- What is to be invoked for a reaction: the handler of its deadline if that is missed, its tardiness handler if a tardy
message matters to it, otherwise its body. -/
def Due (p : Program) (x : Inst) (r : Nat) (k : Kind) : Prop :=
  (x.missed r = true ∧ k = .deadline) ∨
  (x.missed r = false ∧ Owed p x r ∧ p.handler r = true ∧ p.input r = false ∧ k = .stp) ∨
  (x.missed r = false ∧ ¬ (Owed p x r ∧ p.handler r = true ∧ p.input r = false) ∧ k = .body)

/-- The reactions that are triggered at a tag. -/
inductive Triggered (p : Program) (x : Inst) : Nat → Prop
  | event {r b} : (r, b) ∈ x.popped → Triggered p x r
  | enabled {r d k} : Triggered p x r → Due p x r k → (k = .deadline → p.dlHandler r = true) → d ∈ x.prod r k →
      Triggered p x d

/-- The restriction to programs and tags for which this is what happens: a reaction is triggered by one event or is enabled by
one reaction only; the deadline of a reaction to which a tardy message matters is not missed; a reaction with a tardiness
handler is not executed in a chain. -/
structure Simple (p : Program) (x : Inst) : Prop where
  events : (x.popped.map (·.1) ++ x.later).Nodup
  direct : ∀ r k d, d ∈ x.prod r k → d ∉ x.popped.map (·.1) ∧ d ∉ x.later
  one : ∀ r k r' k' d, d ∈ x.prod r k → d ∈ x.prod r' k' → r = r'
  forward : ∀ r k d, d ∈ x.prod r k → p.level r < p.level d
  intime : ∀ r, Owed p x r → x.missed r = false
  unchained : ∀ d, p.handler d = true → p.last d = none
  network : ∀ r k d, d ∈ x.prod r k → p.input d = false

end ReactorC.Tardiness
