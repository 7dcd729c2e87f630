import Verif.Cycle.Model

/-!
# C85: specification
-/

namespace ReactorC.Cycle
variable {S V : Type}

/-- What a program and the code generated for it satisfy: connections are between federates of the federation and have different ports;
the ports of connections within cycles are those in the table of ports that are waited for, and the absence of messages on them is told; the
levels of reactions are in range (16 bits); an output is not set after the reaction that sends it, which does not come after the one
that tells its absence; and reactions read only inputs of their level or below (the reaction that reads an input has the level of the
port). -/
structure WF (P : Prog S V) : Prop where
  central : ∀ j, (P.cfg j).dec = false
  src : ∀ k < P.nc, (P.conn k).src < P.n
  dst : ∀ k < P.nc, (P.conn k).dst < P.n
  port : ∀ k < P.nc, (P.conn k).port < (P.cfg (P.conn k).dst).n
  inj : ∀ k < P.nc, ∀ k' < P.nc, (P.conn k).dst = (P.conn k').dst → (P.conn k).port = (P.conn k').port → k = k'
  logical : ∀ k < P.nc, ((P.cfg (P.conn k).dst).port (P.conn k).port).physical = false
  listed : ∀ k < P.nc, inCycle P k = true →
    ((P.cfg (P.conn k).dst).port (P.conn k).port).cycle = true ∧ (P.conn k).tells = true
  connected : ∀ j < P.n, ∀ p < (P.cfg j).n, ((P.cfg j).port p).cycle = true →
    ∃ k < P.nc, (P.conn k).dst = j ∧ (P.conn k).port = p ∧ inCycle P k = true
  inLevel : ∀ k < P.nc, ((P.cfg (P.conn k).dst).port (P.conn k).port).level < P.levels (P.conn k).dst
  outLevel : ∀ k < P.nc, (P.conn k).sendLevel ≤ (P.conn k).absLevel ∧ (P.conn k).absLevel < P.levels (P.conn k).src
  few : ∀ j, P.levels j ≤ 65536
  stable : ∀ k < P.nc, ∀ L x i, (P.conn k).sendLevel ≤ L → P.out k (P.exec (P.conn k).src L x i) = P.out k x
  reads : ∀ j L x i i', (∀ p, ((P.cfg j).port p).level ≤ L → i p = i' p) → P.exec j L x i = P.exec j L x i'

/-- The level for which a federate waits for an input: federates wait for inputs that do not come from cycles before they
begin. -/
def entry (P : Prog S V) (k : Nat) : Nat :=
  if inCycle P k = true then ((P.cfg (P.conn k).dst).port (P.conn k).port).level else 0

/-- The level with which it is known what a federate sends. -/
def exit (P : Prog S V) (k : Nat) : Nat :=
  if inCycle P k = true then (P.conn k).absLevel else P.levels (P.conn k).src

/-- There is an order of the levels of all federates together such that inputs are waited for after they have been sent: no causality
loop. -/
structure Ordered (P : Prog S V) (rank : Nat → Nat → Nat) : Prop where
  mono : ∀ j L, rank j L < rank j (L + 1)
  edge : ∀ k < P.nc, rank (P.conn k).src (exit P k) < rank (P.conn k).dst (entry P k)

/-- What the program says about one tag, whatever the timing: `st j L` is the state of the reactors of federate `j` before level `L`, and `inp j p`
the input at port `p`.  Each level is executed with the inputs, and each input is what the other end of its connection has
sent. -/
structure Solution (P : Prog S V) (x : Nat → S) (st : Nat → Nat → S) (inp : Nat → Nat → Option V) : Prop where
  init : ∀ j, st j 0 = x j
  step : ∀ j < P.n, ∀ L < P.levels j, st j (L + 1) = P.exec j L (st j L) (inp j)
  conn : ∀ k < P.nc, inp (P.conn k).dst (P.conn k).port = P.out k (st (P.conn k).src (P.conn k).sendLevel)
  none : ∀ j p, (∀ k < P.nc, ¬((P.conn k).dst = j ∧ (P.conn k).port = p)) → inp j p = none

/-- The tag is complete in all federates. -/
def Complete (P : Prog S V) (s : State S V) : Prop := ∀ j < P.n, (s.fed j).pc = .done

end ReactorC.Cycle
