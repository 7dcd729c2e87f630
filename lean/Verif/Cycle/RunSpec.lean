import Verif.Cycle.RunModel

/-!
# C86: specification
-/

namespace ReactorC.Cycle.Run
open ReactorC
variable {S V : Type}

/-- What a program and the code generated for it satisfy, as for one tag (`Cycle.WF`); the tags are in order; messages on a connection without delay
are for the same tag, those on a connection with delay for a later one, and those sent later are for later tags.  There is no connection with a delay
from one cycle without delay to another one (`rings`): for these the property does not hold (`C86_not_with_delays_between_cycles`). -/
structure WF (M : Federation S V) : Prop where
  central : ∀ j, (M.P.cfg j).dec = false
  src : ∀ k < M.P.nc, (M.P.conn k).src < M.P.n
  dst : ∀ k < M.P.nc, (M.P.conn k).dst < M.P.n
  port : ∀ k < M.P.nc, (M.P.conn k).port < (M.P.cfg (M.P.conn k).dst).n
  inj : ∀ k < M.P.nc, ∀ k' < M.P.nc, (M.P.conn k).dst = (M.P.conn k').dst → (M.P.conn k).port = (M.P.conn k').port → k = k'
  logical : ∀ k < M.P.nc, ((M.P.cfg (M.P.conn k).dst).port (M.P.conn k).port).physical = false
  listed : ∀ k < M.P.nc, cyc M k = true →
    ((M.P.cfg (M.P.conn k).dst).port (M.P.conn k).port).cycle = true ∧ (M.P.conn k).tells = true
  connected : ∀ j < M.P.n, ∀ p < (M.P.cfg j).n, ((M.P.cfg j).port p).cycle = true →
    ∃ k < M.P.nc, (M.P.conn k).dst = j ∧ (M.P.conn k).port = p ∧ cyc M k = true
  inLevel : ∀ k < M.P.nc, ((M.P.cfg (M.P.conn k).dst).port (M.P.conn k).port).level < M.P.levels (M.P.conn k).dst
  outLevel : ∀ k < M.P.nc, (M.P.conn k).sendLevel ≤ (M.P.conn k).absLevel ∧ (M.P.conn k).absLevel < M.P.levels (M.P.conn k).src
  few : ∀ j, M.P.levels j ≤ 65536
  stable : ∀ k < M.P.nc, ∀ L x i, (M.P.conn k).sendLevel ≤ L → M.P.out k (M.P.exec (M.P.conn k).src L x i) = M.P.out k x
  reads : ∀ j L x i i', (∀ p, ((M.P.cfg j).port p).level ≤ L → i p = i' p) → M.P.exec j L x i = M.P.exec j L x i'
  tags : ∀ m, M.tau m < M.tau (m + 1)
  small : ∀ m, (M.tau m).microstep < UINT_MAX
  same : ∀ k < M.P.nc, M.delayed k = false → ∀ m, M.arr k m = m
  later : ∀ k < M.P.nc, M.delayed k = true → ∀ m, m < M.arr k m
  inOrder : ∀ k < M.P.nc, ∀ m, M.arr k m < M.arr k (m + 1)
  rings : ∀ k < M.P.nc, M.delayed k = true → M.P.zdc (M.P.conn k).src = true → M.P.zdc (M.P.conn k).dst = true →
    M.ring (M.P.conn k).src = M.ring (M.P.conn k).dst

/-- The level for which a federate waits for an input. -/
def entry (M : Federation S V) (k : Nat) : Nat :=
  if cyc M k = true then ((M.P.cfg (M.P.conn k).dst).port (M.P.conn k).port).level else 0

/-- The level with which it is known what a federate sends. -/
def exit (M : Federation S V) (k : Nat) : Nat :=
  if cyc M k = true then (M.P.conn k).absLevel else M.P.levels (M.P.conn k).src

/-- There is an order of the levels of all federates together such that what connections without delay bring is waited for after it has been
sent: no causality loop. -/
structure Ordered (M : Federation S V) (rank : Nat → Nat → Nat) : Prop where
  mono : ∀ j L, rank j L < rank j (L + 1)
  edge : ∀ k < M.P.nc, M.delayed k = false → rank (M.P.conn k).src (exit M k) < rank (M.P.conn k).dst (entry M k)

/-- What the program says about the first `N` tags, whatever the timing: `st j m L` is the state of the reactors of federate `j` at tag `m` before level `L`, and
`inp j m p` the input at port `p` at this tag.  Each level is executed with the inputs, each tag begins with the state at the end of the one before, and each
input is what the other end of its connection has sent for this tag. -/
structure Solution (M : Federation S V) (x : Nat → S) (N : Nat) (st : Nat → Nat → Nat → S) (inp : Nat → Nat → Nat → Option V) : Prop where
  init : ∀ j < M.P.n, 0 < N → st j 0 0 = M.enter j 0 (x j)
  next : ∀ j < M.P.n, ∀ m, m + 1 < N → st j (m + 1) 0 = M.enter j (m + 1) (st j m (M.P.levels j))
  step : ∀ j < M.P.n, ∀ m < N, ∀ L < M.P.levels j, st j m (L + 1) = M.P.exec j L (st j m L) (inp j m)
  conn : ∀ k < M.P.nc, ∀ m, M.arr k m < N →
    inp (M.P.conn k).dst (M.arr k m) (M.P.conn k).port = M.P.out k (st (M.P.conn k).src m (M.P.conn k).sendLevel)
  gap : ∀ k < M.P.nc, ∀ i < N, (∀ m, M.arr k m ≠ i) → inp (M.P.conn k).dst i (M.P.conn k).port = none
  none : ∀ j < M.P.n, ∀ p, (∀ k < M.P.nc, ¬((M.P.conn k).dst = j ∧ (M.P.conn k).port = p)) → ∀ i < N, inp j i p = none

/-- All federates have completed the first `N` tags. -/
def Completed (M : Federation S V) (s : State S V) (N : Nat) : Prop := ∀ j < M.P.n, N ≤ (s.fed j).n

end ReactorC.Cycle.Run
