import Verif.Tag.Model

/-!
# The search for the minimum upstream delays in the RTI

Models `_update_min_delays_upstream`, `update_min_delays_upstream`, `is_in_zero_delay_cycle` and `is_in_cycle` of
core/federated/RTI/rti_common.c.  Nodes are numbered from 0 to `n - 1`; an array indexed by node is a function.

Simplifications: the caching of the result is not part of this file (see Verif.Rti.Model); the recursion of the C code is
given a bound on its depth, and running into the bound is an outcome of its own (`deep`).
-/

namespace ReactorC.Rti
open ReactorC

/-- The connections as the RTI knows them: `number_of_scheduling_nodes` and, for each node, the arrays `upstream` and
`upstream_delay` (zipped) and `downstream`, core/federated/RTI/rti_common.h:49-68. -/
structure Topology where
  n : Nat
  up : Nat → List (Nat × Int)
  down : Nat → List Nat

/-- A function changed at one point: an assignment to an array element. -/
def put {α : Type} (f : Nat → α) (k : Nat) (a : α) : Nat → α := fun j => if j = k then a else f j

/-- The variables of the search: the array `path_delays`, `*count`, and the flags of the node `end`. -/
structure Search where
  delays : Nat → Tag
  count : Nat
  inCycle : Bool
  inZeroDelayCycle : Bool
  /-- the bound on the depth of the recursion was not sufficient -/
  deep : Bool

/-- The delay of a path that begins with a connection with delay `w` and goes on with delay `sofar`,
core/federated/RTI/rti_common.c:313-314. -/
def through (w : Int) (sofar : Tag) : Tag := lf_tag_add (lf_delay_tag ZERO_TAG w) sofar

/-- `_update_min_delays_upstream`, core/federated/RTI/rti_common.c:287-340.  The first argument bounds the depth of the
recursion; `i` is `intermediate` and `sofar` is `delay_from_intermediate_so_far`.  `conn i` is
`state != NOT_CONNECTED`. -/
def search (T : Topology) (conn : Nat → Bool) (end_ : Nat) : Nat → Nat → Tag → Search → Search
  | 0, _, _, st => { st with deep := true }
  | depth + 1, i, sofar, st =>
    if conn i then
      (T.up i).foldl
        (fun (st : Search) (e : Nat × Int) =>
          if lf_tag_compare (through e.2 sofar) (st.delays e.1) < 0 then
            let st :=
              { st with
                count := if (st.delays e.1).time = FOREVER then st.count + 1 else st.count
                delays := put st.delays e.1 (through e.2 sofar) }
            if end_ ≠ e.1 then search T conn end_ depth e.1 (st.delays e.1) st
            else
              { st with
                inCycle := true
                inZeroDelayCycle := decide (lf_tag_compare (through e.2 sofar) ZERO_TAG = 0 ∧ e.2 < 0) }
          else st)
        st
    else st

/-- The initial values, core/federated/RTI/rti_common.c:350-356 and 41. -/
def start : Search :=
  { delays := fun _ => FOREVER_TAG
    count := 0
    inCycle := false
    inZeroDelayCycle := false
    deep := false }

/-- The call in `update_min_delays_upstream`, core/federated/RTI/rti_common.c:357. -/
def searchFrom (T : Topology) (conn : Nat → Bool) (end_ : Nat) : Search :=
  search T conn end_ (T.n + 1) end_ ZERO_TAG start

/-- The loop that fills `node->min_delays`, core/federated/RTI/rti_common.c:363-376. -/
def minDelays (T : Topology) (conn : Nat → Bool) (end_ : Nat) : List (Nat × Tag) :=
  ((List.range T.n).filter fun i => decide (lf_tag_compare ((searchFrom T conn end_).delays i) FOREVER_TAG < 0)).map
    fun i => (i, (searchFrom T conn end_).delays i)

/-! ## Specification -/

/-- `Path T conn e u ws`: a message can travel from `u` to `e` over connections with the delays `ws`, in this order; all
nodes after `u` are connected.  The path may visit a node several times. -/
inductive Path (T : Topology) (conn : Nat → Bool) (e : Nat) : Nat → List Int → Prop
  | last (u : Nat) (w : Int) : conn e = true → (u, w) ∈ T.up e → Path T conn e u [w]
  | step (u i : Nat) (w : Int) (ws : List Int) : conn i = true → (u, w) ∈ T.up i → Path T conn e i ws →
      Path T conn e u (w :: ws)

/-- The delay accumulated along a path, as a tag. -/
def pathDelay : List Int → Tag
  | [] => ZERO_TAG
  | w :: ws => through w (pathDelay ws)

/-- The tag at which something sent at `t` arrives at the end of a path when every node on the way reacts to it
immediately. -/
def arrival (t : Tag) : List Int → Tag
  | [] => t
  | w :: ws => arrival (lf_delay_tag t w) ws

/-- What the RTI can rely on: the delays are 64-bit numbers, the numbers of nodes are in range, and there are at
most 2^16 of them (`id` is a `uint16_t`). -/
structure Topology.Ok (T : Topology) : Prop where
  small : T.n ≤ 65536
  range : ∀ i u w, (u, w) ∈ T.up i → u < T.n
  delay : ∀ i u w, (u, w) ∈ T.up i → IsI64 w

end ReactorC.Rti
