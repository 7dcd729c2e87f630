import Verif.Adaptive.Model

/-!
# The measurements of the adaptive scheduler

Models the functions of core/threaded/scheduler_adaptive.c that measure how long the levels take and decide how many workers
are used for a level (:469-663).  Times and random numbers are arguments.  Not modelled: overflow of the times and of the
counter.
-/

namespace ReactorC.Adaptive

open Np (put)

/-- `data_collection_t`, core/threaded/scheduler_adaptive.c:87-96.  `starts` is `start_times_by_level`, `times` is
`execution_times_by_num_workers_by_level`, `mins` and `argmins` are `execution_times_mins` and `execution_times_argmins`.
`fault` is set by an access outside of an array, by a failing assertion and by a value that does not fit into an `int` or a remainder by 0. -/
structure Meas where
  starts : Nat → Int
  times : Nat → Nat → Int
  mins : Nat → Int
  argmins : Nat → Nat
  counter : Nat
  collecting : Bool
  fault : Bool

/-- `data_collection_init`, core/threaded/scheduler_adaptive.c:534-550, with `n` workers. -/
def Meas.init (n : Nat) : Meas :=
  { starts := fun _ => 0, times := fun _ _ => 0, mins := fun _ => 0, argmins := fun _ => n, counter := 0, collecting := false,
    fault := false }

/-- The loop that computes `pnw_length`, core/threaded/scheduler_adaptive.c:480-482. -/
def halvings : Nat → Nat → Nat
  | 0, _ => 0
  | fuel + 1, t => if t / 2 = 0 then 0 else halvings fuel (t / 2) + 1

/-- `pnw_length`, core/threaded/scheduler_adaptive.c:479-482. -/
def pnwLength (n : Nat) : Nat := 4 + halvings n n

/-- `possible_nums_workers[i]`, core/threaded/scheduler_adaptive.c:484-489. -/
def pnw (i : Nat) : Nat := if i = 0 then 0 else 2 ^ (i - 1)

/-- The scores of `get_jitter`, core/threaded/scheduler_adaptive.c:507-511: the left one, and the sum of the three. -/
def leftScore (time : Int) : Int := 16384 + (if time < 114688 then 114688 - time else 0)

def scoreSum (time : Int) : Int := leftScore time + 65536 + 65536

/-- `get_jitter`, core/threaded/scheduler_adaptive.c:501-518; `rnd` is what `rand()` returns. -/
def jitter (state : Nat) (time : Int) (rnd : Nat) : Int :=
  if time < 16384 ∧ state = 1 then 0
  else if (rnd : Int) % scoreSum time < leftScore time then -1
  else if (rnd : Int) % scoreSum time < leftScore time + 65536 then 0
  else 1

/-- The loop of `get_nums_workers_neighboring_state`, core/threaded/scheduler_adaptive.c:527-530; `none` if it leaves the
array. -/
def position (len state : Nat) : Nat → Nat → Option Nat
  | 0, _ => none
  | fuel + 1, i => if len ≤ i then none else if pnw i < state then position len state fuel (i + 1) else some i

/-- `get_nums_workers_neighboring_state`, core/threaded/scheduler_adaptive.c:521-532, `none` for an access outside of the
array. -/
def neighbor (n state : Nat) (time : Int) (rnd : Nat) : Option Nat :=
  if jitter state time rnd = 0 then some state
  else match position (pnwLength n) state (pnwLength n) 1 with
    | none => none
    | some i =>
      if 0 ≤ (i : Int) + jitter state time rnd ∧ ((i : Int) + jitter state time rnd).toNat < pnwLength n then
        some (pnw ((i : Int) + jitter state time rnd).toNat)
      else none

/-- One iteration of `compute_number_of_workers`, core/threaded/scheduler_adaptive.c:608-619; `max` is
`max_num_workers_by_level[level]`.  `none` also stands for the failure of the assertion of
`restrict_to_range` (:587). -/
def Meas.suggest (n max cur : Nat) (d : Meas) (level : Nat) (jit : Bool) (rnd : Nat) : Option Nat :=
  if n < cur then none
  else if max < 1 then none
  else if jit then
    (if scoreSum (d.times level cur) < 1 ∨ 2 ^ 31 ≤ scoreSum (d.times level cur) then none
     else (neighbor n (d.argmins level) (d.times level cur) rnd).map (restrict 1 max))
  else some (restrict 1 max (d.argmins level))

/-- `compute_number_of_workers`, core/threaded/scheduler_adaptive.c:603-621, for the levels up to `maxLevel`. -/
def Meas.numbers (n : Nat) (max nw : Nat → Nat) (maxLevel : Nat) (d : Meas) (jit : Bool) (rnd : Nat → Nat) : (Nat → Nat) × Meas :=
  (fun l => if l ≤ maxLevel then (d.suggest n (max l) (nw l) l jit (rnd l)).getD (nw l) else nw l,
   { d with fault := d.fault || (List.range (maxLevel + 1)).any fun l => (d.suggest n (max l) (nw l) l jit (rnd l)).isNone })

/-- `compute_costs`, core/threaded/scheduler_adaptive.c:628-638. -/
def Meas.costs (n : Nat) (nw : Nat → Nat) (maxLevel : Nat) (d : Meas) : Meas :=
  let better := fun l => decide (l ≤ maxLevel) && (decide (d.mins l = 0) || decide (d.times l (nw l) < d.mins l) || decide (nw l = d.argmins l))
  { d with
    mins := fun l => if better l then d.times l (nw l) else d.mins l
    argmins := fun l => if better l then nw l else d.argmins l
    fault := d.fault || (List.range (maxLevel + 1)).any fun l => decide (n < nw l) }

/-- `data_collection_end_tag`, core/threaded/scheduler_adaptive.c:646-663. -/
def Meas.endTag (n : Nat) (max nw : Nat → Nat) (maxLevel : Nat) (rnd : Nat → Nat) (d : Meas) : (Nat → Nat) × Meas :=
  let d := if d.collecting && d.starts 0 != 0 then d.costs n nw maxLevel else d
  let d := { d with counter := d.counter + 1 }
  let period := 2 + 128 * (if d.counter > 256 then 1 else 0)
  if d.counter % period = 0 then
    let r := d.numbers n max nw maxLevel (decide (d.counter > 8)) rnd
    (r.1, { r.2 with collecting := true })
  else if d.counter % period = 1 then
    let r := d.numbers n max nw maxLevel false rnd
    (r.1, { r.2 with collecting := false })
  else (nw, d)

/-- `data_collection_start_level`, core/threaded/scheduler_adaptive.c:564-568; `now` is the physical time. -/
def Meas.startLevel (maxLevel level : Nat) (now : Int) (d : Meas) : Meas :=
  if d.collecting then { d with starts := put d.starts level now, fault := d.fault || decide (maxLevel < level) } else d

/-- `data_collection_end_level`, core/threaded/scheduler_adaptive.c:571-584; `num` is the number of workers of the level. -/
def Meas.endLevel (n maxLevel level num : Nat) (now : Int) (d : Meas) : Meas :=
  if d.collecting && d.starts level != 0 then
    let dt := now - d.starts level
    let t := if d.times level num = 0 then max dt (2 * d.times level (d.argmins level)) else d.times level num
    { d with
      times := put d.times level (put (d.times level) num ((t * 15 + dt) / 16))
      fault := d.fault || decide (maxLevel < level) || decide (n < num) || decide (n < d.argmins level) }
  else d

/-- What the scheduler does with the measurements, at a physical time that does not decrease: `set_level` ends a level and
starts another one (:138, 147), and a tag ends (:431).  `nw` are the numbers of workers per level. -/
inductive Measured (n maxLevel : Nat) (max : Nat → Nat) : Int → (Nat → Nat) → Meas → Prop
  | init (now : Int) : 0 < now → Measured n maxLevel max now max (Meas.init n)
  | set {now : Int} {nw : Nat → Nat} {d : Meas} (level num level' : Nat) (t t' : Int) : Measured n maxLevel max now nw d →
      level ≤ maxLevel → num ≤ n → level' ≤ maxLevel → now ≤ t → t ≤ t' →
      Measured n maxLevel max t' nw ((d.endLevel n maxLevel level num t).startLevel maxLevel level' t')
  | tag {now : Int} {nw : Nat → Nat} {d : Meas} (rnd : Nat → Nat) : Measured n maxLevel max now nw d →
      Measured n maxLevel max now (d.endTag n max nw maxLevel rnd).1 (d.endTag n max nw maxLevel rnd).2

end ReactorC.Adaptive
