import Verif.Cycle.Model

/-!
# Executions of a federation with cycles of connections without delay, tag after tag

The model of `Verif.Cycle.Model` for one tag, extended to all tags: connections may have a delay, each federate goes from tag to tag on its own,
and what is sent for a later tag is kept until the federate gets there.

`tau` are the tags of the execution, in order, and what follows uses their numbers.  Simplified: every federate goes through every one of
these tags; if it has nothing to do at a tag, its reactions do nothing.  (In the code such a federate skips the tag, except if it is in a
cycle: then it gets a provisional grant all the same, core/federated/RTI/rti_remote.c:245-271, and an event that does nothing, core/federated/federate.c:1313-1350.)  Stop
requests and physical connections are not included.
-/

namespace ReactorC.Cycle.Run
open ReactorC

/-- A federation: the federates and connections as for one tag; the tags; which connections have a delay (with `after`); the number of the tag
for which a message is that is sent on a connection at a tag; what happens in a federate at a tag before its reactions are executed (timers, actions); and
in which cycle a federate is, of those that are in one (`ring`; two federates are in the same one if there are paths without delay both ways). -/
structure Federation (S V : Type) where
  P : Prog S V
  ring : Nat → Nat
  tau : Nat → Tag
  delayed : Nat → Bool
  arr : Nat → Nat → Nat
  enter : Nat → Nat → S → S

/-- A federate at tag number `n`. -/
structure Node (S V : Type) where
  n : Nat
  lv : Level.State
  pc : Pc
  /-- the state of the reactors -/
  st : S
  /-- the messages that have come in for each tag -/
  inp : Tag → Nat → Option V
  /-- not in the code: the state of the reactors at each tag before each level -/
  tr : Nat → Nat → S

structure State (S V : Type) where
  fed : Nat → Node S V
  /-- what is on the way on each connection: messages (`some`) and notices of absence (`none`) -/
  chan : Nat → List (Tag × Option V)
  /-- a federate has ended with an error, or a message came in after its level had been executed -/
  fault : Bool

variable {S V : Type}

/-- The connection has no delay, and both ends are in cycles without delay; such ports are waited for level by level,
core/federated/federate.c:2755-2758. -/
def cyc (M : Federation S V) (k : Nat) : Bool := !M.delayed k && M.P.zdc (M.P.conn k).src && M.P.zdc (M.P.conn k).dst

/-- What arrives on connection `k` is handled: `handle_port_absent_message`, core/federated/federate.c:699-731, and
`handle_tagged_message`, core/federated/federate.c:604-690; see `Cycle.deliver`. -/
def deliver (M : Federation S V) (s : State S V) (k : Nat) (t : Tag) (o : Option V) (rest : List (Tag × Option V)) : State S V :=
  let j := (M.P.conn k).dst
  let p := (M.P.conn k).port
  let f := s.fed j
  match o with
  | none => { s with
      chan := upd s.chan k rest
      fed := upd s.fed j { f with lv := Level.updatePort (M.P.cfg j) f.lv p t } }
  | some v =>
    let now := Level.handleMessageNow (M.P.cfg j) f.lv p t true
    { chan := upd s.chan k rest
      fed := upd s.fed j { f with
        lv := Level.handleMessage (M.P.cfg j) f.lv p t true
        inp := fun t' => if t' = t then upd (f.inp t') p (some v) else f.inp t' }
      fault := s.fault || (!now && decide (t ≤ f.lv.cur)) || (now && decide (((M.P.cfg j).port p).level < adm M.P j f.pc)) }

/-- The source of connection `k` has completed the tags from which something could be sent for tag `i` or an earlier one, and all of this
has arrived. -/
def Settled (M : Federation S V) (s : State S V) (k i : Nat) : Prop :=
  (∀ m, M.arr k m ≤ i → m < (s.fed (M.P.conn k).src).n) ∧ ∀ e ∈ s.chan k, M.tau i < e.1

/-- The same for the tags before `i`. -/
def SettledBefore (M : Federation S V) (s : State S V) (k i : Nat) : Prop :=
  (∀ m, M.arr k m < i → m < (s.fed (M.P.conn k).src).n) ∧ ∀ e ∈ s.chan k, M.tau i ≤ e.1

/-- The condition for a grant of tag `i`, core/federated/RTI/rti_common.c:160-228; what the federates upstream have sent is forwarded
before (C26, C60). -/
def AllIn (M : Federation S V) (s : State S V) (j i : Nat) : Prop :=
  ∀ k < M.P.nc, (M.P.conn k).dst = j → Settled M s k i

/-- For which connections the RTI looks only whether what may come is not before the tag, when it grants the tag provisionally: both ends are in
cycles, core/federated/RTI/rti_common.c:122-153 with `is_in_zero_delay_cycle`, whether the connection has a delay or not
(`C85_not_delayed_messages_between_cycles`).  If it has a delay and is within a cycle, what may come is after the tag, because its
source has got to the tag (`C25_provisional_grant_excludes_delayed_messages_within_cycles`). -/
def lax (M : Federation S V) (k : Nat) : Bool :=
  M.P.zdc (M.P.conn k).src && M.P.zdc (M.P.conn k).dst && (!M.delayed k || decide (M.ring (M.P.conn k).src ≠ M.ring (M.P.conn k).dst))

/-- The condition for a provisional grant of tag `i`, core/federated/RTI/rti_common.c:122-153, 220-226: upstream federates within cycles have got to the tag, the
others have completed all from which something could come. -/
def PtagIn (M : Federation S V) (s : State S V) (j i : Nat) : Prop :=
  ∀ k < M.P.nc, (M.P.conn k).dst = j → if lax M k = true then SettledBefore M s k i else Settled M s k i

/-- The reactions of level `L` are executed in federate `j`. -/
def execLevel (M : Federation S V) (s : State S V) (j L : Nat) : State S V :=
  let f := s.fed j
  let x := M.P.exec j L f.st (f.inp (M.tau f.n))
  { s with
    fed := upd s.fed j { f with pc := .level (L + 1), st := x, tr := upd f.tr f.n (upd (f.tr f.n) (L + 1) x) }
    chan := fun k => if k < M.P.nc ∧ (M.P.conn k).src = j then s.chan k ++ sendNow M.P (M.tau (M.arr k f.n)) k L f.st else s.chan k }

/-- The federate is through with the tag and turns to the next one, whose events are handled first. -/
def toNext (M : Federation S V) (j : Nat) (f : Node S V) : Node S V :=
  let x := M.enter j (f.n + 1) f.st
  { f with n := f.n + 1, pc := .before, st := x, tr := upd f.tr (f.n + 1) (upd (f.tr (f.n + 1)) 0 x) }

inductive Step (M : Federation S V) : State S V → State S V → Prop
  /-- `handle_provisional_tag_advance_grant`, core/federated/federate.c:1268-1355 -/
  | ptag {s} {j : Nat} : j < M.P.n → M.P.zdc j = true → (s.fed j).lv.lastTAG < M.tau (s.fed j).n → PtagIn M s j (s.fed j).n →
      Step M s { s with fed := upd s.fed j { s.fed j with lv := Level.handlePtag (M.P.cfg j) (s.fed j).lv (M.tau (s.fed j).n) } }
  /-- `handle_tag_advance_grant`, core/federated/federate.c:1030-1072, for the tag that is next or executed, or a later one -/
  | tag {s} {j i : Nat} : j < M.P.n → (s.fed j).n ≤ i → (s.fed j).lv.lastTAG ≤ M.tau i → AllIn M s j i →
      Step M s { s with fed := upd s.fed j { s.fed j with lv := Level.handleTag (M.P.cfg j) (s.fed j).lv (M.tau i) } }
  /-- the federate advances to the tag, core/threaded/reactor_threaded.c:446-465; events for it are popped -/
  | start {s} {j : Nat} : j < M.P.n → (s.fed j).pc = .before → M.tau (s.fed j).n ≤ (s.fed j).lv.lastTAG →
      Step M s { s with fed := upd s.fed j { s.fed j with
        pc := .level 0
        lv := Level.nextTag (M.P.cfg j) (s.fed j).lv (M.tau (s.fed j).n) (fun _ => false)
          (fun p => ((s.fed j).inp (M.tau (s.fed j).n) p).isSome) } }
  /-- `lf_stall_advance_level_federation`, core/federated/federate.c:2680-2694: past the wait, or asleep -/
  | stall {s} {j L : Nat} : j < M.P.n → (s.fed j).pc = .level L → L < M.P.levels j → (s.fed j).lv.asleep L = false →
      Step M s { s with fed := upd s.fed j { s.fed j with
        pc := if L ≥ (s.fed j).lv.mlaa then .level L else .passed L
        lv := Level.stall (s.fed j).lv L } }
  /-- the reactions of a level are executed -/
  | exec {s} {j L : Nat} : j < M.P.n → (s.fed j).pc = .passed L → Step M s (execLevel M s j L)
  /-- the tag is complete -/
  | finish {s} {j : Nat} : j < M.P.n → (s.fed j).pc = .level (M.P.levels j) →
      Step M s { s with fed := upd s.fed j (toNext M j (s.fed j)) }
  /-- a message or notice arrives -/
  | deliver {s} {k : Nat} {t : Tag} {o : Option V} {rest : List (Tag × Option V)} : k < M.P.nc → s.chan k = (t, o) :: rest →
      Step M s (deliver M s k t o rest)

/-- Before the first tag; `x` is the initial state of the reactors. -/
structure Initial (M : Federation S V) (x : Nat → S) (s : State S V) : Prop where
  chan : ∀ k, s.chan k = []
  ok : s.fault = false
  n : ∀ j, (s.fed j).n = 0
  pc : ∀ j, (s.fed j).pc = .before
  st : ∀ j, (s.fed j).st = M.enter j 0 (x j)
  tr : ∀ j, (s.fed j).tr 0 0 = M.enter j 0 (x j)
  inp : ∀ j t p, (s.fed j).inp t p = none
  running : ∀ j, (s.fed j).lv.phase = .running
  cur : ∀ j, (s.fed j).lv.cur < M.tau 0
  grant : ∀ j, (s.fed j).lv.lastTAG < M.tau 0
  known : ∀ j p, (s.fed j).lv.known p < M.tau 0
  awake : ∀ j L, (s.fed j).lv.asleep L = false

inductive Reach (M : Federation S V) (x : Nat → S) : State S V → Prop
  | init {s} : Initial M x s → Reach M x s
  | step {s s'} : Reach M x s → Step M s s' → Reach M x s'

end ReactorC.Cycle.Run
