import Verif.Print.Model

/-!
# The sensor simulator

Models util/sensor_simulator.c.  The queue of messages is the linked list of the code, in a heap of nodes; posting a message and showing one are steps, as both hold the mutex (the thread that shows messages keeps it
while there are more).  Text that `wprintw` gets as its format is printed by `render` without arguments.  The contents of windows, colours, and the end of input are not modelled; `calloc` is taken to succeed.
-/

namespace ReactorC.Sensor
open ReactorC.Printing (Text render)

/-- `enum _lf_sensor_message_type`, util/sensor_simulator.c:39. -/
inductive Kind | message | tick | close
deriving DecidableEq

/-- `_lf_sensor_message_t`, util/sensor_simulator.c:41-45; a pointer is a number. -/
structure Node where
  kind : Kind
  body : Text
  next : Option Nat

/-- The windows: height of the print window, width and height of the tick window. -/
structure Size where
  printH : Nat
  tickW : Nat
  tickH : Nat

structure State where
  heap : Nat → Node
  /-- nodes `0` to `size - 1` have been allocated -/
  size : Nat
  /-- `message_q` and `message_recycle_q` -/
  queue : Option Nat
  recycle : Option Nat
  /-- what has been printed, in which kind of window, and where (row and column); `none` is undefined behaviour -/
  screen : List (Kind × Option Text × Nat × Nat)
  /-- what has been posted -/
  posted : List (Kind × Text)
  /-- how many bodies have been freed -/
  freed : Nat
  /-- the windows have been closed, and the thread has ended -/
  closed : Bool
  tickX : Nat
  tickY : Nat
  printY : Nat

/-- The state that `start_sensor_simulator` and the beginning of the thread produce, util/sensor_simulator.c:133-163, 362-371. -/
def initial : State :=
  { heap := fun _ => ⟨.message, [], none⟩, size := 0, queue := none, recycle := none, screen := [], posted := [], freed := 0, closed := false, tickX := 1, tickY := 1, printY := 0 }

def upd {α : Type} (f : Nat → α) (i : Nat) (v : α) : Nat → α := fun j => if j = i then v else f j

/-- The loop that finds the last message, util/sensor_simulator.c:188-197; it takes at most as many rounds as there are nodes, see `C92_messages_are_shown_in_order`. -/
def last (heap : Nat → Node) : Nat → Nat → Nat
  | 0, i => i
  | n + 1, i =>
    match (heap i).next with
    | none => i
    | some j => last heap n j

/-- `_lf_sensor_post_message`, util/sensor_simulator.c:170-201. -/
def post (s : State) (k : Kind) (body : Text) : State :=
  let i := s.recycle.getD s.size
  let s : State := match s.recycle with
    | none => { s with size := s.size + 1 }
    | some r => { s with recycle := (s.heap r).next }
  let heap := upd s.heap i ⟨k, body, none⟩
  let s := { s with posted := s.posted ++ [(k, body)] }
  match s.queue with
  | none => { s with heap := heap, queue := some i }
  | some q =>
    let t := last heap s.size q
    { s with heap := upd heap t { heap t with next := some i } }

/-- A message is put on the list of free nodes, util/sensor_simulator.c:335-339. -/
def recycleFirst (s : State) (q : Nat) : State :=
  { s with recycle := some q, queue := (s.heap q).next, heap := upd s.heap q { s.heap q with next := s.recycle } }

/-- One round of the loop that shows messages, util/sensor_simulator.c:297-340; `none` if there is no message. -/
def showNext (w : Size) (s : State) : Option State :=
  match s.queue with
  | none => none
  | some q =>
    match (s.heap q).kind with
    | .close => some { s with closed := true }
    | .tick =>
      let x := s.tickX + (s.heap q).body.length
      let (x, y) := if x + 1 ≥ w.tickW then (1, s.tickY + 1) else (x, s.tickY)
      let y := if y + 1 ≥ w.tickH then 1 else y
      some (recycleFirst { s with screen := s.screen ++ [(.tick, render (s.heap q).body [], s.tickY, s.tickX)], tickX := x, tickY := y } q)
    | .message =>
      let y := if s.printY + 1 + 1 ≥ w.printH then 0 else s.printY + 1
      some (recycleFirst { s with screen := s.screen ++ [(.message, render (s.heap q).body [], s.printY, 0)], printY := y, freed := s.freed + 1 } q)

/-- What `start_sensor_simulator` does to the queues when it is called again: `thread_created` is set to 0 before it is tested, util/sensor_simulator.c:368-372. -/
def startAgain (s : State) : State := { s with queue := none, recycle := none }

/-- The thread that shows messages, until it waits or ends, at most `n` messages. -/
def showAll (w : Size) : Nat → State → State
  | 0, s => s
  | n + 1, s =>
    if s.closed then s
    else
      match showNext w s with
      | none => s
      | some s' => showAll w n s'

/-- Executions: messages are posted at any time, and shown until the windows are closed. -/
inductive Step (w : Size) : State → State → Prop
  | post {s} (k : Kind) (body : Text) : Step w s (post s k body)
  | show {s s'} : s.closed = false → showNext w s = some s' → Step w s s'

/-! ## Keys -/

/-- The trigger table, the newline trigger and the any-key trigger; an action is a number, NULL is `none`. -/
structure Keys where
  table : Nat → Option Nat := fun _ => none
  newline : Option Nat := none
  any : Option Nat := none

/-- `register_sensor_key`, util/sensor_simulator.c:414-444. -/
def registerKey (s : Keys) (key : Int) (action : Option Nat) : Int × Keys :=
  match action with
  | none => (3, s)
  | some a =>
    let index := key - 32
    if key ≠ 10 ∧ key ≠ 0 ∧ (index < 0 ∨ index ≥ 96) then (2, s)
    else if key = 10 then if s.newline.isSome then (1, s) else (0, { s with newline := some a })
    else if key = 0 then if s.any.isSome then (1, s) else (0, { s with any := some a })
    else if (s.table index.toNat).isSome then (1, s)
    else (0, { s with table := upd s.table index.toNat (some a) })

/-- The body of the loop of `_lf_sensor_read_input`, util/sensor_simulator.c:238-247: which actions are scheduled, with which byte as their value. -/
def press (s : Keys) (c : Int) : List (Nat × Int) :=
  let value := c % 256
  (if c = 10 ∧ s.newline.isSome then s.newline.toList.map (·, value)
   else if c - 32 ≥ 0 ∧ c - 32 < 96 ∧ (s.table (c - 32).toNat).isSome then (s.table (c - 32).toNat).toList.map (·, value)
   else []) ++ s.any.toList.map (·, value)

/-- `start_sensor_simulator` clears the table, util/sensor_simulator.c:374-377. -/
def restart (s : Keys) : Keys := { s with table := fun _ => none }

/-! ## Printing and the end -/

/-- How many arguments a format takes. -/
def conversions : Text → Nat
  | [] => 0
  | c :: f =>
    if c = '%' then
      match f with
      | [] => 0
      | d :: f => if d = '%' then conversions f else conversions f + 1
    else conversions f

/-- `_lf_print_message_function`, util/sensor_simulator.c:206-214: what is posted.  The list of arguments that `vfprintf` has used for the log file is used again. -/
def printed (log : Bool) (f : Text) (as : List Text) : Option Text := if log then render f (as.drop (conversions f)) else render f as

/-- The thread that shows messages, and the log file (whether it is open), util/sensor_simulator.c:346-360. -/
structure Life where
  joined : Bool := false
  log : Option Bool
  fault : Bool := false

/-- `end_sensor_simulator`: joining a thread twice and closing a file twice are undefined behaviour. -/
def endSimulator (l : Life) : Life :=
  { joined := true, log := l.log.map fun _ => false, fault := l.fault || l.joined || l.log == some false }

end ReactorC.Sensor
