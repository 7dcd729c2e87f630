import Mathlib.Data.List.Basic

/-!
# Critical sections by disabling interrupts

Models `lf_disable_interrupts_nested` and `lf_enable_interrupts_nested` of lf_zephyr_support.c, lf_patmos_support.c,
lf_rp2040_support.c, lf_nrf52_support.c and lf_arduino_support.c (all in low_level_platform/impl/src), the critical sections that
core/reactor.c:376-384 makes of them, and the atomic operations that lf_atomic_irq.c makes of them.

A processor executes a program; interrupts may come at any time when they are enabled, each with its own program.  A function is a
list of instructions each of which accesses at most one variable.
-/

namespace ReactorC.Platform.Irq

variable {σ : Type}

/-- What programs do with critical sections; `update f` replaces the value `x` of a shared variable by `f x`, in two
instructions.  The atomic operations of lf_atomic_irq.c are `[enter, update f, exit]`: lines 22-28 and 38-44 add a value, 54-63
and 65-74 compare and swap; their results are functions of the value that has been read. -/
inductive Op (σ : Type)
  | enter
  | exit
  | update (f : σ → σ)

/-- Instructions.  `load` loads the count of nested critical sections to a register; `storeInc` and `storeDec` store it
incremented or decremented; `errIfZero` ends the function with the result 1 if the register is 0.  `read` and `write` are those
of `update`.  `entered` and `leaving` only mark the critical section. -/
inductive Micro
  | load | storeInc | storeDec | lock | lockIfZero | unlock | unlockIfOne | errIfZero | read | write | entered | leaving
deriving DecidableEq, Repr

def Micro.isMark : Micro → Bool
  | .entered | .leaving => true
  | _ => false

/-- `lf_disable_interrupts_nested` and `lf_enable_interrupts_nested` of a platform. -/
structure Platform where
  disable : List Micro
  enable : List Micro

/-- lf_zephyr_support.c:61-77 and lf_patmos_support.c:114-130. -/
def zephyr : Platform := ⟨[.load, .storeInc, .lockIfZero], [.load, .errIfZero, .storeDec, .unlockIfOne]⟩

/-- lf_rp2040_support.c:156-191, after `lf_initialize_clock`; the second core is not modelled here, but see `Mode.cores`. -/
def rp2040 : Platform :=
  ⟨[.load, .lockIfZero, .load, .storeInc], [.load, .errIfZero, .storeDec, .unlockIfOne]⟩

/-- lf_nrf52_support.c:278-301; `sd_nvic_critical_region_exit(0)` ends the critical region, whether or not it has been
entered more than once. -/
def nrf52 : Platform := ⟨[.load, .storeInc, .lock], [.load, .errIfZero, .storeDec, .unlock]⟩

/-- lf_arduino_support.c:128-147: what the other platforms do to disable interrupts is done to enable them, and conversely. -/
def arduino : Platform := ⟨[.load, .errIfZero, .storeDec, .unlockIfOne], [.load, .storeInc, .lockIfZero]⟩

/-- A program or an interrupt service routine, or a thread: what remains to be done (`code` of the present function, `prog`
after it), a register for the count, one for the variable, and how many critical sections it is in. -/
structure Ctx (σ : Type) where
  prog : List (Op σ)
  code : List Micro
  reg : Nat
  tmp : σ
  fn : σ → σ
  depth : Nat

/-- `irq`: interrupts are enabled.  `count`: the count of nested critical sections.  `err`: some call has had the result 1.
`log`: for each update, what has been read and the function; the latest first.  `stack`: the first one executes, and has
interrupted those after it. -/
structure St (σ : Type) where
  irq : Bool
  count : Nat
  var : σ
  err : Bool
  log : List (σ × (σ → σ))
  stack : List (Ctx σ)

/-- `nesting`: interrupt service routines can be interrupted.  `threads`: when interrupts are enabled, another thread may
continue.  `cores`: even when they are disabled. -/
structure Mode where
  nesting : Bool
  threads : Bool
  cores : Bool

/-- Something that begins. -/
def Ctx.new (x : σ) (p : List (Op σ)) : Ctx σ := ⟨p, [], 0, x, id, 0⟩

/-- At the beginning of the program, or of some threads. -/
def St.start (x : σ) (ps : List (List (Op σ))) : St σ := ⟨true, 0, x, false, [], ps.map (Ctx.new x)⟩

/-- Calls a function. -/
def Ctx.call (P : Platform) (c : Ctx σ) (p : List (Op σ)) : Op σ → Ctx σ
  | .enter => { c with prog := p, code := P.disable ++ [.entered] }
  | .exit => { c with prog := p, code := .leaving :: P.enable }
  | .update f => { c with prog := p, code := [.read, .write], fn := f }

/-- Executes an instruction of `c`, which is on top of `l`. -/
def St.micro (s : St σ) (c : Ctx σ) (l : List (Ctx σ)) : Micro → St σ
  | .load => { s with stack := { c with reg := s.count } :: l }
  | .storeInc => { s with count := c.reg + 1, stack := c :: l }
  | .storeDec => { s with count := c.reg - 1, stack := c :: l }
  | .lock => { s with irq := false, stack := c :: l }
  | .lockIfZero => { s with irq := if c.reg = 0 then false else s.irq, stack := c :: l }
  | .unlock => { s with irq := true, stack := c :: l }
  | .unlockIfOne => { s with irq := if c.reg = 1 then true else s.irq, stack := c :: l }
  | .errIfZero =>
    if c.reg = 0 then { s with err := true, stack := { c with code := c.code.filter Micro.isMark } :: l }
    else { s with stack := c :: l }
  | .read => { s with stack := { c with tmp := s.var } :: l }
  | .write => { s with var := c.fn c.tmp, log := (c.tmp, c.fn) :: s.log, stack := c :: l }
  | .entered => { s with stack := { c with depth := c.depth + 1 } :: l }
  | .leaving => { s with stack := { c with depth := c.depth - 1 } :: l }

/-- What can happen. -/
inductive Act (σ : Type)
  | exec
  | interrupt (p : List (Op σ))
  | ret
  | switch (i : Nat)

/-- A step, if it is possible. -/
def St.act (P : Platform) (m : Mode) (s : St σ) : Act σ → Option (St σ)
  | .exec =>
    match s.stack with
    | [] => none
    | c :: l =>
      match c.code with
      | u :: r => some (s.micro { c with code := r } l u)
      | [] =>
        match c.prog with
        | [] => none
        | op :: p => some { s with stack := c.call P p op :: l }
  | .interrupt p =>
    if s.irq ∧ (m.nesting ∨ s.stack.length ≤ 1) then some { s with stack := Ctx.new s.var p :: s.stack } else none
  | .ret =>
    match s.stack with
    | c :: d :: l => if c.code = [] ∧ c.prog.isEmpty then some { s with stack := d :: l } else none
    | _ => none
  | .switch i =>
    if m.threads ∧ (s.irq ∨ m.cores) then
      match s.stack[i]? with
      | some c => some { s with stack := c :: s.stack.eraseIdx i }
      | none => none
    else none

/-- Several steps. -/
def St.acts (P : Platform) (m : Mode) : St σ → List (Act σ) → Option (St σ)
  | s, [] => some s
  | s, a :: l => (s.act P m a).bind fun t => St.acts P m t l

/-- The states that can occur when the shared variable is initially `x`, and the program and all interrupt service routines use
critical sections as `W` says. -/
inductive Reach (P : Platform) (m : Mode) (W : List (Op σ) → Prop) (x : σ) : St σ → Prop
  | start {ps} : (∀ p ∈ ps, W p) → (m.threads = true ∨ ps.length = 1) → Reach P m W x (St.start x ps)
  | step {s t a} : Reach P m W x s → (∀ p, a = .interrupt p → W p) → s.act P m a = some t → Reach P m W x t

end ReactorC.Platform.Irq
