import Mathlib.Data.List.Basic
import Mathlib.Data.List.Count

/-!
# Tokens in parallel reactions

Models what the workers of the threaded runtime do to tokens when reactions that they execute at the same time set output
ports: `lf_set_token` and `lf_set` (include/api/reaction_macros.h) with `_lf_replace_template_token`, `_lf_done_using`,
`_lf_free_token`, `_lf_get_token` and `_lf_new_token` (core/lf_token.c).  Reference counts are read and written without a mutex
(core/lf_token.c:345 and 361): each access is a step, and steps of different threads interleave.  What is done in a critical
section of the global environment is one step.

Each token has at most one payload.  `malloc` and `calloc` may return any address that is not in use.  Whether the recycling
bin is full, and whether it has a token for reuse, is left open, which allows for more behavior.  The counts of allocations,
`length` and `type` are left out.
-/

namespace ReactorC.Token.Threads

/-- Function update. -/
def put {α : Type} (f : Nat → α) (i : Nat) (v : α) : Nat → α := fun j => if j = i then v else f j

/-- Where a token struct is: in use, in the recycling bin, or not allocated. -/
inductive Place
  | live | bin | freed
deriving DecidableEq, Repr

/-- `lf_token_t`, include/core/lf_token.h:92-103. -/
structure Tok where
  place : Place
  rc : Nat
  /-- `value != NULL` -/
  value : Bool
  /-- the payload is allocated -/
  payload : Bool
deriving DecidableEq, Repr

/-- Where a thread is.  `p` is the port that is set. -/
inductive Pc
  | idle
  /-- `_lf_done_using(old)`, core/lf_token.c:357: is the count 0? -/
  | check (p old new : Nat)
  /-- `token->ref_count--`, 361: the count is read -/
  | load (p old new : Nat)
  /-- and written -/
  | store (p old new r : Nat)
  /-- `_lf_free_token(old)`, 169: is the count positive? -/
  | test (p old new : Nat)
  /-- `_lf_free_token_value(old)`, 143: is there a payload? -/
  | value (p old new : Nat)
  /-- 152-160: the payload is freed -/
  | free (p old new : Nat)
  /-- `token->value = NULL`, 161 -/
  | null (p old new : Nat)
  /-- 177-200: the token is put into the recycling bin or freed -/
  | bin (p old new : Nat)
  /-- `newtoken->ref_count++`, 345: the count is read -/
  | incLoad (p new : Nat)
  /-- and written -/
  | incStore (p new r : Nat)
  /-- `tmplt->token = newtoken`, 348 -/
  | assign (p new : Nat)
  /-- `_lf_get_token`, 243: is there a token with count 1? -/
  | get (p : Nat) (old : Option Nat)
  /-- its payload is freed, 247 -/
  | reuse (p old : Nat)
  /-- `result->value = value`, `_lf_initialize_token_with_value`, 289 -/
  | fill (p k : Nat)
  /-- `_lf_new_token`, 209-228: a token of the recycling bin, or a new one -/
  | create (p : Nat) (old : Option Nat)
  /-- 234-237, 255 and 289: it is initialized -/
  | init (p : Nat) (old : Option Nat) (k : Nat)
  /-- `out->token = token`, include/api/reaction_macros.h:80 -/
  | set (p : Nat) (old : Option Nat) (k : Nat)
  /-- `lf_new_token`: a token of the recycling bin, or a new one -/
  | newToken (p : Nat)
  /-- 234-237: it is initialized -/
  | newInit (p k : Nat)
deriving DecidableEq, Repr

/-- The memory and the threads.  `own` is not in the program: it is what a port holds a counted reference to, which is
nothing from the moment in which the count of the token that it had is decremented until it gets the next one. -/
structure State where
  tok : Nat → Tok
  port : Nat → Option Nat
  own : Nat → Option Nat
  pc : Nat → Pc
  /-- a token that was freed has been accessed, or a payload freed that is not allocated -/
  fault : Bool

/-- The port that a thread sets. -/
def Pc.port : Pc → Option Nat
  | .idle => none
  | .check p _ _ | .load p _ _ | .store p _ _ _ | .test p _ _ | .value p _ _ | .free p _ _ | .null p _ _ | .bin p _ _ => some p
  | .incLoad p _ | .incStore p _ _ | .assign p _ => some p
  | .get p _ | .reuse p _ | .fill p _ | .create p _ | .init p _ _ | .set p _ _ => some p
  | .newToken p | .newInit p _ => some p

/-- The tokens that a thread works on. -/
def Pc.toks : Pc → List Nat
  | .idle => []
  | .check _ o n | .load _ o n | .store _ o n _ | .test _ o n | .value _ o n | .free _ o n | .null _ o n | .bin _ o n => [o, n]
  | .incLoad _ n | .incStore _ n _ | .assign _ n => [n]
  | .get _ o | .create _ o => o.toList
  | .reuse _ o => [o]
  | .fill _ k => [k]
  | .init _ o k | .set _ o k => k :: o.toList
  | .newToken _ => []
  | .newInit _ k => [k]

/-- What can happen. -/
inductive Act
  /-- thread `i` starts `lf_set_token(p, k)` where `k` is the token of the port `q`, an input of the reaction -/
  | forward (i p q k : Nat)
  /-- thread `i` starts `lf_set(p, payload)` or `lf_set_array` with a new payload -/
  | set (i p : Nat)
  /-- thread `i` starts `lf_set_token(p, lf_new_token(...))` with a new payload -/
  | send (i p : Nat)
  /-- thread `i` makes its next step; `k` is the token it gets, `full` says whether the recycling bin is full -/
  | go (i k : Nat) (full : Bool)

/-- The thread of the act. -/
def Act.thread : Act → Nat
  | .forward i _ _ _ | .set i _ | .send i _ | .go i _ _ => i

/-- An access to a token. -/
def touch (s : State) (k : Nat) : State := { s with fault := s.fault || decide ((s.tok k).place = .freed) }

/-- A write to a token. -/
def write (s : State) (k : Nat) (t : Tok) : State := { touch s k with tok := put s.tok k t }

/-- A thread goes on. -/
def goto (s : State) (i : Nat) (c : Pc) : State := { s with pc := put s.pc i c }

/-- `_lf_replace_template_token(p, new)`, core/lf_token.c:337-342. -/
def replace (s : State) (i p new : Nat) : State :=
  match s.port p with
  | some old => if old = new then goto s i .idle else goto s i (.check p old new)
  | none => goto s i (.incLoad p new)

/-- A payload is freed. -/
def freePayload (s : State) (k : Nat) : State :=
  { write s k { s.tok k with payload := false } with
    fault := s.fault || decide ((s.tok k).place = .freed) || !(s.tok k).payload }

/-- The next step of thread `i`. -/
def next (s : State) (i k : Nat) (full : Bool) : Option State :=
  match s.pc i with
  | .idle => none
  | .check p o n => some (goto (touch s o) i (if (s.tok o).rc = 0 then .incLoad p n else .load p o n))
  | .load p o n => some (goto (touch s o) i (.store p o n (s.tok o).rc))
  | .store p o n r => some (goto { write s o { s.tok o with rc := r - 1 } with own := put s.own p none } i (.test p o n))
  | .test p o n => some (goto (touch s o) i (if (s.tok o).rc > 0 then .incLoad p n else .value p o n))
  | .value p o n => some (goto (touch s o) i (if (s.tok o).value then .free p o n else .bin p o n))
  | .free p o n => some (goto (freePayload s o) i (.null p o n))
  | .null p o n => some (goto (write s o { s.tok o with value := false }) i (.bin p o n))
  | .bin p o n =>
    some (goto (write s o { s.tok o with place := if full then .freed else .bin }) i (.incLoad p n))
  | .incLoad p n => some (goto (touch s n) i (.incStore p n (s.tok n).rc))
  | .incStore p n r => some (goto (write s n { s.tok n with rc := r + 1 }) i (.assign p n))
  | .assign p n => some (goto { s with port := put s.port p (some n), own := put s.own p (some n) } i .idle)
  | .get p o =>
    match o with
    | some o => some (goto (touch s o) i (if (s.tok o).rc = 1 then .reuse p o else .create p (some o)))
    | none => some (goto s i (.create p none))
  | .reuse p o =>
    if (s.tok o).value then
      let s' := freePayload s o
      some (goto (write s' o { s'.tok o with value := false }) i (.fill p o))
    else some (goto s i (.fill p o))
  | .fill p k => some (goto (write s k { s.tok k with value := true, payload := true }) i (.set p none k))
  | .create p o =>
    if (s.tok k).place = .live then none
    else some (goto { s with tok := put s.tok k { s.tok k with place := .live } } i (.init p o k))
  | .init p o k =>
    some (goto (write s k { place := (s.tok k).place, rc := 1, value := true, payload := true }) i (.set p o k))
  | .set p _ k => some (goto { s with port := put s.port p (some k), own := put s.own p (some k) } i .idle)
  | .newToken p =>
    if (s.tok k).place = .live then none
    else some (goto { s with tok := put s.tok k { s.tok k with place := .live } } i (.newInit p k))
  | .newInit p k =>
    some (replace (write s k { place := (s.tok k).place, rc := 0, value := true, payload := true }) i p k)

/-- No thread sets the port. -/
def Unset (s : State) (p : Nat) : Prop := ∀ i, (s.pc i).port ≠ some p

/-- What a program may do: one reaction sets a port at a time, and an input is read when the reaction that sets it has
ended. There are `n` ports. -/
def Pre (n : Nat) (s : State) : Act → Prop
  | .forward i p q k => s.pc i = .idle ∧ p < n ∧ q < n ∧ Unset s p ∧ Unset s q ∧ s.port q = some k
  | .set i p => s.pc i = .idle ∧ p < n ∧ Unset s p
  | .send i p => s.pc i = .idle ∧ p < n ∧ Unset s p
  | .go _ _ _ => True

/-- What happens. -/
def exec (s : State) : Act → Option State
  | .forward i p _ k => some (replace s i p k)
  | .set i p => some (goto s i (.get p (s.port p)))
  | .send i p => some (goto s i (.newToken p))
  | .go i k full => next s i k full

/-- Ports without messages. -/
def start : State :=
  { tok := fun _ => ⟨.freed, 0, false, false⟩
    port := fun _ => none
    own := fun _ => none
    pc := fun _ => .idle
    fault := false }

/-- The states of programs with `n` ports, whose acts satisfy `A`. -/
inductive Reach (n : Nat) (A : State → Act → Prop) : State → Prop
  | start : Reach n A start
  | step {s s' : State} (a : Act) : Reach n A s → Pre n s a → A s a → exec s a = some s' → Reach n A s'

/-- No two threads work on the same token. -/
def Apart (s : State) : Prop := ∀ i j, i ≠ j → ∀ k, k ∈ (s.pc i).toks → k ∉ (s.pc j).toks

end ReactorC.Token.Threads
