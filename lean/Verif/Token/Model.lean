import Mathlib.Data.List.Basic
import Mathlib.Data.List.Count

/-!
# Tokens: reference-counted message payloads

Models core/lf_token.c, the macros `lf_set`, `lf_set_array`, `lf_set_token`
(include/api/reaction_macros.h), the token part of the scheduling calls (lib/schedule.c) and of
`_lf_pop_events` and `_lf_start_time_step` (core/reactor_common.c).

Memory faults are explicit: `fault` becomes true when a token that was given back to the C library is
accessed or a payload is freed that is not allocated.  Operations are executed one at a time.
Addresses are never reused by `malloc`/`calloc` in the model, which makes more accesses faulty, not
fewer.
-/

namespace ReactorC.Token

/-- Function update. -/
def upd {α : Type} (f : Nat → α) (i : Nat) (v : α) : Nat → α := fun j => if j = i then v else f j

/-- Where a token struct is: in use, in the recycling bin, or not allocated (never, or not any
more). -/
inductive St
  | live | bin | freed
deriving DecidableEq, Repr

/-- `lf_token_t`, include/core/lf_token.h:92-103 (the field `next` is `State.nxt`, `type` is not
needed). -/
structure Tok where
  st : St
  rc : Nat
  /-- `value`: NULL or the address of a payload -/
  val : Option Nat
  len : Nat
deriving DecidableEq, Repr

/-- The memory the token functions work on. -/
structure State where
  tok : Nat → Tok
  /-- the `next` field of each token -/
  nxt : Nat → Option Nat
  /-- payloads: `none` when not allocated, else the content -/
  pay : Nat → Option Nat
  /-- first token address never allocated -/
  nTok : Nat
  /-- first payload address never allocated -/
  nPay : Nat
  /-- `_lf_token_recycling_bin`, core/lf_token.c:51 -/
  bin : List Nat
  /-- the `token` field of each template (port, action or trigger) -/
  tmpl : List (Option Nat)
  /-- tokens of the events in the event queue -/
  queue : List Nat
  /-- `_lf_tokens_allocated_in_reactions`, core/lf_token.c:43 -/
  copies : Option Nat
  /-- tokens obtained from `lf_new_token` that were not yet sent or scheduled -/
  user : List Nat
  fault : Bool

/-- `_LF_TOKEN_RECYCLING_BIN_SIZE_LIMIT`, core/lf_token.c:57. -/
def binLimit : Nat := 512

/-- An access to a token struct. -/
def touch (s : State) (k : Nat) : State :=
  { s with fault := s.fault || decide ((s.tok k).st = .freed) }

/-- `_lf_free_token_value`, core/lf_token.c:142-163: the destructor or `free`. -/
def freeValue (s : State) (k : Nat) : State :=
  match (s.tok k).val with
  | none => s
  | some p =>
    { s with
      fault := s.fault || (s.pay p).isNone
      pay := upd s.pay p none
      tok := upd s.tok k { s.tok k with val := none } }

/-- `_lf_free_token`, core/lf_token.c:165-204. -/
def freeToken (s : State) (k : Nat) : State :=
  if (s.tok k).rc > 0 then s
  else
    let s := freeValue s k
    if s.bin.length < binLimit then
      { s with
        bin := if k ∈ s.bin then s.bin else k :: s.bin
        tok := upd s.tok k { s.tok k with st := .bin } }
    else { s with tok := upd s.tok k { s.tok k with st := .freed } }

/-- `_lf_done_using`, core/lf_token.c:352-363, for a non-NULL token. -/
def doneUsing (s : State) (k : Nat) : State :=
  let s := touch s k
  if (s.tok k).rc = 0 then s
  else freeToken { s with tok := upd s.tok k { s.tok k with rc := (s.tok k).rc - 1 } } k

/-- `_lf_new_token`, core/lf_token.c:206-239.  Which token of the bin the hash set iterator returns first
depends on addresses; `pick` chooses it. -/
def newToken (s : State) (pick : Nat) (val : Option Nat) (len : Nat) : State × Nat :=
  match s.bin with
  | [] =>
    ({ s with
      nTok := s.nTok + 1
      tok := upd s.tok s.nTok ⟨.live, 0, val, len⟩
      nxt := upd s.nxt s.nTok none }, s.nTok)
  | b :: bs =>
    let k := (b :: bs).getD (pick % (b :: bs).length) b
    ({ s with
      bin := (b :: bs).erase k
      tok := upd s.tok k ⟨.live, 0, val, len⟩ }, k)

def setRc (s : State) (k n : Nat) : State := { s with tok := upd s.tok k { s.tok k with rc := n } }

/-- Incrementing a reference count. -/
def incRef (s : State) (k : Nat) : State := setRc (touch s k) k ((s.tok k).rc + 1)

/-- The token of a template. -/
def tmplTok (s : State) (t : Nat) : Option Nat := (s.tmpl[t]?).join

/-- `_lf_get_token`, core/lf_token.c:241-257. -/
def getToken (s : State) (t pick : Nat) : State × Nat :=
  match tmplTok s t with
  | some k =>
    let s := touch s k
    if (s.tok k).rc = 1 then (freeValue s k, k)
    else
      let r := newToken s pick none 0
      (setRc r.1 r.2 1, r.2)
  | none =>
    let r := newToken s pick none 0
    (setRc r.1 r.2 1, r.2)

/-- `malloc` of a payload with the given content by the caller. -/
def allocPay (s : State) (content : Nat) : State × Nat :=
  ({ s with nPay := s.nPay + 1, pay := upd s.pay s.nPay (some content) }, s.nPay)

/-- `_lf_initialize_token_with_value`, core/lf_token.c:284-299. -/
def initTokenWithValue (s : State) (t pick p len : Nat) : State × Nat :=
  let r := getToken s t pick
  ({ r.1 with tok := upd r.1.tok r.2 { r.1.tok r.2 with val := some p, len := len } }, r.2)

/-- `_lf_done_using`, core/lf_token.c:352-363: nothing happens for NULL. -/
def releaseOpt (s : State) : Option Nat → State
  | some k => doneUsing s k
  | none => s

/-- `if (newtoken != NULL) newtoken->ref_count++`, core/lf_token.c:344-348. -/
def retainOpt (s : State) : Option Nat → State
  | some k => incRef s k
  | none => s

/-- `_lf_replace_template_token`, core/lf_token.c:337-350. -/
def replaceTemplate (s : State) (t : Nat) (new : Option Nat) : State :=
  if tmplTok s t = new then s
  else
    let s := retainOpt (releaseOpt s (tmplTok s t)) new
    { s with tmpl := s.tmpl.set t new }

/-- `_lf_initialize_template`, core/lf_token.c:259-282, for a template with unchanged element size. -/
def initTemplate (s : State) (t pick : Nat) : State :=
  match tmplTok s t with
  | some k =>
    let s := touch s k
    if (s.tok k).rc = 1 then setRc (freeValue s k) k 1
    else
      let s := doneUsing s k
      let r := newToken s pick none 0
      { setRc r.1 r.2 1 with tmpl := s.tmpl.set t (some r.2) }
  | none =>
    let r := newToken s pick none 0
    { setRc r.1 r.2 1 with tmpl := s.tmpl.set t (some r.2) }

/-- `lf_new_token`, core/lf_token.c:71-73, called with a payload the reaction has just allocated. -/
def apiNewToken (s : State) (pick content len : Nat) : State :=
  let a := allocPay s content
  let r := newToken a.1 pick (some a.2) len
  { r.1 with user := r.2 :: r.1.user }

/-- `lf_set_token`, include/api/reaction_macros.h:126-133; reading `newtoken->value` is the last access. -/
def apiSetToken (s : State) (t k : Nat) : State :=
  let s := replaceTemplate s t (some k)
  touch { s with user := s.user.erase k } k

/-- `lf_set_array` and `lf_set` on a port of token type, include/api/reaction_macros.h:71-112, with a
payload the reaction has just allocated. -/
def apiSet (s : State) (t pick content len : Nat) : State :=
  let a := allocPay s content
  let r := initTokenWithValue a.1 t pick a.2 len
  { r.1 with tmpl := r.1.tmpl.set t (some r.2) }

/-- The token part of `lf_schedule_trigger` (lib/schedule.c:107 ff): the count is incremented; then
either an event holding the token is queued, or the request is discarded and the token released. -/
def scheduleToken (s : State) (k : Nat) (queued : Bool) : State :=
  let s := incRef s k
  if queued then { s with queue := k :: s.queue } else doneUsing s k

/-- `lf_schedule_token`, lib/schedule.c:40-50. -/
def apiScheduleToken (s : State) (k : Nat) (queued : Bool) : State :=
  let s := scheduleToken s k queued
  { s with user := s.user.erase k }

/-- `lf_schedule_value` and `lf_schedule_copy`, lib/schedule.c:52-94, with a new payload. -/
def apiScheduleValue (s : State) (t pick content len : Nat) (queued : Bool) : State :=
  let a := allocPay s content
  let r := initTokenWithValue a.1 t pick a.2 len
  scheduleToken r.1 r.2 queued

/-- The token part of `_lf_pop_events`, core/reactor_common.c:319-330: the event's token becomes the
template token of trigger `t`, and the event's own reference is released. -/
def popEvent (s : State) (t k : Nat) : State :=
  let s := replaceTemplate s t (some k)
  doneUsing { s with queue := s.queue.erase k } k

/-- What `lf_writable_copy` needs to know about a port. -/
structure PortType where
  elementSize : Nat
  hasCopyConstructor : Bool
  numDestinations : Nat
deriving Repr, DecidableEq

/-- Reading the payload of token `k` to copy it, core/lf_token.c:112-123; reading a payload that is not
allocated is a fault. -/
def readPayload (s : State) (k : Nat) : State × Nat :=
  match (s.tok k).val.bind s.pay with
  | some c => (s, c)
  | none => ({ s with fault := true }, 0)

/-- Making the copy, core/lf_token.c:112-139.  A copy constructor is taken to return a newly allocated
payload with the same content, as `memcpy` into `malloc`ed memory does. -/
def makeCopy (s : State) (pick k : Nat) : State × Nat :=
  let a := allocPay (readPayload s k).1 (readPayload s k).2
  let r := newToken a.1 pick (some a.2) (a.1.tok k).len
  let s := setRc r.1 r.2 1
  ({ s with nxt := upd s.nxt r.2 s.copies, copies := some r.2 }, r.2)

/-- `_lf_writable_copy_locked`, core/lf_token.c:85-140.  Returns the token handed to the reaction. -/
def writableCopy (s : State) (t pick : Nat) (pt : PortType) : State × Option Nat :=
  match tmplTok s t with
  | none => (s, none)
  | some k =>
    let s := touch s k
    if pt.numDestinations = 1 ∧ (s.tok k).rc = 1 then (s, some k)
    else if pt.hasCopyConstructor = false ∧ pt.elementSize * (s.tok k).len = 0 then (s, some k)
    else
      let r := makeCopy s pick k
      (r.1, some r.2)

/-- `_lf_free_token_copies`, core/lf_token.c:365-370.  The loop reads `next` of the token it has just
released.  `fuel` bounds the loop; running out counts as a fault. -/
def freeCopies : Nat → State → State
  | 0, s => { s with fault := true }
  | fuel + 1, s =>
    match s.copies with
    | none => s
    | some k =>
      let s := doneUsing s k
      let s := touch s k
      freeCopies fuel { s with copies := s.nxt k }

/-- What a program can do. -/
inductive Op
  | initTemplate (t pick : Nat)
  | newToken (pick content len : Nat)
  | setToken (t k : Nat)
  | set (t pick content len : Nat)
  | scheduleToken (k : Nat) (queued : Bool)
  | scheduleValue (t pick content len : Nat) (queued : Bool)
  | popEvent (t k : Nat)
  | popNull (t : Nat)
  | writableCopy (t pick : Nat) (pt : PortType)
  | newTag

def exec (s : State) : Op → State
  | .initTemplate t pick => initTemplate s t pick
  | .newToken pick c len => apiNewToken s pick c len
  | .setToken t k => apiSetToken s t k
  | .set t pick c len => apiSet s t pick c len
  | .scheduleToken k q => apiScheduleToken s k q
  | .scheduleValue t pick c len q => apiScheduleValue s t pick c len q
  | .popEvent t k => popEvent s t k
  | .popNull t => replaceTemplate s t none
  | .writableCopy t pick pt => (writableCopy s t pick pt).1
  | .newTag => freeCopies (s.nTok + 1) s

def run (s : State) (ops : List Op) : State := ops.foldl exec s

end ReactorC.Token
