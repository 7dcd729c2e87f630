import Verif.Token.Model

/-! # Specification for reference counting -/

namespace ReactorC.Token

/-- The list of token copies, following `next` from `head`. -/
inductive Chain (nxt : Nat → Option Nat) : Option Nat → List Nat → Prop
  | nil : Chain nxt none []
  | cons {k : Nat} {l : List Nat} : Chain nxt (nxt k) l → Chain nxt (some k) (k :: l)

/-- Somebody refers to token `k`: a port, action or trigger, an event in the queue, the list of copies
made for the current tag, or a reaction that got it from `lf_new_token`. -/
def Held (s : State) (k : Nat) : Prop :=
  some k ∈ s.tmpl ∨ k ∈ s.queue ∨ (∃ l, Chain s.nxt s.copies l ∧ k ∈ l) ∨ k ∈ s.user

/-- The rules a program follows: it sends or schedules only tokens it can get at (held by a port or
action, a copy of the current tag, or new); the runtime pops only queued events; templates exist. -/
def Allowed (s : State) : Op → Prop
  | .initTemplate t _ => t < s.tmpl.length
  | .newToken _ _ _ => True
  | .setToken t k => t < s.tmpl.length ∧ Held s k
  | .set t _ _ _ => t < s.tmpl.length
  | .scheduleToken k _ => Held s k
  | .scheduleValue t _ _ _ _ => t < s.tmpl.length
  | .popEvent t k => t < s.tmpl.length ∧ k ∈ s.queue
  | .popNull t => t < s.tmpl.length
  | .writableCopy t _ _ => t < s.tmpl.length ∧ ∀ k, tmplTok s t = some k → (s.tok k).val ≠ none
  | .newTag => True

/-- When a tag starts, the recycling bin has room for all the copies of the previous tag. -/
def BinHasRoom (s : State) : Op → Prop
  | .newTag => ∀ l, Chain s.nxt s.copies l → s.bin.length + l.length ≤ binLimit
  | _ => True

/-- The program does not set an output whose current message is referred to from elsewhere (reference count
above 1), and schedules values only on initialized actions whose current message is not shared. -/
def NotShared (s : State) : Op → Prop
  | .set t _ _ _ => ∀ k, tmplTok s t = some k → (s.tok k).rc = 1
  | .scheduleValue t _ _ _ _ => ∃ k, tmplTok s t = some k ∧ (s.tok k).rc = 1
  | _ => True

/-- A history in which every operation is allowed and satisfies `C` when it is executed. -/
def Follows (C : State → Op → Prop) (s : State) : List Op → Prop
  | [] => True
  | o :: os => Allowed s o ∧ C s o ∧ Follows C (exec s o) os

/-- The state at program start: `n` templates without token, nothing allocated. -/
def start (n : Nat) : State :=
  { tok := fun _ => ⟨.freed, 0, none, 0⟩
    nxt := fun _ => none
    pay := fun _ => none
    nTok := 0
    nPay := 0
    bin := []
    tmpl := List.replicate n none
    queue := []
    copies := none
    user := []
    fault := false }

end ReactorC.Token
