import Verif.Cycle.RunProps

/-!
# C86: connections with a delay from one cycle to another

The restriction `WF.rings` is needed: a run in which a message over such a connection is too late.  Also: runs that are computed step by step.
-/

namespace ReactorC.Cycle.Run
open ReactorC
variable {S V : Type}

/-- What is done next, by a federate or on a connection. -/
inductive Act
  | ptag (j : Nat)
  | start (j : Nat)
  | stall (j : Nat)
  | exec (j : Nat)
  | finish (j : Nat)
  | deliver (k : Nat)

/-- `Settled`, if messages on connection `k` are for `d` tags later. -/
def settledB (M : Federation S V) (d : Nat → Nat) (s : State S V) (k i : Nat) : Bool :=
  decide (i < (s.fed (M.P.conn k).src).n + d k) && (s.chan k).all fun e => decide (M.tau i < e.1)

def settledBeforeB (M : Federation S V) (d : Nat → Nat) (s : State S V) (k i : Nat) : Bool :=
  decide (i ≤ (s.fed (M.P.conn k).src).n + d k) && (s.chan k).all fun e => decide (M.tau i ≤ e.1)

def ptagInB (M : Federation S V) (d : Nat → Nat) (s : State S V) (j i : Nat) : Bool :=
  (List.range M.P.nc).all fun k => decide ((M.P.conn k).dst ≠ j) || if lax M k = true then settledBeforeB M d s k i else settledB M d s k i

/-- The step, if it is possible. -/
def act (M : Federation S V) (d : Nat → Nat) (s : State S V) : Act → Option (State S V)
  | .ptag j =>
    if j < M.P.n ∧ M.P.zdc j = true ∧ (s.fed j).lv.lastTAG < M.tau (s.fed j).n ∧ ptagInB M d s j (s.fed j).n = true then
      some { s with fed := upd s.fed j { s.fed j with lv := Level.handlePtag (M.P.cfg j) (s.fed j).lv (M.tau (s.fed j).n) } }
    else none
  | .start j =>
    if j < M.P.n ∧ (s.fed j).pc = .before ∧ M.tau (s.fed j).n ≤ (s.fed j).lv.lastTAG then
      some { s with fed := upd s.fed j { s.fed j with
        pc := .level 0
        lv := Level.nextTag (M.P.cfg j) (s.fed j).lv (M.tau (s.fed j).n) (fun _ => false)
          (fun p => ((s.fed j).inp (M.tau (s.fed j).n) p).isSome) } }
    else none
  | .stall j =>
    match (s.fed j).pc with
    | .level L =>
      if j < M.P.n ∧ L < M.P.levels j ∧ (s.fed j).lv.asleep L = false then
        some { s with fed := upd s.fed j { s.fed j with
          pc := if L ≥ (s.fed j).lv.mlaa then .level L else .passed L
          lv := Level.stall (s.fed j).lv L } }
      else none
    | _ => none
  | .exec j =>
    match (s.fed j).pc with
    | .passed L => if j < M.P.n then some (execLevel M s j L) else none
    | _ => none
  | .finish j =>
    if j < M.P.n ∧ (s.fed j).pc = .level (M.P.levels j) then some { s with fed := upd s.fed j (toNext M j (s.fed j)) } else none
  | .deliver k =>
    match s.chan k with
    | (t, o) :: rest => if k < M.P.nc then some (deliver M s k t o rest) else none
    | [] => none

def acts (M : Federation S V) (d : Nat → Nat) (s : State S V) : List Act → Option (State S V)
  | [] => some s
  | a :: l => (act M d s a).bind fun s' => acts M d s' l

theorem act_step {M : Federation S V} {d : Nat → Nat} (hd : ∀ k m, M.arr k m = m + d k) {s s' : State S V} {a : Act} (h : act M d s a = some s') :
    Step M s s' := by
  cases a with
  | ptag j =>
    unfold act at h
    dsimp only at h
    split at h
    · rename_i hc
      cases h
      refine .ptag hc.1 hc.2.1 hc.2.2.1 ?_
      intro k hk hdst
      have h1 := hc.2.2.2
      unfold ptagInB at h1
      rw [List.all_eq_true] at h1
      have h1 := h1 k (List.mem_range.2 hk)
      simp only [hdst, ne_eq, not_true_eq_false, decide_false, Bool.false_or] at h1
      split at h1
      · rename_i hl
        rw [if_pos hl]
        unfold settledBeforeB at h1
        simp only [Bool.and_eq_true, decide_eq_true_eq, List.all_eq_true] at h1
        exact ⟨fun m hm => by rw [hd] at hm; omega, h1.2⟩
      · rename_i hl
        rw [if_neg hl]
        unfold settledB at h1
        simp only [Bool.and_eq_true, decide_eq_true_eq, List.all_eq_true] at h1
        exact ⟨fun m hm => by rw [hd] at hm; omega, h1.2⟩
    · cases h
  | start j =>
    unfold act at h
    dsimp only at h
    split at h
    · rename_i hc
      cases h
      exact .start hc.1 hc.2.1 hc.2.2
    · cases h
  | stall j =>
    unfold act at h
    dsimp only at h
    split at h
    · rename_i L hp
      split at h
      · rename_i hc
        cases h
        exact .stall hc.1 hp hc.2.1 hc.2.2
      · cases h
    · cases h
  | exec j =>
    unfold act at h
    dsimp only at h
    split at h
    · rename_i L hp
      split at h
      · rename_i hc
        cases h
        exact .exec hc hp
      · cases h
    · cases h
  | finish j =>
    unfold act at h
    dsimp only at h
    split at h
    · rename_i hc
      cases h
      exact .finish hc.1 hc.2
    · cases h
  | deliver k =>
    unfold act at h
    dsimp only at h
    split at h
    · rename_i t o rest hc
      split at h
      · rename_i hk
        cases h
        exact .deliver hk hc
      · cases h
    · cases h

theorem acts_reach {M : Federation S V} {x : Nat → S} {d : Nat → Nat} (hd : ∀ k m, M.arr k m = m + d k) {l : List Act} {s s' : State S V}
    (hr : Reach M x s) (h : acts M d s l = some s') : Reach M x s' := by
  induction l generalizing s with
  | nil =>
    cases h
    exact hr
  | cons a l ih =>
    unfold acts at h
    cases ha : act M d s a with
    | none => rw [ha] at h; cases h
    | some s1 =>
      rw [ha] at h
      exact ih (.step hr (act_step hd ha)) h

/-- A run in which a property that can be computed holds at the end. -/
theorem acts_any {M : Federation S V} {x : Nat → S} {d : Nat → Nat} (hd : ∀ k m, M.arr k m = m + d k) (l : List Act) (q : State S V → Bool)
    (h : ((acts M d (before M x) l).any q) = true) : ∃ s, Reach M x s ∧ q s = true := by
  cases hs : acts M d (before M x) l with
  | none => rw [hs] at h; cases h
  | some s =>
    rw [hs] at h
    exact ⟨s, acts_reach hd (.init (before_initial M x)) hs, h⟩

/-- 0 and 3 form a cycle without delay, 1 and 2 form another one, and 0 sends to 1, with delay 100 ns.  0 sends to 3, and 1 to 2, at level 0 and they wait
for the answer at level 1. -/
def relay : Federation Unit Nat where
  P := {
    n := 4
    cfg := fun j => { dec := false, n := if j = 1 then 2 else 1, startTime := 0,
                      port := fun p => { index := if j ≤ 1 ∧ p = 0 then 1 else 0, cycle := decide (p = 0), physical := false } }
    zdc := fun _ => true
    nc := 5
    conn := fun k => if k = 0 then ⟨1, 2, 0, 0, 0, true⟩ else if k = 1 then ⟨2, 1, 0, 1, 1, true⟩ else if k = 2 then ⟨0, 1, 1, 0, 0, false⟩
      else if k = 3 then ⟨0, 3, 0, 0, 0, true⟩ else ⟨3, 0, 0, 1, 1, true⟩
    levels := fun _ => 2
    exec := fun _ _ x _ => x
    out := fun k _ => some k }
  ring := fun j => if j = 0 ∨ j = 3 then 0 else 1
  tau := fun m => ⟨100 * m, 0⟩
  delayed := fun k => decide (k = 2)
  arr := fun k m => m + if k = 2 then 1 else 0
  enter := fun _ _ x => x

theorem relay_wf : WF { relay with ring := fun _ => 0 } := by
  have five : ∀ k, k < relay.P.nc → k = 0 ∨ k = 1 ∨ k = 2 ∨ k = 3 ∨ k = 4 := by
    intro k hk
    change k < 5 at hk
    omega
  refine ⟨fun _ => rfl, ?_, ?_, ?_, ?_, fun _ _ => rfl, ?_, ?_, ?_, ?_, fun j => (by show 2 ≤ 65536; decide), fun _ _ _ _ _ _ => rfl, fun _ _ _ _ _ _ => rfl, ?_,
    fun _ => (by show (0:Nat) < UINT_MAX; decide), ?_, ?_, ?_, fun _ _ _ _ _ => rfl⟩
  · intro k hk
    rcases five k hk with rfl | rfl | rfl | rfl | rfl <;> decide
  · intro k hk
    rcases five k hk with rfl | rfl | rfl | rfl | rfl <;> decide
  · intro k hk
    rcases five k hk with rfl | rfl | rfl | rfl | rfl <;> decide
  · intro k hk k' hk' hd hp
    rcases five k hk with rfl | rfl | rfl | rfl | rfl <;> rcases five k' hk' with rfl | rfl | rfl | rfl | rfl <;>
      first | rfl | (revert hd hp; decide)
  · intro k hk hc
    rcases five k hk with rfl | rfl | rfl | rfl | rfl <;> revert hc <;> decide
  · intro j hj p hp hc
    change j < 4 at hj
    have hp : p = 0 := by
      simp only [relay, decide_eq_true_eq] at hc
      exact hc
    subst hp
    have : j = 0 ∨ j = 1 ∨ j = 2 ∨ j = 3 := by omega
    rcases this with rfl | rfl | rfl | rfl
    · exact ⟨4, by decide, rfl, rfl, rfl⟩
    · exact ⟨1, by decide, rfl, rfl, rfl⟩
    · exact ⟨0, by decide, rfl, rfl, rfl⟩
    · exact ⟨3, by decide, rfl, rfl, rfl⟩
  · intro k hk
    rcases five k hk with rfl | rfl | rfl | rfl | rfl <;> decide
  · intro k hk
    rcases five k hk with rfl | rfl | rfl | rfl | rfl <;> decide
  · intro m
    left
    show (100 * (m : Int)) < 100 * ((m + 1 : Nat) : Int)
    omega
  · intro k hk hd m
    rcases five k hk with rfl | rfl | rfl | rfl | rfl <;> first | rfl | exact absurd hd (by decide)
  · intro k hk hd m
    rcases five k hk with rfl | rfl | rfl | rfl | rfl <;> first | exact absurd hd (by decide) | exact Nat.lt_succ_self m
  · intro k hk m
    show m + _ < m + 1 + _
    omega

theorem relay_ordered : Ordered relay (fun j L => if j ≤ 1 then 10 * L else L + 1) := by
  refine ⟨fun j L => ?_, fun k hk hd => ?_⟩
  · split <;> omega
  · change k < 5 at hk
    have : k = 0 ∨ k = 1 ∨ k = 2 ∨ k = 3 ∨ k = 4 := by omega
    rcases this with rfl | rfl | rfl | rfl | rfl <;> first | decide | (revert hd; decide)

/-- 1 and 2 execute tag 0, and 1 begins tag 1; then 0 executes the first level of tag 0, and its message for tag 1 arrives. -/
def relayRun : List Act :=
  [.ptag 1, .start 1, .stall 1, .exec 1, .deliver 0, .ptag 2, .start 2, .stall 2, .exec 2, .stall 2, .exec 2, .deliver 1, .stall 1, .exec 1,
   .finish 1, .finish 2, .ptag 1, .start 1, .stall 1, .exec 1,
   .ptag 0, .start 0, .stall 0, .exec 0, .deliver 2]

/-- C86.  With a connection with a delay from one cycle to another a message can be too late, although all else is in order. -/
theorem C86_not_with_delays_between_cycles :
    WF { relay with ring := fun _ => 0 } ∧ (∃ rank, Ordered relay rank) ∧ ∃ s, Reach relay (fun _ => ()) s ∧ s.fault = true :=
  ⟨relay_wf, ⟨_, relay_ordered⟩, acts_any (d := fun k => if k = 2 then 1 else 0) (fun _ _ => rfl) relayRun (fun s => s.fault) (by decide +kernel)⟩

end ReactorC.Cycle.Run
