import Verif.Rti.GrantProps
import Verif.Level.Model

/-!
# C25: provisional grants and connections with a delay

The strict bound for provisional grants leaves out every upstream federate that is on a zero-delay cycle, also one on another cycle, and also a connection with a
delay.  Such messages are covered if the upstream federate is also upstream without delay, and only then.
-/

namespace ReactorC.Rti
open ReactorC

section
variable {T : Topology} {start : Int}

theorem Path.mono {conn conn' : Nat → Bool} (h : ∀ j, conn j = true → conn' j = true) {e u : Nat} {ws : List Int} (hp : Path T conn e u ws) :
    Path T conn' e u ws := by
  induction hp with
  | last u w hc hm => exact .last u w (h _ hc) hm
  | step u i w ws hc hm _ ih => exact .step u i w ws (h _ hc) hm ih

/-- C25.  A message over a connection with a delay, from a federate on the same zero-delay cycle (or from any federate from which there is also a path without delay),
is later than a provisional grant. -/
theorem C25_provisional_grant_excludes_delayed_messages_within_cycles (hT : T.Ok) (hD : T.DownOk) (h0 : 0 ≤ start) (h1 : start < FOREVER)
    {σ : Sys} (h : Reach T start σ) {i u : Nat} {g : Tag} (hg : Down.ptag g ∈ σ.rti.out i) {s m : Tag} {w : Int} (hw : 0 ≤ w)
    {q : List Up} (hq : σ.up u = .msg i s w m :: q) (hu : (σ.rti.node u).connected = true)
    {ws : List Int} (hp : Path T (fun j => (σ.rti.node j).connected) i u ws) (hz : ∀ w ∈ ws, w < 0) : g < m := by
  obtain ⟨β, hi⟩ := h.inv hT hD h0 h1
  have hpre := hi.pre u hu
  rw [hq] at hpre
  obtain ⟨hc, hbs, _, _⟩ := hpre
  obtain ⟨hin, conn, ⟨_, hconn⟩, hle⟩ := hi.rti.ptags i g hg
  have hd := delays_le_path hT hin (hp.mono hconn)
  have hzero : pathDelay ws = ZERO_TAG := by
    clear hd hp
    induction ws with
    | nil => rfl
    | cons w ws ih =>
      show through w (pathDelay ws) = ZERO_TAG
      rw [through_eq_zero (delay_pathDelay ws)]
      exact ⟨hz w List.mem_cons_self, ih fun x hx => hz x (List.mem_cons_of_mem _ hx)⟩
  rw [hzero] at hd
  have hd0 : (searchFrom T conn i).delays u = ZERO_TAG := by
    obtain ⟨k1, k2, k3⟩ := (@room_delays T hT conn i hin u).1
    have hz1 : ZERO_TAG.time = 0 := rfl
    have hz2 : ZERO_TAG.microstep = 0 := rfl
    rw [Tag.le_def, hz1, hz2] at hd
    rw [Tag.ext_iff', hz1, hz2]
    omega
  have hb := hle u
  rw [hd0, add_zero (hi.rti.sane u).1] at hb
  have hs : s < lf_delay_tag s w := by
    have hU : UINT_MAX = 4294967295 := rfl
    have hN : NEVER = -9223372036854775808 := rfl
    rcases hc.sane with e | ⟨k1, k2, k3⟩
    · exact absurd e hc.finite
    · exact C04_delay_tag_later_partial s w hc.sane.delay.valid (by omega) hc.finite hw (Or.inl (by omega))
  exact Tag.lt_of_le_of_lt (Tag.le_trans hb hbs) (Tag.lt_of_lt_of_le hs hc.delay)

end

/-! ### Another cycle -/

/-- 0 and 1 form a cycle without delay, 2 and 3 form another one, and 0 sends to 2 with delay 10. -/
def twoCycles : Topology :=
  { n := 4
    up := fun i => if i = 0 then [(1, NEVER)] else if i = 1 then [(0, NEVER)] else if i = 2 then [(0, 10), (3, NEVER)]
      else if i = 3 then [(2, NEVER)] else []
    down := fun i => if i = 0 then [1, 2] else if i = 1 then [0] else if i = 2 then [3] else if i = 3 then [2] else [] }

theorem twoCycles_ok : twoCycles.Ok ∧ twoCycles.DownOk := by
  refine ⟨⟨by decide, fun i u w h => ?_, fun i u w h => ?_⟩, fun i j h => ?_⟩
  · unfold twoCycles at h ⊢; dsimp only at h ⊢
    repeat' split at h
    all_goals simp at h
    all_goals omega
  · unfold twoCycles at h; dsimp only at h
    have : ∀ x ∈ ([10, NEVER] : List Int), IsI64 x := by decide
    refine this w ?_
    repeat' split at h
    all_goals simp at h
    all_goals simp
    all_goals omega
  · unfold twoCycles at h ⊢; dsimp only at h ⊢
    repeat' split at h
    all_goals simp at h
    all_goals omega

/-- 0 and 1 have an event at 100, 2 and 3 at 110. -/
def twoCyclesRun : List Act :=
  [.sendNet 0 ⟨100, 0⟩ ⟨100, 0⟩, .handle 0, .sendNet 1 ⟨100, 0⟩ ⟨100, 0⟩, .handle 1, .sendNet 2 ⟨110, 0⟩ ⟨110, 0⟩, .handle 2,
   .sendNet 3 ⟨110, 0⟩ ⟨110, 0⟩, .handle 3, .sendMsg 0 2 ⟨100, 0⟩ 10 ⟨110, 0⟩, .handle 0]

/-- The federate 2: port 0 is that of the connection with the delay, which is not in the table of zero-delay cycles; its reaction is at level 0; port 1 is that of the
connection from 3, and its reaction is at level 1. -/
def federate2 : Level.Config :=
  { dec := false
    n := 2
    port := fun p => if p = 0 then { index := 0, delay := 10, source := 0 } else { index := 1, cycle := true, source := 3 }
    startTime := 0 }

/-- It is at 90. -/
def federate2At90 : Level.State :=
  { phase := .running, cur := ⟨90, 0⟩, mlaa := Level.INT_MAX, known := fun _ => ⟨90, 0⟩, status := fun _ => .absent, lastTAG := ⟨90, 0⟩, prov := false
    now := 0, staaWait := none, asleep := fun _ => false, admitted := fun _ => false, hist := [] }

/-- C85.  A federate on a zero-delay cycle that receives messages with a delay from a federate on another one gets a provisional grant for a tag before a
message with this tag.  It does not wait for the message before the level of its reaction (`mlaa` is 1), and when the message comes in it
is neither handled at once nor in the future, so that the federate ends with an error, core/federated/federate.c:367-378. -/
theorem C85_not_delayed_messages_between_cycles :
    (∃ σ, Reach twoCycles 0 σ ∧ σ.rti.out 2 = [.ptag ⟨0, 0⟩, .ptag ⟨110, 0⟩, .msg ⟨110, 0⟩]) ∧
    let lv := Level.nextTag federate2 (Level.handlePtag federate2 federate2At90 ⟨110, 0⟩) ⟨110, 0⟩ (fun _ => false) (fun _ => false)
    lv.mlaa = 1 ∧ Level.handleMessageNow federate2 lv 0 ⟨110, 0⟩ true = false ∧ (⟨110, 0⟩ : Tag) ≤ lv.cur :=
  ⟨sentTo_reach (l := twoCyclesRun) (by decide +kernel), by decide +kernel, by decide +kernel, by decide +kernel⟩

/-- A state as in `C25_provisional_grant_excludes_delayed_messages_within_cycles`: 0 and 1 send to each other without delay, and 0 to 1 also with delay 10. -/
def sameCycle : Topology :=
  { n := 2
    up := fun i => if i = 0 then [(1, NEVER)] else if i = 1 then [(0, 10), (0, NEVER)] else []
    down := fun i => if i = 0 then [1] else if i = 1 then [0] else [] }

def sameCycleRun : List Act :=
  [.sendNet 0 ⟨100, 0⟩ ⟨100, 0⟩, .handle 0, .sendNet 1 ⟨100, 0⟩ ⟨100, 0⟩, .handle 1, .sendMsg 0 1 ⟨100, 0⟩ 10 ⟨110, 0⟩]

example : ∃ σ, Reach sameCycle 0 σ ∧ Down.ptag ⟨100, 0⟩ ∈ σ.rti.out 1 ∧ σ.up 0 = [.msg 1 ⟨100, 0⟩ 10 ⟨110, 0⟩] ∧
    (σ.rti.node 0).connected = true ∧ ∃ ws, Path sameCycle (fun j => (σ.rti.node j).connected) 1 0 ws ∧ ∀ w ∈ ws, w < 0 := by
  cases h : execAll sameCycle 0 (initSys 0) sameCycleRun with
  | none =>
    have : (execAll sameCycle 0 (initSys 0) sameCycleRun).isSome = true := by decide +kernel
    rw [h] at this; cases this
  | some σ =>
    have a : ((execAll sameCycle 0 (initSys 0) sameCycleRun).any fun σ =>
        decide (Down.ptag ⟨100, 0⟩ ∈ σ.rti.out 1) && decide (σ.up 0 = [.msg 1 ⟨100, 0⟩ 10 ⟨110, 0⟩]) &&
          (σ.rti.node 0).connected && (σ.rti.node 1).connected) = true := by decide +kernel
    rw [h] at a
    simp only [Option.any_some, Bool.and_eq_true, decide_eq_true_eq] at a
    exact ⟨σ, execAll_reach .init h, a.1.1.1, a.1.1.2, a.1.2, [NEVER], .last 0 NEVER a.2 (by decide), by decide⟩

end ReactorC.Rti
