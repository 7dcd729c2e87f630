import Verif.Level.Orderly

/-!
# C45: level-by-level input waiting admits only known inputs

`Reach c orderly s`: `s` can come about in the federate `c`, with any messages, notices, grants, timeouts and tag advances in
any order (`orderly = false`), or if what comes in is in order (`orderly = true`, see `Step`).
-/

namespace ReactorC.Level
open ReactorC

theorem reach_inv {c : Config} (hw : WF c) {b : Bool} {s : State} (h : Reach c b s) : Inv c s := by
  induction h with
  | init now => exact Inv.init hw now
  | step _ st ih => exact ih.step hw st

theorem reach_ord {c : Config} (hw : WF c) {s : State} (h : Reach c true s) : Ord c s := by
  induction h with
  | init now => exact Ord.init hw now
  | step h st ih => exact ih.step hw (reach_inv hw h) st

/-! ## Specification -/

/-- The ports the federate waits for: all of them with decentralized coordination, those in a zero-delay cycle otherwise;
but no physical connections. -/
def WaitsFor (c : Config) (i : Nat) : Prop :=
  i < c.n ∧ (c.dec = true ∨ (c.port i).cycle = true) ∧ (c.port i).physical = false

/-- With decentralized coordination, no message can come in at a tag through a connection with a delay if the tag is too
close to the start tag: any tag at which the sender could have sent it, is not earlier than the start tag. -/
def TooEarly (c : Config) (i : Nat) (t : Tag) : Prop :=
  c.dec = true ∧ 0 ≤ (c.port i).delay ∧
    ∀ sent : Tag, c.start ≤ sent → sent.microstep < UINT_MAX → t < lf_delay_tag sent (c.port i).delay

/-- The RTI has granted the tag: finally, or a later tag at least provisionally. -/
def IsGranted (c : Config) (s : State) : Prop :=
  c.dec = false ∧ (s.cur < s.lastTAG ∨ (s.cur = s.lastTAG ∧ s.prov = false))

theorem exempt_tooEarly {c : Config} (hw : WF c) {t : Tag} (hF : t.time < FOREVER) {i : Nat} (h : exempt c t i = true) :
    TooEarly c i t := by
  unfold exempt at h
  simp only [Bool.and_eq_true, Bool.or_eq_true, decide_eq_true_eq, cmp_le_zero] at h
  have hlow := hw.low
  have hsta := hw.sta
  have hpos := hw.pos
  have hst : c.start.time = c.startTime := rfl
  refine ⟨h.1, ?_, ?_⟩
  · rcases h.2 with h1 | h1 <;> omega
  · intro sent hs hm
    rw [Tag.le_def] at hs
    have h0 : c.start.microstep = 0 := rfl
    have hsn : sent.time ≠ NEVER := by rw [hst] at hs; omega
    have hcn : c.start.time ≠ NEVER := by rw [hst]; omega
    rcases h.2 with ⟨⟨h1, h2⟩, h3⟩ | ⟨h1, h2⟩
    · rcases lf_delay_tag_cases sent (c.port i).delay with ⟨h4, _⟩ | ⟨_, _, h4, h5⟩ | ⟨_, _, _, h5⟩ | ⟨_, h4, _⟩
      · rcases h4 with h4 | h4 <;> omega
      · rw [h5, Tag.lt_def]; left; exact hF
      · have : wrapU32 (sent.microstep + 1) = sent.microstep + 1 := by
          unfold wrapU32; unfold UINT_MAX at hm; omega
        rw [h5, this, Tag.lt_def]; simp only []; omega
      · omega
    · rcases lf_delay_tag_cases sent (c.port i).delay with ⟨h4, _⟩ | ⟨_, _, h4, h5⟩ | ⟨_, h4, _⟩ | ⟨_, h4, h6, h5⟩
      · rcases h4 with h4 | h4 <;> omega
      · rw [h5, Tag.lt_def]; left; exact hF
      · omega
      · rw [h5, Tag.lt_def]
        left
        show t.time < sent.time + (c.port i).delay
        rcases lf_delay_tag_cases c.start (c.port i).delay with ⟨h7, _⟩ | ⟨_, _, h7, h8⟩ | ⟨_, h7, _⟩ | ⟨_, _, h7, h8⟩
        · rcases h7 with h7 | h7 <;> omega
        · omega
        · omega
        · rcases lf_delay_strict_cases c.start (c.port i).delay with ⟨h9, h10⟩ | ⟨_, _, _, _, _, h10⟩
          · rw [h8] at h9
            simp only [] at h9
            unfold NEVER FOREVER at *
            omega
          · rw [h10, h8, Tag.le_def] at h2
            simp only [] at h2
            omega

/-! ## The theorems -/

/-- **C45** When a worker has got past the wait for level `L` at the current tag, the status of every port of this or a lower
level that the federate waits for is known at the current tag, the RTI has granted the tag, or no message can come in at this
tag. -/
theorem C45_known_before_executing (c : Config) (hw : WF c) (b : Bool) (s : State) (h : Reach c b s) (L : Nat)
    (hL : s.admitted L = true) (i : Nat) (hi : WaitsFor c i) (hl : (c.port i).level ≤ L) :
    s.cur ≤ s.known i ∨ IsGranted c s ∨ TooEarly c i s.cur := by
  have inv := reach_inv hw h
  obtain ⟨hn, ht, hp⟩ := hi
  rcases (inv.admitted L hL).2 with hg | hb
  · exact Or.inr (Or.inl ((granted_iff _ _ _ _).1 hg))
  · have hb' := hb i hn hl
    cases he : exempt c s.cur i with
    | true => exact Or.inr (Or.inr (exempt_tooEarly hw inv.curTime he))
    | false =>
      left
      rw [← Tag.not_lt]
      intro hlt
      have : blocks c s.cur s.known i = true := by
        rw [blocks_iff]
        refine ⟨?_, he, hlt, hp⟩
        unfold inTable
        rcases ht with ht | ht <;> rw [ht] <;> simp
      rw [hb'] at this; cases this

/-- **C45** If what comes in is in order, the status is known for a reason: a message or a notice has come in on this very
port for this or a later tag, the RTI has granted the tag, the sender is gone, the time for waiting has run out, or no
message can come in at this tag. -/
theorem C45_known_for_a_reason_partial (c : Config) (hw : WF c) (s : State) (h : Reach c true s) (L : Nat)
    (hL : s.admitted L = true) (i : Nat) (hi : WaitsFor c i) (hl : (c.port i).level ≤ L) :
    Evidence s.hist i s.cur ∨ TooEarly c i s.cur := by
  have inv := reach_inv hw h
  have ord := reach_ord hw h
  rcases C45_known_before_executing c hw true s h L hL i hi hl with h1 | ⟨_, h1⟩ | h1
  · exact Or.inl (ord.evidence i hi.1 s.cur (cur_gt_never inv) inv.curTime h1)
  · left
    have hne : s.lastTAG ≠ NEVER_TAG := by
      have := cur_gt_never inv
      rcases h1 with h1 | ⟨h1, _⟩
      · intro hx; rw [hx] at h1; exact Tag.lt_irrefl _ (Tag.lt_trans h1 this)
      · intro hx; rw [h1, hx] at this; exact Tag.lt_irrefl _ this
    rcases ord.grants with h2 | ⟨_, h2⟩ | ⟨h3, h2⟩
    · exact absurd h2 hne
    · refine ⟨_, h2, ?_⟩
      rcases h1 with h1 | ⟨h1, _⟩
      · exact Tag.le_of_lt h1
      · rw [h1]; exact Tag.le_refl _
    · refine ⟨_, h2, ?_⟩
      rcases h1 with h1 | ⟨_, h1⟩
      · exact h1
      · rw [h3] at h1; cases h1
  · exact Or.inr h1

/-- **C45** The known status of a port never goes backwards (as long as no microstep overflows, see `Step`). -/
theorem C45_status_never_goes_back (c : Config) (b : Bool) (s s' : State) (st : Step c b s s') (i : Nat) (t : Tag)
    (hF : t.time < FOREVER) (h : t ≤ s.known i) : t ≤ s'.known i := by
  have up : ∀ (s : State) j g, Small (s.known j) → t ≤ s.known i → t ≤ (updatePort c s j g).known i := by
    intro s j g hs h
    rcases updatePort_cases c s j g with ⟨h1, _⟩ | h1
    · rw [h1]; exact h
    · rw [h1]
      show t ≤ upd s.known j _ i
      unfold upd
      split
      · rename_i hij; subst hij; exact newKnown_ge hs hF h
      · exact h
  cases st with
  | message hi hph hg hs ho =>
    show t ≤ (handleMessage c s _ _ _).known i
    unfold handleMessage
    split
    · exact up s _ _ hs h
    · exact up s _ _ hs h
  | absent hi hg hs ho => exact up s _ _ hs h
  | @grant g hd ho =>
    obtain ⟨m, sl, p, he, _⟩ := handleTag_cases c s g
    rw [he]
    exact Tag.le_trans h (knownAfterGrant_ge s g i).1
  | provisional hd h1 h2 => exact h
  | gone hd hi hs => exact up s _ _ hs h
  | begin hp => exact h
  | run hp => exact h
  | @next g tardy present hp hlt hF hU ho =>
    show t ≤ if tardy i && decide (lf_tag_compare g (s.known i) > 0) then g else s.known i
    split
    · rename_i ht
      simp only [Bool.and_eq_true, decide_eq_true_eq, gt_iff_lt, cmp_gt_zero] at ht
      exact Tag.le_trans h (Tag.le_of_lt ht.2)
    · exact h
  | stall hp => unfold stall; split <;> exact h
  | clock ht => exact h
  | arm hd hp => exact h
  | timeout hi hwt ho hc hst hs hor => exact up { s with status := _ } _ _ hs h

/-- **C45** (limit) When the microstep overflows, it does: a second notice about the last microstep of a time makes the status
at that tag unknown again. -/
theorem C45_last_microstep_goes_back : newKnown ⟨5, UINT_MAX⟩ ⟨5, UINT_MAX⟩ ⟨5, UINT_MAX⟩ = ⟨5, 0⟩ := by decide

/-- **C45** A message for the current tag that is handled at once finds that no worker has got to the level of its reaction
yet, unless a later tag has been granted or no message could come in at this tag. -/
theorem C45_direct_messages_are_ahead (c : Config) (hw : WF c) (b : Bool) (s : State) (h : Reach c b s) (i : Nat)
    (hi : WaitsFor c i) (g : Tag) (recent : Bool) (hn : handleMessageNow c s i g recent = true)
    (hg : ¬ (c.dec = false ∧ s.cur < s.lastTAG)) (he : ¬ TooEarly c i s.cur) (L : Nat) (hl : (c.port i).level ≤ L) :
    s.admitted L = false := by
  have inv := reach_inv hw h
  cases hL : s.admitted L with
  | false => rfl
  | true =>
    exfalso
    unfold handleMessageNow at hn
    simp only [Bool.and_eq_true, decide_eq_true_eq, cmp_eq_zero, gt_iff_lt, cmp_gt_zero] at hn
    have hlt : s.known i < s.cur := by rw [← hn.1.1.1.1.2]; exact hn.1.1.2
    rcases C45_known_before_executing c hw b s h L hL i hi hl with h1 | ⟨h0, h1⟩ | h1
    · exact Tag.lt_irrefl _ (Tag.lt_of_lt_of_le hlt h1)
    · rcases h1 with h1 | ⟨h1, h2⟩
      · exact hg ⟨h0, h1⟩
      · rcases inv.taken h2 i hi.1 with h3 | h3
        · rw [← h1] at h3; exact Tag.lt_irrefl _ (Tag.lt_of_lt_of_le hlt h3)
        · have := inv.curTime
          rw [Tag.lt_def] at hlt; omega
    · exact he h1

theorem level_lt (p : Port) : p.level < INT_MAX := by
  have : p.level < 65536 := Nat.mod_lt _ (by decide)
  unfold INT_MAX; omega

/-- **C45** A worker sleeps in the wait for a level only while there is a port of this or a lower level, that the federate
waits for, whose status is not known at the current tag; so no wakeup is lost. (Levels are less than `INT_MAX`; they have 16
bits.) -/
theorem C45_sleeps_only_for_unknown_ports (c : Config) (hw : WF c) (b : Bool) (s : State) (h : Reach c b s) (L : Nat)
    (hb : L < INT_MAX) (hs : s.asleep L = true) (hr : s.phase = .running) :
    ∃ i, WaitsFor c i ∧ (c.port i).level ≤ L ∧ s.known i < s.cur := by
  have inv := reach_inv hw h
  have h1 := inv.asleep L hs
  rcases inv.reason with h2 | ⟨i, hi, h2, h3, h4, h5⟩
  · omega
  · refine ⟨i, ⟨hi, ?_, h3⟩, by omega, ?_⟩
    · unfold inTable at h2; simpa using h2
    · unfold ref at h4; rw [if_neg (by rw [hr]; simp)] at h4; exact h4

/-- **C45** If the RTI does not take grants back, nobody sleeps while the current tag is granted. -/
theorem C45_grant_wakes (c : Config) (hw : WF c) (s : State) (h : Reach c true s) (hr : s.phase = .running)
    (hg : IsGranted c s) (L : Nat) (hb : L < INT_MAX) : s.asleep L = false := by
  cases hs : s.asleep L with
  | false => rfl
  | true =>
    exfalso
    have inv := reach_inv hw h
    have h1 := inv.asleep L hs
    rcases (reach_ord hw h).reason with h2 | ⟨h2, _⟩
    · omega
    · unfold ref at h2
      rw [if_neg (by rw [hr]; simp), (granted_iff _ _ _ _).2 hg] at h2; cases h2

/-- **C45** No port is assumed absent before its time: except with the option `-fast`, physical time was, up to 10 microseconds,
the tag plus STAA plus STA. -/
theorem C45_absent_only_after_staa (c : Config) (hw : WF c) (b : Bool) (s : State) (h : Reach c b s) (i : Nat) (t : Tag)
    (now : Int) (hm : .timeout i t now ∈ s.hist) :
    c.fast = true ∨ lf_time_add t.time (lf_time_add (c.port i).staa c.sta) - MIN_SLEEP_DURATION < now := by
  induction h with
  | init _ => cases hm
  | @step s s' hr st ih =>
    have inv := reach_inv hw hr
    cases st with
    | message hi hph hg hs ho => rw [List.mem_cons] at hm; exact hm.elim (fun h => (by cases h)) ih
    | absent hi hg hs ho => rw [List.mem_cons] at hm; exact hm.elim (fun h => (by cases h)) ih
    | grant hd ho => rw [List.mem_cons] at hm; exact hm.elim (fun h => (by cases h)) ih
    | provisional hd h1 h2 => rw [List.mem_cons] at hm; exact hm.elim (fun h => (by cases h)) ih
    | gone hd hi hs => rw [List.mem_cons] at hm; exact hm.elim (fun h => (by cases h)) ih
    | begin hp => exact ih hm
    | run hp => exact ih hm
    | next => exact ih hm
    | stall hp => unfold stall at hm; split at hm <;> exact ih hm
    | clock ht => exact ih hm
    | arm hd hp => exact ih hm
    | @timeout j t' u hi hwt ho hc hst hs hor =>
      rw [List.mem_cons] at hm
      rcases hm with hm | hm
      · simp only [Heard.timeout.injEq] at hm
        obtain ⟨rfl, rfl, rfl⟩ := hm
        rcases ho with ho | ho
        · exact Or.inl ho
        · right
          have h1 := (inv.staa _ _ _ hwt).1
          rw [← hc] at h1
          unfold staaUntil at h1
          simp only [] at h1
          unfold MIN_SLEEP_DURATION at *
          split at h1 <;> omega
      · exact ih hm

/-- **C45** Nor long after it: the wait is for the tag plus STAA plus STA if these two are at least 50 microseconds together, and
for 50 microseconds more if they are less; so a wait that goes on has not come to that time. -/
theorem C45_absent_soon_after_staa (c : Config) (hw : WF c) (b : Bool) (s : State) (h : Reach c b s) (t : Tag) (v u : Int)
    (hs : s.staaWait = some (t, v, u)) :
    (50000 ≤ lf_time_add v c.sta → u = lf_time_add t.time (lf_time_add v c.sta)) ∧
    (lf_time_add v c.sta < 50000 → u = lf_time_add t.time (lf_time_add v c.sta) + 50000) ∧ (u ≤ s.now → waitOver c s.now u) := by
  have h1 := ((reach_inv hw h).staa _ _ _ hs).1
  subst h1
  unfold staaUntil waitOver MIN_SLEEP_DURATION
  refine ⟨fun h => ?_, fun h => ?_, fun h => Or.inr ?_⟩
  · simp only []; rw [if_neg (by omega)]
  · simp only []; rw [if_pos (by omega)]; omega
  · simp only [] at h ⊢; omega

/-! ## Non-vacuity -/

/-- Centralized coordination: ports 0 and 1 in a zero-delay cycle, at levels 1 and 3, port 2 outside. -/
def cfgC : Config where
  dec := false
  n := 3
  port := fun i => match i with
    | 0 => { index := 65536 * 7 + 1, cycle := true }
    | 1 => { index := 65536 * 7 + 3, cycle := true }
    | _ => { index := 65536 * 7 + 2 }
  startTime := 100

theorem wf_cfgC : WF cfgC := ⟨by decide, fun _ => rfl, by decide, by decide, by decide⟩

def c1 := { handlePtag cfgC (init cfgC 0) ⟨100, 0⟩ with hist := [.provisional ⟨100, 0⟩] }
def c2 : State := { c1 with phase := .atStart, cur := cfgC.start }
def c3 : State := { c2 with phase := .running }
def c4 := stall c3 0
def c5 := stall c4 1
def c6 := { updatePort cfgC c5 0 ⟨100, 0⟩ with hist := .absent 0 ⟨100, 0⟩ :: c5.hist }
def c7 := stall (stall c6 1) 2

theorem small_never : Small NEVER_TAG := fun _ => by decide

/-- A provisional grant for the start tag: level 0 is executed, level 1 waits for port 0; a notice on it releases levels 1
and 2. -/
theorem reach_c7 : Reach cfgC true c7 := by
  refine .step (.step (.step (.step (.step (.step (.step (.step (.init 0) (.provisional rfl ?_ ?_)) (.begin rfl)) (.run rfl))
    (.stall rfl)) (.stall rfl)) (.absent ?_ ?_ ?_ ?_)) (.stall ?_)) (.stall ?_)
  · decide
  · decide
  · decide
  · decide
  · exact small_never
  · intro _
    refine ⟨by decide, ?_⟩
    rintro ⟨h, hm, hx⟩
    replace hm : h ∈ [Heard.provisional ⟨100, 0⟩] := hm
    rw [List.mem_singleton] at hm
    subst hm
    exact absurd hx (by decide)
  · decide
  · decide

example : c4.admitted 0 = true ∧ c5.asleep 1 = true ∧ c5.admitted 1 = false ∧ c7.asleep 1 = false ∧ c7.admitted 1 = true ∧
    c7.admitted 2 = true ∧ c7.mlaa = 3 := by decide

example : WaitsFor cfgC 0 ∧ (cfgC.port 0).level ≤ 2 ∧ Evidence c7.hist 0 c7.cur := by
  refine ⟨⟨by decide, Or.inr rfl, rfl⟩, by decide, .absent 0 ⟨100, 0⟩, by decide, rfl, by decide⟩

/-- In `c5`, a message on port 0 at the current tag would be handled at once. -/
example : handleMessageNow cfgC c5 0 ⟨100, 0⟩ true = true ∧ ¬ (cfgC.dec = false ∧ c5.cur < c5.lastTAG) ∧
    ¬ TooEarly cfgC 0 c5.cur := by
  refine ⟨by decide, by decide, fun h => absurd h.1 (by decide)⟩

/-! ## Limits with decentralized coordination -/

/-- Decentralized coordination with two ports at level 1, STAA 0. -/
def cfgD : Config where
  dec := true
  n := 2
  port := fun _ => { index := 65536 * 7 + 1 }
  startTime := 100

theorem wf_cfgD : WF cfgD := ⟨by decide, fun h => (by cases h), by decide, by decide, by decide⟩

def noPorts : Nat → Bool := fun _ => false

def d1 : State := { init cfgD 0 with phase := .atStart, cur := cfgD.start }
def d2 : State := { d1 with phase := .running }
/-- The federate, having advanced to time 110, has heard nothing. -/
def d3 := nextTag cfgD d2 ⟨110, 0⟩ noPorts noPorts
/-- A late notice, about time 105, comes in on both ports. -/
def d4 := { updatePort cfgD d3 0 ⟨105, 0⟩ with hist := .absent 0 ⟨105, 0⟩ :: d3.hist }
def d5 := { updatePort cfgD d4 1 ⟨105, 0⟩ with hist := .absent 1 ⟨105, 0⟩ :: d4.hist }
def d6 := stall d5 1

theorem reach_d3 (b : Bool) : Reach cfgD b d3 :=
  .step (.step (.step (.init 0) (.begin rfl)) (.run rfl)) (.next rfl (by decide) (by decide) (by decide) (fun _ _ => rfl))

theorem reach_d6 : Reach cfgD false d6 :=
  .step (s := d5) (.step (s := d4) (.step (reach_d3 false)
    (.absent (i := 0) (by decide) (by decide) small_never (fun h => (by cases h))))
    (.absent (i := 1) (by decide) (by decide) small_never (fun h => (by cases h)))) (.stall (by decide))

/-- **C45** (limit) With decentralized coordination, a late notice, that a port was absent at an earlier tag, counts as
knowledge about the current tag: reactions are executed although nothing is known about the current tag, and before the time
for waiting has run out. -/
theorem C45_late_notice_unblocks : ∃ s : State, Reach cfgD false s ∧ s.admitted 1 = true ∧ WaitsFor cfgD 0 ∧
    (cfgD.port 0).level ≤ 1 ∧ s.cur = ⟨110, 0⟩ ∧ s.hist = [.absent 1 ⟨105, 0⟩, .absent 0 ⟨105, 0⟩] ∧
    ¬ Evidence s.hist 0 s.cur ∧ ¬ TooEarly cfgD 0 s.cur := by
  refine ⟨d6, reach_d6, by decide, ⟨by decide, Or.inl rfl, rfl⟩, by decide, by decide, by decide, ?_, ?_⟩
  · rintro ⟨h, hm, hx⟩
    replace hm : h ∈ [Heard.absent 1 ⟨105, 0⟩, .absent 0 ⟨105, 0⟩] := hm
    simp only [List.mem_cons, List.not_mem_nil, or_false] at hm
    rcases hm with rfl | rfl
    · exact absurd hx.1 (by decide)
    · exact absurd hx.2 (by decide)
  · rintro ⟨_, h, _⟩; exact absurd h (by decide)

/-- The notice for the current tag comes in on port 0; the time for waiting runs out all the same, as the notice does not
change the status the thread looks at. -/
def e1 := { updatePort cfgD d3 0 ⟨110, 0⟩ with hist := .absent 0 ⟨110, 0⟩ :: d3.hist }
def e2 : State := { e1 with staaWait := some (⟨110, 0⟩, 0, staaUntil cfgD ⟨110, 0⟩ 0) }
def e3 : State := { e2 with now := 1000000 }
def e4 := { updatePort cfgD { e3 with status := upd e3.status 0 .absent } 0 e3.cur with
  hist := .timeout 0 e3.cur e3.now :: e3.hist }

/-- **C45** (limit) With decentralized coordination, if the time for waiting runs out after a notice for the current tag has
come in, the port counts as known one microstep too far: at that microstep, a message would be late although it comes in time.
The federate has heard nothing about that microstep. -/
theorem C45_notice_and_timeout_claim_next_microstep : ∃ s : State, Reach cfgD false s ∧ s.cur = ⟨110, 0⟩ ∧
    s.known 0 = ⟨110, 1⟩ ∧ s.hist = [.timeout 0 ⟨110, 0⟩ 1000000, .absent 0 ⟨110, 0⟩] := by
  refine ⟨e4, ?_, by decide, by decide, by decide⟩
  refine .step (.step (.step (.step (reach_d3 false) (.absent (by decide) (by decide) small_never (fun h => (by cases h))))
    (.arm (v := 0) rfl (by decide))) (.clock (t := 1000000) (by decide)))
    (.timeout (t := ⟨110, 0⟩) (u := staaUntil cfgD ⟨110, 0⟩ 0) (by decide) (by decide) (Or.inr (by decide)) (by decide)
      (by decide) ?_ (fun h => (by cases h)))
  intro _; decide

/-- A message for the start tag, before the start. -/
def f1 := { handleMessage cfgD (init cfgD 0) 0 ⟨100, 0⟩ true with hist := [.message 0 ⟨100, 0⟩] }

/-- **C45** (limit) With decentralized coordination and no STA offset, a message for the start tag that comes in before the
start makes the port known one microstep too far. -/
theorem C45_start_message_claims_next_microstep : ∃ s : State, Reach cfgD false s ∧ s.phase = .waiting ∧
    s.known 0 = ⟨100, 1⟩ ∧ s.hist = [.message 0 ⟨100, 0⟩] :=
  ⟨f1, .step (.init 0) (.message (recent := true) (by decide) rfl (by decide) small_never (fun h => (by cases h))), by decide,
    by decide, by decide⟩

/-- **C45** (limit) The first test for handling a message at once, that somebody waits for the level of its reaction, compares
the level bound with the index of the reaction, which contains the deadline: without a deadline (or with one of at least 33
microseconds) it always succeeds. -/
theorem C45_level_test_is_void (c : Config) (hw : WF c) (b : Bool) (s : State) (h : Reach c b s) (i : Nat)
    (hd : 32768 ≤ (c.port i).index / 65536) : s.mlaa ≤ (c.port i).index := by
  have inv := reach_inv hw h
  have : s.mlaa ≤ INT_MAX := by
    rcases inv.reason with h1 | ⟨j, _, _, _, _, h1⟩
    · omega
    · have := level_lt (c.port j); omega
  unfold INT_MAX at this
  omega

end ReactorC.Level
