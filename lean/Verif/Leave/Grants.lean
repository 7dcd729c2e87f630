import Verif.Rti.ProgressProps

/-!
# C82: the grants of the others when a federate leaves or crashes
-/

set_option linter.unusedSimpArgs false
set_option linter.unusedVariables false

namespace ReactorC.Rti
open ReactorC

section
variable {T : Topology} {start : Int}

/-- C82.  Who has resigned, or has said that it failed, blocks nobody: in every state reached without a failure of a socket and
before a stop is requested, a connected federate whose next event tag the RTI has handled waits for no grant, or has been sent
a grant for this tag, if only each *connected* federate upstream of it (directly or not) has a next event too late to cause
anything, along any path, at this tag or before.  Those upstream that have left are not looked at. -/
theorem C82_departed_federates_block_nobody_partial (hT : T.Ok) (hD : T.DownOk) (hK : T.Consistent) (hz : T.NoZeroDelayCycle)
    (h0 : 0 ≤ start) (h1 : start < FOREVER) {σ : Sys} {R : Nat → Bool} (h : Run T start σ R) {e : Nat} (he : e < T.n)
    (hR : R e = true) (hc : (σ.rti.node e).connected = true) (hF : (σ.rti.node e).nextEvent < FOREVER_TAG)
    (hup : ∀ x ws, Path T (fun _ => true) e x ws → (σ.rti.node x).connected = true →
      R x = true ∧ (σ.rti.node e).nextEvent < lf_tag_add (σ.rti.node x).nextEvent (pathDelay ws)) :
    T.up e = [] ∨ ∃ g, Down.tag g ∈ σ.rti.out e ∧ (σ.rti.node e).nextEvent ≤ g := by
  obtain ⟨p, _, c⟩ := h.current hT hD hz hK h0 h1
  obtain ⟨β, sv⟩ := h.reach.inv hT hD h0 h1
  obtain ⟨hne, hs⟩ := c e hR
  have hg : (σ.rti.node e).nextEvent ≤ (σ.rti.node e).lastGranted := by
    rcases hs with k | k | k | ⟨conn, x, k1, k2⟩
    · rw [hc] at k; cases k
    · exact absurd (Tag.lt_of_lt_of_le hF k) (Tag.lt_irrefl _)
    · exact k
    · exfalso
      obtain ⟨hdel, hroom⟩ := @room_delays T hT conn e he x
      obtain ⟨g, _⟩ := searchFrom_spec (conn := conn) hT he
      rcases g.entry x with m | ⟨hx, _, _, ws, hp, hpd, _⟩
      · rw [m] at k1; exact Tag.lt_irrefl _ k1
      by_cases hxc : (σ.rti.node x).connected = true
      · obtain ⟨r1, r2⟩ := hup x ws hp.all hxc
        have heff : eff start σ.rti x = (σ.rti.node x).nextEvent := by unfold eff; rw [if_neg (c x r1).1]
        rw [heff, ← hpd] at k2
        exact Tag.lt_irrefl _ (Tag.lt_of_lt_of_le r2 k2)
      · have heff : eff start σ.rti x = FOREVER_TAG := by
          unfold eff; rw [p.gone x (by simpa using hxc)]; rfl
        rw [heff, add_forever_left hdel] at k2
        exact Tag.lt_irrefl _ (Tag.lt_of_lt_of_le hF k2)
  by_cases hu : T.up e = []
  · exact .inl hu
  right
  rcases p.sent e hu with m | m
  · rw [m] at hg
    have := ((sv.rti.next e).1.resolve_left hne).time
    have : NEVER_TAG.time < 0 := by decide
    exfalso; tag_omega
  · exact ⟨_, m, hg⟩

end

/-! ## A federate that crashes -/

/-- 0 sends to 1, and 1 to 2, without delay. -/
def chain : Topology :=
  { n := 3
    up := fun i => if i = 1 then [(0, NEVER)] else if i = 2 then [(1, NEVER)] else []
    down := fun i => if i = 0 then [1] else if i = 1 then [2] else [] }

/-- The federates report their next events 5, 20 and 9. -/
def reports : List Act :=
  [.sendNet 0 ⟨5, 0⟩ ⟨5, 0⟩, .sendNet 1 ⟨20, 0⟩ ⟨20, 0⟩, .sendNet 2 ⟨9, 0⟩ ⟨9, 0⟩, .handle 0, .handle 1, .handle 2]

/-- The hypotheses of `C82_departed_federates_block_nobody_partial` are met: after federate 0 has resigned, 1 and 2 are granted. -/
example : sentTo chain 0 (reports ++ [.sendResign 0, .handle 0]) 1 = some [.tag FOREVER_TAG] ∧
    sentTo chain 0 (reports ++ [.sendResign 0, .handle 0]) 2 = some [.tag ⟨9, 0⟩] := by decide +kernel

/-- The RTI when it has handled the reports and federate 0 has crashed. -/
structure Stuck (s : Rti) : Prop where
  next0 : (s.node 0).nextEvent = ⟨5, 0⟩
  next1 : (s.node 1).nextEvent = ⟨20, 0⟩
  gone0 : (s.node 0).connected = false
  conn1 : (s.node 1).connected = true
  conn2 : (s.node 2).connected = true
  done1 : (s.node 1).completed = NEVER_TAG
  granted2 : (s.node 2).lastGranted = NEVER_TAG
  cache1 : (s.node 1).cache = some ([(0, ZERO_TAG)], false)
  cache2 : (s.node 2).cache = some ([(0, ZERO_TAG), (1, ZERO_TAG)], false)
  transit2 : s.transit 2 = []
  out1 : s.out 1 = []
  out2 : s.out 2 = []

theorem stuck_heard {s : Rti} {i : Nat} (h : (s.node i).nextEvent = ⟨5, 0⟩ ∨ (s.node i).nextEvent = ⟨20, 0⟩) :
    heard 0 i s = s := by
  unfold heard
  rcases h with h | h <;> (rw [h]; rfl)

theorem Stuck.updateMin1 {s : Rti} (h : Stuck s) : updateMin chain 1 s = s := by unfold updateMin; rw [h.cache1]
theorem Stuck.updateMin2 {s : Rti} (h : Stuck s) : updateMin chain 2 s = s := by unfold updateMin; rw [h.cache2]

theorem Stuck.eimt2 {s : Rti} (h : Stuck s) : eimt chain 0 2 s = (s, ⟨5, 0⟩) := by
  unfold eimt
  rw [h.updateMin2]
  unfold Rti.entries
  rw [h.cache2]
  simp only [List.foldl]
  rw [stuck_heard (.inl h.next0), h.next0]
  have e1 : (if lf_tag_compare (lf_tag_add ⟨5, 0⟩ ZERO_TAG) FOREVER_TAG < 0 then (s, lf_tag_add ⟨5, 0⟩ ZERO_TAG)
      else (s, FOREVER_TAG)) = (s, (⟨5, 0⟩ : Tag)) := rfl
  rw [e1]
  dsimp only
  rw [stuck_heard (.inr h.next1), h.next1]
  rfl

theorem Stuck.eimt1 {s : Rti} (h : Stuck s) : (eimt chain 0 1 s).1 = s := by
  unfold eimt
  rw [h.updateMin1]
  unfold Rti.entries
  rw [h.cache1]
  simp only [List.foldl]
  rw [stuck_heard (.inl h.next0)]
  split <;> rfl

theorem Stuck.strict2 {s : Rti} (h : Stuck s) : (eimtStrict chain 0 2 s).1 = s := by
  unfold eimtStrict
  have hup : chain.up 2 = [(1, NEVER)] := rfl
  rw [hup]
  simp only [List.foldl]
  unfold isInZeroDelayCycle
  rw [h.updateMin1]
  have hz : s.zdc 1 = false := by unfold Rti.zdc; rw [h.cache1]
  rw [hz]
  dsimp only
  rw [if_neg (by simp), stuck_heard (.inr h.next1)]
  have e := h.eimt1
  repeat' split
  all_goals exact e

/-- Whatever event federate 2 waits for, from 5 on, it is not granted. -/
theorem Stuck.no_grant {s : Rti} (h : Stuck s) (ht : (⟨5, 0⟩ : Tag) ≤ (s.node 2).nextEvent) :
    notifyIfSafe chain 0 2 s = s := by
  have hm : minUpstreamCompleted chain 2 s = NEVER_TAG := by
    unfold minUpstreamCompleted
    have hup : chain.up 2 = [(1, NEVER)] := rfl
    rw [hup]
    simp only [List.foldl]
    rw [if_pos h.conn1, h.done1]
    decide
  have hg : tagAdvanceGrantIfSafe chain 0 2 s = (s, NEVER_TAG, false) := by
    unfold tagAdvanceGrantIfSafe
    rw [hm, h.granted2, if_neg (fun k => absurd k.1 (by decide))]
    dsimp only
    rw [h.eimt2]
    dsimp only
    rw [h.strict2]
    have c1 : ¬ lf_tag_compare ⟨5, 0⟩ (s.node 2).nextEvent > 0 := by
      intro k
      have := (cmp_gt_zero _ _).1 k
      exact absurd ht (Tag.not_le.2 this)
    have hz : s.zdc 2 = false := by unfold Rti.zdc; rw [h.cache2]
    rw [if_neg (fun k => c1 k.1), if_neg (fun k => by rw [hz] at k; exact absurd k.2.1 (by decide))]
  unfold notifyIfSafe
  rw [hg]
  rfl

theorem Stuck.report {s : Rti} (h : Stuck s) {t : Tag} (ht : (⟨5, 0⟩ : Tag) ≤ t) :
    Stuck (handleNextEventTag chain 0 2 t s) := by
  have key : ∀ u : Tag, (⟨5, 0⟩ : Tag) ≤ u → Stuck (updateNextEvent chain 0 2 u s) := by
    intro u hu
    have hs : Stuck (s.setNode 2 fun nd => { nd with nextEvent := u }) := by
      obtain ⟨a, b, c, d, e, f, g, i, j, k, l, m⟩ := h
      exact ⟨a, b, c, d, e, f, g, i, j, k, l, m⟩
    have hdown : ∀ r : Rti, notifyAllDownstream chain 0 2 r = r := fun r => rfl
    unfold updateNextEvent
    dsimp only
    rw [if_pos (by decide), hdown, hs.no_grant hu]
    exact hs
  unfold handleNextEventTag updateFederateNextEvent
  rw [h.transit2]
  split
  · exact key _ (by decide)
  · exact key _ ht

theorem stuck_reachable : ∃ σ, Reach chain 0 σ ∧ Stuck σ.rti := by
  have h : (execAll chain 0 (initSys 0) reports).map (fun σ =>
      let s := socketClosed 0 σ.rti
      decide ((s.node 0).nextEvent = ⟨5, 0⟩) && (decide ((s.node 1).nextEvent = ⟨20, 0⟩) &&
      (decide ((s.node 0).connected = false) && (decide ((s.node 1).connected = true) &&
      (decide ((s.node 2).connected = true) && (decide ((s.node 1).completed = NEVER_TAG) &&
      (decide ((s.node 2).lastGranted = NEVER_TAG) && (decide ((s.node 1).cache = some ([(0, ZERO_TAG)], false)) &&
      (decide ((s.node 2).cache = some ([(0, ZERO_TAG), (1, ZERO_TAG)], false)) && (decide (s.transit 2 = []) &&
      (decide (s.out 1 = []) && decide (s.out 2 = [])))))))))))) = some true := by decide +kernel
  rw [Option.map_eq_some_iff] at h
  obtain ⟨σ, h1, h2⟩ := h
  simp only [Bool.and_eq_true, decide_eq_true_eq] at h2
  obtain ⟨a, b, c, d, e, f, g, i, j, k, l, m⟩ := h2
  exact ⟨_, (execAll_reach .init h1).step (.closed σ 0), ⟨a, b, c, d, e, f, g, i, j, k, l, m⟩⟩

/-- C82.  Who crashes, so that the RTI finds its connection closed, does block others: in a chain of three federates the first
of which crashed when its next event was at 5, the second waits for 20 and the third for 9, and nothing was granted to them.
Nothing will be: the third may report other next events, from 5 on, as often as it likes.  (Had the first one resigned, both
would have been granted at once, see above.) -/
theorem C82_not_crashed_federates_block_nobody : ∃ σ, Reach chain 0 σ ∧ (σ.rti.node 0).connected = false ∧
    (σ.rti.node 1).connected = true ∧ (σ.rti.node 2).connected = true ∧ σ.rti.out 1 = [] ∧
    ∀ reports : List Tag, (∀ t ∈ reports, (⟨5, 0⟩ : Tag) ≤ t) →
      (reports.foldl (fun s t => handleNextEventTag chain 0 2 t s) σ.rti).out 1 = [] ∧
      (reports.foldl (fun s t => handleNextEventTag chain 0 2 t s) σ.rti).out 2 = [] := by
  obtain ⟨σ, hr, hs⟩ := stuck_reachable
  refine ⟨σ, hr, hs.gone0, hs.conn1, hs.conn2, hs.out1, fun l hl => ?_⟩
  have : ∀ (l : List Tag) (s : Rti), (∀ t ∈ l, (⟨5, 0⟩ : Tag) ≤ t) → Stuck s →
      Stuck (l.foldl (fun s t => handleNextEventTag chain 0 2 t s) s) := by
    intro l
    induction l with
    | nil => intro s _ h; exact h
    | cons t l ih =>
      intro s hl h
      rw [List.foldl_cons]
      exact ih _ (fun x hx => hl x (List.mem_cons_of_mem _ hx)) (h.report (hl t List.mem_cons_self))
  have k := this l σ.rti hl hs
  exact ⟨k.out1, k.out2⟩

end ReactorC.Rti
