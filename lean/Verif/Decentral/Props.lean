import Verif.Decentral.Run
import Verif.Decentral.Order

/-!
# C68, C69: messages between federates with decentralized coordination

A federate waits, before it advances to a tag, until physical time exceeds the tag by its STA offset, and, during the
execution at a tag, up to the STAA offset of each port. C68: if messages and notices come in within these times, each message
is processed at exactly its tag. C69: what is guaranteed if they do not.

`s.got` are the messages that have come in (port, tag, payload), `s.out` what the receiving reactions got to see: port,
intended tag, payload, the tag at which they were triggered, and whether they were told that the message is tardy.
-/

namespace ReactorC.Decentral

open ReactorC.Level (Config Port Phase MIN_SLEEP_DURATION Small bump upd exempt waitOver newKnown actualTag)

/-- On each port, messages and notices come in the order of their tags and in time: the header 10 microseconds before
physical time exceeds the tag plus STA (plus STAA, if that is negative), the payload before the tag is reached or 10
microseconds before the wait for the port is over. No message for the start tag is completed in the moment between the end of
the wait for the start time and the start. -/
def inTime : Assume := ⟨true, true, true, false⟩

/-- On each port, messages and notices come in the order of their tags, at any time. No message moves on to the tag of
another one. -/
def inOrder : Assume := ⟨true, false, false, true⟩

/-- Nothing is assumed. -/
def anyHow : Assume := ⟨false, false, false, false⟩

theorem good_inTime : Good inTime := ⟨rfl, rfl, rfl⟩

/-! ## C68: in time -/

/-- **C68** A message that comes in time is processed at its tag, and is not reported as tardy. -/
theorem C68_processed_at_its_tag (c : Config) (hw : WF c) (s : State) (h : Reach c inTime s) (d : Delivery) (hd : d ∈ s.out) :
    d.at_ = d.intended ∧ d.late = false ∧ (d.port, d.intended, d.val) ∈ s.got := by
  obtain ⟨h1, _, h3⟩ := reach_timely hw good_inTime h
  obtain ⟨a1, _, a3⟩ := h3.out d hd
  refine ⟨a1, ?_, a3⟩
  have := (h1.out d hd).2.1
  rw [a1] at this
  cases hl : d.late with
  | false => rfl
  | true => exact absurd (this.1 hl) (Tag.lt_irrefl _)

/-- **C68** None is lost: when the federate has got past the tag of a message (not later than the stop tag), the reaction has
got the message. -/
theorem C68_none_lost (c : Config) (hw : WF c) (s : State) (h : Reach c inTime s) (i : Nat) (g : Tag) (v : Nat)
    (hg : (i, g, v) ∈ s.got) (hr : s.lv.phase = .running) (hc : g ≤ s.lv.cur) (hs : g ≤ s.stop) :
    ⟨i, g, v, g, false⟩ ∈ s.out := by
  obtain ⟨h1, _, h3⟩ := reach_timely hw good_inTime h
  rcases h3.got i g v hg with k | k | k
  · have := (h1.ev _ k).2 hr
    exact absurd this (by rw [Tag.not_lt]; exact hc)
  · exact k
  · exact absurd k (by rw [Tag.not_lt]; exact hs)

/-- **C68** The messages of a port are processed in the order of their tags, and none twice. -/
theorem C68_in_order (c : Config) (hw : WF c) (s : State) (h : Reach c inTime s) :
    s.out.Pairwise fun d d' => d.port = d'.port → d.at_ < d'.at_ := by
  obtain ⟨_, _, h3⟩ := reach_timely hw good_inTime h
  refine List.Pairwise.imp_of_mem ?_ h3.outs
  intro d d' hd hd' hr hp
  rw [(h3.out d hd).1, (h3.out d' hd').1]
  exact hr hp

/-- **C68** While the payload of a message in time is being read, the federate does not get past the tag of the message. -/
theorem C68_waits_for_the_payload (c : Config) (hw : WF c) (s : State) (h : Reach c inTime s) (i : Nat) (g : Tag) (v : Nat)
    (hr : (i, g, v) ∈ s.reading) : s.lv.cur ≤ g := by
  obtain ⟨_, h2, _⟩ := reach_timely hw good_inTime h
  exact (h2.pend i g v hr).2.1

/-- **C68** The federate does not wait longer than the STA: once physical time exceeds the next tag by it, and no message is
being read, it advances, whatever is known about the ports. -/
theorem C68_waits_at_most_sta (c : Config) (hw : WF c) (a : Assume) (s : State) (h : Reach c a s) (hr : s.lv.phase = .running)
    (hn : s.reading = []) (hc : s.lv.cur < nextTag s) (hm : (nextTag s).microstep < UINT_MAX)
    (ht : (nextTag s).time + c.sta ≤ s.lv.now) :
    ∃ s' s'', (s' = s ∨ Step c a s s') ∧ Step c a s' s'' ∧ s''.lv.cur = nextTag s := by
  have hg := reach_gen hw h
  have hs0 := hw.lv.sta
  have hnow := hg.time
  have hlo : 0 ≤ (nextTag s).time := by
    have hge : c.start ≤ nextTag s := by
      rcases nextTag_cases s with h1 | ⟨e, he, h1⟩
      · rw [h1]; exact hg.stop.1
      · rw [← h1]; exact (hg.ev e he).1
    rw [Tag.le_def] at hge
    have := hw.lv.pos
    replace hge : c.startTime < _ ∨ (c.startTime = _ ∧ _) := hge
    omega
  have hmin : MIN_SLEEP_DURATION > 0 := by decide
  have hopen : open_ s (nextTag s) := by left; rw [hg.req, hn]; rfl
  have hwt : waitOver c s.lv.now (waitUntilTime c s (nextTag s)) := by
    right
    have hadd : lf_time_add (nextTag s).time c.sta = (nextTag s).time + c.sta := by
      have hN : NEVER < 0 := by decide
      have hsF := hw.sta
      rw [lf_time_add_eq_satAdd ⟨by omega, by omega⟩ ⟨by omega, by omega⟩]
      have k := satAdd_cases (nextTag s).time c.sta
      generalize satAdd (nextTag s).time c.sta = A at *
      omega
    unfold waitUntilTime
    split
    · split
      · omega
      · rw [hadd]; omega
    · omega
  cases hw' : s.waited with
  | some p =>
    exact ⟨s, _, Or.inl rfl, .advance hw' hc (by omega) hm hopen hr (List.Perm.refl _), rfl⟩
  | none =>
    exact ⟨{ s with waited := some (nextTag s) }, _, Or.inr (.wait hr hw' hwt),
      .advance rfl hc (by show (nextTag s).time < FOREVER; omega) hm hopen hr (List.Perm.refl _), rfl⟩

/-- **C68** The federate does not wait for the STA if everything is known about its ports up to the next tag: physical time
equal to the tag is enough. -/
theorem C68_no_wait_if_known (c : Config) (a : Assume) (s : State) (hr : s.lv.phase = .running) (hn : s.waited = none)
    (hk : ∀ i < c.n, predTag (nextTag s) ≤ s.lv.known i) (ht : (nextTag s).time ≤ s.lv.now) :
    Step c a s { s with waited := some (nextTag s) } := by
  refine .wait hr hn (Or.inr ?_)
  have hmin : MIN_SLEEP_DURATION > 0 := by decide
  have hi : inputsKnownTo c s (predTag (nextTag s)) = true := by
    unfold inputsKnownTo
    rw [List.all_eq_true]
    intro i hi
    rw [decide_eq_true_eq, ge_iff_le, cmp_ge_zero]
    exact hk i (List.mem_range.1 hi)
  unfold waitUntilTime
  rw [if_pos hi]
  split <;> omega

/-! ### A federate with one network input port, STA 100 microseconds, STAA 50 microseconds -/

def cfg : Config where
  dec := true
  n := 1
  port := fun _ => { index := 65536 * 7 + 1, staa := 50000 }
  startTime := 1000000
  sta := 100000

theorem wf_cfg : WF cfg :=
  ⟨⟨by decide, fun h => (by cases h), by decide, by decide, by decide⟩, rfl, rfl, by decide, fun _ _ => ⟨by show NEVER < 50000; decide, by show (50000 : Int) < FOREVER; decide⟩⟩

/-- A message before its tag; the next tag, a microstep later, needs no wait as the port is known so far; there, a second
message is handled at once. -/
def orderly : List Act :=
  [.clock 995000, .begin, .start, .header 0 ⟨2000000, 0⟩ 7, .complete 0 ⟨2000000, 0⟩ 7, .clock 1995000, .wait, .advance,
   .local_ ⟨2000000, 1⟩ 0, .wait, .advance, .header 0 ⟨2000000, 1⟩ 8, .complete 0 ⟨2000000, 1⟩ 8]

example : ∃ s, Reach cfg inTime s ∧ (s.out, s.got, s.lv.cur, decide (s.lv.phase = .running)) =
    ([⟨0, ⟨2000000, 0⟩, 7, ⟨2000000, 0⟩, false⟩, ⟨0, ⟨2000000, 1⟩, 8, ⟨2000000, 1⟩, false⟩],
     [(0, ⟨2000000, 1⟩, 8), (0, ⟨2000000, 0⟩, 7)], ⟨2000000, 1⟩, true) :=
  reach_of_run _ 0 ⟨9000000, 0⟩ orderly _ (by decide) (by decide) (by decide) (by decide +kernel)

/-- While the payload is being read, the current tag does not get to the tag of the message although a local event is due. -/
example : ∃ s, Reach cfg inTime s ∧ (s.reading, s.lv.cur, nextTag s, decide (open_ s (nextTag s)), s.lv.now) =
    ([(0, ⟨2000000, 0⟩, 7)], ⟨1000000, 0⟩, ⟨2000000, 0⟩, false, 2500000) :=
  reach_of_run _ 0 ⟨9000000, 0⟩ [.clock 995000, .begin, .start, .local_ ⟨2000000, 0⟩ 0, .clock 2050000,
    .header 0 ⟨2000000, 0⟩ 7, .clock 2500000, .wait] _ (by decide) (by decide) (by decide) (by decide +kernel)

/-- The hypotheses of the progress theorems. -/
example : ∃ s, Reach cfg inTime s ∧ (s.reading, decide (s.lv.cur < nextTag s), nextTag s, s.lv.now, decide (s.lv.phase = .running)) =
    ([], true, ⟨2000000, 0⟩, 2100000, true) :=
  reach_of_run _ 0 ⟨9000000, 0⟩ [.clock 995000, .begin, .start, .local_ ⟨2000000, 0⟩ 0, .clock 2100000] _
    (by decide) (by decide) (by decide) (by decide +kernel)

/-! ### The assumptions are needed -/

/-- **C68** (limit) Without the assumption about the start: the header of a message for the start tag has come in, the
payload is complete in the moment between the end of the wait for the start time and the start. Then the next microstep
counts as known, the federate does not wait for it, and a message for it that comes in time is processed late. -/
theorem C68_start_message_makes_the_next_one_late : ∃ s, Reach cfg ⟨true, true, false, true⟩ s ∧
    ∃ d ∈ s.out, d.late = true ∧ d.intended = ⟨1000000, 1⟩ ∧ d.at_ = ⟨1000000, 3⟩ := by
  obtain ⟨s, h, ho⟩ := reach_of_run (c := cfg) (a := ⟨true, true, false, true⟩) (fun s => s.out) 0 ⟨9000000, 0⟩
    [.header 0 ⟨1000000, 0⟩ 5, .clock 995000, .begin, .complete 0 ⟨1000000, 0⟩ 5, .start, .local_ ⟨1000000, 2⟩ 0, .wait, .advance,
     .header 0 ⟨1000000, 1⟩ 6, .clock 1000000, .complete 0 ⟨1000000, 1⟩ 6, .wait, .advance]
    [⟨0, ⟨1000000, 0⟩, 5, ⟨1000000, 0⟩, false⟩, ⟨0, ⟨1000000, 1⟩, 6, ⟨1000000, 3⟩, true⟩]
    (by decide) (by decide) (by decide) (by decide +kernel)
  exact ⟨s, h, ⟨0, ⟨1000000, 1⟩, 6, ⟨1000000, 3⟩, true⟩, by rw [ho]; exact List.mem_cons_of_mem _ List.mem_cons_self, by decide⟩

/-- **C68** (limit) The header of a message that comes in less than 10 microseconds before physical time exceeds its tag by the
STA can be too late: the wait for the tag of a local event is over that much earlier. Here the message at 1995000 comes in at
2091000, 4 microseconds before 1995000 + 100000. -/
theorem C68_last_ten_microseconds : ∃ s s', Reach cfg inOrder s ∧ s.lv.now < 1995000 + cfg.sta ∧
    run cfg inOrder s [.header 0 ⟨1995000, 0⟩ 5, .complete 0 ⟨1995000, 0⟩ 5, .wait, .advance] = some s' ∧
    ∃ d ∈ s'.out, d.late = true ∧ d.intended = ⟨1995000, 0⟩ ∧ d.at_ = ⟨2000000, 1⟩ := by
  obtain ⟨s, s', h, h1, h2, h3⟩ := reach_of_runs (c := cfg) (a := inOrder) (b := inOrder)
    (fun s => decide (s.lv.now < 1995000 + cfg.sta)) (fun s => s.out) 0 ⟨9000000, 0⟩
    [.clock 995000, .begin, .start, .local_ ⟨2000000, 0⟩ 0, .clock 2091000, .wait, .advance]
    [.header 0 ⟨1995000, 0⟩ 5, .complete 0 ⟨1995000, 0⟩ 5, .wait, .advance] true
    [⟨0, ⟨1995000, 0⟩, 5, ⟨2000000, 1⟩, true⟩] (by decide) (by decide) (by decide) (by decide +kernel)
  exact ⟨s, s', h, by simpa using h1, h2, ⟨0, ⟨1995000, 0⟩, 5, ⟨2000000, 1⟩, true⟩, by rw [h3]; exact List.mem_cons_self, by decide⟩

/-- **C68** (limit) The header is in time, but the wait for the port is over before the payload has been read: the message is
processed a microstep late. -/
theorem C68_slow_payload_is_late : ∃ s s', Reach cfg inTime s ∧ (0, ⟨2000000, 1⟩, 8) ∈ s.reading ∧
    run cfg inOrder s [.arm 50000, .clock 2150000, .timeout 0 2150000, .complete 0 ⟨2000000, 1⟩ 8, .wait, .advance] = some s' ∧
    ∃ d ∈ s'.out, d.late = true ∧ d.intended = ⟨2000000, 1⟩ ∧ d.at_ = ⟨2000000, 2⟩ := by
  obtain ⟨s, s', h, h1, h2, h3⟩ := reach_of_runs (c := cfg) (a := inTime) (b := inOrder)
    (fun s => s.reading) (fun s => s.out) 0 ⟨9000000, 0⟩
    [.clock 995000, .begin, .start, .header 0 ⟨2000000, 0⟩ 7, .complete 0 ⟨2000000, 0⟩ 7, .clock 1995000, .wait, .advance,
     .local_ ⟨2000000, 1⟩ 0, .wait, .advance, .header 0 ⟨2000000, 1⟩ 8]
    [.arm 50000, .clock 2150000, .timeout 0 2150000, .complete 0 ⟨2000000, 1⟩ 8, .wait, .advance]
    [(0, ⟨2000000, 1⟩, 8)]
    [⟨0, ⟨2000000, 0⟩, 7, ⟨2000000, 0⟩, false⟩, ⟨0, ⟨2000000, 1⟩, 8, ⟨2000000, 2⟩, true⟩]
    (by decide) (by decide) (by decide) (by decide +kernel)
  exact ⟨s, s', h, by rw [h1]; exact List.mem_cons_self, h2, ⟨0, ⟨2000000, 1⟩, 8, ⟨2000000, 2⟩, true⟩,
    by rw [h3]; exact List.mem_cons_of_mem _ List.mem_cons_self, by decide⟩

/-! ## C69: at any time -/

/-- **C69** Whenever and in whatever order messages come in: none is processed before its tag, and a message is reported as
tardy if and only if it is processed after its tag. -/
theorem C69_never_early_and_tardy_if_late (c : Config) (hw : WF c) (s : State) (h : Reach c anyHow s) (d : Delivery)
    (hd : d ∈ s.out) : d.intended ≤ d.at_ ∧ (d.late = true ↔ d.intended < d.at_) :=
  ⟨((reach_gen hw h).out d hd).1, ((reach_gen hw h).out d hd).2.1⟩

/-- **C69** While a message is being read, the federate does not advance past its tag, and does not advance at all if the tag
is not later than the current one. -/
theorem C69_no_advance_while_reading (c : Config) (hw : WF c) (s s' : State) (h : Reach c anyHow s) (i : Nat) (g : Tag) (v : Nat)
    (hr : (i, g, v) ∈ s.reading) (st : Step c anyHow s s') (hp : s.lv.phase = .running) (hc : s'.lv.cur ≠ s.lv.cur) :
    s'.lv.cur < g := by
  have hg := reach_gen hw h
  obtain ⟨b1, b2⟩ := hg.barrier i g v hr
  have hreq : s.requestors ≠ 0 := by
    rw [hg.req]; intro h0; rw [List.length_eq_zero_iff] at h0; rw [h0] at hr; cases hr
  cases st with
  | @header j g' v' hi hp' hg' hF hm hx hr' ho ht =>
    obtain ⟨y, he, _⟩ := raise_cases s g' hg.lv.curMicro
    rw [he] at hc; exact absurd rfl hc
  | @complete j g' v' hr' hs ht hc' hsp =>
    obtain ⟨x, y, he, _⟩ := release_cases { handle c s j g' v' with reading := s.reading.erase (j, g', v') }
    obtain ⟨l, o, dr, la, hh, _⟩ := handle_cases c s j g' v'
    obtain ⟨m, sl, st', hl'⟩ := handleMessage_lv c s.lv j g' (decide (s.last j < g'))
    rw [he, hh] at hc
    dsimp only at hc
    rw [hl'] at hc
    exact absurd rfl hc
  | @abort r hr' =>
    obtain ⟨x, y, he, _⟩ := release_cases { s with reading := s.reading.erase r }
    rw [he] at hc; exact absurd rfl hc
  | @absent j g' hi hg' hm hr' hs ho ht =>
    obtain ⟨m, sl, hu⟩ := updatePort_lv c s.lv j g'
    rw [hu] at hc; exact absurd rfl hc
  | @gone j hi hr' hs =>
    obtain ⟨m, sl, hu⟩ := updatePort_lv c s.lv j FOREVER_TAG
    rw [hu] at hc; exact absurd rfl hc
  | @local_ t v' hc' hst => exact absurd rfl hc
  | @setStop t hc' hst hle => exact absurd rfl hc
  | @clock t ht hF => exact absurd rfl hc
  | begin hp' hwt => rw [hp] at hp'; cases hp'
  | @start l hp' hop hperm => rw [hp] at hp'; cases hp'
  | wait hp' hnone hwt => exact absurd rfl hc
  | @advance p l hwt hc' hF hm ho hp' hperm =>
    show nextTag s < g
    rcases ho with ho | ho
    · exact absurd ho hreq
    · rw [cmp_lt_zero] at ho
      by_cases hgc : g ≤ s.lv.cur
      · have h1 := Tag.lt_of_lt_of_le ho (b2 hgc)
        exact absurd ((le_of_lt_bump hg.lv.curMicro).1 h1) (by rw [Tag.not_le]; exact hc')
      · rw [Tag.not_le] at hgc
        exact Tag.lt_of_lt_of_le ho (b1 hgc)
  | @stall level hp' =>
    have : (Level.stall s.lv level).cur = s.lv.cur := by unfold Level.stall; split <;> rfl
    exact absurd this hc
  | @arm v' hp' => exact absurd rfl hc
  | @timeout j t u hi hwt ho hc' hst hs =>
    obtain ⟨m, sl, hu⟩ := updatePort_lv c { s.lv with status := upd s.lv.status j .absent } j s.lv.cur
    rw [hu] at hc; exact absurd rfl hc

/-- **C69** (part) If the messages of each port come in the order of their tags, at any time, and none moves on to the tag of
another one, then each is processed (with its own payload and intended tag), is still to be processed at a later tag, or was
discarded, and it was discarded only if its tag is not earlier than the stop tag or the federate was already at the time of the
stop tag. Missing: messages that move on to the tag of another one, see `C69_message_overwritten`. -/
theorem C69_none_lost_before_stop_partial (c : Config) (hw : WF c) (s : State) (h : Reach c inOrder s) (i : Nat) (g : Tag) (v : Nat)
    (hg : (i, g, v) ∈ s.got) :
    (∃ d ∈ s.out, d.port = i ∧ d.intended = g ∧ d.val = v) ∨
    (∃ e ∈ s.q, e.port = some i ∧ e.intended = g ∧ e.val = v ∧ (s.lv.phase = .running → s.lv.cur < e.tag)) ∨
    (s.stop ≤ g ∨ s.stop.time ≤ s.lv.cur.time) := by
  obtain ⟨h1, h2⟩ := reach_late hw rfl rfl h
  rcases h2.got i g v hg with ⟨e, he, a1, a2, a3⟩ | k | k
  · exact Or.inr (Or.inl ⟨e, he, a1, a2, a3, (h1.ev e he).2⟩)
  · exact Or.inl k
  · exact Or.inr (Or.inr (h2.drop i g v k))

/-- **C69** (part) Under the same assumptions, the messages of a port are processed in the order in which they were sent, at
increasing tags, none twice and none invented. -/
theorem C69_in_order_partial (c : Config) (hw : WF c) (s : State) (h : Reach c inOrder s) :
    (s.out.Pairwise fun d d' => d.port = d'.port → d.intended < d'.intended ∧ d.at_ < d'.at_) ∧
    ∀ d ∈ s.out, (d.port, d.intended, d.val) ∈ s.got := by
  obtain ⟨_, h2⟩ := reach_late hw rfl rfl h
  exact ⟨(h2.outs.and (reach_sorted hw rfl rfl h).outt).imp (fun ⟨a, b⟩ hp => ⟨a hp, b hp⟩), h2.src⟩

/-- **C69** (part) Under the same assumptions, a message that was not in the past when it came in is processed at its tag or
one microstep later; a tardy one is processed at the same time as the current tag: the tag of the event that carries it has
the time of the current tag, and the microsteps in between are taken by earlier messages of the port. -/
theorem C69_delay_is_least_partial (c : Config) (hw : WF c) (s : State) (h : Reach c inOrder s) (hr : s.lv.phase = .running)
    (e : Ev) (he : e ∈ s.q) (i : Nat) (hi : e.port = some i) :
    (s.lv.cur < e.intended → e.tag = e.intended ∨ e.tag = ⟨e.intended.time, e.intended.microstep + 1⟩) ∧
    (e.intended ≤ s.lv.cur → e.tag.time = s.lv.cur.time ∧ ∀ m, s.lv.cur.microstep < m → m < e.tag.microstep →
      ∃ e' ∈ s.q, e'.port = some i ∧ e'.tag = ⟨s.lv.cur.time, m⟩) := by
  obtain ⟨h1, h2⟩ := reach_late hw rfl rfl h
  refine ⟨?_, ?_⟩
  · intro hc
    rcases h2.future e he i hi (Or.inr hc) with k | k
    · exact Or.inl k
    · right; rw [k, Level.bump_small (h1.net e he i hi).2.2]
  · intro hc
    obtain ⟨a, b⟩ := h2.late hr e he i hi hc
    exact ⟨a, fun m m1 m2 => (found_iff _ _ _).1 (b m m1 m2)⟩

/-- A tardy message, then one in time. -/
def tardy : List Act :=
  [.clock 995000, .begin, .start, .local_ ⟨2000000, 0⟩ 0, .clock 2100000, .wait, .advance,
   .header 0 ⟨1500000, 0⟩ 5, .complete 0 ⟨1500000, 0⟩ 5, .header 0 ⟨1600000, 0⟩ 6, .complete 0 ⟨1600000, 0⟩ 6,
   .wait, .advance, .header 0 ⟨2300000, 0⟩ 7, .complete 0 ⟨2300000, 0⟩ 7]

set_option synthInstance.maxSize 512 in
example : ∃ s, Reach cfg inOrder s ∧ (s.out, s.q, s.got, s.lv.cur, decide (s.lv.phase = .running)) =
    ([⟨0, ⟨1500000, 0⟩, 5, ⟨2000000, 1⟩, true⟩],
     [⟨some 0, ⟨2000000, 2⟩, ⟨1600000, 0⟩, 6⟩, ⟨some 0, ⟨2300000, 0⟩, ⟨2300000, 0⟩, 7⟩],
     [(0, ⟨2300000, 0⟩, 7), (0, ⟨1600000, 0⟩, 6), (0, ⟨1500000, 0⟩, 5)], ⟨2000000, 1⟩, true) :=
  reach_of_run _ 0 ⟨9000000, 0⟩ tardy _ (by decide) (by decide) (by decide) (by decide +kernel)

set_option synthInstance.maxSize 512 in
/-- **C69** (limit) Three messages, in the order of their tags: two tardy ones take the next two microsteps. The third is for
the first of these microsteps; as that is taken, it goes to the second one without a check whether that one is taken, too. Then
there are two events for the port at one tag, and only one of the payloads is seen by the reactions, with the intended tag of
the other message. -/
theorem C69_message_overwritten : ∃ s, Reach cfg ⟨true, false, true, false⟩ s ∧
    (0, ⟨2000000, 0⟩, 6) ∈ s.got ∧ (0, ⟨2000000, 1⟩, 7) ∈ s.got ∧
    ⟨2000000, 5⟩ < s.lv.cur ∧ s.lv.cur < s.stop ∧ (∀ e ∈ s.q, e.port = none) ∧
    (∀ d ∈ s.out, d.val ≠ 6) ∧ ⟨0, ⟨2000000, 0⟩, 7, ⟨2000000, 2⟩, true⟩ ∈ s.out := by
  obtain ⟨s, h, ho⟩ := reach_of_run (c := cfg) (a := ⟨true, false, true, false⟩)
    (fun s => (s.got, s.lv.cur, s.stop, s.q, s.out)) 0 ⟨9000000, 0⟩
    [.clock 995000, .begin, .start, .local_ ⟨2000000, 0⟩ 0, .clock 2200000, .wait, .advance,
     .header 0 ⟨1500000, 0⟩ 5, .complete 0 ⟨1500000, 0⟩ 5, .header 0 ⟨2000000, 0⟩ 6, .complete 0 ⟨2000000, 0⟩ 6,
     .header 0 ⟨2000000, 1⟩ 7, .complete 0 ⟨2000000, 1⟩ 7,
     .wait, .advance, .wait, .advance, .local_ ⟨3000000, 0⟩ 0, .clock 3200000, .wait, .advance]
    ([(0, ⟨2000000, 1⟩, 7), (0, ⟨2000000, 0⟩, 6), (0, ⟨1500000, 0⟩, 5)], ⟨3000000, 0⟩, ⟨9000000, 0⟩, [],
     [⟨0, ⟨1500000, 0⟩, 5, ⟨2000000, 1⟩, true⟩, ⟨0, ⟨2000000, 0⟩, 7, ⟨2000000, 2⟩, true⟩])
    (by decide) (by decide) (by decide) (by decide +kernel)
  simp only [Prod.mk.injEq] at ho
  obtain ⟨h1, h2, h3, h4, h5⟩ := ho
  refine ⟨s, h, by rw [h1]; simp, by rw [h1]; simp, by rw [h2]; decide, by rw [h2, h3]; decide, by rw [h4]; simp, by rw [h5]; decide, by rw [h5]; decide⟩

end ReactorC.Decentral
