import Verif.DecFed.Recv

/-! What holds of the connections of a federation with decentralized coordination. -/

set_option linter.unusedVariables false

namespace ReactorC.DecFed
open ReactorC
open ReactorC.Rti (Topology Sane put put_same put_other)
open ReactorC.FedDet (Program Entry Event Inputs Out Fit Single present upTo upTo_cons_old upTo_cons_new Rising)
open ReactorC.Level (Config MIN_SLEEP_DURATION Small exempt blocks waitOver newKnown upd)
open ReactorC.Decentral (Ev Delivery due nextTag open_ raise release handle inTime good_inTime reach_timely dueBy)

/-- The federate that a port is connected to, and the delay of the connection. -/
abbrev Setup.from_ (S : Setup) (d p : Nat) : Nat := ((S.c d).port p).source
abbrev Setup.delay (S : Setup) (d p : Nat) : Int := ((S.c d).port p).delay

/-- What was sent to a port with tag `t` was sent at `u`. -/
structure Src (S : Setup) (g : State) (d p : Nat) (t : Tag) (vo : Option Nat) (u : Tag) : Prop where
  first : S.P.first ≤ u
  fitU : Fit S.P.T u
  fit : Fit S.P.T t
  passed : Passed (g.fed (S.from_ d p)) (g.fin (S.from_ d p)) u
  tag : t = lf_delay_tag u (S.delay d p)
  notice : vo = none → S.delay d p ≤ 0
  msg : ∀ v, vo = some v → t ≤ S.P.stop ∧ ∃ x, (u, x) ∈ g.log (S.from_ d p) ∧
    ∃ o ∈ S.P.outs (S.from_ d p) (upTo u (g.log (S.from_ d p))), o.dest = d ∧ o.port = p ∧ o.val = v

structure Chan (S : Setup) (g : State) (d p : Nat) : Prop where
  sorted : (g.chan d p).Pairwise fun a b => a.tag < b.tag
  within : ∀ it ∈ g.chan d p, it.tag ≤ g.sent d p
  saidLe : (g.fed d).said p ≤ g.sent d p
  read : ∀ t v, (p, t, v) ∈ (g.fed d).reading → ∃ a rest, g.chan d p = ⟨t, some v, a⟩ :: rest
  fresh : (∀ t v, (p, t, v) ∉ (g.fed d).reading) → ∀ it ∈ g.chan d p, (g.fed d).said p < it.tag
  src : ∀ it ∈ g.chan d p, ∃ u, Src S g d p it.tag it.val u ∧ it.sent ≤ u.time + S.lag (S.from_ d p)
  lat : ∀ it ∈ g.chan d p, (g.fed d).lv.now ≤ it.sent + S.error + S.latency d p
  said : (g.fed d).said p = NEVER_TAG ∨ ∃ vo u, Src S g d p ((g.fed d).said p) vo u
  got : ∀ t v, (p, t, v) ∈ (g.fed d).got → ∃ u, Src S g d p t (some v) u
  gone : (g.fed d).gone p = true → g.chan d p = [] ∧ (g.fed (S.from_ d p)).lv.phase = .running ∧ g.fin (S.from_ d p) = true ∧
    (g.fed (S.from_ d p)).lv.cur = S.P.stop
  posted : ∀ x ∈ g.log (S.from_ d p), ∀ o ∈ S.P.outs (S.from_ d p) (upTo x.1 (g.log (S.from_ d p))), o.dest = d → o.port = p →
    lf_delay_tag x.1 o.delay ≤ S.P.stop → lf_delay_tag x.1 o.delay ≤ g.sent d p ∧
      ((∃ it ∈ g.chan d p, it.tag = lf_delay_tag x.1 o.delay ∧ it.val = some o.val) ∨ (p, lf_delay_tag x.1 o.delay, o.val) ∈ (g.fed d).got)

/-! ## Tags and delays -/

theorem fit_time {T : Topology} {t : Tag} (h : Fit T t) : 0 ≤ t.time ∧ t.time < FOREVER ∧ t.microstep + T.n + 2 ≤ UINT_MAX := by
  rcases h.1 with k | k
  · exact absurd k h.2
  · exact k

theorem delay_time {T : Topology} {u : Tag} {w : Int} (hu : Fit T u) (ht : Fit T (lf_delay_tag u w)) :
    u.time + max 0 w ≤ (lf_delay_tag u w).time := by
  have h1 := fit_time hu
  have h2 := fit_time ht
  have hN : NEVER < 0 := by decide
  rcases lf_delay_tag_cases u w with k | k | k | k
  · rw [k.2]; omega
  · exact absurd k.2.2.2 ht.2
  · rw [k.2.2.2]; show _ ≤ u.time; omega
  · rw [k.2.2.2]; show _ ≤ u.time + w; omega

/-- No message is ruled out by the delay of its connection. -/
theorem exempt_false {T : Topology} {c : Config} (hc : Level.WF c) {p : Nat} {u : Tag} (hf : c.start ≤ u) (hu : Fit T u)
    (ht : Fit T (lf_delay_tag u (c.port p).delay)) : exempt c (lf_delay_tag u (c.port p).delay) p = false := by
  have h1 := fit_time hu
  have h2 := fit_time ht
  cases he : exempt c (lf_delay_tag u (c.port p).delay) p with
  | false => rfl
  | true => exact absurd ((Level.exempt_tooEarly hc h2.2.1 he).2.2 u hf (by omega)) (Tag.lt_irrefl _)

/-- A notice on a connection with delay 0, or without. -/
theorem strict_eq {u : Tag} {w : Int} (h : w = 0 ∨ w = NEVER) : lf_delay_strict u w = lf_delay_tag u w := by
  rcases lf_delay_strict_cases u w with k | k
  · exact k.2
  · rcases h with h | h
    · exact absurd h k.1
    · exact absurd h k.2.1

/-- Without delay, or with delay 0, what is sent later has a later tag. -/
theorem delay_lt {T : Topology} {u s : Tag} {w : Int} (hu : Fit T u) (hs : Fit T s) (hw : w ≤ 0) (h : u < s) : lf_delay_tag u w < lf_delay_tag s w := by
  have h1 := fit_time hu
  have h2 := fit_time hs
  have hN : NEVER < 0 := by decide
  have hU : UINT_MAX = 4294967295 := rfl
  rcases lf_delay_tag_cases u w with k | k | k | k <;> rcases lf_delay_tag_cases s w with k' | k' | k' | k'
  all_goals first | omega | skip
  · rw [k.2, k'.2]; exact h
  · rw [k.2.2.2, k'.2.2.2]
    have e1 : wrapU32 (u.microstep + 1) = u.microstep + 1 := by unfold wrapU32; omega
    have e2 : wrapU32 (s.microstep + 1) = s.microstep + 1 := by unfold wrapU32; omega
    rw [e1, e2]; tag_omega

theorem Src.mono {S : Setup} {g g' : State} {d p : Nat} {t : Tag} {vo : Option Nat} {u : Tag} (h : Src S g d p t vo u)
    (hp : ∀ u, Passed (g.fed (S.from_ d p)) (g.fin (S.from_ d p)) u → Passed (g'.fed (S.from_ d p)) (g'.fin (S.from_ d p)) u)
    (hl : ∀ x ∈ g.log (S.from_ d p), x ∈ g'.log (S.from_ d p) ∧ upTo x.1 (g'.log (S.from_ d p)) = upTo x.1 (g.log (S.from_ d p))) :
    Src S g' d p t vo u where
  first := h.first
  fitU := h.fitU
  fit := h.fit
  passed := hp u h.passed
  tag := h.tag
  notice := h.notice
  msg v hv := by
    obtain ⟨h1, x, hx, o, ho, h2⟩ := h.msg v hv
    exact ⟨h1, x, (hl _ hx).1, o, by rw [(hl _ hx).2]; exact ho, h2⟩

/-- Nothing happens on the connection. -/
theorem Chan.keep {S : Setup} {g g' : State} {d p : Nat} (h : Chan S g d p) (e1 : g'.chan d p = g.chan d p) (e2 : g'.sent d p = g.sent d p)
    (e3 : (g'.fed d).said p = (g.fed d).said p) (e4 : ∀ t v, (p, t, v) ∈ (g'.fed d).reading ↔ (p, t, v) ∈ (g.fed d).reading)
    (e5 : ∀ t v, (p, t, v) ∈ (g'.fed d).got ↔ (p, t, v) ∈ (g.fed d).got) (e6 : (g'.fed d).gone p = (g.fed d).gone p)
    (e7 : ∀ it ∈ g.chan d p, (g'.fed d).lv.now ≤ it.sent + S.error + S.latency d p) (e8 : g'.log (S.from_ d p) = g.log (S.from_ d p))
    (e9 : ∀ u, Passed (g.fed (S.from_ d p)) (g.fin (S.from_ d p)) u → Passed (g'.fed (S.from_ d p)) (g'.fin (S.from_ d p)) u)
    (e10 : (g.fed (S.from_ d p)).lv.phase = .running → g.fin (S.from_ d p) = true → (g.fed (S.from_ d p)).lv.cur = S.P.stop →
      (g'.fed (S.from_ d p)).lv.phase = .running ∧ g'.fin (S.from_ d p) = true ∧ (g'.fed (S.from_ d p)).lv.cur = S.P.stop) : Chan S g' d p := by
  have up : ∀ {t vo u}, Src S g d p t vo u → Src S g' d p t vo u := fun k => k.mono e9 fun x hx => by rw [e8]; exact ⟨hx, rfl⟩
  refine ⟨?_, ?_, ?_, ?_, ?_, ?_, ?_, ?_, ?_, ?_, ?_⟩
  · rw [e1]; exact h.sorted
  · rw [e1, e2]; exact h.within
  · rw [e2, e3]; exact h.saidLe
  · rw [e1]; exact fun t v k => h.read t v ((e4 t v).1 k)
  · rw [e1, e3]; exact fun k => h.fresh fun t v kk => k t v ((e4 t v).2 kk)
  · rw [e1]
    intro it hi
    obtain ⟨u, k1, k2⟩ := h.src it hi
    exact ⟨u, up k1, k2⟩
  · rw [e1]; exact e7
  · rw [e3]
    exact h.said.imp id fun ⟨vo, u, k⟩ => ⟨vo, u, up k⟩
  · intro t v k
    obtain ⟨u, k1⟩ := h.got t v ((e5 t v).1 k)
    exact ⟨u, up k1⟩
  · rw [e6, e1]
    intro k
    obtain ⟨k1, k2, k3, k4⟩ := h.gone k
    exact ⟨k1, e10 k2 k3 k4⟩
  · rw [e8, e1, e2]
    intro x hx o ho h1 h2 h3
    obtain ⟨k1, k2⟩ := h.posted x hx o ho h1 h2 h3
    exact ⟨k1, k2.imp id fun k => (e5 _ _).2 k⟩

/-! ## What is on the way is in time -/

section
variable {S : Setup} {rank : Nat → Nat} {g : State} {d p : Nat}

theorem Src.time {t : Tag} {vo : Option Nat} {u : Tag} (h : Src S g d p t vo u) : u.time + max 0 (S.delay d p) ≤ t.time := by
  have := h.fit
  rw [h.tag] at this ⊢
  exact delay_time h.fitU this

theorem Src.first_le {t : Tag} {vo : Option Nat} {u : Tag} (h : Src S g d p t vo u) : S.P.first ≤ t := by
  rw [h.tag]; exact Tag.le_trans h.first (Rti.le_delay _ h.fitU.1)

theorem Chan.due (h : Chan S g d p) (hS : S.Ok rank) (hd : d < S.P.T.n) (hp : p < (S.c d).n) {it : Item} (hi : it ∈ g.chan d p) :
    (g.fed d).lv.now + MIN_SLEEP_DURATION ≤ dueBy (S.c d) p it.tag := by
  obtain ⟨u, k1, k2⟩ := h.src it hi
  have k3 := h.lat it hi
  have k4 := hS.covered d hd p hp
  have k5 := k1.time
  unfold Decentral.dueBy
  unfold Setup.from_ Setup.delay at *
  omega

theorem Chan.ordered (h : Chan S g d p) {it : Item} (hi : it ∈ g.chan d p) (hr : ∀ r ∈ (g.fed d).reading, r.1 ≠ p) :
    Decentral.InOrder (g.fed d) p it.tag := by
  refine ⟨h.fresh (fun t v k => hr _ k rfl) it hi, ?_⟩
  cases hg : (g.fed d).gone p with
  | false => rfl
  | true => rw [(h.gone hg).1] at hi; cases hi

end

end ReactorC.DecFed
