import Verif.DecFed.Local

/-! What holds of one federate: messages and notices come in. -/

set_option linter.unusedVariables false

namespace ReactorC.DecFed
open ReactorC
open ReactorC.Rti (Topology Sane put put_same put_other)
open ReactorC.FedDet (Program Entry Event Inputs Out Fit Single present upTo)
open ReactorC.Level (Config MIN_SLEEP_DURATION Small exempt blocks waitOver newKnown upd)
open ReactorC.Decentral (Ev Delivery due nextTag open_ raise release handle inTime good_inTime reach_timely dueBy)

section
variable {S : Setup} {rank : Nat → Nat} {i : Nat} {s s' : Decentral.State} {log : List (Entry Nat)} {loc : List (Event Nat)} {fin : Bool}

theorem Loc.header (h : Loc S i s log loc fin) (hS : S.Ok rank) (hi : i < S.P.T.n) {p : Nat} {g : Tag} {v : Nat} (hp : p < (S.c i).n)
    (hg : (S.c i).start ≤ g) (hF : Fit S.P.T g) (hx : exempt (S.c i) g p = false) (hr : ∀ r ∈ s.reading, r.1 ≠ p)
    (ho : Decentral.InOrder s p g) (ht : Decentral.InTime (S.c i) s p g) :
    Loc S i { raise s g with reading := (p, g, v) :: s.reading, said := upd s.said p g } log loc fin := by
  obtain ⟨hG, -, -⟩ := h.timely hS hi
  have hf : g.time < FOREVER ∧ g.microstep < UINT_MAX := by
    rcases hF.1 with k | k
    · exact absurd k hF.2
    · exact ⟨k.2.1, by omega⟩
  have hstep := Decentral.Step.header (a := inTime) (v := v) hp (hS.source i hi p hp).2 hg hf.1 hf.2 hx hr (fun _ => ho) (fun _ => ht)
  obtain ⟨y, e, -⟩ := Decentral.raise_cases s g hG.lv.curMicro
  refine h.same (.step h.reach hstep) ?_ ?_ ?_ ?_ ?_ ?_ (fun q k => ?_) fun u k => ?_
  all_goals dsimp only; rw [e]
  · exact k
  · exact h.duty u k

theorem Loc.absent (h : Loc S i s log loc fin) (hS : S.Ok rank) (hi : i < S.P.T.n) {p : Nat} {g : Tag} (hp : p < (S.c i).n)
    (hg : (S.c i).start ≤ g) (hF : Fit S.P.T g) (hr : ∀ r ∈ s.reading, r.1 ≠ p) (hs : Small (s.lv.known p))
    (ho : Decentral.InOrder s p g) (ht : Decentral.InTime (S.c i) s p g) :
    Loc S i { s with lv := { Level.updatePort (S.c i) s.lv p g with hist := .absent p g :: s.lv.hist }, said := upd s.said p g } log loc fin := by
  obtain ⟨hG, -, -⟩ := h.timely hS hi
  have hf : g.microstep < UINT_MAX := by
    rcases hF.1 with k | k
    · exact absurd k hF.2
    · omega
  have hstep := Decentral.Step.absent (a := inTime) hp hg hf hr hs (fun _ => ho) (fun _ => ht)
  obtain ⟨m, sl, e⟩ := Decentral.updatePort_lv (S.c i) s.lv p g
  refine h.same (.step h.reach hstep) ?_ ?_ rfl rfl rfl rfl (fun q k => ?_) fun u k => ?_
  · dsimp only; rw [e]
  · dsimp only; rw [e]
  · dsimp only; rw [e]; exact known_up (c := S.c i) hs hG.lv.curTime q k
  · dsimp only; rw [e]; exact h.duty u k

theorem Loc.gone (h : Loc S i s log loc fin) (hS : S.Ok rank) (hi : i < S.P.T.n) {p : Nat} (hp : p < (S.c i).n)
    (hr : ∀ r ∈ s.reading, r.1 ≠ p) (hs : Small (s.lv.known p)) :
    Loc S i { s with lv := { Level.updatePort (S.c i) s.lv p FOREVER_TAG with hist := .gone p :: s.lv.hist }, gone := upd s.gone p true }
      log loc fin := by
  obtain ⟨hG, -, -⟩ := h.timely hS hi
  have hstep := Decentral.Step.gone (a := inTime) (c := S.c i) hp hr hs
  obtain ⟨m, sl, e⟩ := Decentral.updatePort_lv (S.c i) s.lv p FOREVER_TAG
  refine h.same (.step h.reach hstep) ?_ ?_ rfl rfl rfl rfl (fun q k => ?_) fun u k => ?_
  · dsimp only; rw [e]
  · dsimp only; rw [e]
  · dsimp only; rw [e]; exact known_up (c := S.c i) hs hG.lv.curTime q k
  · dsimp only; rw [e]; exact h.duty u k

/-- What a message in time does. -/
theorem complete_shape {c : Config} (hw : Decentral.WF c) (hG : Decentral.Gen c s) (hN : Decentral.Net c s) (hD : Decentral.Del c s)
    {p : Nat} {g : Tag} {v : Nat} (hr : (p, g, v) ∈ s.reading)
    (ht : s.lv.cur < g ∨ s.lv.now + MIN_SLEEP_DURATION ≤ g.time + c.sta + (c.port p).staa)
    (hc : ¬ (s.lv.phase = .atStart ∧ g = c.start)) :
    ∃ (lv : Level.State) (l : List Ev) (o : List Delivery) (dr : List Decentral.Msg) (la : Nat → Tag) (x : Tag) (y : Nat),
      release { handle c s p g v with reading := s.reading.erase (p, g, v) } = { s with
        lv := lv, got := (p, g, v) :: s.got, q := s.q ++ l, out := s.out ++ o, dropped := dr ++ s.dropped, last := la,
        reading := s.reading.erase (p, g, v), horizon := x, requestors := y } ∧
      lv.phase = s.lv.phase ∧ lv.cur = s.lv.cur ∧ lv.now = s.lv.now ∧
      (∃ k, lv.known = upd s.lv.known p (newKnown s.lv.cur (s.lv.known p) k)) ∧
      ((l = [] ∧ o = [⟨p, g, v, g, false⟩] ∧ s.lv.cur = g ∧ s.lv.phase = .running ∧ s.lv.known p < g) ∨
        (o = [] ∧ (l = [] ∨ l = [⟨some p, g, g, v⟩]))) := by
  obtain ⟨x, y, he, -⟩ := Decentral.release_cases { handle c s p g v with reading := s.reading.erase (p, g, v) }
  obtain ⟨l, o, dr, la, hh, hcs⟩ := Decentral.handle_cases c s p g v
  obtain ⟨m, sl, st', hl'⟩ := Decentral.handleMessage_lv c s.lv p g (decide (s.last p < g))
  rw [hh] at he
  rw [hh]
  refine ⟨_, l, o, dr, la, x, y, he, ?_, ?_, ?_, ⟨if Level.handleMessageNow c s.lv p g (decide (s.last p < g)) then g else Level.actualTag c s.lv p g, ?_⟩, ?_⟩
  · dsimp only; rw [hl']
  · dsimp only; rw [hl']
  · dsimp only; rw [hl']
  · dsimp only; rw [hl']
  · rcases hcs with ⟨h1, h2, h3, -, -⟩ | ⟨h1, h2, h3⟩
    · left
      unfold Decentral.now_ Level.handleMessageNow at h1
      simp only [Bool.and_eq_true, decide_eq_true_eq, cmp_eq_zero, gt_iff_lt, cmp_gt_zero] at h1
      obtain ⟨⟨⟨⟨⟨-, k1⟩, -⟩, k2⟩, k3⟩, -⟩ := h1
      refine ⟨h2, ?_, k1.symm, k3, k2⟩
      rw [h3, ← k1, decide_eq_false (Tag.lt_irrefl _)]
    · right
      refine ⟨h2, ?_⟩
      have hno : ¬ (g ≤ s.lv.cur ∧ s.lv.phase = .running) := by
        rintro ⟨k1, k2⟩
        rcases Decentral.complete_cases hw hG hN hr ht hc with k | ⟨k3, k4, k5⟩ | ⟨k3, k4, -⟩
        · exact absurd k (Tag.not_lt.2 k1)
        · rw [Decentral.now_current hw hG hr (hD.last p) k2 k3 k5] at h1; cases h1
        · rw [k2] at k4; cases k4
      have hnf : Decentral.found s.q p g = false := by
        rw [Decentral.found_false]
        intro e he' hp' hg'
        have h4 := (hD.fresh p g v hr).1 e he' hp'
        rw [← (hD.q e he' p hp').1, hg'] at h4
        exact Tag.lt_irrefl _ h4
      rcases h3 with h3 | h3 | h3 | h3
      · exact .inl h3.1
      · exact absurd ⟨h3.1, h3.2.1⟩ hno
      · exact .inr h3.2.2.2.2.1
      · rw [hnf] at h3; cases h3.2.1

theorem Loc.complete (h : Loc S i s log loc fin) (hS : S.Ok rank) (hi : i < S.P.T.n) {p : Nat} {g : Tag} {v : Nat}
    (hr : (p, g, v) ∈ s.reading) (hs : Small (s.lv.known p)) (hn : s.lv.now + MIN_SLEEP_DURATION ≤ dueBy (S.c i) p g)
    (hc : ¬ (s.lv.phase = .atStart ∧ g = (S.c i).start)) :
    Loc S i (release { handle (S.c i) s p g v with reading := s.reading.erase (p, g, v) }) log loc fin := by
  obtain ⟨hG, hN, hD⟩ := h.timely hS hi
  have hm0 : min 0 ((S.c i).port p).staa ≤ ((S.c i).port p).staa ∧ min 0 ((S.c i).port p).staa ≤ 0 := by omega
  have ht : s.lv.cur < g ∨ s.lv.now + MIN_SLEEP_DURATION ≤ g.time + (S.c i).sta + ((S.c i).port p).staa := by
    right; unfold Decentral.dueBy at hn; omega
  obtain ⟨hpn, -, hgs, -, -, hx⟩ := hG.pend p g v hr
  have hstep := Decentral.Step.complete (a := inTime) (c := S.c i) hr hs (fun _ => ht) (fun _ => hc) (fun k => by cases k)
  obtain ⟨lv, l, o, dr, la, x, y, e, e1, e2, e3, ⟨k, e4⟩, hcs⟩ := complete_shape (hS.wf i hi) hG hN hD hr ht hc
  have hreach : Decentral.Reach (S.c i) inTime _ := .step h.reach hstep
  rw [e] at hreach ⊢
  have hknown : ∀ q, s.lv.cur ≤ s.lv.known q → s.lv.cur ≤ lv.known q := by
    intro q hq; rw [e4]; exact known_up (c := S.c i) hs hG.lv.curTime q hq
  have hnow : fin = true → s.lv.cur = g → ¬ s.lv.known p < g := by
    intro k1 k2 k3
    rcases (h.done k1).2.2 p hpn with k4 | k4
    · rw [k2, hx] at k4; cases k4
    · rw [k2] at k4; exact absurd k3 (Tag.not_lt.2 k4)
  have hq : ∀ e ∈ s.q ++ l, e ∈ s.q ∨ e = ⟨some p, g, g, v⟩ := by
    intro e he
    rcases List.mem_append.1 he with he | he
    · exact .inl he
    · rcases hcs with ⟨k1, -⟩ | ⟨-, k1 | k1⟩
      · rw [k1] at he; cases he
      · rw [k1] at he; cases he
      · rw [k1] at he; exact .inr (List.mem_singleton.1 he)
  have hout : ∀ d ∈ s.out ++ o, d ∈ s.out ∨ (d = ⟨p, g, v, g, false⟩ ∧ s.lv.cur = g ∧ s.lv.phase = .running ∧ s.lv.known p < g) := by
    intro d hd
    rcases List.mem_append.1 hd with hd | hd
    · exact .inl hd
    · rcases hcs with ⟨-, k1, k2⟩ | ⟨k1, -⟩
      · rw [k1] at hd; exact .inr ⟨List.mem_singleton.1 hd, k2⟩
      · rw [k1] at hd; cases hd
  refine ⟨hreach, h.stop, ?_, h.sorted, ?_, ?_, fun d hd => ?_, fun m hm => ?_, fun y hy => ?_, fun e he hn => ?_, fun e he => ?_, h.single,
    fun hp => ?_, h.causes, fun u k => ?_⟩
  · dsimp only
    rw [e1, e2]
    intro k
    obtain ⟨a, b, d⟩ := h.done k
    exact ⟨a, b, fun q hq => (d q hq).imp id (hknown q)⟩
  · dsimp only; rw [e1, e2]; exact h.logs
  · dsimp only; rw [e1, e2]; exact h.run
  · dsimp only
    rw [e2]
    rcases hout d hd with hd | ⟨rfl, k1, k2, k3⟩
    · exact h.out d hd
    · refine ⟨hpn, .inr ⟨k1.symm, ?_⟩⟩
      cases hf : fin with
      | false => rfl
      | true => exact absurd k3 (hnow hf k1)
  · rcases List.mem_cons.1 hm with rfl | hm
    · exact hpn
    · exact h.gots m hm
  · rw [h.val y hy]
    have := inputs_append (c := S.c i) (out := s.out) (ds := o) (l := loc) (m := []) (t := y.1)
      (fun d hd k => by
        rcases hcs with ⟨-, k1, k2, k3, k4⟩ | ⟨k1, -⟩
        · rw [k1] at hd
          rw [List.mem_singleton.1 hd] at k
          replace k : g = y.1 := k
          exact hnow ((h.logs y hy).2.2.2.2.2 (by rw [← k, k2])) k2 k4
        · rw [k1] at hd; cases hd) (fun e he => by cases he)
    rw [List.append_nil] at this
    exact this.symm
  · rcases hq e he with he | rfl
    · exact h.ql e he hn
    · cases hn
  · dsimp only
    rw [e1, e2]
    obtain ⟨a, b, d⟩ := h.lq e he
    refine ⟨a, b, ?_⟩
    rcases d with ⟨e', d1, d2⟩ | d
    · exact .inl ⟨e', List.mem_append_left _ d1, d2⟩
    · exact .inr d
  · dsimp only at hp ⊢
    rw [e1] at hp
    rw [e2]
    rcases h.cause hp with k | k | k | ⟨d, k1, k2⟩
    · exact .inl k
    · exact .inr (.inl k)
    · exact .inr (.inr (.inl k))
    · exact .inr (.inr (.inr ⟨d, List.mem_append_left _ k1, k2⟩))
  · show lv.now ≤ _
    rw [e3]
    obtain ⟨k1, k2, k3⟩ := k
    rw [passed_congr e1 e2] at k2
    have old : ((∃ e ∈ s.q, e.tag = u) ∨ u = S.P.first ∨ u = S.P.stop ∨ (s.lv.phase = .running ∧ u = s.lv.cur)) → s.lv.now ≤ u.time + S.lag i :=
      fun k => h.duty u ⟨k1, k2, k⟩
    rcases k3 with ⟨e, k3, k4⟩ | k3 | k3 | k3
    · rcases hq e k3 with k3 | rfl
      · exact old (.inl ⟨e, k3, k4⟩)
      · have h1 := hS.lag i hi
        have h2 : (0 : Int) ≤ MIN_SLEEP_DURATION := by decide
        have h3 : g.time = u.time := congrArg Tag.time k4
        unfold Decentral.dueBy at hn
        omega
    · exact old (.inr (.inl k3))
    · exact old (.inr (.inr (.inl k3)))
    · dsimp only at k3
      rw [e1, e2] at k3
      exact old (.inr (.inr (.inr k3)))

end

end ReactorC.DecFed
