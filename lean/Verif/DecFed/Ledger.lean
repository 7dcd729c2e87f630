import Verif.DecFed.Status

/-! The latest tag sent on a connection was sent, and `last_known_status_tag` does not get near the greatest microstep. -/

set_option linter.unusedVariables false

namespace ReactorC.DecFed
open ReactorC
open ReactorC.Rti (Topology Sane put put_same put_other)
open ReactorC.FedDet (Program Entry Event Inputs Out Fit Single present upTo upTo_cons_old Seq Done Exec Gen Quiet present_of present_some)
open ReactorC.Level (Config MIN_SLEEP_DURATION Small exempt blocks waitOver newKnown upd bump)
open ReactorC.Decentral (Ev Delivery due nextTag open_ raise release handle inTime good_inTime reach_timely dueBy)

variable {S : Setup} {rank : Nat → Nat} {g g' : State} {s : Seq Nat}

/-! ## What has been passed stays passed -/

theorem put_passed {i : Nat} {x : Decentral.State} {f : Bool} (h : ∀ u, Passed (g.fed i) (g.fin i) u → Passed x f u) (j : Nat) (u : Tag)
    (k : Passed (g.fed j) (g.fin j) u) : Passed (put g.fed i x j) (put g.fin i f j) u := by
  by_cases c : j = i
  · subst c; rw [put_same, put_same]; exact h u k
  · rw [put_other _ _ _ c, put_other _ _ _ c]; exact k

theorem put_passed' {i : Nat} {x : Decentral.State} (h : ∀ u, Passed (g.fed i) (g.fin i) u → Passed x (g.fin i) u) (j : Nat) (u : Tag)
    (k : Passed (g.fed j) (g.fin j) u) : Passed (put g.fed i x j) (g.fin j) u := by
  have := put_passed h j u k
  rwa [put_id] at this

theorem own_passed {c : Config} {x y : Decentral.State} {f : Bool} (st : Own c x y) (u : Tag) (k : Passed x f u) : Passed y f u := by
  cases st with
  | begin hp hw => exact absurd k.1 (by rw [hp]; simp)
  | wait hp hn hw => exact k
  | @stall level hp => exact (passed_congr (by dsimp only; unfold Level.stall; split <;> rfl) (by dsimp only; unfold Level.stall; split <;> rfl) f u).2 k
  | @arm v hp => exact k
  | @timeout i t v hi hw ho hc hs hk =>
    obtain ⟨m, sl, e⟩ := Decentral.updatePort_lv c { x.lv with status := upd x.lv.status i .absent } i x.lv.cur
    exact (passed_congr (by dsimp only; rw [e]) (by dsimp only; rw [e]) f u).2 k

theorem Step.passed (h : Inv S g) (hS : S.Ok rank) (st : Step S g g') (j : Nat) (u : Tag) (k : Passed (g.fed j) (g.fin j) u) :
    Passed (g'.fed j) (g'.fin j) u := by
  cases st with
  | own hi st => exact put_passed' (fun u => own_passed st u) j u k
  | clock hi h1 h2 h3 =>
    refine put_passed' ?_ j u k
    exact fun u k => k
  | @start i l hi hp ho hl => exact put_passed' (fun u k => absurd k.1 (by rw [hp]; simp)) j u k
  | @finish i silent hi hp hf hb hF =>
    unfold DecFed.finish
    refine put_passed ?_ j u k
    exact fun u k => ⟨k.1, k.2.imp id fun k => ⟨k.1, rfl⟩⟩
  | @advance i p l hi hf hw hlt h1 h2 ho hp hl =>
    refine put_passed ?_ j u k
    refine fun u k => ⟨hp, .inl ?_⟩
    rcases k.2 with k | k
    · exact Tag.lt_trans k hlt
    · rw [k.1]; exact hlt
  | @header d p t v a rest hd hp hc hr =>
    obtain ⟨x, he, -⟩ := Decentral.raise_cases (g.fed d) t ((h.fed d hd).timely hS hd).1.lv.curMicro
    rw [he]
    refine put_passed' ?_ j u k
    exact fun u k => k
  | @complete d p t v hd hr hs hc =>
    obtain ⟨hG, hN, hD⟩ := (h.fed d hd).timely hS hd
    obtain ⟨hp, -⟩ := hG.pend p t v hr
    obtain ⟨a, rest, hch⟩ := (h.chan d hd p hp).read t v hr
    have hdue := (h.chan d hd p hp).due hS hd hp (it := ⟨t, some v, a⟩) (by rw [hch]; exact List.mem_cons_self)
    unfold Decentral.dueBy at hdue
    dsimp only at hdue
    obtain ⟨lv, l, o, dr, la, x, y, e, e1, e2, -⟩ := complete_shape (hS.wf d hd) hG hN hD hr (.inr (by omega)) hc
    rw [e]
    exact put_passed' (fun u k => (passed_congr e1 e2 _ u).2 k) j u k
  | @absent d p t a rest hd hp hc hr hs =>
    obtain ⟨m, sl, e⟩ := Decentral.updatePort_lv (S.c d) (g.fed d).lv p t
    refine put_passed' (fun u k => (passed_congr ?_ ?_ _ u).2 k) j u k <;> (dsimp only; rw [e])
  | @gone d p hd hp hc hs h1 h2 h3 =>
    obtain ⟨m, sl, e⟩ := Decentral.updatePort_lv (S.c d) (g.fed d).lv p FOREVER_TAG
    refine put_passed' (fun u k => (passed_congr ?_ ?_ _ u).2 k) j u k <;> (dsimp only; rw [e])

theorem Step.logs (h : Inv S g) (st : Step S g g') (j : Nat) : ∀ x ∈ g.log j, x ∈ g'.log j ∧ upTo x.1 (g'.log j) = upTo x.1 (g.log j) := by
  intro x hx
  cases st with
  | @finish i silent hi hp hf hb hF =>
    unfold DecFed.finish
    dsimp only
    by_cases c : j = i
    · subst c
      rw [put_same]
      refine ⟨List.mem_cons_of_mem _ hx, upTo_cons_old ?_⟩
      obtain ⟨-, -, -, -, a5, a6⟩ := (h.fed j hi).logs x hx
      rcases Tag.lt_or_eq_of_le a5 with k | k
      · exact k
      · have := a6 k
        rw [hf] at this; cases this
    · rw [put_other _ _ _ c]; exact ⟨hx, rfl⟩
  | _ => exact ⟨hx, rfl⟩

theorem sent_init (S : Setup) (now : Nat → Int) : Sent S (init S now) := fun d hd p hp => .inl rfl

theorem Sent.step (k : Sent S g) (h : Inv S g) (h' : Inv S g') (hS : S.Ok rank) (st : Step S g g') : Sent S g' := by
  intro d hd p hp
  have keep : g'.sent d p = g.sent d p → g'.sent d p = NEVER_TAG ∨ ∃ vo u, Src S g' d p (g'.sent d p) vo u := by
    intro e
    rw [e]
    exact (k d hd p hp).imp id fun ⟨vo, u, hk⟩ => ⟨vo, u, hk.mono (st.passed h hS _) (st.logs h _)⟩
  cases st with
  | @finish i silent hi hr hf hb hF =>
    have hl := (hF.2.2 d p).1
    rcases latest_cases (t := g.sent d p) hl with ⟨k1, k2⟩ | ⟨it, k1, k2⟩
    · exact keep k2
    · right
      have : it ∈ (DecFed.finish S g i silent).chan d p := by
        unfold DecFed.finish
        dsimp only
        rw [k1]; exact List.mem_append_right _ List.mem_cons_self
      obtain ⟨u, k3, -⟩ := (h'.chan d hd p hp).src it this
      refine ⟨it.val, u, ?_⟩
      have e : (DecFed.finish S g i silent).sent d p = it.tag := k2
      rw [e]; exact k3
  | _ => exact keep rfl

theorem Reach.sent (hS : S.Ok rank) (h : Reach S g) : Sent S g := by
  induction h with
  | init now h1 h2 => exact sent_init S now
  | step h st ih => exact ih.step (h.inv hS) ((Reach.step h st).inv hS) hS st

/-! ## What is known about the ports -/

/-- There is room for another microstep. -/
def Low (t : Tag) : Prop := t.time < FOREVER → t.microstep + 1 < UINT_MAX

theorem Low.small {t : Tag} (h : Low t) : Small t := fun k => by have := h k; omega

theorem Low.bump {t : Tag} (h : Low t) : Small (bump t) := by
  intro k
  rw [Level.bump_time] at k
  have := h k
  rw [Level.bump_small (by omega)]
  exact this

theorem small_new {cur known k : Tag} (h1 : Small known) (h2 : Low cur) (h3 : Low k) : Small (newKnown cur known k) := by
  rcases Level.newKnown_cases cur known k with h | h | h
  · rw [h.1]; exact h1
  · rw [h.1]
    rcases h.2.2.2 with e | e <;> rw [← e]
    · exact h3.bump
    · exact h2.bump
  · rcases h.2.2.2 with e | e
    · rw [e]; exact h3.small
    · rw [e.1]; exact h2.small

theorem fit_low {T : Topology} {t : Tag} (h : Fit T t) : Low t := fun _ => by have := fit_time h; omega

theorem Inv.cur_low (h : Inv S g) (hS : S.Ok rank) (hs : Done S.P rank s) (hfit : Fit S.P.T S.P.stop) {i : Nat} (hi : i < S.P.T.n) :
    Low (g.fed i).lv.cur := by
  obtain ⟨hG, -, -⟩ := (h.fed i hi).timely hS hi
  have hU : UINT_MAX = 4294967295 := rfl
  cases hp : (g.fed i).lv.phase with
  | waiting => rw [hG.lv.curInit hp]; intro _; dsimp only; omega
  | atStart => rw [(hG.after (by rw [hp]; simp)).2 hp]; intro _; unfold Level.Config.start; dsimp only; omega
  | running =>
    obtain ⟨x, hx⟩ := h.cur_log hS hs hfit hi hp
    exact fit_low (done_fit hS hs hx)

def Smalls (S : Setup) (g : State) : Prop := ∀ d < S.P.T.n, ∀ p < (S.c d).n, Small ((g.fed d).lv.known p)

theorem Smalls.put (k : Smalls S g) {i : Nat} {x : Decentral.State} (h : ∀ p < (S.c i).n, Small (x.lv.known p)) {d p : Nat} (hd : d < S.P.T.n)
    (hp : p < (S.c d).n) : Small ((put g.fed i x d).lv.known p) := by
  by_cases c : d = i
  · subst c; rw [put_same]; exact h p hp
  · rw [put_other _ _ _ c]; exact k d hd p hp

theorem small_upd {f : Nat → Tag} {q : Nat} {t : Tag} {n : Nat} (h : ∀ p < n, Small (f p)) (ht : Small t) : ∀ p < n, Small (upd f q t p) := by
  intro p hp
  unfold upd
  split
  · exact ht
  · exact h p hp

theorem Smalls.step (k : Smalls S g) (h : Inv S g) (hS : S.Ok rank) (hs : Done S.P rank s) (hfit : Fit S.P.T S.P.stop) (st : Step S g g') :
    Smalls S g' := by
  intro d hd p hp
  cases st with
  | @own i x hi st =>
    refine k.put (fun p hp => ?_) hd hp
    have hk := k i hi
    cases st with
    | begin hp hw => exact hk p ‹_›
    | wait hp hn hw => exact hk p ‹_›
    | @stall level hp => 
      have : (Level.stall (g.fed i).lv level).known = (g.fed i).lv.known := by unfold Level.stall; split <;> rfl
      dsimp only; rw [this]; exact hk p ‹_›
    | @arm v hp => exact hk p ‹_›
    | @timeout q t v hq hw ho hc hst hsm =>
      obtain ⟨m, sl, e⟩ := Decentral.updatePort_lv (S.c i) { (g.fed i).lv with status := upd (g.fed i).lv.status q .absent } q (g.fed i).lv.cur
      dsimp only; rw [e]
      exact small_upd hk (small_new hsm (h.cur_low hS hs hfit hi) (h.cur_low hS hs hfit hi)) p hp
  | @clock i t hi h1 h2 h3 =>
    refine k.put ?_ hd hp
    exact fun p hp => k i hi p hp
  | @start i l hi hp2 ho hl =>
    refine k.put ?_ hd hp
    exact fun p hp => k i hi p hp
  | @finish i silent hi hr hf hb hF =>
    unfold DecFed.finish
    refine k.put ?_ hd hp
    exact fun p hp => k i hi p hp
  | @advance i q l hi hf hw hlt h1 h2 ho hp2 hl =>
    refine k.put (fun p hp => ?_) hd hp
    unfold Decentral.advance Level.nextTag Level.broadcast
    dsimp only
    split
    · exact (fit_low (h.next_fit hS hs hfit hi)).small
    · exact k i hi p hp
  | @header i q t v a rest hi hq hc hr =>
    obtain ⟨x, he, -⟩ := Decentral.raise_cases (g.fed i) t ((h.fed i hi).timely hS hi).1.lv.curMicro
    rw [he]
    refine k.put ?_ hd hp
    exact fun p hp => k i hi p hp
  | @complete i q t v hi hr hsm hc =>
    refine k.put (fun p hp => ?_) hd hp
    obtain ⟨hG, hN, hD⟩ := (h.fed i hi).timely hS hi
    obtain ⟨hq, -⟩ := hG.pend q t v hr
    have K := h.chan i hi q hq
    obtain ⟨a, rest, hch⟩ := K.read t v hr
    have hm : (⟨t, some v, a⟩ : Item) ∈ g.chan i q := by rw [hch]; exact List.mem_cons_self
    have hdue := K.due hS hi hq hm
    unfold Decentral.dueBy at hdue
    dsimp only at hdue
    obtain ⟨x, hx, e, -⟩ := complete_known (hS.wf i hi) hG hN hD hr (.inr (by omega)) hc
    rw [e]
    obtain ⟨u, k1, -⟩ := K.src _ hm
    refine small_upd (k i hi) (small_new hsm (h.cur_low hS hs hfit hi) ?_) p hp
    rcases hx with rfl | ⟨k2, rfl⟩
    · exact fit_low k1.fit
    · intro _
      rw [k2]
      have hU : UINT_MAX = 4294967295 := rfl
      rw [Level.bump_small (by unfold Level.Config.start; dsimp only; omega)]
      unfold Level.Config.start; dsimp only; omega
  | @absent i q t a rest hi hq hch hr hsm =>
    refine k.put (fun p hp => ?_) hd hp
    obtain ⟨m, sl, e⟩ := Decentral.updatePort_lv (S.c i) (g.fed i).lv q t
    obtain ⟨u, k1, -⟩ := (h.chan i hi q hq).src ⟨t, none, a⟩ (by rw [hch]; exact List.mem_cons_self)
    dsimp only; rw [e]
    exact small_upd (k i hi) (small_new hsm (h.cur_low hS hs hfit hi) (fit_low k1.fit)) p hp
  | @gone i q hi hq hc hsm h1 h2 h3 =>
    refine k.put (fun p hp => ?_) hd hp
    obtain ⟨m, sl, e⟩ := Decentral.updatePort_lv (S.c i) (g.fed i).lv q FOREVER_TAG
    dsimp only; rw [e]
    exact small_upd (k i hi) (small_new hsm (h.cur_low hS hs hfit hi) fun k => absurd k (by decide)) p hp

theorem Reach.smalls (hS : S.Ok rank) (hs : Done S.P rank s) (hfit : Fit S.P.T S.P.stop) (h : Reach S g) : Smalls S g := by
  induction h with
  | init now h1 h2 => exact fun d hd p hp k => (by decide : (0 : Nat) < UINT_MAX)
  | step h st ih => exact ih.step (h.inv hS) hS hs hfit st

end ReactorC.DecFed
