import Verif.DecFed.Ahead

/-! A port about whose status nothing is known at the current tag is marked as such; `last_known_status_tag` does not get near the greatest
microstep; the latest tag sent on a connection has been sent. -/

set_option linter.unusedVariables false

namespace ReactorC.DecFed
open ReactorC
open ReactorC.Rti (Topology Sane put put_same put_other)
open ReactorC.FedDet (Program Entry Event Inputs Out Fit Single present upTo Seq Done Exec Gen Quiet present_of present_some)
open ReactorC.Level (Config MIN_SLEEP_DURATION Small exempt blocks waitOver newKnown upd bump)
open ReactorC.Decentral (Ev Delivery due nextTag open_ raise release handle inTime good_inTime reach_timely dueBy)

/-- What a message in time does to what is known about the ports. -/
theorem complete_known {c : Config} {s : Decentral.State} (hw : Decentral.WF c) (hG : Decentral.Gen c s) (hN : Decentral.Net c s) (hD : Decentral.Del c s)
    {p : Nat} {g : Tag} {v : Nat} (hr : (p, g, v) ∈ s.reading)
    (ht : s.lv.cur < g ∨ s.lv.now + MIN_SLEEP_DURATION ≤ g.time + c.sta + (c.port p).staa)
    (hc : ¬ (s.lv.phase = .atStart ∧ g = c.start)) :
    ∃ k, (k = g ∨ (g = c.start ∧ k = bump g)) ∧
      (release { handle c s p g v with reading := s.reading.erase (p, g, v) }).lv.known = upd s.lv.known p (newKnown s.lv.cur (s.lv.known p) k) ∧
      ((release { handle c s p g v with reading := s.reading.erase (p, g, v) }).lv.status = s.lv.status ∨
        (s.lv.phase = .running ∧
          (release { handle c s p g v with reading := s.reading.erase (p, g, v) }).lv.status = upd s.lv.status p .present)) := by
  obtain ⟨x, y, he, -⟩ := Decentral.release_cases { handle c s p g v with reading := s.reading.erase (p, g, v) }
  obtain ⟨l, o, dr, la, hh, -⟩ := Decentral.handle_cases c s p g v
  rw [he]
  dsimp only
  rw [hh]
  dsimp only
  obtain ⟨m, sl, st', hl'⟩ := Decentral.handleMessage_lv c s.lv p g (decide (s.last p < g))
  refine ⟨if Level.handleMessageNow c s.lv p g (decide (s.last p < g)) then g else Level.actualTag c s.lv p g, ?_, by rw [hl'], ?_⟩
  · split
    · exact .inl rfl
    · rename_i hno
      unfold Level.actualTag
      rcases Decentral.complete_cases hw hG hN hr ht hc with k | ⟨k1, k2, k3⟩ | ⟨k1, k2, k3, k4, k5⟩
      · left
        rw [if_neg]
        rw [Bool.and_eq_true, decide_eq_true_eq, cmp_le_zero]
        exact fun c => absurd k (Tag.not_lt.2 c.2)
      · have := Decentral.now_current hw hG hr (hD.last p) k2 k1 k3
        unfold Decentral.now_ at this
        have e : decide (lf_tag_compare g (s.last p) > 0) = decide (s.last p < g) := by rw [decide_eq_decide, gt_iff_lt, cmp_gt_zero]
        rw [e] at this
        exact absurd this hno
      · right
        refine ⟨k4, ?_⟩
        have hm : g.microstep < UINT_MAX := (hG.pend p g v hr).2.2.2.2.1
        rw [if_pos, k1, if_neg]
        · rw [cmp_le_zero, Level.bump_small hm]
          intro c
          have := Tag.lt_of_le_of_lt c k5
          rw [Tag.lt_def] at this
          dsimp only at this
          omega
        · rw [hw.dec, Bool.true_and, decide_eq_true_eq, cmp_le_zero, k1]; exact Tag.le_refl _
  · unfold Level.handleMessage
    split
    · rename_i h1
      right
      unfold Level.handleMessageNow at h1
      simp only [Bool.and_eq_true, decide_eq_true_eq] at h1
      refine ⟨h1.1.2, ?_⟩
      obtain ⟨m, sl, e⟩ := Decentral.updatePort_lv c s.lv p g
      dsimp only; rw [e]
    · left
      obtain ⟨m, sl, e⟩ := Decentral.updatePort_lv c s.lv p (Level.actualTag c s.lv p g)
      rw [e]

structure Stat (c : Config) (s : Decentral.State) : Prop where
  q : ∀ e ∈ s.q, ∀ i, e.port = some i → e.tag.time < FOREVER ∧ e.tag ≤ s.lv.known i
  early : s.lv.phase ≠ .running → ∀ i, s.lv.status i = .unknown
  status : ∀ i, s.lv.known i < s.lv.cur → s.lv.status i = .unknown

theorem newKnown_mono {cur known k x : Tag} (h : Small known) (hx : x.time < FOREVER) (hk : x ≤ known) : x ≤ newKnown cur known k :=
  Level.newKnown_ge h hx hk

section
variable {c : Config} {s : Decentral.State}

/-- What is known about a port changes. -/
theorem Stat.up (h : Stat c s) (hG : Decentral.Gen c s) {s' : Decentral.State} {i : Nat} {k : Tag} (hs : Small (s.lv.known i)) (hq : s'.q = s.q)
    (hp : s'.lv.phase = s.lv.phase) (hc : s'.lv.cur = s.lv.cur) (hk : s'.lv.known = upd s.lv.known i (newKnown s.lv.cur (s.lv.known i) k))
    (hst : s'.lv.status = s.lv.status ∨ (s.lv.phase = .running ∧ ∀ j, j ≠ i → s'.lv.status j = s.lv.status j)) : Stat c s' := by
  have cur : s.lv.cur ≤ s'.lv.known i := by
    rw [hk]; unfold upd; rw [if_pos rfl]; exact Level.newKnown_cur hs hG.lv.curTime
  have other : ∀ j, j ≠ i → s'.lv.known j = s.lv.known j := fun j hj => by rw [hk]; unfold upd; rw [if_neg hj]
  refine ⟨fun e he j hj => ?_, fun hr j => ?_, fun j hj => ?_⟩
  · rw [hq] at he
    obtain ⟨a, b⟩ := h.q e he j hj
    refine ⟨a, ?_⟩
    by_cases c : j = i
    · subst c; rw [hk]; unfold upd; rw [if_pos rfl]; exact Level.newKnown_ge hs a b
    · rw [other j c]; exact b
  · rw [hp] at hr
    rcases hst with k | k
    · rw [k]; exact h.early hr j
    · exact absurd k.1 hr
  · rw [hc] at hj
    by_cases c : j = i
    · subst c; exact absurd hj (Tag.not_lt.2 cur)
    · rw [other j c] at hj
      rcases hst with k | k
      · rw [k]; exact h.status j hj
      · rw [k.2 j c]; exact h.status j hj

theorem Stat.same (h : Stat c s) {s' : Decentral.State} (hq : ∀ e ∈ s'.q, e ∈ s.q ∨ e.port = none) (hp : s'.lv.phase = s.lv.phase) (hc : s'.lv.cur = s.lv.cur)
    (hk : s'.lv.known = s.lv.known) (hst : s'.lv.status = s.lv.status) : Stat c s' := by
  refine ⟨fun e he j hj => ?_, by rw [hp, hst]; exact h.early, by rw [hc, hk, hst]; exact h.status⟩
  rw [hk]
  rcases hq e he with k | k
  · exact h.q e k j hj
  · rw [k] at hj; cases hj

theorem pops_any {t : Tag} {l : List Ev} {i : Nat} : ((Decentral.pops t l).any fun d => d.port = i) = true ↔ ∃ e ∈ l, e.port = some i := by
  rw [← Decentral.pops_port t l i, List.any_eq_true]
  constructor
  · rintro ⟨d, h1, h2⟩; exact ⟨d, h1, of_decide_eq_true h2⟩
  · rintro ⟨d, h1, h2⟩; exact ⟨d, h1, decide_eq_true h2⟩

theorem Stat.step (h : Stat c s) (hw : Decentral.WF c) (hr : Decentral.Reach c inTime s) {s' : Decentral.State}
    (st : Decentral.Step c inTime s s') : Stat c s' := by
  obtain ⟨hG, hN, hD⟩ := reach_timely hw good_inTime hr
  cases st with
  | @header i g v =>
    obtain ⟨x, he, -⟩ := Decentral.raise_cases s g hG.lv.curMicro
    rw [he]
    exact h.same (fun e he => .inl he) rfl rfl rfl rfl
  | @complete i g v hrd hs ht hc hsp =>
    have ht' := ht rfl
    have hc' := hc rfl
    obtain ⟨lv, l, o, dr, la, x, y, e, e1, e2, e3, -, hcs⟩ := complete_shape hw hG hN hD hrd ht' hc'
    obtain ⟨k, hk, k1, k2⟩ := complete_known hw hG hN hD hrd ht' hc'
    rw [e] at k1 k2 ⊢
    have base : Stat c { s with lv := lv } := h.up (k := k) hG hs rfl e1 e2 k1 (k2.imp id fun k => ⟨k.1, fun j hj => by
      show lv.status j = _
      have := congrFun k.2 j
      dsimp only at this
      rw [this]; unfold upd; rw [if_neg hj]⟩)
    obtain ⟨-, -, -, hgF, hgm, -⟩ := hG.pend i g v hrd
    refine ⟨fun ev he j hj => ?_, base.early, base.status⟩
    rcases List.mem_append.1 he with he | he
    · exact base.q ev he j hj
    · have hl : l = [⟨some i, g, g, v⟩] := by
        rcases hcs with ⟨k, -⟩ | ⟨-, k | k⟩
        · rw [k] at he; cases he
        · rw [k] at he; cases he
        · exact k
      rw [hl, List.mem_singleton] at he
      subst he
      injection hj with hj
      subst hj
      refine ⟨hgF, ?_⟩
      show g ≤ lv.known i
      have := congrFun k1 i
      dsimp only at this
      rw [this]; unfold upd; rw [if_pos rfl]
      refine Decentral.newKnown_above hs hgF ?_
      rcases hk with rfl | ⟨-, rfl⟩
      · exact Tag.le_refl _
      · rw [Level.bump_small hgm, Tag.le_def]; dsimp only; omega
  | @abort r hrd =>
    obtain ⟨x, y, he, -⟩ := Decentral.release_cases { s with reading := s.reading.erase r }
    rw [he]
    exact h.same (fun e he => .inl he) rfl rfl rfl rfl
  | @absent i g hi hg hm hrd hs =>
    obtain ⟨m, sl, e⟩ := Decentral.updatePort_lv c s.lv i g
    exact h.up (k := g) hG hs rfl (by dsimp only; rw [e]) (by dsimp only; rw [e]) (by dsimp only; rw [e]) (.inl (by dsimp only; rw [e]))
  | @gone i hi hrd hs =>
    obtain ⟨m, sl, e⟩ := Decentral.updatePort_lv c s.lv i FOREVER_TAG
    exact h.up (k := FOREVER_TAG) hG hs rfl (by dsimp only; rw [e]) (by dsimp only; rw [e]) (by dsimp only; rw [e]) (.inl (by dsimp only; rw [e]))
  | @local_ t v h1 h2 =>
    refine h.same (fun e he => ?_) rfl rfl rfl rfl
    rcases List.mem_append.1 he with k | k
    · exact .inl k
    · rw [List.mem_singleton.1 k]; exact .inr rfl
  | setStop => exact h.same (fun e he => .inl he) rfl rfl rfl rfl
  | clock => exact h.same (fun e he => .inl he) rfl rfl rfl rfl
  | begin hp hw => exact ⟨h.q, fun _ => h.early (by rw [hp]; simp), fun i _ => h.early (by rw [hp]; simp) i⟩
  | @start l hp ho hl =>
    refine ⟨fun e he => h.q e ((Decentral.mem_rest _ _ _).1 he).1, fun k => absurd rfl k, fun i hi => ?_⟩
    unfold Decentral.start_ at hi ⊢
    dsimp only at hi ⊢
    rw [if_neg]
    · exact h.early (by rw [hp]; simp) i
    · rw [pops_any]
      rintro ⟨e, k1, k2⟩
      have k3 := hl.subset k1
      unfold Decentral.due at k3
      rw [List.mem_filter, decide_eq_true_eq] at k3
      have := (h.q e k3.1 i k2).2
      rw [k3.2, ← (hG.after (by rw [hp]; simp)).2 hp] at this
      exact absurd hi (Tag.not_lt.2 this)
  | wait => exact h.same (fun e he => .inl he) rfl rfl rfl rfl
  | @advance p l hwt hcn hF hm ho hp hl =>
    have hdue : ∀ i, (∃ e ∈ l, e.port = some i) → nextTag s ≤ s.lv.known i := by
      rintro i ⟨e, k1, k2⟩
      have k3 := hl.subset k1
      unfold Decentral.due at k3
      rw [List.mem_filter, decide_eq_true_eq] at k3
      have := (h.q e k3.1 i k2).2
      rwa [k3.2] at this
    have hkn : (Decentral.advance c s (nextTag s) l).lv.known = s.lv.known := by
      unfold Decentral.advance Level.nextTag Level.broadcast
      dsimp only
      funext i
      split
      · rename_i c
        rw [Bool.and_eq_true, decide_eq_true_eq, gt_iff_lt, cmp_gt_zero, List.any_eq_true] at c
        obtain ⟨⟨d, k1, k2⟩, k3⟩ := c
        rw [Bool.and_eq_true, decide_eq_true_eq] at k2
        exact absurd k3 (Tag.not_lt.2 (hdue i ((Decentral.pops_port _ _ _).1 ⟨d, k1, k2.1⟩)))
      · rfl
    refine ⟨fun e he => ?_, fun k => absurd ?_ k, fun i hi => ?_⟩
    · rw [hkn]; exact h.q e ((Decentral.mem_rest _ _ _).1 he).1
    · exact hp
    · rw [hkn] at hi
      replace hi : s.lv.known i < nextTag s := hi
      unfold Decentral.advance Level.nextTag Level.broadcast
      dsimp only
      rw [if_neg, if_neg]
      · rw [ge_iff_le, cmp_ge_zero]; exact Tag.not_le.2 hi
      · rw [pops_any]
        exact fun k => absurd hi (Tag.not_lt.2 (hdue i k))
  | @stall level hp =>
    refine h.same (fun e he => .inl he) ?_ ?_ ?_ ?_ <;> (dsimp only; unfold Level.stall; split <;> rfl)
  | arm => exact h.same (fun e he => .inl he) rfl rfl rfl rfl
  | @timeout i t u hi hwt ho hc hst hs =>
    obtain ⟨m, sl, e⟩ := Decentral.updatePort_lv c { s.lv with status := upd s.lv.status i .absent } i s.lv.cur
    have hrun := (hG.lv.staa _ _ _ hwt).2
    refine h.up (k := s.lv.cur) hG hs rfl (by dsimp only; rw [e]) (by dsimp only; rw [e]) (by dsimp only; rw [e]) (.inr ⟨hrun, fun j hj => ?_⟩)
    dsimp only; rw [e]; dsimp only; unfold upd; rw [if_neg hj]

theorem Stat.reach (hw : Decentral.WF c) (hr : Decentral.Reach c inTime s) : Stat c s := by
  induction hr with
  | init now stop h1 h2 h3 => exact ⟨fun e he => (by cases he), fun _ _ => rfl, fun _ _ => rfl⟩
  | step hr st ih => exact ih.step hw hr st

end

end ReactorC.DecFed
