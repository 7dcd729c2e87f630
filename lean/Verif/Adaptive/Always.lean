import Verif.Adaptive.Run

/-!
# The invariant holds in every state: the other steps
-/

set_option linter.unusedVariables false
set_option linter.unusedSimpArgs false

namespace ReactorC.Adaptive

open Np (Ev Who put starts thisTag)

section
variable {C : Config} {s s' : State} {w : Nat} {loc loc' : Nat → Loc}

theorem near_of {p : Pc} {x : Nat} (hp : s'.pc x = p) (ha : p.active = false) : Near C s' x :=
  near_of_not_active (by rw [hp]; exact ha)

theorem restrict_range {l v : Nat} (h : C.cap l ≠ 0) (hn : 0 < C.n) :
    1 ≤ restrict 1 (C.maxw l) v ∧ restrict 1 (C.maxw l) v ≤ C.maxw l := by
  have : 1 ≤ C.maxw l := by unfold Config.maxw; split <;> omega
  unfold restrict; split
  · omega
  · split <;> omega

theorem Inv.go_top (hC : C.Ok) (hk : Ctl C s) (hc : Crew C s) (hst : s.started = true) (hw : w < C.n)
    (h : Inv C s loc) (ht : (s.pc w).top = true) (he : exec C s (.go w) = some s') : ∃ loc', Inv C s' loc' := by
  have hfl := h.prog.fault
  have hoth : ∀ t, t ≠ w → (s.pc t).plain = true := fun t hne => hk.others_plain hc hst hw ht hne
  have hall : (s.pc w).plain = true → ∀ t, (s.pc t).plain = true := by
    intro k t
    by_cases e : t = w
    · subst e; exact k
    · exact hoth t e
  have hstop : (¬ (s.pc w).Halting C.n) → s.stop = false := by
    intro k
    by_contra k'
    simp only [Bool.not_eq_false] at k'
    exact k (hk.halt_pc hw ht k')
  have hend : s.pc w ≠ .signal → .stop ∈ s.hist → s.stop = true := h.prog.stop_of_top hk hw ht
  have hopen : ∀ t, t ≠ w → (s.pc t).opening = false := by
    intro t e
    refine not_opening ?_ (hc.not_booting hst hk t)
    by_contra k
    simp only [Bool.not_eq_false] at k
    exact e ((hk.alone w hw ht t (hc.top_lt k)).2 k)
  have hact0 : 0 ≠ w → (s.pc 0).active = false := by
    intro e
    have := (hk.alone w hw ht 0 hC.pos).1
    unfold awake at this; rw [Bool.or_eq_false_iff] at this; exact this.1
  have hth := hk.thr w hw
  cases hp : s.pc w with
  | adv =>
    have hs : s.stop = false := hstop (by rw [hp]; rintro (k | k | k) <;> cases k)
    have hrest := h.prog.rest w hp
    have hpl := hall (by rw [hp]; rfl)
    simp only [exec, hp] at he
    split at he
    · rename_i hcur
      simp only [Option.some.injEq] at he; subst he
      refine h.top hk hc hst hw ht rfl (by rw [hp]; rfl) rfl rfl rfl rfl rfl rfl rfl rfl rfl rfl ?_ ?_ ?_ ?_ ?_ ?_ rfl hfl
      · exact fun k => absurd (fresh_of hw rfl rfl (by simp)) k
      · intro k; cases k
      · intro _ r
        rcases h.data.all_idle hC hpl hrest r with k | k
        · exact k
        · omega
      · intro k; rw [show (s.goto w .close).stop = s.stop from rfl, hs] at k; cases k
      · intro k; exact hend (by rw [hp]; simp) k
      · exact near_of (put_same ..) rfl
    · rename_i hcur
      split at he
      · rename_i htot
        simp only [Option.some.injEq] at he; subst he
        refine ⟨loc, ?_, ?_, abs_same h.abs rfl fun _ => rfl⟩
        · refine h.data.switch hpl (p := .total) rfl hrest rfl rfl rfl rfl hopen (by intro k; cases k) ?_ (.inl rfl) rfl
          intro r hr
          rcases h.data.all_idle hC hpl hrest r with k | k
          · exact absurd k hr
          · exact k.1
        · refine h.prog.top hk hc hst hw ht rfl rfl rfl ?_ ?_ ?_ ?_ ?_ ?_ ?_ ?_ ?_
          · exact fun k => absurd (fresh_of hw rfl rfl (by simp)) k
          · intro k; cases k
          · rintro (k | k | k) <;> cases k
          · intro k
            have : s.stop = true := k
            rw [hs] at this; cases this
          · intro k; exact .inl (hend (by rw [hp]; simp) k)
          · intro k; cases k
          · exact near_of (put_same ..) rfl
          · have := h.prog.cur
            show s.cur + 1 ≤ C.maxLevel
            omega
          · have := h.prog.cur
            simp only [hfl, Bool.false_or, decide_eq_false_iff_not]; omega
      · simp only [Option.some.injEq] at he; subst he
        refine h.top hk hc hst hw ht rfl (by rw [hp]; rfl) rfl rfl rfl rfl rfl rfl rfl rfl rfl rfl ?_ ?_ ?_ ?_ ?_ ?_ rfl hfl
        · exact fun k => absurd (fresh_of hw rfl rfl (by simp)) k
        · intro k; cases k
        · rintro (k | k | k) <;> cases k
        · intro k; rw [show (s.goto w .total).stop = s.stop from rfl, hs] at k; cases k
        · intro k; exact hend (by rw [hp]; simp) k
        · exact near_of (put_same ..) rfl
  | total =>
    have hs : s.stop = false := hstop (by rw [hp]; rintro (k | k | k) <;> cases k)
    have hpl := hall (by rw [hp]; rfl)
    simp only [exec, hp, Option.some.injEq] at he; subst he
    by_cases e : s.total = 0
    · simp only [e, ne_eq, not_true_eq_false, if_false]
      have hz := h.data.total_zero hpl e
      refine h.top hk hc hst hw ht rfl (by rw [hp]; rfl) rfl rfl rfl rfl rfl rfl rfl rfl rfl rfl ?_ ?_ ?_ ?_ ?_ ?_ rfl hfl
      · exact fun _ => first_of_rest hC.pos hz rfl hact0
      · exact fun _ => hz
      · rintro (k | k | k) <;> cases k
      · intro k; rw [show (s.goto w .adv).stop = s.stop from rfl, hs] at k; cases k
      · intro k; exact hend (by rw [hp]; simp) k
      · exact near_of (put_same ..) rfl
    · simp only [ne_eq, e, not_false_eq_true, if_true]
      refine h.top hk hc hst hw ht rfl (by rw [hp]; rfl) rfl rfl rfl rfl rfl rfl rfl rfl rfl rfl ?_ ?_ ?_ ?_ ?_ ?_ rfl hfl
      · exact fun k => absurd (fresh_of hw rfl rfl (by simp)) k
      · intro k; cases k
      · rintro (k | k | k) <;> cases k
      · intro k; rw [show (s.goto w (.awaken (toAwaken s.total s.num))).stop = s.stop from rfl, hs] at k; cases k
      · intro k; exact hend (by rw [hp]; simp) k
      · exact near_of (put_same ..) rfl
  | close => simp only [exec, hp] at he; cases he
  | tag => simp only [exec, hp] at he; cases he
  | events =>
    have hs : s.stop = false := hstop (by rw [hp]; rintro (k | k | k) <;> cases k)
    simp only [exec, hp, Option.some.injEq] at he; subst he
    refine h.top hk hc hst hw ht rfl (by rw [hp]; rfl) rfl rfl rfl rfl rfl rfl rfl rfl rfl rfl ?_ ?_ ?_ ?_ ?_ ?_ rfl hfl
    · exact fun k => absurd (fresh_of hw rfl rfl (by simp)) k
    · intro k; cases k
    · rintro (k | k | k) <;> cases k
    · intro k; rw [show (s.goto w .total).stop = s.stop from rfl, hs] at k; cases k
    · intro k; exact hend (by rw [hp]; simp) k
    · exact near_of (put_same ..) rfl
  | fetch who r =>
    have hs : s.stop = false := hstop (by rw [hp]; rintro (k | k | k) <;> cases k)
    cases who with
    | boot => rw [hp] at ht; cases ht
    | running r' => rw [hp] at ht; cases ht
    | events =>
      obtain ⟨k1, k2, k3, k4, k5⟩ := h.inserts hC hp (fun _ => hoth)
      simp only [exec, hp, Option.some.injEq] at he; subst he
      obtain ⟨hpos, hd⟩ := h.data.insert (s' := { s with
          cnt := put s.cnt (C.level r) (put (s.cnt (C.level r)) (C.hash r % s.nw (C.level r))
            (s.cnt (C.level r) (C.hash r % s.nw (C.level r)) + 1))
          fault := s.fault || decide (s.nw (C.level r) = 0) || decide (s.cnt (C.level r) (C.hash r % s.nw (C.level r)) < 0) ||
            !(decide (s.cur < C.level r) || decide (s.cur = 0)) || decide (C.maxLevel < C.level r)
          pc := put s.pc w (.store .events r (C.hash r % s.nw (C.level r))
            (s.cnt (C.level r) (C.hash r % s.nw (C.level r))).toNat) }) hp rfl rfl (fun _ => hoth) rfl rfl rfl rfl rfl rfl rfl
      refine ⟨_, hd, ?_, abs_same h.abs rfl (stage_move (by rw [k2]; rfl))⟩
      refine h.prog.top hk hc hst hw ht rfl rfl rfl ?_ ?_ ?_ ?_ ?_ ?_ ?_ h.prog.cur ?_
      · exact fun k => absurd (fresh_of hw rfl rfl (by simp)) k
      · intro k; cases k
      · rintro (k | k | k) <;> cases k
      · intro k
        have : s.stop = true := k
        rw [hs] at this; cases this
      · intro k; exact .inl (hend (by rw [hp]; simp) k)
      · intro _ _; exact h.prog.calm w (by rw [hp]; rfl) (by rw [hp]; simp)
      · exact near_of (put_same ..) rfl
      · have := (show 0 ≤ s.cnt (C.level r) (C.hash r % s.nw (C.level r)) from hpos)
        simp only [hfl, Bool.false_or, Bool.or_eq_false_iff, decide_eq_false_iff_not, Bool.not_eq_false',
          Bool.or_eq_true, decide_eq_true_eq]
        omega
  | store who r v i =>
    have hs : s.stop = false := hstop (by rw [hp]; rintro (k | k | k) <;> cases k)
    cases who with
    | boot => rw [hp] at ht; cases ht
    | running r' => rw [hp] at ht; cases ht
    | events =>
      have hsl := h.data.p.slot r v i (h.data.p.store w _ r v i hp)
      have hcap := h.data.lt_cap hsl.2.1
      simp only [exec, hp, Option.some.injEq] at he; subst he
      refine ⟨loc, h.data.write hp (fun _ => hoth) rfl rfl rfl rfl rfl rfl rfl, ?_, abs_same h.abs rfl fun _ => rfl⟩
      refine h.prog.top hk hc hst hw ht rfl rfl rfl ?_ ?_ ?_ ?_ ?_ ?_ ?_ h.prog.cur ?_
      · exact fun k => absurd (fresh_of hw rfl rfl (by simp [back])) k
      · intro k; cases k
      · rintro (k | k | k) <;> cases k
      · intro k
        have : s.stop = true := k
        rw [hs] at this; cases this
      · intro k; exact .inl (hend (by rw [hp]; simp) k)
      · intro _ _; exact h.prog.calm w (by rw [hp]; rfl) (by rw [hp]; simp)
      · exact near_of (put_same ..) rfl
      · simp only [hfl, Bool.false_or, Bool.or_eq_false_iff, decide_eq_false_iff_not]; omega
  | signal =>
    have hi := h.prog.empty w (.inr (.inr hp))
    simp only [exec, hp, Option.some.injEq] at he; subst he
    refine h.top hk hc hst hw ht rfl (by rw [hp]; rfl) rfl rfl rfl rfl rfl rfl rfl rfl rfl rfl ?_ ?_ ?_ ?_ ?_ ?_ rfl hfl
    · exact fun k => absurd (fresh_of hw rfl rfl (by simp)) k
    · intro k; cases k
    · exact fun _ => hi
    · exact fun _ => hi
    · exact fun _ => rfl
    · exact near_of (put_same ..) rfl
  | awaken k =>
    simp only [ThreadOk, hp] at hth
    have hhalt := h.prog.halted
    have hfl' : (s.fault || decide (C.n < k) || decide (k = 0)) = false := by
      simp only [hfl, Bool.false_or, Bool.or_eq_false_iff, decide_eq_false_iff_not]; omega
    simp only [exec, hp] at he
    split at he
    · rename_i e
      obtain ⟨e1, e2⟩ := e
      simp only [Option.some.injEq] at he; subst he
      refine h.top hk hc hst hw ht rfl (by rw [hp]; rfl) rfl rfl rfl rfl rfl rfl rfl rfl rfl rfl ?_ ?_ ?_ hhalt ?_ ?_ rfl hfl'
      · intro _; subst e1; unfold First; simp only [put_same]
      · intro k; cases k
      · rintro (k | k | k) <;> cases k
      · intro k; exact hend (by rw [hp]; simp) k
      · unfold Near; simp only [put_same]
    · simp only [Option.some.injEq] at he; subst he
      have hkk : ∀ p : Pc, (p = .wake k ∨ p = .lockB k) → ∃ loc', Inv C { s with
          fault := s.fault || decide (C.n < k) || decide (k = 0), pc := put s.pc w p } loc' := by
        intro p hp'
        refine h.top (p := p) hk hc hst hw ht rfl (by rw [hp]; rfl) (by rcases hp' with rfl | rfl <;> rfl)
          (by rcases hp' with rfl | rfl <;> rfl) (by rcases hp' with rfl | rfl <;> rfl) rfl rfl rfl rfl rfl rfl rfl ?_ ?_ ?_ hhalt ?_ ?_ rfl hfl'
        · exact fun k => absurd (fresh_of hw rfl (by rcases hp' with rfl | rfl <;> rfl) (by rcases hp' with rfl | rfl <;> simp)) k
        · intro k; rcases hp' with rfl | rfl <;> cases k
        · rcases hp' with rfl | rfl <;> rintro (k | k | k) <;> cases k
        · intro k; exact hend (by rw [hp]; simp) k
        · exact near_of (put_same ..) (by rcases hp' with rfl | rfl <;> rfl)
      exact hkk _ (by cases s.held w <;> simp)
  | lockB k =>
    have hhalt := h.prog.halted
    simp only [exec, hp] at he
    split at he
    · simp only [Option.some.injEq] at he; subst he
      refine h.top hk hc hst hw ht rfl (by rw [hp]; rfl) rfl rfl rfl rfl rfl rfl rfl rfl rfl rfl ?_ ?_ ?_ hhalt ?_ ?_ rfl hfl
      · exact fun k => absurd (fresh_of hw rfl rfl (by simp)) k
      · intro k; cases k
      · rintro (k | k | k) <;> cases k
      · intro k; exact hend (by rw [hp]; simp) k
      · exact near_of (put_same ..) rfl
    · cases he
  | wake k =>
    simp only [ThreadOk, hp] at hth
    have hhalt := h.prog.halted
    simp only [exec, hp, Option.some.injEq] at he; subst he
    refine h.top hk hc hst hw ht rfl (by rw [hp]; rfl) rfl rfl rfl rfl rfl rfl rfl rfl rfl rfl ?_ ?_ ?_ hhalt ?_ ?_ rfl hfl
    · intro _
      unfold First
      dsimp only
      by_cases e : 0 = w
      · subst e; rw [put_same s.pc]; trivial
      · rw [put_ne _ _ e]
        have h1 := (hk.alone w hw ht 0 hC.pos)
        have h2 : (s.pc 0).top = false := by
          by_contra k; simp only [Bool.not_eq_false] at k; exact e (h1.2 k)
        have h3 := hact0 e
        have h4 := hk.thr 0 hC.pos
        have hh : s.held 0 = false := by
          by_contra k'
          simp only [Bool.not_eq_false] at k'
          have e1 := (hk.mutex 0 hC.pos).1 k'
          have e2 := (hk.mutex w hw).1 hth.2.1
          rw [e1] at e2
          exact e (Option.some.inj e2)
        cases hp0 : s.pc 0 with
        | asleep sn =>
          intro k'
          exfalso
          simp only [Bool.or_eq_false_iff, decide_eq_false_iff_not, not_and] at k'
          exact k'.2 hC.pos (condOf_mono (Nat.zero_le _))
        | sleep sn =>
          simp only [ThreadOk, hp0, hh, Bool.false_eq_true, and_false] at h4
        | doze sn =>
          simp only [ThreadOk, hp0, hh, Bool.false_eq_true, and_false] at h4
        | _ => first | trivial | (rw [hp0] at h2; cases h2; done) | (rw [hp0] at h3; cases h3; done)
    · intro k; cases k
    · rintro (k | k | k) <;> cases k
    · intro k; exact hend (by rw [hp]; simp) k
    · unfold Near; simp only [put_same]
  | _ => rw [hp] at ht; cases ht

/-- A thread falls asleep or is woken up. -/
theorem Inv.go_sleep (hC : C.Ok) (hk : Ctl C s) (hc : Crew C s) (hst : s.started = true) (hw : w < C.n)
    (h : Inv C s loc) (ht : (s.pc w).top = false) (hna : (s.pc w).active = false) (he : exec C s (.go w) = some s') :
    ∃ loc', Inv C s' loc' := by
  have hfl := h.prog.fault
  have hth := hk.thr w hw
  have hll := hk.loose_le
  cases hp : s.pc w with
  | sleep sn =>
    have hfl' : (s.fault || decide (C.n ≤ w) || decide ((C.n : Int) < s.loose)) = false := by
      simp only [hfl, Bool.false_or, Bool.or_eq_false_iff, decide_eq_false_iff_not]; omega
    have key : ∀ s'', s''.pc = put s.pc w (.doze sn) → s''.queued = s.queued → s''.arr = s.arr → s''.nw = s.nw →
        s''.cur = s.cur → s''.num = s.num → s''.sig = s.sig → s''.stop = s.stop → s''.started = s.started →
        s''.cnt = s.cnt → s''.hist = s.hist → s''.fault = false → ∃ loc', Inv C s'' loc' := by
      intro s'' k1 k2 k3 k4 k5 k6 k7 k8 k9 k10 k11 k12
      refine h.sleeper hst hw ht (by rw [hp]; rfl) (by rw [hp]; rfl) rfl k1 rfl rfl k2 k3 k4 k5 k6 (fun x _ => by rw [k7]) k8 k9 k10 ?_ ?_ k11 k12
      · rintro rfl hf
        unfold First at hf ⊢
        rw [hp] at hf
        rw [k1, put_same s.pc, k10, k5]; exact hf
      · exact near_of (by rw [k1, put_same]) rfl
    simp only [exec, hp] at he
    split at he
    · simp only [Option.some.injEq] at he; subst he
      exact key _ rfl rfl rfl rfl rfl rfl rfl rfl rfl rfl rfl hfl'
    · split at he
      · simp only [Option.some.injEq] at he; subst he
        exact key _ rfl rfl rfl rfl rfl rfl rfl rfl rfl rfl rfl hfl'
      · cases he
  | doze sn =>
    simp only [ThreadOk, hp] at hth
    have hwt : s.waits w sn = true := by unfold State.waits; exact decide_eq_true (.inl hth.2.1)
    simp only [exec, hp, hwt, if_true, Option.some.injEq] at he; subst he
    refine h.sleeper hst hw ht (by rw [hp]; rfl) (by rw [hp]; rfl) rfl rfl rfl rfl rfl rfl rfl rfl rfl (fun x _ => rfl) rfl rfl rfl ?_ ?_ rfl hfl
    · rintro rfl hf
      unfold First at hf ⊢
      rw [hp] at hf
      dsimp only
      rw [put_same s.pc]; exact fun _ => hf
    · exact near_of (put_same ..) rfl
  | asleep sn =>
    simp only [ThreadOk, hp] at hth
    simp only [exec, hp] at he
    split at he
    · rename_i hg
      obtain ⟨h1, h2⟩ := hth.2.2.2.1 hg.2
      have hwt : s.waits w sn = false := by
        unfold State.waits; exact decide_eq_false (by omega)
      simp only [hwt, Bool.false_eq_true, if_false, Option.some.injEq] at he; subst he
      refine h.sleeper hst hw ht (by rw [hp]; rfl) (by rw [hp]; rfl) rfl rfl rfl rfl rfl rfl rfl rfl rfl (fun x hx => put_ne _ _ hx)
        rfl rfl rfl ?_ ?_ rfl ?_
      · rintro rfl _
        unfold First; dsimp only; rw [put_same s.pc]; trivial
      · unfold Near; dsimp only; rw [put_same s.pc]; trivial
      · simp [hfl, hth.2.1]
    · cases he
  | boot => simp only [ThreadOk, hp] at hth; exact hth.2.elim
  | exited => simp only [exec, hp] at he; cases he
  | fetch who r => rw [hp] at ht hna; cases who <;> first | (cases ht; done) | (cases hna; done) | (simp only [ThreadOk, hp] at hth; exact hth.2.elim)
  | store who r v i => rw [hp] at ht hna; cases who <;> first | (cases ht; done) | (cases hna; done) | (simp only [ThreadOk, hp] at hth; exact hth.2.elim)
  | _ => rw [hp] at ht hna; first | (cases ht; done) | (cases hna; done)

/-- Nothing has changed that concerns reactions. -/
theorem Data.congr (h : Data C s loc) (hpc : s'.pc = s.pc) (hq : s'.queued = s.queued) (ha : s'.arr = s.arr) (hc : s'.cnt = s.cnt)
    (hcur : s'.cur = s.cur) (hnw : s'.nw = s.nw) (hnum : s'.num = s.num) : Data C s' loc := by
  refine ⟨⟨?_, ?_, ?_, ?_, ?_, ?_, h.p.inj, h.p.prog⟩, ⟨?_, ?_, ?_, ?_⟩, ⟨?_, ?_, ?_, ?_, ?_⟩⟩
  · rw [hq]; exact h.p.queued
  · rw [hpc, ha, hcur]; exact h.p.held
  · rw [hpc, ha, hcur]; exact h.p.took
  · rw [hpc, ha, hc, hnw]; exact h.p.slot
  · rw [hpc]; exact h.p.store
  · rw [hc]; exact h.p.full
  · rw [hcur]; exact h.l.low
  · rw [hcur]; exact h.l.here
  · rw [hpc]; exact h.l.above
  · rw [hpc, hcur]; exact h.l.opens
  · rw [hc, hcur]; exact h.n.nonneg
  · rw [hc, hcur, hpc]; exact h.n.neg
  · rw [hc, hcur, hpc]; exact h.n.zeroed
  · rw [hnw]; exact h.n.nw
  · rw [hnum, hnw, hcur]; exact h.n.num

theorem put_self {α : Type} (f : Nat → α) (k : Nat) : put f k (f k) = f := by
  funext x; unfold put; split
  · rename_i e; rw [e]
  · rfl

/-- The record of a reaction being triggered, as a step of the reduced scheduler. -/
theorem abs_trigger (h : Abs.Reach C.level (absOf s loc)) {r : Nat} (hns : .stop ∉ s.hist)
    (hwho : (∀ x, starts x (thisTag s.hist) = 0) ∨ ∃ r', stage (loc r') = .running ∧ C.level r' < C.level r)
    (hh : s'.hist = .trigger r :: s.hist)
    (hl : if loc r = .idle then ∃ t, loc' = put loc r (.with t .fetching) else loc' = loc) :
    Abs.Reach C.level (absOf s' loc') := by
  have hB : absOf s' loc' = ⟨if (absOf s loc).st r = .idle then put (absOf s loc).st r .waiting else (absOf s loc).st,
      .trigger r :: (absOf s loc).hist, false⟩ := by
    unfold absOf
    rw [hh]
    have hd : decide (Ev.stop ∈ Ev.trigger r :: s.hist) = false := by
      rw [decide_eq_false_iff_not, stop_mem (by simp)]; exact hns
    rw [hd]
    have hidle : stage (loc r) = .idle ↔ loc r = .idle := by
      cases hloc : loc r with
      | «with» t k => cases k <;> simp [stage]
      | _ => simp [stage]
    dsimp only
    by_cases e : loc r = .idle
    · rw [if_pos e] at hl
      obtain ⟨t, rfl⟩ := hl
      rw [if_pos (hidle.2 e), stage_put]; rfl
    · rw [if_neg e] at hl
      subst hl
      rw [if_neg (fun k => e (hidle.1 k))]
  have hs : (absOf s loc).stopped = false := by simp [absOf, hns]
  rcases hwho with k | ⟨r', k1, k2⟩
  · exact abs_step h (.open _ r hs k) hB
  · exact abs_step h (.trigger _ r' r hs k1 k2) hB

/-- The steps that are not determined by the scheduler. -/
theorem Inv.other (hC : C.Ok) (hk : Ctl C s) (hc : Crew C s) (hst : s.started = true) (hw : w < C.n)
    (h : Inv C s loc) {a : Act} (hal : a.allowed C s)
    (ha : a = .finish w ∨ (∃ r, a = .trigger w r) ∨ (∃ f, a = .close w f) ∨ a = .advance w ∨ a = .retry w ∨ a = .stop w)
    (he : exec C s a = some s') : ∃ loc', Inv C s' loc' := by
  have hfl := h.prog.fault
  rcases ha with rfl | ⟨r, rfl⟩ | ⟨f, rfl⟩ | ha
  · cases hp : s.pc w with
    | run r =>
      have ha : (s.pc w).active = true := by rw [hp]; rfl
      have hns := h.prog.no_stop hk hc hw (awake_of_active ha)
      simp only [exec, hp, Option.some.injEq] at he; subst he
      have hl : loc r = .with w .running := by rw [h.data.p.held, hp]; exact ⟨rfl, rfl⟩
      refine ⟨put loc r (.with w .ended), ?_, ?_, ?_⟩
      · refine h.data.change (.with w .ended) hl (by simp) ?_ (.inl ⟨_, rfl, by simp⟩) ?_ (by simp) (by simp) (by simp)
          (by rw [hp]; simp) (by rw [hp]; simp) (p := .done r) trivial rfl rfl ?_ rfl rfl rfl rfl rfl
        · intro x k hx
          rw [h.data.p.held, hp] at hx
          exact hx.2
        · intro x k; simp [Pc.Has, eq_comm, and_comm]
        · have := (h.data.p.queued r).2 (by rw [hl]; simp)
          rw [show decide (Loc.with w Kind.ended ≠ Loc.idle) = true by simp, ← this, put_self]
      · refine h.prog.active hk hc hst hw ha rfl rfl rfl rfl rfl rfl rfl rfl (fun v k => k) ?_ ?_ ?_ hfl
        · rintro rfl; unfold First; simp only [put_same]
        · unfold Near; simp only [put_same]
        · intro k; exact (stop_mem (by simp)).1 k
      · refine abs_step h.abs (.finish _ w r ?_ ?_) ?_
        · simp [absOf, hns]
        · simp [absOf, hl, stage]
        · unfold absOf; rw [stage_put]; simp [stage, hns]
    | _ => simp only [exec, hp] at he; cases he
  · simp only [Act.allowed] at hal
    obtain ⟨_, hmem, hlv⟩ := hal
    cases hp : s.pc w with
    | run r' =>
      have ha : (s.pc w).active = true := by rw [hp]; rfl
      have hns := h.prog.no_stop hk hc hw (awake_of_active ha)
      obtain ⟨hl, hlev⟩ := h.data.running (t := w) (r := r') (by rw [hp]; simp [Pc.Has])
      have hlt := hlv r' hp
      simp only [exec, hp, Option.some.injEq] at he; subst he
      unfold trigger
      by_cases hq : s.queued r = true
      · simp only [hq, if_true]
        have hni := (h.data.p.queued r).1 hq
        refine ⟨loc, h.data.congr rfl rfl rfl rfl rfl rfl rfl, ?_, ?_⟩
        · refine h.prog.active hk hc hst hw ha (put_self s.pc w).symm (by rw [hp]; rfl) (by rw [hp]; rfl) rfl rfl rfl rfl rfl (fun v k => k) ?_ ?_ ?_ hfl
          · rintro rfl; unfold First; simp only [hp]
          · unfold Near; simp only [hp]
          · intro k; exact (stop_mem (by simp)).1 k
        · exact abs_trigger h.abs hns (.inr ⟨r', by rw [hl]; rfl, hlt⟩) rfl (by rw [if_neg hni])
      · simp only [hq, Bool.false_eq_true, if_false]
        have hi : loc r = .idle := by
          by_contra k; exact hq ((h.data.p.queued r).2 k)
        refine ⟨put loc r (.with w .fetching), ?_, ?_, ?_⟩
        · refine h.data.bring hi hmem (who := .running r') hp (by omega) ?_ rfl rfl rfl rfl rfl rfl rfl
          intro r'' e; cases e; exact hlt
        · refine h.prog.active hk hc hst hw ha rfl rfl rfl rfl rfl rfl rfl rfl (fun v k => k) ?_ ?_ ?_ hfl
          · rintro rfl; unfold First; simp only [put_same]
          · unfold Near; simp only [put_same]
          · intro k; exact (stop_mem (by simp)).1 k
        · exact abs_trigger h.abs hns (.inr ⟨r', by rw [hl]; rfl, hlt⟩) rfl (by rw [if_pos hi]; exact ⟨w, rfl⟩)
    | events =>
      have ht : (s.pc w).top = true := by rw [hp]; rfl
      have hs : s.stop = false := by
        by_contra k'
        simp only [Bool.not_eq_false] at k'
        have := hk.halt_pc hw ht k'
        rw [hp] at this; rcases this with k | k | k <;> cases k
      have hns : .stop ∉ s.hist := fun k => by
        have := h.prog.stop_of_top hk hw ht (by rw [hp]; simp) k
        rw [hs] at this; cases this
      have hcalm := h.prog.calm w (by rw [hp]; rfl) (by rw [hp]; simp)
      have hcalm' : ∀ x, starts x (thisTag (.trigger r :: s.hist)) = 0 := hcalm
      have hcur := h.data.l.opens w (by rw [hp]; rfl)
      simp only [exec, hp, Option.some.injEq] at he; subst he
      unfold trigger
      by_cases hq : s.queued r = true
      · simp only [hq, if_true]
        have hni := (h.data.p.queued r).1 hq
        refine ⟨loc, h.data.congr rfl rfl rfl rfl rfl rfl rfl, ?_, ?_⟩
        · refine h.prog.top hk hc hst hw ht (put_self s.pc w).symm (by rw [hp]; rfl) rfl ?_ ?_ ?_ ?_ ?_ ?_ ?_ h.prog.cur hfl
          · exact fun k => absurd ⟨w, hw, by dsimp only; rw [hp]; exact ⟨rfl, by simp⟩⟩ k
          · intro k; rw [hp] at k; cases k
          · rw [hp]; rintro (k | k | k) <;> cases k
          · intro k
            have : s.stop = true := k
            rw [hs] at this; cases this
          · intro k; exact absurd ((stop_mem (by simp)).1 k) hns
          · intro _ _; exact hcalm'
          · exact near_of hp rfl
        · exact abs_trigger h.abs hns (.inl hcalm) rfl (by rw [if_neg hni])
      · simp only [hq, Bool.false_eq_true, if_false]
        have hi : loc r = .idle := by
          by_contra k; exact hq ((h.data.p.queued r).2 k)
        refine ⟨put loc r (.with w .fetching), ?_, ?_, ?_⟩
        · refine h.data.bring hi hmem (who := .events) hp (by omega) ?_ rfl rfl rfl rfl rfl rfl rfl
          intro r'' e; cases e
        · refine h.prog.top hk hc hst hw ht rfl rfl rfl ?_ ?_ ?_ ?_ ?_ ?_ ?_ h.prog.cur hfl
          · exact fun k => absurd (fresh_of hw rfl rfl (by simp)) k
          · intro k; cases k
          · rintro (k | k | k) <;> cases k
          · intro k
            have : s.stop = true := k
            rw [hs] at this; cases this
          · intro k; exact absurd ((stop_mem (by simp)).1 k) hns
          · intro _ _; exact hcalm'
          · exact near_of (put_same ..) rfl
        · exact abs_trigger h.abs hns (.inl hcalm) rfl (by rw [if_pos hi]; exact ⟨w, rfl⟩)
    | boot =>
      have := (hk.thr w hw).2
      rw [hp] at this; exact this.elim
    | _ => simp only [exec, hp] at he; cases he
  · cases hp : s.pc w with
    | close =>
      have ht : (s.pc w).top = true := by rw [hp]; rfl
      have hi := h.prog.empty w (.inl hp)
      have hpl : ∀ t, (s.pc t).plain = true := by
        intro t
        by_cases e : t = w
        · subst e; rw [hp]; rfl
        · exact hk.others_plain hc hst hw ht e
      simp only [exec, hp, Option.some.injEq] at he; subst he
      refine ⟨loc, ?_, ?_, abs_same h.abs rfl fun _ => rfl⟩
      · refine h.data.switch hpl (p := .tag) rfl ?_ rfl rfl rfl rfl ?_ (fun _ => rfl) ?_ (.inr ⟨hi, ?_⟩) rfl
        · intro v
          by_contra k
          obtain ⟨r, _, k2⟩ := h.data.p.full s.cur v 0 (by omega)
          rw [hi r] at k2; cases k2
        · intro t e
          refine not_opening ?_ (hc.not_booting hst hk t)
          by_contra k
          simp only [Bool.not_eq_false] at k
          exact e ((hk.alone w hw ht t (hc.top_lt k)).2 k)
        · intro r k; exact absurd (hi r) k
        · intro l hl; exact restrict_range hl hC.pos
      · refine h.prog.top hk hc hst hw ht rfl rfl rfl ?_ ?_ ?_ ?_ ?_ ?_ ?_ (Nat.zero_le _) hfl
        · exact fun k => absurd (fresh_of hw rfl rfl (by simp)) k
        · intro k; cases k
        · exact fun _ => hi
        · exact fun _ => hi
        · intro k; exact .inl (h.prog.stop_of_top hk hw ht (by rw [hp]; simp) k)
        · intro _ k; exact absurd rfl k
        · exact near_of (put_same ..) rfl
    | _ => simp only [exec, hp] at he; cases he
  · have hp : s.pc w = .tag := by
      cases hp : s.pc w with
      | tag => rfl
      | _ => rcases ha with rfl | rfl | rfl <;> simp only [exec, hp] at he <;> cases he
    have ht : (s.pc w).top = true := by rw [hp]; rfl
    have hi := h.prog.empty w (.inr (.inl hp))
    have hcur := h.data.l.opens w (by rw [hp]; rfl)
    have hs : s.stop = false := by
      by_contra k'
      simp only [Bool.not_eq_false] at k'
      have := hk.halt_pc hw ht k'
      rw [hp] at this; rcases this with k | k | k <;> cases k
    have hns : .stop ∉ s.hist := fun k => by
      have := h.prog.stop_of_top hk hw ht (by rw [hp]; simp) k
      rw [hs] at this; cases this
    have hst' : ∀ r, (absOf s loc).st r = .idle := fun r => by simp [absOf, hi r, stage]
    rcases ha with rfl | rfl | rfl
    · simp only [exec, hp, Option.some.injEq] at he; subst he
      refine ⟨loc, h.data.move rfl (by rw [hp]; rfl) rfl (fun _ => hcur) rfl rfl rfl rfl rfl rfl, ?_, ?_⟩
      · refine h.prog.top hk hc hst hw ht rfl rfl rfl ?_ ?_ ?_ ?_ ?_ ?_ ?_ h.prog.cur hfl
        · exact fun k => absurd (fresh_of hw rfl rfl (by simp)) k
        · intro k; cases k
        · exact fun _ => hi
        · exact fun _ => hi
        · intro k; exact absurd ((stop_mem (by simp)).1 k) hns
        · intro _ _ r; rfl
        · exact near_of (put_same ..) rfl
      · refine abs_step h.abs (.advance _ (by simp [absOf, hns]) hst') ?_
        unfold absOf; simp [hns]
    · simp only [exec, hp, Option.some.injEq] at he; subst he
      refine h.top hk hc hst hw ht rfl (by rw [hp]; rfl) rfl rfl rfl rfl rfl rfl rfl rfl rfl rfl ?_ ?_ ?_ ?_ ?_ ?_ rfl hfl
      · exact fun k => absurd (fresh_of hw rfl rfl (by simp)) k
      · intro k; cases k
      · exact fun _ => hi
      · exact fun _ => hi
      · intro k; exact absurd k hns
      · exact near_of (put_same ..) rfl
    · simp only [exec, hp, Option.some.injEq] at he; subst he
      refine ⟨loc, h.data.move rfl (by rw [hp]; rfl) rfl (by intro k; cases k) rfl rfl rfl rfl rfl rfl, ?_, ?_⟩
      · refine h.prog.top hk hc hst hw ht rfl rfl rfl ?_ ?_ ?_ ?_ ?_ ?_ ?_ h.prog.cur hfl
        · exact fun k => absurd (fresh_of hw rfl rfl (by simp)) k
        · intro k; cases k
        · exact fun _ => hi
        · exact fun _ => hi
        · intro _; exact .inr rfl
        · intro k; cases k
        · exact near_of (put_same ..) rfl
      · refine abs_step h.abs (.stop _ (by simp [absOf, hns]) hst') ?_
        unfold absOf; simp

theorem Inv.spurious (hC : C.Ok) (hk : Ctl C s) (hst : s.started = true) (hw : w < C.n) (h : Inv C s loc)
    (hs : s.sig w = false) (hcond : C.spurious = true ∨ w + 1 ≠ s.awak) (he : exec C s (.spurious w) = some s') :
    ∃ loc', Inv C s' loc' := by
  obtain ⟨_, sn, hp, hwt⟩ := hk.spurious hC hw hs hcond he
  have hfl := h.prog.fault
  have hth := hk.thr w hw
  simp only [exec, hp] at he
  split at he
  · simp only [hwt, if_true, Option.some.injEq] at he; subst he
    refine h.sleeper hst hw (by rw [hp]; rfl) (by rw [hp]; rfl) (by rw [hp]; rfl) rfl rfl rfl rfl rfl rfl rfl rfl rfl
      (fun x hx => put_ne _ _ hx) rfl rfl rfl ?_ ?_ rfl ?_
    · rintro rfl hf
      unfold First at hf ⊢
      rw [hp] at hf
      dsimp only
      rw [put_same s.pc]; exact fun _ => hf hs
    · exact near_of (put_same ..) rfl
    · simp [hfl]
  · cases he

/-- The workers leave. -/
theorem Inv.bye (hC : C.Ok) (hb : Bye C s) (hc : Crew C s) (hst : s.started = true) (hw : w < C.n) (h : Inv C s loc)
    {a : Act} (hal : a.allowed C s)
    (hact : a = .go w ∨ a = .spurious w ∨ a = .finish w ∨ (∃ r, a = .trigger w r) ∨ (∃ f, a = .close w f) ∨ a = .advance w ∨
      a = .retry w ∨ a = .stop w) (he : exec C s a = some s') : ∃ loc', Inv C s' loc' := by
  obtain ⟨hb', rfl, h1, h2, h3, h4, h5, h6, h7, h8, ⟨p, hpc⟩, h9, h10⟩ := hb.step hw hal hact he
  have hpx : ∀ x, x ≠ w → s'.pc x = s.pc x := fun x hx => by rw [hpc, put_ne _ _ hx]
  have hpw : s'.pc w = p := by rw [hpc, put_same]
  have kind : ∀ q : Pc, (q = .unlockB ∨ (q = .leave ∨ q = .exited) ∨ ∃ sn, q = .asleep sn) →
      q.plain = true ∧ q.opening = false ∧ q.top = false ∧ q.booting = false := by
    rintro q (rfl | (rfl | rfl) | ⟨sn, rfl⟩) <;> exact ⟨rfl, rfl, rfl, rfl⟩
  have hso : ∀ x, x < C.n → s.pc x = .unlockB ∨ (s.pc x = .leave ∨ s.pc x = .exited) ∨ ∃ sn, s.pc x = .asleep sn := by
    intro x hx
    rcases hb.thr x hx with k | ⟨k, _⟩ | ⟨sn, k, _⟩
    · exact .inl k
    · exact .inr (.inl k)
    · exact .inr (.inr ⟨sn, k⟩)
  have hso' : ∀ x, x < C.n → s'.pc x = .unlockB ∨ (s'.pc x = .leave ∨ s'.pc x = .exited) ∨ ∃ sn, s'.pc x = .asleep sn ∧ s'.sig x = true := by
    intro x hx
    rcases hb'.thr x hx with k | ⟨k, _⟩ | ⟨sn, k, k', _⟩
    · exact .inl k
    · exact .inr (.inl k)
    · exact .inr (.inr ⟨sn, k, k'⟩)
  have hkw := kind (s.pc w) (hso w hw)
  have hkp := kind p (by
    rw [← hpw]
    rcases hso' w hw with k | k | ⟨sn, k, _⟩
    · exact .inl k
    · exact .inr (.inl k)
    · exact .inr (.inr ⟨sn, k⟩))
  have hi := h.prog.halted hb.stop
  have hbig : ∀ t, ¬ t < C.n → s'.pc t = .exited := by
    intro t k
    rw [hpx t (by omega)]
    rcases Nat.lt_or_ge C.n t with k' | k'
    · exact hc.beyond t k'
    · have : t = C.n := by omega
      subst this
      have := hc.main
      rw [hst] at this; exact this
  have hks : ∀ t, (s'.pc t).plain = true ∧ (s'.pc t).opening = false ∧ (s'.pc t).top = false ∧ (s'.pc t).booting = false := by
    intro t
    by_cases k : t < C.n
    · refine kind _ ?_
      rcases hso' t k with k | k | ⟨sn, k, _⟩
      · exact .inl k
      · exact .inr (.inl k)
      · exact .inr (.inr ⟨sn, k⟩)
    · rw [hbig t k]; exact ⟨rfl, rfl, rfl, rfl⟩
  refine ⟨loc, h.data.move hpc hkw.1 hkp.1 ?_ h1 h4 h3 h5 h6 h7, ?_, abs_same h.abs h2 fun _ => rfl⟩
  · intro k; rw [hkp.2.1] at k; cases k
  · refine ⟨fun _ => ?_, ?_, fun _ _ => hi, fun _ => hi, fun _ => .inl hb'.stop, ?_, ?_, ?_, ?_, ?_⟩
    · unfold First
      rcases hso' 0 hC.pos with k | (k | k) | ⟨sn, k, k'⟩ <;> rw [k]
      · trivial
      · trivial
      · trivial
      · intro e; rw [k'] at e; cases e
    · intro t k
      have := (hks t).2.2.1
      rw [k] at this; cases this
    · intro t k
      rw [(hks t).2.1] at k; cases k
    · intro x hx
      unfold Near
      rcases hso' x hx with k | (k | k) | ⟨sn, k, k'⟩ <;> rw [k] <;> trivial
    · intro k; rw [h8, hst] at k; cases k
    · rw [h5]; exact h.prog.cur
    · rw [h9]; exact h.prog.fault

/-- The main thread before it has started the workers. -/
theorem Progress.main (hC : C.Ok) (hc : Crew C s) (h : Progress C s loc) (hst : s.started = false) {p : Pc}
    (hpc : s'.pc = put s.pc C.n p) (hp : p = .exited ∨ p.booting = true) (hstop : s'.stop = s.stop)
    (hhist : .stop ∈ s'.hist → .stop ∈ s.hist) (hcalm : p ≠ .exited → ∀ r, starts r (thisTag s'.hist) = 0)
    (hcur : s'.cur = s.cur) (hfault : s'.fault = false) : Progress C s' loc' := by
  have hsnap := h.boot hst
  have hpx : ∀ x, x ≠ C.n → s'.pc x = s.pc x := fun x hx => by rw [hpc, put_ne _ _ hx]
  have hpw : s'.pc C.n = p := by rw [hpc, put_same]
  have hpt : p.top = false := by
    rcases hp with rfl | hp
    · rfl
    · cases p with
      | fetch who _ => cases who <;> first | rfl | (cases hp; done)
      | store who _ _ _ => cases who <;> first | rfl | (cases hp; done)
      | _ => first | rfl | (cases hp; done)
  have hpn : p ≠ .tag ∧ p ≠ .signal ∧ p ≠ .close ∧ p ≠ .adv := by
    refine ⟨?_, ?_, ?_, ?_⟩ <;> rintro rfl <;> cases hpt
  have hall : ∀ t, s'.pc t = .snap ∨ s'.pc t = p ∧ t = C.n ∨ s'.pc t = .exited := by
    intro t
    rcases Nat.lt_trichotomy t C.n with k | rfl | k
    · left; rw [hpx t (by omega)]; exact hsnap t k
    · right; left; exact ⟨hpw, rfl⟩
    · right; right; rw [hpx t (by omega)]; exact hc.beyond t k
  have hs : s.stop = false := by
    by_contra k
    simp only [Bool.not_eq_false] at k
    rcases hc.phase with hk | hb
    · obtain ⟨x, hx, e⟩ := hk.halt k
      rw [hsnap x hx] at e
      rcases e with e | e | e <;> cases e
    · have := hb.thr 0 hC.pos
      rw [hsnap 0 hC.pos] at this
      rcases this with e | ⟨e | e, _⟩ | ⟨_, e, _⟩ <;> cases e
  have hns : .stop ∉ s.hist := by
    intro k
    rcases h.ended k with k | ⟨t, k1, k2⟩
    · rw [hs] at k; cases k
    · rw [hsnap t k1] at k2; cases k2
  refine ⟨fun _ => ?_, ?_, ?_, ?_, ?_, ?_, ?_, ?_, ?_, hfault⟩
  · unfold First
    rw [hpx 0 (by have := hC.pos; omega), hsnap 0 hC.pos]; trivial
  · intro t k
    rcases hall t with e | ⟨e, _⟩ | e <;> rw [e] at k
    · cases k
    · exact absurd k hpn.2.2.2
    · cases k
  · intro t k
    rcases hall t with e | ⟨e, _⟩ | e <;> rw [e] at k
    · rcases k with k | k | k <;> cases k
    · rcases k with k | k | k
      · exact absurd k hpn.2.2.1
      · exact absurd k hpn.1
      · exact absurd k hpn.2.1
    · rcases k with k | k | k <;> cases k
  · intro k; rw [hstop, hs] at k; cases k
  · intro k; exact absurd (hhist k) hns
  · intro t k _
    rcases hall t with e | ⟨e, _⟩ | e <;> rw [e] at k
    · cases k
    · exact hcalm (by rintro rfl; cases k)
    · cases k
  · intro x hx
    unfold Near
    rw [hpx x (by omega), hsnap x hx]; trivial
  · intro _ x hx
    rw [hpx x (by omega)]; exact hsnap x hx
  · rw [hcur]; exact h.cur

theorem Inv.main (hC : C.Ok) (hc : Crew C s) (h : Inv C s loc) (hst : s.started = false) {a : Act} (hal : a.allowed C s)
    (hout : a ≠ .outsideLock ∧ a ≠ .outsideUnlock) (he : exec C s a = some s') : ∃ loc', Inv C s' loc' := by
  have hfl := h.prog.fault
  have hb := hc.main
  rw [hst] at hb
  simp only [Bool.false_eq_true, if_false] at hb
  have hsnap := h.prog.boot hst
  have hoth : ∀ t, t ≠ C.n → (s.pc t).plain = true := by
    intro t hne
    rcases Nat.lt_or_ge t C.n with k | k
    · rw [hsnap t k]; rfl
    · rw [hc.beyond t (by omega)]; rfl
  have hop : (s.pc C.n).opening = true := by
    cases hp : s.pc C.n with
    | fetch who _ => rw [hp] at hb; cases who <;> first | rfl | (cases hb; done)
    | store who _ _ _ => rw [hp] at hb; cases who <;> first | rfl | (cases hb; done)
    | _ => rw [hp] at hb; first | rfl | (cases hb; done)
  have hcalm := h.prog.calm C.n hop (by intro e; rw [e] at hb; cases hb)
  have hcur := h.data.l.opens C.n hop
  have hs : s.stop = false := by
    by_contra k
    simp only [Bool.not_eq_false] at k
    rcases hc.phase with hk | hb
    · obtain ⟨x, hx, e⟩ := hk.halt k
      rw [hsnap x hx] at e
      rcases e with e | e | e <;> cases e
    · have := hb.thr 0 hC.pos
      rw [hsnap 0 hC.pos] at this
      rcases this with e | ⟨e | e, _⟩ | ⟨_, e, _⟩ <;> cases e
  have hns : .stop ∉ s.hist := by
    intro k
    rcases h.prog.ended k with k | ⟨t, k1, k2⟩
    · rw [hs] at k; cases k
    · rw [hsnap t k1] at k2; cases k2
  have no : ∀ {x : State}, exec C s a = some x → (∀ r, a ≠ .trigger C.n r) → a ≠ .go C.n → False := by
    intro x hx h1 h2
    cases a with
    | go w => simp only [Act.allowed, hst, Bool.false_eq_true, if_false] at hal; subst hal; exact h2 rfl
    | trigger w r => simp only [Act.allowed, hst, Bool.false_eq_true, if_false] at hal; obtain ⟨rfl, _⟩ := hal; exact h1 r rfl
    | outsideLock => exact hout.1 rfl
    | outsideUnlock => exact hout.2 rfl
    | spurious w =>
      simp only [Act.allowed, hst, Bool.false_eq_true, if_false] at hal; obtain ⟨rfl, _⟩ := hal
      cases hp : s.pc C.n <;> rw [hp] at hb <;> first | (cases hb; done) | (simp only [exec, hp] at hx; cases hx)
    | finish w =>
      simp only [Act.allowed, hst, Bool.false_eq_true, if_false] at hal; subst hal
      cases hp : s.pc C.n <;> rw [hp] at hb <;> first | (cases hb; done) | (simp only [exec, hp] at hx; cases hx)
    | close w f =>
      simp only [Act.allowed, hst, Bool.false_eq_true, if_false] at hal; subst hal
      cases hp : s.pc C.n <;> rw [hp] at hb <;> first | (cases hb; done) | (simp only [exec, hp] at hx; cases hx)
    | advance w =>
      simp only [Act.allowed, hst, Bool.false_eq_true, if_false] at hal; subst hal
      cases hp : s.pc C.n <;> rw [hp] at hb <;> first | (cases hb; done) | (simp only [exec, hp] at hx; cases hx)
    | retry w =>
      simp only [Act.allowed, hst, Bool.false_eq_true, if_false] at hal; subst hal
      cases hp : s.pc C.n <;> rw [hp] at hb <;> first | (cases hb; done) | (simp only [exec, hp] at hx; cases hx)
    | stop w =>
      simp only [Act.allowed, hst, Bool.false_eq_true, if_false] at hal; subst hal
      cases hp : s.pc C.n <;> rw [hp] at hb <;> first | (cases hb; done) | (simp only [exec, hp] at hx; cases hx)
  by_cases hgo : a = .go C.n
  · subst hgo
    cases hp : s.pc C.n with
    | boot =>
      simp only [exec, hp, Option.some.injEq] at he; subst he
      refine ⟨loc, h.data.move rfl (by rw [hp]; rfl) rfl (by intro k; cases k) rfl rfl rfl rfl rfl rfl, ?_, abs_same h.abs rfl fun _ => rfl⟩
      exact h.prog.main hC hc hst rfl (.inl rfl) rfl id (fun k => absurd rfl k) rfl hfl
    | fetch who r =>
      cases who with
      | running r' => rw [hp] at hb; cases hb
      | events => rw [hp] at hb; cases hb
      | boot =>
        obtain ⟨k1, k2, k3, k4, k5⟩ := h.inserts hC hp (fun _ => hoth)
        simp only [exec, hp, Option.some.injEq] at he; subst he
        obtain ⟨hpos, hd⟩ := h.data.insert (s' := { s with
            cnt := put s.cnt (C.level r) (put (s.cnt (C.level r)) (C.hash r % s.nw (C.level r))
              (s.cnt (C.level r) (C.hash r % s.nw (C.level r)) + 1))
            fault := s.fault || decide (s.nw (C.level r) = 0) || decide (s.cnt (C.level r) (C.hash r % s.nw (C.level r)) < 0) ||
              !(decide (s.cur < C.level r) || decide (s.cur = 0)) || decide (C.maxLevel < C.level r)
            pc := put s.pc C.n (.store .boot r (C.hash r % s.nw (C.level r))
              (s.cnt (C.level r) (C.hash r % s.nw (C.level r))).toNat) }) hp rfl rfl (fun _ => hoth) rfl rfl rfl rfl rfl rfl rfl
        refine ⟨_, hd, ?_, abs_same h.abs rfl (stage_move (by rw [k2]; rfl))⟩
        refine h.prog.main hC hc hst rfl (.inr rfl) rfl id (fun _ => hcalm) rfl ?_
        have := (show 0 ≤ s.cnt (C.level r) (C.hash r % s.nw (C.level r)) from hpos)
        simp only [hfl, Bool.false_or, Bool.or_eq_false_iff, decide_eq_false_iff_not, Bool.not_eq_false',
          Bool.or_eq_true, decide_eq_true_eq]
        omega
    | store who r v i =>
      cases who with
      | running r' => rw [hp] at hb; cases hb
      | events => rw [hp] at hb; cases hb
      | boot =>
        have hsl := h.data.p.slot r v i (h.data.p.store C.n _ r v i hp)
        have hcap := h.data.lt_cap hsl.2.1
        simp only [exec, hp, Option.some.injEq] at he; subst he
        refine ⟨loc, h.data.write hp (fun _ => hoth) rfl rfl rfl rfl rfl rfl rfl, ?_, abs_same h.abs rfl fun _ => rfl⟩
        refine h.prog.main hC hc hst rfl (.inr rfl) rfl id (fun _ => hcalm) rfl ?_
        simp only [hfl, Bool.false_or, Bool.or_eq_false_iff, decide_eq_false_iff_not]; omega
    | _ => rw [hp] at hb; cases hb
  · by_cases htr : ∃ r, a = .trigger C.n r
    · obtain ⟨r, rfl⟩ := htr
      simp only [Act.allowed] at hal
      obtain ⟨_, hmem, hlv⟩ := hal
      cases hp : s.pc C.n with
      | boot =>
        have hcalm' : ∀ x, starts x (thisTag (.trigger r :: s.hist)) = 0 := hcalm
        simp only [exec, hp, Option.some.injEq] at he; subst he
        unfold trigger
        by_cases hq : s.queued r = true
        · simp only [hq, if_true]
          have hni := (h.data.p.queued r).1 hq
          refine ⟨loc, h.data.congr rfl rfl rfl rfl rfl rfl rfl, ?_, abs_trigger h.abs hns (.inl hcalm) rfl (by rw [if_neg hni])⟩
          exact h.prog.main hC hc hst (put_self s.pc C.n).symm (.inr hb) rfl (stop_mem (by simp)).1 (fun _ => hcalm') rfl hfl
        · simp only [hq, Bool.false_eq_true, if_false]
          have hi : loc r = .idle := by
            by_contra k; exact hq ((h.data.p.queued r).2 k)
          refine ⟨put loc r (.with C.n .fetching), ?_, ?_, abs_trigger h.abs hns (.inl hcalm) rfl (by rw [if_pos hi]; exact ⟨C.n, rfl⟩)⟩
          · refine h.data.bring hi hmem (who := .boot) hp (by omega) ?_ rfl rfl rfl rfl rfl rfl rfl
            intro r'' e; cases e
          · exact h.prog.main hC hc hst rfl (.inr rfl) rfl (stop_mem (by simp)).1 (fun _ => hcalm') rfl hfl
      | _ => rw [hp] at hb; first | (cases hb; done) | (simp only [exec, hp] at he; cases he)
    · exact (no he (fun r e => htr ⟨r, e⟩) hgo).elim

/-- Somebody else takes the mutex or gives it back. -/
theorem Inv.congr (h : Inv C s loc) {m : Option Nat} : Inv C { s with mutex := m } loc :=
  ⟨h.data.congr rfl rfl rfl rfl rfl rfl rfl,
    ⟨h.prog.first, h.prog.rest, h.prog.empty, h.prog.halted, h.prog.ended, h.prog.calm, h.prog.near, h.prog.boot, h.prog.cur, h.prog.fault⟩,
    h.abs⟩

theorem Inv.init (hC : C.Ok) : Inv C (init C) (fun _ => .idle) := by
  have hpc : ∀ t, (Adaptive.init C).pc t = .snap ∨ (Adaptive.init C).pc t = .boot ∨ (Adaptive.init C).pc t = .exited := by
    intro t
    simp only [Adaptive.init]
    by_cases e : t < C.n
    · simp [e]
    · by_cases e' : t = C.n <;> simp [e, e']
  refine ⟨⟨⟨?_, ?_, ?_, ?_, ?_, ?_, ?_, ?_⟩, ⟨?_, ?_, ?_, ?_⟩, ⟨?_, ?_, ?_, ?_, ?_⟩⟩, ⟨fun _ => ?_, ?_, ?_, ?_, ?_, ?_, ?_, ?_, ?_, rfl⟩, ?_⟩
  · intro r; simp [Adaptive.init]
  · intro r t k
    rcases hpc t with e | e | e <;> rw [e] <;> simp [Pc.Has]
  · intro t v i e'
    rcases hpc t with e | e | e <;> rw [e] at e' <;> cases e'
  · intro r v i k; cases k
  · intro t who r v i e'
    rcases hpc t with e | e | e <;> rw [e] at e' <;> cases e'
  · intro l v i k
    have : (i : Int) < 0 := k
    omega
  · intro r r' v i k; cases k
  · intro r k; exact absurd rfl k
  · intro r k; exact absurd rfl k
  · intro r t k e; cases e
  · intro t
    rcases hpc t with e | e | e <;> rw [e] <;> trivial
  · intro t _; rfl
  · intro l v _; exact Int.le_refl 0
  · intro v k
    have : (0 : Int) < 0 := k
    omega
  · intro t sn v e'
    rcases hpc t with e | e | e <;> rw [e] at e' <;> cases e'
  · intro l hl
    refine ⟨?_, Nat.le_refl _⟩
    have := hC.pos
    show 1 ≤ C.maxw l
    unfold Config.maxw; split <;> omega
  · rfl
  · unfold First
    rcases hpc 0 with e | e | e <;> rw [e] <;> trivial
  · intro t e'
    rcases hpc t with e | e | e <;> rw [e] at e' <;> cases e'
  · intro t e' r; rfl
  · intro _ r; rfl
  · intro k; cases k
  · intro t _ _ r; rfl
  · intro x _
    unfold Near
    rcases hpc x with e | e | e <;> rw [e] <;> trivial
  · intro _ x hx
    simp [Adaptive.init, hx]
  · exact Nat.zero_le _
  · have : absOf (Adaptive.init C) (fun _ => .idle) = Abs.init := by
      simp [absOf, Abs.init, Adaptive.init, stage]
    rw [this]; exact .init

theorem Inv.step (hC : C.Ok) (hc : Crew C s) (hc' : Crew C s') (h : Inv C s loc) {a : Act} (hal : a.allowed C s)
    (he : exec C s a = some s') : ∃ loc', Inv C s' loc' := by
  by_cases hout : a ≠ .outsideLock ∧ a ≠ .outsideUnlock
  · cases hst : s.started with
    | false => exact h.main hC hc hst hal hout he
    | true =>
      obtain ⟨w, hact⟩ := exec_frame he hout
      have hw := Act.thread_lt hst hal hact
      rcases hc.phase with hk | hb
      · rcases hact with rfl | rfl | hact
        · cases ha : (s.pc w).active with
          | true => exact h.go_active hC hk hc hc' hst hw ha he
          | false =>
            cases ht : (s.pc w).top with
            | true => exact h.go_top hC hk hc hst hw ht he
            | false => exact h.go_sleep hC hk hc hst hw ht ha he
        · simp only [Act.allowed] at hal
          exact h.spurious hC hk hst hw hal.2.1 hal.2.2 he
        · exact h.other hC hk hc hst hw hal hact he
      · exact h.bye hC hb hc hst hw hal hact he
  · have : a = .outsideLock ∨ a = .outsideUnlock := by
      by_contra k
      exact hout ⟨fun e => k (.inl e), fun e => k (.inr e)⟩
    rcases this with rfl | rfl <;> simp only [exec] at he <;> split at he
    · simp only [Option.some.injEq] at he; subst he; exact ⟨loc, h.congr⟩
    · cases he
    · simp only [Option.some.injEq] at he; subst he; exact ⟨loc, h.congr⟩
    · cases he

theorem Reach.inv (hC : C.Ok) (h : Reach C s) : ∃ loc, Inv C s loc := by
  induction h with
  | init => exact ⟨_, .init hC⟩
  | step a hr ha he ih =>
    obtain ⟨loc, ih⟩ := ih
    exact ih.step hC (hr.crew hC) ((Reach.step a hr ha he).crew hC) ha he

end

end ReactorC.Adaptive
