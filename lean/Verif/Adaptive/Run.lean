import Verif.Adaptive.Ledger

/-!
# The invariant holds in every state
-/

set_option linter.unusedVariables false
set_option linter.unusedSimpArgs false

namespace ReactorC.Adaptive

open Np (Ev Who put starts thisTag)

section
variable {C : Config} {s s' : State} {w : Nat} {loc loc' : Nat → Loc}

theorem Ctl.loose_range (hk : Ctl C s) (hw : w < C.n) (ha : awake s w = true) : 1 ≤ s.loose ∧ s.loose ≤ C.n := by
  have h1 := hk.loose
  have h2 : 0 < (List.range C.n).countP (awake s) := countP_pos.2 ⟨w, hw, ha⟩
  have h3 : (List.range C.n).countP (awake s) ≤ C.n := by
    have := List.countP_le_length (p := awake s) (l := List.range C.n); rwa [List.length_range] at this
  omega

theorem Ctl.loose_le (hk : Ctl C s) : s.loose ≤ C.n := by
  have h1 := hk.loose
  have h3 : (List.range C.n).countP (awake s) ≤ C.n := by
    have := List.countP_le_length (p := awake s) (l := List.range C.n); rwa [List.length_range] at this
  omega

/-- A reaction is inserted by a thread. -/
theorem Inv.inserts (hC : C.Ok) (h : Inv C s loc) {who : Who} {r : Nat} (hp : s.pc w = .fetch who r)
    (hquiet : C.level r = s.cur → ∀ t, t ≠ w → (s.pc t).plain = true) :
    r ∈ C.reactions ∧ loc r = .with w .fetching ∧ s.nw (C.level r) ≠ 0 ∧ C.level r ≤ C.maxLevel ∧
      (s.cur < C.level r ∨ s.cur = 0) := by
  have hr : loc r = .with w .fetching := by
    rw [h.data.p.held, hp]
    cases who <;> simp [Pc.Has]
  have hm := h.data.p.prog r (by rw [hr]; simp)
  have hnw := (h.data.n.nw _ (cap_ne hm)).1
  refine ⟨hm, hr, by omega, hC.levels r hm, ?_⟩
  cases who with
  | running r' =>
    have h1 := (h.data.running (t := w) (r := r') (by rw [hp]; simp [Pc.Has])).2
    have h2 := h.data.l.above w
    rw [hp] at h2
    have h3 : C.level r' < C.level r := h2
    left; omega
  | boot => exact .inr (h.data.l.opens w (by rw [hp]; rfl))
  | events => exact .inr (h.data.l.opens w (by rw [hp]; rfl))

theorem stop_mem {e : Ev} {q : List Ev} (h : e ≠ .stop) : .stop ∈ e :: q ↔ .stop ∈ q := by
  constructor
  · intro k
    rcases List.mem_cons.1 k with k | k
    · exact absurd k.symm h
    · exact k
  · exact List.mem_cons_of_mem _

/-- A step of the reduced scheduler that does not end the run. -/
theorem abs_step (h : Abs.Reach C.level (absOf s loc)) {B : Abs} (hs : Abs.Step C.level (absOf s loc) B)
    (hB : absOf s' loc' = B) : Abs.Reach C.level (absOf s' loc') := by
  rw [hB]; exact .step h hs

theorem Inv.go_active (hC : C.Ok) (hk : Ctl C s) (hc : Crew C s) (hc' : Crew C s') (hst : s.started = true) (hw : w < C.n)
    (h : Inv C s loc) (ha : (s.pc w).active = true) (he : exec C s (.go w) = some s') : ∃ loc', Inv C s' loc' := by
  have haw := awake_of_active ha
  have hf := h.prog.first' hk hc hw haw
  have hnear := h.prog.near w hw
  have hfl := h.prog.fault
  have hns := h.prog.no_stop hk hc hw haw
  have hlr := hk.loose_range hw haw
  have hth := hk.thr w hw
  cases hp : s.pc w with
  | snap =>
    simp only [exec, hp, Option.some.injEq] at he; subst he
    refine h.active hk hc hst hw ha rfl (by rw [hp]; rfl) rfl rfl rfl rfl rfl rfl rfl rfl rfl rfl rfl rfl ?_ ?_ rfl hfl
    · rintro rfl; unfold First; simp only [State.goto, put_same]; exact ⟨.inl trivial, by omega⟩
    · unfold Near; simp only [State.goto, put_same]; exact hw
  | get sn v =>
    simp only [exec, hp, Option.some.injEq] at he; subst he
    unfold Near at hnear; rw [hp] at hnear
    have hfl' : (s.fault || decide (C.n ≤ v)) = false := by
      rw [hfl]; simp; exact hnear
    by_cases hpos : 0 ≤ s.cnt s.cur v - 1
    · simp only [hpos, if_true]
      have hcap := h.data.lt_cap (l := s.cur) (v := v) (i := (s.cnt s.cur v - 1).toNat) (by omega)
      obtain ⟨r, hr1, hr2, hd⟩ := h.data.take (s' := { s with
        cnt := put s.cnt s.cur (put (s.cnt s.cur) v (s.cnt s.cur v - 1))
        fault := s.fault || decide (C.n ≤ v)
        pc := put s.pc w (.took v (s.cnt s.cur v - 1).toNat) }) hp hpos (h.data.store_level hk hc hst hw ha) rfl rfl rfl rfl rfl rfl rfl
      refine ⟨_, hd, ?_, ?_⟩
      · refine h.prog.active hk hc hst hw ha rfl rfl rfl rfl rfl rfl rfl rfl ?_ ?_ ?_ id hfl'
        · intro u hu
          dsimp only
          by_cases e : u = v
          · subst e; rw [put2_same]; omega
          · rw [put2_ne _ _ (fun _ => e)]; exact hu
        · rintro rfl; unfold First; simp only [put_same]
        · unfold Near; simp only [put_same]; exact hcap
      · exact abs_same h.abs rfl (stage_move (by rw [hr2]; rfl))
    · simp only [hpos, if_false]
      refine ⟨loc, ?_, ?_, abs_same h.abs rfl fun _ => rfl⟩
      · exact h.data.recount (w := w) (v := v) (c := s.cnt s.cur v - 1) (p := .zero sn v) (by omega) (by omega) rfl
          (.inl ⟨sn, hp⟩) (.inl ⟨sn, rfl⟩) rfl rfl rfl rfl rfl rfl
      · have hmono : ∀ u, s.cnt s.cur u ≤ 0 → put s.cnt s.cur (put (s.cnt s.cur) v (s.cnt s.cur v - 1)) s.cur u ≤ 0 := by
          intro u hu
          by_cases e : u = v
          · subst e; rw [put2_same]; omega
          · rw [put2_ne _ _ (fun _ => e)]; exact hu
        refine h.prog.active hk hc hst hw ha rfl rfl rfl rfl rfl rfl rfl rfl hmono ?_ ?_ id hfl'
        · rintro rfl
          unfold First at hf ⊢
          rw [hp] at hf
          dsimp only
          rw [put_same s.pc]
          refine ⟨hf.1, fun u hu => hmono u ?_⟩
          by_cases e : u = v
          · subst e; omega
          · exact hf.2 u (by omega)
        · unfold Near; dsimp only; rw [put_same s.pc]; trivial
  | took v i =>
    unfold Near at hnear; rw [hp] at hnear
    have h1 := h.data.p.took w v i hp
    cases hr : s.arr s.cur v i with
    | none => exact absurd hr h1
    | some r =>
      simp only [exec, hp, hr, Option.some.injEq] at he; subst he
      have hl : loc r = .with w .took := by rw [h.data.p.held, hp]; exact ⟨rfl, hr⟩
      have hlev := h.data.l.here r w _ hl (by simp)
      refine ⟨put loc r (.with w .running), ?_, ?_, ?_⟩
      · refine h.data.change (.with w .running) hl (by simp) ?_ (.inl ⟨_, rfl, by simp⟩) ?_ (by simp) (by simp) (by simp)
          (by rw [hp]; simp) (by rw [hp]; simp) (p := .run r) trivial rfl rfl ?_ rfl rfl rfl rfl rfl
        · intro x k hx
          rw [h.data.p.held, hp] at hx
          have := hx.2
          rw [hr] at this
          exact (Option.some.inj this).symm
        · intro x k; simp [Pc.Has, eq_comm, and_comm]
        · have := (h.data.p.queued r).2 (by rw [hl]; simp)
          funext x
          unfold put; split
          · rename_i e; subst e; rw [this]; simp
          · rfl
      · refine h.prog.active hk hc hst hw ha rfl rfl rfl rfl rfl rfl rfl rfl (fun v k => k) ?_ ?_ ?_ ?_
        · rintro rfl; unfold First; simp only [put_same]
        · unfold Near; simp only [put_same]
        · intro k; exact (stop_mem (by simp)).1 k
        · simp only [hfl, Bool.false_or, Bool.or_eq_false_iff, decide_eq_false_iff_not]; omega
      · refine abs_step h.abs (.start _ w r ?_ ?_ ?_) ?_
        · simp [absOf, hns]
        · simp [absOf, hl, stage]
        · intro r' hr'
          rw [hlev]
          refine h.data.l.low r' fun e => hr' ?_
          simp [absOf, e, stage]
        · unfold absOf; rw [stage_put]; simp [stage, hns]
  | zero sn v =>
    simp only [exec, hp, Option.some.injEq] at he; subst he
    refine ⟨loc, ?_, ?_, abs_same h.abs rfl fun _ => rfl⟩
    · exact h.data.recount (w := w) (v := v) (c := 0) (p := .scan sn v) (h.data.n.zeroed w sn v hp) (by omega) rfl
        (.inr ⟨sn, hp⟩) (.inr ⟨rfl, sn, rfl⟩) rfl rfl rfl rfl rfl rfl
    · have hmono : ∀ u, s.cnt s.cur u ≤ 0 → put s.cnt s.cur (put (s.cnt s.cur) v 0) s.cur u ≤ 0 := by
        intro u hu
        by_cases e : u = v
        · subst e; rw [put2_same]; omega
        · rw [put2_ne _ _ (fun _ => e)]; exact hu
      refine h.prog.active hk hc hst hw ha rfl rfl rfl rfl rfl rfl rfl rfl hmono ?_ ?_ id hfl
      · rintro rfl
        unfold First at hf ⊢
        rw [hp] at hf
        dsimp only
        rw [put_same s.pc]
        exact ⟨hf.1, fun u hu => hmono u (hf.2 u hu)⟩
      · unfold Near; dsimp only; rw [put_same s.pc]; trivial
  | scan sn v =>
    simp only [exec, hp, Option.some.injEq] at he; subst he
    have hpl : (scanNext s.num w sn v).plain = true ∧ (scanNext s.num w sn v).top = false ∧ (scanNext s.num w sn v).booting = false := by
      unfold scanNext; split <;> (try split) <;> exact ⟨rfl, rfl, rfl⟩
    refine h.active hk hc hst hw ha rfl (by rw [hp]; rfl) hpl.1 hpl.2.1 hpl.2.2 rfl rfl rfl rfl rfl rfl rfl rfl rfl ?_ ?_ rfl hfl
    · rintro rfl
      unfold First at hf ⊢
      rw [hp] at hf
      simp only [State.goto, put_same]
      have hb : ∀ u, s.num ≤ u → s.cnt s.cur u ≤ 0 := fun u hu => h.data.beyond hu
      unfold scanNext
      by_cases e : 0 < s.num
      · have hv : v < s.num := by rcases hf.1 with k | k <;> omega
        by_cases e2 : v + 1 = s.num
        · simp only [e, if_true, e2, Nat.mod_self]
          intro u
          rcases Nat.lt_or_ge u s.num with k | k
          · exact hf.2 u (by omega)
          · exact hb u k
        · have hmod : (v + 1) % s.num = v + 1 := Nat.mod_eq_of_lt (by omega)
          simp only [e, if_true, hmod, Nat.succ_ne_zero, if_false]
          exact ⟨.inr (by omega), fun u hu => hf.2 u (by omega)⟩
      · simp only [e, if_false]
        exact fun u => hb u (by omega)
    · unfold Near; simp only [State.goto, put_same]
      unfold scanNext
      by_cases e : w < s.num
      · rw [if_pos e]
        have := Nat.mod_lt (v + 1) (show s.num > 0 by omega)
        have := hc.nums.1
        by_cases e2 : (v + 1) % s.num = w
        · rw [if_pos e2]; trivial
        · rw [if_neg e2]; show (v + 1) % s.num < C.n; omega
      · rw [if_neg e]; trivial
  | look sn =>
    simp only [exec, hp, Option.some.injEq] at he; subst he
    unfold First at hf
    refine h.active hk hc hst hw ha rfl (by rw [hp]; rfl) (by split <;> rfl) (by split <;> rfl) (by split <;> rfl) rfl rfl rfl rfl rfl rfl
      rfl rfl rfl ?_ ?_ rfl ?_
    · rintro rfl
      rw [hp] at hf
      unfold First; dsimp only; rw [put_same s.pc]
      by_cases e : 1 < s.loose ∨ C.fast = false
      · rw [if_pos e]; exact hf
      · rw [if_neg e]; exact hf
    · unfold Near; dsimp only; rw [put_same s.pc]
      by_cases e : 1 < s.loose ∨ C.fast = false
      · rw [if_pos e]; trivial
      · rw [if_neg e]; trivial
    · simp only [hfl, Bool.false_or, Bool.or_eq_false_iff, decide_eq_false_iff_not]; omega
  | lock sn =>
    simp only [exec, hp] at he
    split at he
    · simp only [Option.some.injEq] at he; subst he
      refine h.active hk hc hst hw ha rfl (by rw [hp]; rfl) rfl rfl rfl rfl rfl rfl rfl rfl rfl rfl rfl rfl ?_ ?_ rfl hfl
      · rintro rfl; unfold First at hf ⊢; rw [hp] at hf; simp only [put_same]; exact hf
      · unfold Near; simp only [put_same]
    · cases he
  | test sn =>
    simp only [exec, hp, Option.some.injEq] at he; subst he
    refine h.active hk hc hst hw ha rfl (by rw [hp]; rfl) (by split <;> rfl) (by split <;> rfl) (by split <;> rfl) rfl rfl rfl rfl rfl rfl
      rfl rfl rfl ?_ ?_ rfl hfl
    · rintro rfl
      unfold First at hf ⊢
      rw [hp] at hf
      simp only [State.goto]
      rw [put_same s.pc]
      by_cases e : s.cnt s.cur 0 = 0
      · rw [if_pos e]; exact hf
      · rw [if_neg e]; trivial
    · unfold Near; simp only [State.goto, put_same]
      by_cases e : s.cnt s.cur w = 0
      · rw [if_pos e]; show s.cnt s.cur w ≤ 0; omega
      · rw [if_neg e]; trivial
  | unlock sn =>
    have key : ∀ s'', s''.pc = put s.pc w (.get sn w) → s''.queued = s.queued → s''.arr = s.arr → s''.nw = s.nw →
        s''.cur = s.cur → s''.num = s.num → s''.sig = s.sig → s''.stop = s.stop → s''.started = s.started →
        s''.cnt = s.cnt → s''.hist = s.hist → s''.fault = s.fault → ∃ loc', Inv C s'' loc' := by
      intro s'' k1 k2 k3 k4 k5 k6 k7 k8 k9 k10 k11 k12
      refine h.active hk hc hst hw ha k1 (by rw [hp]; rfl) rfl rfl rfl k2 k3 k4 k5 k6 k7 k8 k9 k10 ?_ ?_ k11 (by rw [k12]; exact hfl)
      · rintro rfl; unfold First; simp only [k1, put_same]; exact ⟨.inl trivial, by omega⟩
      · unfold Near; simp only [k1, put_same]; exact hw
    simp only [exec, hp] at he
    split at he <;> simp only [Option.some.injEq] at he <;> subst he <;>
      exact key _ rfl rfl rfl rfl rfl rfl rfl rfl rfl rfl rfl rfl
  | check sn =>
    unfold Near at hnear; rw [hp] at hnear
    simp only [exec, hp, Option.some.injEq] at he; subst he
    refine h.active hk hc hst hw ha rfl (by rw [hp]; rfl) rfl rfl rfl rfl rfl rfl rfl rfl rfl rfl rfl rfl ?_ ?_ rfl ?_
    · rintro rfl; unfold First at hf ⊢; rw [hp] at hf; simp only [put_same]; exact hf
    · unfold Near; simp only [put_same]
    · simp only [hfl, Bool.false_or, decide_eq_false_iff_not]; omega
  | dec sn =>
    simp only [exec, hp, Option.some.injEq] at he; subst he
    have hfl' : (s.fault || decide (s.loose - 1 < 0) || decide ((C.n : Int) < s.loose - 1)) = false := by
      simp only [hfl, Bool.false_or, Bool.or_eq_false_iff, decide_eq_false_iff_not]; omega
    by_cases e : s.loose - 1 = 0
    · simp only [e, if_true] at hc' hfl' ⊢
      refine ⟨loc, ?_, ?_, abs_same h.abs rfl fun _ => rfl⟩
      · exact h.data.move rfl (by rw [hp]; rfl) rfl (by intro k; cases k) rfl rfl rfl rfl rfl rfl
      · have hk' : Ctl C { s with
            loose := 0
            fault := (s.fault || decide ((0 : Int) < 0) || decide ((C.n : Int) < 0))
            pc := put s.pc w .adv } := by
          rcases hc'.phase with k | k
          · exact k
          · have := k.thr w hw
            simp only [put_same] at this
            rcases this with e | ⟨e | e, _⟩ | ⟨_, e, _⟩ <;> cases e
        exact h.prog.last hk hk' hc hc' hst hw hp rfl rfl rfl rfl rfl rfl rfl rfl hfl'
    · simp only [e, if_false] at hc' ⊢
      refine h.active hk hc hst hw ha rfl (by rw [hp]; rfl) rfl rfl rfl rfl rfl rfl rfl rfl rfl rfl rfl rfl ?_ ?_ rfl hfl'
      · rintro rfl; unfold First at hf ⊢; rw [hp] at hf; simp only [put_same]; exact hf
      · unfold Near; simp only [put_same]
  | run r => simp only [exec, hp] at he; cases he
  | done r =>
    simp only [exec, hp, Option.some.injEq] at he; subst he
    have hl : loc r = .with w .ended := by rw [h.data.p.held, hp]; exact ⟨rfl, rfl⟩
    have hq := (h.data.p.queued r).2 (by rw [hl]; simp)
    refine ⟨put loc r .idle, ?_, ?_, ?_⟩
    · refine h.data.change .idle hl (by simp) ?_ (.inr rfl) ?_ (by simp) (by simp) (by simp)
        (by rw [hp]; simp) (by rw [hp]; simp) (p := .snap) trivial rfl rfl ?_ rfl rfl rfl rfl rfl
      · intro x k hx
        rw [h.data.p.held, hp] at hx
        exact hx.2
      · intro x k; simp [Pc.Has]
      · simp
    · refine h.prog.active hk hc hst hw ha rfl rfl rfl rfl rfl rfl rfl rfl (fun v k => k) ?_ ?_ id ?_
      · rintro rfl; unfold First; simp only [put_same]
      · unfold Near; simp only [put_same]
      · simp [hfl, hq]
    · refine abs_step h.abs (.done _ r ?_ ?_) ?_
      · simp [absOf, hns]
      · simp [absOf, hl, stage]
      · unfold absOf; rw [stage_put]; simp [stage, hns]
  | fetch who r =>
    rw [hp] at ha
    cases who with
    | boot => cases ha
    | events => cases ha
    | running r' =>
      have h1 := (h.data.running (t := w) (r := r') (by rw [hp]; simp [Pc.Has])).2
      have h2 := h.data.l.above w
      rw [hp] at h2
      have h3 : C.level r' < C.level r := h2
      have hne : C.level r ≠ s.cur := by omega
      obtain ⟨k1, k2, k3, k4, k5⟩ := h.inserts hC hp (fun e => absurd e hne)
      simp only [exec, hp, Option.some.injEq] at he; subst he
      obtain ⟨hpos, hd⟩ := h.data.insert (s' := { s with
          cnt := put s.cnt (C.level r) (put (s.cnt (C.level r)) (C.hash r % s.nw (C.level r))
            (s.cnt (C.level r) (C.hash r % s.nw (C.level r)) + 1))
          fault := s.fault || decide (s.nw (C.level r) = 0) || decide (s.cnt (C.level r) (C.hash r % s.nw (C.level r)) < 0) ||
            !(decide (s.cur < C.level r) || decide (s.cur = 0)) || decide (C.maxLevel < C.level r)
          pc := put s.pc w (.store (.running r') r (C.hash r % s.nw (C.level r))
            (s.cnt (C.level r) (C.hash r % s.nw (C.level r))).toNat) }) hp rfl rfl (fun e => absurd e hne) rfl rfl rfl rfl rfl rfl rfl
      refine ⟨_, hd, ?_, ?_⟩
      · refine h.prog.active hk hc hst hw (by rw [hp]; rfl) rfl rfl rfl rfl rfl rfl rfl rfl ?_ ?_ ?_ id ?_
        · intro v k
          dsimp only
          rw [put2_ne _ _ (fun e => absurd e.symm hne)]; exact k
        · rintro rfl; unfold First; simp only [put_same]
        · unfold Near; simp only [put_same]
        · have := (show 0 ≤ s.cnt (C.level r) (C.hash r % s.nw (C.level r)) from hpos)
          simp only [hfl, Bool.false_or, Bool.or_eq_false_iff, decide_eq_false_iff_not, Bool.not_eq_false',
            Bool.or_eq_true, decide_eq_true_eq]
          omega
      · exact abs_same h.abs rfl (stage_move (by rw [k2]; rfl))
  | store who r v i =>
    rw [hp] at ha
    cases who with
    | boot => cases ha
    | events => cases ha
    | running r' =>
      have hne := h.data.store_level hk hc hst hw (by rw [hp]; rfl) w _ r v i hp
      have hs := h.data.p.slot r v i (h.data.p.store w _ r v i hp)
      have hcap := h.data.lt_cap hs.2.1
      simp only [exec, hp, Option.some.injEq] at he; subst he
      refine ⟨loc, ?_, ?_, abs_same h.abs rfl fun _ => rfl⟩
      · exact h.data.write hp (fun e => absurd e hne) rfl rfl rfl rfl rfl rfl rfl
      · refine h.prog.active hk hc hst hw (by rw [hp]; rfl) rfl rfl rfl rfl rfl rfl rfl rfl (fun v k => k) ?_ ?_ id ?_
        · rintro rfl; unfold First; simp only [put_same, back]
        · unfold Near; simp only [put_same, back]
        · simp only [hfl, Bool.false_or, Bool.or_eq_false_iff, decide_eq_false_iff_not]; omega
  | unlockB =>
    have key : ∀ s'', s''.pc = put s.pc w .leave → s''.queued = s.queued → s''.arr = s.arr → s''.nw = s.nw →
        s''.cur = s.cur → s''.num = s.num → s''.sig = s.sig → s''.stop = s.stop → s''.started = s.started →
        s''.cnt = s.cnt → s''.hist = s.hist → s''.fault = s.fault → ∃ loc', Inv C s'' loc' := by
      intro s'' k1 k2 k3 k4 k5 k6 k7 k8 k9 k10 k11 k12
      refine h.active hk hc hst hw ha k1 (by rw [hp]; rfl) rfl rfl rfl k2 k3 k4 k5 k6 k7 k8 k9 k10 ?_ ?_ k11 (by rw [k12]; exact hfl)
      · rintro rfl; unfold First; simp only [k1, put_same]
      · unfold Near; simp only [k1, put_same]
    simp only [exec, hp] at he
    split at he <;> simp only [Option.some.injEq] at he <;> subst he <;>
      exact key _ rfl rfl rfl rfl rfl rfl rfl rfl rfl rfl rfl rfl
  | leave =>
    have hs := hk.stop_false hc hw haw
    simp only [exec, hp, hs, Option.some.injEq] at he; subst he
    refine h.active hk hc hst hw ha rfl (by rw [hp]; rfl) rfl rfl rfl rfl rfl rfl rfl rfl rfl rfl rfl rfl ?_ ?_ rfl hfl
    · rintro rfl; unfold First; simp [State.goto, put_same]
    · unfold Near; simp [State.goto, put_same]
  | _ => rw [hp] at ha; cases ha

end

end ReactorC.Adaptive
