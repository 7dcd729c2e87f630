import Verif.Adaptive.CtlStep

/-!
# The crew in every reachable state
-/

set_option linter.unusedVariables false
set_option linter.unusedSimpArgs false

namespace ReactorC.Adaptive

open Np (Ev Who put)

section
variable {C : Config} {s s' : State} {w : Nat}

theorem not_halting_of_not_top {n : Nat} {p q : Pc} (h : p.top = false) : p.Halting n → q.Halting n := by
  rintro (e | e | e) <;> rw [e] at h <;> cases h

theorem toAwaken_pos {t : Int} {num : Nat} (ht : t ≠ 0) (hn : num ≠ 0) : 1 ≤ toAwaken t num := by
  unfold toAwaken; split <;> omega

theorem toAwaken_le {t : Int} {num : Nat} : toAwaken t num ≤ num := by
  unfold toAwaken; split <;> omega

theorem total_ne {s : State} (h : s.total ≠ 0) : s.num ≠ 0 := by
  intro e
  apply h
  unfold State.total
  rw [e]; rfl

theorem Ctl.go (hC : C.Ok) (h : Ctl C s) (hn : s.num ≤ C.n) (hw : w < C.n) (he : exec C s (.go w) = some s') :
    Ctl C s' ∨ Bye C s' := by
  have ht := h.thr w hw
  have hm := h.mutex w hw
  cases hp : s.pc w with
  | boot => simp only [ThreadOk, hp] at ht; exact ht.2.elim
  | snap =>
    simp only [exec, hp, Option.some.injEq] at he; subst he
    simp only [ThreadOk, hp] at ht
    refine .inl (h.move hw rfl rfl rfl rfl rfl rfl rfl rfl (by rw [hp]; rfl) (by rw [hp]; rfl) (fun _ => not_halting_of_not_top (by rw [hp]; rfl)) ?_)
    simp only [ThreadOk, State.goto, put_same]
    exact ⟨fun k => (by obtain ⟨_, e⟩ := ht.1 k; cases e), trivial, ht.2⟩
  | get sn v =>
    simp only [exec, hp, Option.some.injEq] at he; subst he
    simp only [ThreadOk, hp] at ht
    by_cases k : 0 ≤ s.cnt s.cur v - 1
    · rw [if_pos k]
      refine .inl (h.move hw rfl rfl rfl rfl rfl rfl rfl rfl (by rw [hp]; rfl) (by rw [hp]; rfl) (fun _ => not_halting_of_not_top (by rw [hp]; rfl)) ?_)
      simp only [ThreadOk, State.goto, put_same]
      exact ⟨fun k => (by obtain ⟨_, e⟩ := ht.1 k; cases e), ht.2.2⟩
    · rw [if_neg k]
      refine .inl (h.move hw rfl rfl rfl rfl rfl rfl rfl rfl (by rw [hp]; rfl) (by rw [hp]; rfl) (fun _ => not_halting_of_not_top (by rw [hp]; rfl)) ?_)
      simp only [ThreadOk, State.goto, put_same]
      exact ⟨fun k => (by obtain ⟨_, e⟩ := ht.1 k; cases e), ht.2⟩
  | took v i =>
    simp only [exec, hp] at he
    simp only [ThreadOk, hp] at ht
    cases hr : s.arr s.cur v i with
    | none =>
      simp only [hr, Option.some.injEq] at he; subst he
      refine .inl (h.move hw (p := s.pc w) ?_ rfl rfl rfl rfl rfl rfl rfl rfl rfl (fun _ k => k) ?_)
      · funext x; unfold put; split
        · rename_i e; rw [e]
        · rfl
      · simp only [ThreadOk, hp]; exact ht
    | some r =>
      simp only [hr, Option.some.injEq] at he; subst he
      refine .inl (h.move hw rfl rfl rfl rfl rfl rfl rfl rfl (by rw [hp]; rfl) (by rw [hp]; rfl) (fun _ => not_halting_of_not_top (by rw [hp]; rfl)) ?_)
      simp only [ThreadOk, State.goto, put_same]
      exact ⟨fun k => (by obtain ⟨_, e⟩ := ht.1 k; cases e), ht.2⟩
  | zero sn v =>
    simp only [exec, hp, Option.some.injEq] at he; subst he
    simp only [ThreadOk, hp] at ht
    refine .inl (h.move hw rfl rfl rfl rfl rfl rfl rfl rfl (by rw [hp]; rfl) (by rw [hp]; rfl) (fun _ => not_halting_of_not_top (by rw [hp]; rfl)) ?_)
    simp only [ThreadOk, State.goto, put_same]
    exact ⟨fun k => (by obtain ⟨_, e⟩ := ht.1 k; cases e), ht.2⟩
  | scan sn v =>
    simp only [exec, hp, Option.some.injEq] at he; subst he
    simp only [ThreadOk, hp] at ht
    have hc : scanNext s.num w sn v = .look sn ∨ ∃ v', scanNext s.num w sn v = .get sn v' := by
      unfold scanNext; split
      · split
        · exact .inl rfl
        · exact .inr ⟨_, rfl⟩
      · exact .inl rfl
    rcases hc with hc | ⟨v', hc⟩ <;> rw [hc]
    all_goals
      refine .inl (h.move hw rfl rfl rfl rfl rfl rfl rfl rfl (by rw [hp]; rfl) (by rw [hp]; rfl) (fun _ => not_halting_of_not_top (by rw [hp]; rfl)) ?_)
      simp only [ThreadOk, State.goto, put_same]
      exact ⟨fun k => (by obtain ⟨_, e⟩ := ht.1 k; cases e), ht.2⟩
  | look sn =>
    simp only [exec, hp, Option.some.injEq] at he; subst he
    simp only [ThreadOk, hp] at ht
    by_cases k : 1 < s.loose ∨ C.fast = false
    · rw [if_pos k]
      refine .inl (h.move hw rfl rfl rfl rfl rfl rfl rfl rfl (by rw [hp]; rfl) (by rw [hp]; rfl) (fun _ => not_halting_of_not_top (by rw [hp]; rfl)) ?_)
      simp only [ThreadOk, State.goto, put_same]
      exact ⟨fun k => (by obtain ⟨_, e⟩ := ht.1 k; cases e), ht.2⟩
    · rw [if_neg k]
      refine .inl (h.move hw rfl rfl rfl rfl rfl rfl rfl rfl (by rw [hp]; rfl) (by rw [hp]; rfl) (fun _ => not_halting_of_not_top (by rw [hp]; rfl)) ?_)
      simp only [ThreadOk, State.goto, put_same]
      have k1 : ¬ 1 < s.loose := fun e => k (.inl e)
      have k2 : C.fast = true := by
        cases e : C.fast with
        | true => rfl
        | false => exact absurd (.inr e) k
      have k3 : 0 < (List.range C.n).countP (awake s) := countP_pos.2 ⟨w, hw, h.awake_of_active (by rw [hp]; rfl)⟩
      have k4 := h.loose
      exact ⟨fun k => (by obtain ⟨_, e⟩ := ht.1 k; cases e), ht.2.1, .inr ⟨k2, by omega⟩⟩
  | lock sn =>
    simp only [exec, hp] at he
    simp only [ThreadOk, hp] at ht
    split at he
    · rename_i hmx
      simp only [Option.some.injEq] at he; subst he
      refine .inl (h.quiet hw rfl rfl rfl rfl rfl (fun _ _ => rfl) (fun x hx => put_ne _ _ hx) (fun x hx => ?_) ?_ ?_ (by rw [hp]; rfl)
        (fun _ => not_halting_of_not_top (by rw [hp]; rfl)) ?_)
      · simp only [hmx, Option.some.injEq]
        exact ⟨fun e => absurd e.symm hx, fun e => by cases e⟩
      · simp [put_same]
      · simp only [awake, put_same, hp, Pc.active]
      · simp only [ThreadOk, put_same]
        exact ⟨fun k => (by obtain ⟨_, e⟩ := ht.1 k; cases e), ht.2.1, .inl trivial⟩
    · cases he
  | test sn =>
    simp only [exec, hp, Option.some.injEq] at he; subst he
    simp only [ThreadOk, hp] at ht
    by_cases k : s.cnt s.cur w = 0
    · rw [if_pos k]
      refine .inl (h.move hw rfl rfl rfl rfl rfl rfl rfl rfl (by rw [hp]; rfl) (by rw [hp]; rfl) (fun _ => not_halting_of_not_top (by rw [hp]; rfl)) ?_)
      simp only [ThreadOk, State.goto, put_same]
      exact ⟨fun k => (by obtain ⟨_, e⟩ := ht.1 k; cases e), ht.2⟩
    · rw [if_neg k]
      refine .inl (h.move hw rfl rfl rfl rfl rfl rfl rfl rfl (by rw [hp]; rfl) (by rw [hp]; rfl) (fun _ => not_halting_of_not_top (by rw [hp]; rfl)) ?_)
      simp only [ThreadOk, State.goto, put_same]
      exact ⟨fun k => (by obtain ⟨_, e⟩ := ht.1 k; cases e), ht.2⟩
  | unlock sn =>
    simp only [exec, hp] at he
    simp only [ThreadOk, hp] at ht
    split at he
    · rename_i hh
      have hmx := hm.1 hh
      simp only [Option.some.injEq] at he; subst he
      refine .inl (h.quiet hw rfl rfl rfl rfl rfl (fun _ _ => rfl) (fun x hx => put_ne _ _ hx) (fun x hx => ?_) ?_ ?_ (by rw [hp]; rfl)
        (fun _ => not_halting_of_not_top (by rw [hp]; rfl)) ?_)
      · simp only [hmx, Option.some.injEq]
        exact ⟨fun e => (by cases e), fun e => absurd e.symm hx⟩
      · simp [put_same]
      · simp only [awake, put_same, hp, Pc.active]
      · simp only [ThreadOk, put_same]
        exact ⟨fun k => (by obtain ⟨_, e⟩ := ht.1 k; cases e), ht.2.1, trivial⟩
    · rename_i hh
      simp only [Option.some.injEq] at he; subst he
      refine .inl (h.move hw rfl rfl rfl rfl rfl rfl rfl rfl (by rw [hp]; rfl) (by rw [hp]; rfl) (fun _ => not_halting_of_not_top (by rw [hp]; rfl)) ?_)
      simp only [ThreadOk, State.goto, put_same]
      exact ⟨fun k => (by obtain ⟨_, e⟩ := ht.1 k; cases e), ht.2.1, by simpa using hh⟩
  | check sn =>
    simp only [exec, hp, Option.some.injEq] at he; subst he
    simp only [ThreadOk, hp] at ht
    refine .inl (h.move hw rfl rfl rfl rfl rfl rfl rfl rfl (by rw [hp]; rfl) (by rw [hp]; rfl) (fun _ => not_halting_of_not_top (by rw [hp]; rfl)) ?_)
    simp only [ThreadOk, State.goto, put_same]
    exact ⟨fun k => (by obtain ⟨_, e⟩ := ht.1 k; cases e), ht.2⟩
  | dec sn =>
    simp only [exec, hp, Option.some.injEq] at he; subst he
    exact .inl (h.dec hw hp rfl rfl rfl rfl rfl rfl rfl rfl)
  | run r => simp only [exec, hp] at he; cases he
  | done r =>
    simp only [exec, hp, Option.some.injEq] at he; subst he
    simp only [ThreadOk, hp] at ht
    refine .inl (h.move hw rfl rfl rfl rfl rfl rfl rfl rfl (by rw [hp]; rfl) (by rw [hp]; rfl) (fun _ => not_halting_of_not_top (by rw [hp]; rfl)) ?_)
    simp only [ThreadOk, State.goto, put_same]
    exact ⟨fun k => (by obtain ⟨_, e⟩ := ht.1 k; cases e), ht.2⟩
  | fetch who r =>
    simp only [exec, hp, Option.some.injEq] at he; subst he
    cases who with
    | boot => simp only [ThreadOk, hp] at ht; exact ht.2.elim
    | running r' =>
      simp only [ThreadOk, hp] at ht
      refine .inl (h.move hw rfl rfl rfl rfl rfl rfl rfl rfl (by rw [hp]; rfl) (by rw [hp]; rfl) (fun _ => not_halting_of_not_top (by rw [hp]; rfl)) ?_)
      simp only [ThreadOk, State.goto, put_same]
      exact ⟨fun k => (by obtain ⟨_, e⟩ := ht.1 k; cases e), ht.2⟩
    | events =>
      simp only [ThreadOk, hp] at ht
      refine .inl (h.move hw rfl rfl rfl rfl rfl rfl rfl rfl (by rw [hp]; rfl) (by rw [hp]; rfl) (fun _ k => ?_) ?_)
      · rcases k with e | e | e <;> rw [hp] at e <;> cases e
      · simp only [ThreadOk, State.goto, put_same]
        exact ⟨fun k => (by obtain ⟨_, e⟩ := ht.1 k; cases e), ht.2⟩
  | store who r v i =>
    simp only [exec, hp, Option.some.injEq] at he; subst he
    cases who with
    | boot => simp only [ThreadOk, hp] at ht; exact ht.2.elim
    | running r' =>
      simp only [ThreadOk, hp] at ht
      refine .inl (h.move hw rfl rfl rfl rfl rfl rfl rfl rfl (by rw [hp]; rfl) (by rw [hp]; rfl) (fun _ => not_halting_of_not_top (by rw [hp]; rfl)) ?_)
      simp only [ThreadOk, State.goto, put_same, back]
      exact ⟨fun k => (by obtain ⟨_, e⟩ := ht.1 k; cases e), ht.2⟩
    | events =>
      simp only [ThreadOk, hp] at ht
      refine .inl (h.move hw rfl rfl rfl rfl rfl rfl rfl rfl (by rw [hp]; rfl) (by rw [hp]; rfl) (fun _ k => ?_) ?_)
      · rcases k with e | e | e <;> rw [hp] at e <;> cases e
      · simp only [ThreadOk, State.goto, put_same, back]
        exact ⟨fun k => (by obtain ⟨_, e⟩ := ht.1 k; cases e), ht.2⟩
  | adv =>
    simp only [exec, hp] at he
    simp only [ThreadOk, hp] at ht
    have hk : ∀ p : Pc, s.stop = true → (s.pc w).Halting C.n → p.Halting C.n := by
      intro p _ k
      rcases k with e | e | e <;> rw [hp] at e <;> cases e
    split at he
    · simp only [Option.some.injEq] at he; subst he
      refine .inl (h.move hw rfl rfl rfl rfl rfl rfl rfl rfl (by rw [hp]; rfl) (by rw [hp]; rfl) (hk _) ?_)
      simp only [ThreadOk, State.goto, put_same]
      exact ⟨fun k => (by obtain ⟨_, e⟩ := ht.1 k; cases e), ht.2⟩
    · split at he <;> (
        simp only [Option.some.injEq] at he; subst he
        refine .inl (h.move hw rfl rfl rfl rfl rfl rfl rfl rfl (by rw [hp]; rfl) (by rw [hp]; rfl) (hk _) ?_)
        simp only [ThreadOk, State.goto, put_same]
        exact ⟨fun k => (by obtain ⟨_, e⟩ := ht.1 k; cases e), ht.2⟩)
  | total =>
    simp only [exec, hp, Option.some.injEq] at he; subst he
    simp only [ThreadOk, hp] at ht
    have hns : s.stop = false := by
      cases k : s.stop with
      | false => rfl
      | true =>
        obtain ⟨x, hx, hh⟩ := h.halt k
        have : x = w := ((h.alone w hw (by rw [hp]; rfl) x hx).2 (by rcases hh with e | e | e <;> rw [e] <;> rfl))
        subst this
        rcases hh with e | e | e <;> rw [hp] at e <;> cases e
    have hk : ∀ p : Pc, s.stop = true → (s.pc w).Halting C.n → p.Halting C.n := by
      intro p _ k
      rcases k with e | e | e <;> rw [hp] at e <;> cases e
    by_cases k : s.total ≠ 0
    · rw [if_pos k]
      refine .inl (h.move hw rfl rfl rfl rfl rfl rfl rfl rfl (by rw [hp]; rfl) (by rw [hp]; rfl) (hk _) ?_)
      simp only [ThreadOk, State.goto, put_same]
      exact ⟨fun k => (by obtain ⟨_, e⟩ := ht.1 k; cases e), ht.2, toAwaken_pos k (total_ne k), Nat.le_trans toAwaken_le hn,
        fun e => (by rw [hns] at e; cases e)⟩
    · rw [if_neg k]
      refine .inl (h.move hw rfl rfl rfl rfl rfl rfl rfl rfl (by rw [hp]; rfl) (by rw [hp]; rfl) (hk _) ?_)
      simp only [ThreadOk, State.goto, put_same]
      exact ⟨fun k => (by obtain ⟨_, e⟩ := ht.1 k; cases e), ht.2⟩
  | close => simp only [exec, hp] at he; cases he
  | tag => simp only [exec, hp] at he; cases he
  | events =>
    simp only [exec, hp, Option.some.injEq] at he; subst he
    simp only [ThreadOk, hp] at ht
    refine .inl (h.move hw rfl rfl rfl rfl rfl rfl rfl rfl (by rw [hp]; rfl) (by rw [hp]; rfl) (fun _ k => ?_) ?_)
    · rcases k with e | e | e <;> rw [hp] at e <;> cases e
    · simp only [ThreadOk, State.goto, put_same]
      exact ⟨fun k => (by obtain ⟨_, e⟩ := ht.1 k; cases e), ht.2⟩
  | signal =>
    simp only [exec, hp, Option.some.injEq] at he; subst he
    simp only [ThreadOk, hp] at ht
    have hal := h.alone w hw (by rw [hp]; rfl)
    have hne : ∀ x, x ≠ w → put s.pc w (Pc.awaken C.n) x = s.pc x := fun x hx => put_ne _ _ hx
    have hsw : s.sig w = false := h.sig_false hw (by rw [hp]; simp)
    have haw : ∀ x, awake { s with stop := true, pc := put s.pc w (.awaken C.n) } x = awake s x := by
      intro x
      by_cases e : x = w
      · subst e; unfold awake; simp [put_same, hp, Pc.active]
      · unfold awake; simp [put_ne _ _ e]
    have htop : ∀ x, (put s.pc w (Pc.awaken C.n) x).top = (s.pc x).top := by
      intro x
      by_cases e : x = w
      · subst e; rw [put_same, hp]; rfl
      · rw [put_ne _ _ e]
    refine .inl ⟨?_, ?_, ?_, h.mutex, ?_, fun _ => ⟨w, hw, .inl (put_same _ _ _)⟩⟩
    · rw [h.loose]; congr 2; funext x; exact (haw x).symm
    · intro x hx hxt y hy
      rw [haw]; simp only [htop] at hxt ⊢
      exact h.alone x hx hxt y hy
    · obtain ⟨x, hx, k⟩ := h.any
      exact ⟨x, hx, by rw [haw]; simp only [htop]; exact k⟩
    · intro x hx
      by_cases e : x = w
      · subst e
        simp only [ThreadOk, put_same]
        exact ⟨fun k => (by rw [hsw] at k; cases k), ht.2, hC.pos, Nat.le_refl _, fun _ => trivial⟩
      · have hx1 := h.thr x hx
        have hxt : (s.pc x).top = false := by
          cases k : (s.pc x).top with
          | false => rfl
          | true => exact absurd ((hal x hx).2 k) e
        unfold ThreadOk at hx1 ⊢
        simp only [put_ne _ _ e]
        refine ⟨hx1.1, ?_⟩
        have hx2 := hx1.2
        cases hpx : s.pc x with
        | awaken k | lockB k | wake k => rw [hpx] at hxt; cases hxt
        | fetch who r => rw [hpx] at hx2; cases who <;> exact hx2
        | store who r v i => rw [hpx] at hx2; cases who <;> exact hx2
        | _ => rw [hpx] at hx2; exact hx2
  | awaken k =>
    simp only [exec, hp] at he
    split at he
    · rename_i hc
      simp only [Option.some.injEq] at he; subst he
      exact h.self hw hp hc.1 hc.2 rfl rfl rfl rfl rfl rfl rfl rfl
    · simp only [Option.some.injEq] at he; subst he
      simp only [ThreadOk, hp] at ht
      cases hh : s.held w with
      | true =>
        simp only [hh, if_true]
        refine .inl (h.move hw rfl rfl rfl rfl rfl rfl rfl rfl (by rw [hp]; rfl) (by rw [hp]; rfl) (fun hs k' => ?_) ?_)
        · rw [ht.2.2.2.2 hs]; exact .inr (.inr rfl)
        · simp only [ThreadOk, State.goto, put_same]
          exact ⟨fun k => (by obtain ⟨_, e⟩ := ht.1 k; cases e), hh, ht.2.2⟩
      | false =>
        simp only [hh, Bool.false_eq_true, if_false]
        refine .inl (h.move hw rfl rfl rfl rfl rfl rfl rfl rfl (by rw [hp]; rfl) (by rw [hp]; rfl) (fun hs k' => ?_) ?_)
        · rw [ht.2.2.2.2 hs]; exact .inr (.inl rfl)
        · simp only [ThreadOk, State.goto, put_same]
          exact ⟨fun k => (by obtain ⟨_, e⟩ := ht.1 k; cases e), hh, ht.2.2⟩
  | lockB k =>
    simp only [exec, hp] at he
    simp only [ThreadOk, hp] at ht
    split at he
    · rename_i hmx
      simp only [Option.some.injEq] at he; subst he
      refine .inl (h.quiet hw rfl rfl rfl rfl rfl (fun _ _ => rfl) (fun x hx => put_ne _ _ hx) (fun x hx => ?_) ?_ ?_ (by rw [hp]; rfl)
        (fun hs _ => ?_) ?_)
      · simp only [hmx, Option.some.injEq]
        exact ⟨fun e => absurd e.symm hx, fun e => by cases e⟩
      · simp [put_same]
      · simp only [awake, put_same, hp, Pc.active]
      · rw [ht.2.2.2.2 hs]; exact .inr (.inr rfl)
      · simp only [ThreadOk, put_same]
        exact ⟨fun k => (by obtain ⟨_, e⟩ := ht.1 k; cases e), trivial, ht.2.2⟩
    · cases he
  | wake k =>
    simp only [exec, hp, Option.some.injEq] at he; subst he
    exact h.wake hC hw hp rfl rfl rfl rfl rfl (fun _ => rfl) rfl rfl
  | unlockB =>
    simp only [exec, hp] at he
    simp only [ThreadOk, hp] at ht
    split at he
    · rename_i hh
      have hmx := hm.1 hh
      simp only [Option.some.injEq] at he; subst he
      refine .inl (h.quiet hw rfl rfl rfl rfl rfl (fun _ _ => rfl) (fun x hx => put_ne _ _ hx) (fun x hx => ?_) ?_ ?_ (by rw [hp]; rfl)
        (fun _ => not_halting_of_not_top (by rw [hp]; rfl)) ?_)
      · simp only [hmx, Option.some.injEq]
        exact ⟨fun e => (by cases e), fun e => absurd e.symm hx⟩
      · simp [put_same]
      · simp only [awake, put_same, hp, Pc.active]
      · simp only [ThreadOk, put_same]
        exact ⟨fun k => (by obtain ⟨_, e⟩ := ht.1 k; cases e), trivial⟩
    · rename_i hh
      simp only [Option.some.injEq] at he; subst he
      refine .inl (h.move hw rfl rfl rfl rfl rfl rfl rfl rfl (by rw [hp]; rfl) (by rw [hp]; rfl) (fun _ => not_halting_of_not_top (by rw [hp]; rfl)) ?_)
      simp only [ThreadOk, State.goto, put_same]
      exact ⟨fun k => (by obtain ⟨_, e⟩ := ht.1 k; cases e), by simpa using hh⟩
  | sleep sn =>
    simp only [exec, hp] at he
    simp only [ThreadOk, hp] at ht
    rw [if_pos ht.2.2] at he
    simp only [Option.some.injEq] at he; subst he
    refine .inl (h.move hw rfl rfl rfl rfl rfl rfl rfl rfl (by rw [hp]; rfl) (by rw [hp]; rfl) (fun _ => not_halting_of_not_top (by rw [hp]; rfl)) ?_)
    simp only [ThreadOk, State.goto, put_same]
    exact ⟨fun k => (by obtain ⟨_, e⟩ := ht.1 k; cases e), ht.2⟩
  | doze sn =>
    simp only [exec, hp, Option.some.injEq] at he; subst he
    simp only [ThreadOk, hp] at ht
    have hmx := hm.1 ht.2.2
    have hwt : s.waits w sn = true := by unfold State.waits; simp [ht.2.1]
    have hsw : s.sig w = false := h.sig_false hw (by rw [hp]; simp)
    rw [hwt, if_pos rfl]
    refine .inl (h.quiet hw rfl rfl rfl rfl rfl (fun _ _ => rfl) (fun x hx => put_ne _ _ hx) (fun x hx => ?_) ?_ ?_ (by rw [hp]; rfl)
      (fun _ => not_halting_of_not_top (by rw [hp]; rfl)) ?_)
    · simp only [hmx, Option.some.injEq]
      exact ⟨fun e => (by cases e), fun e => absurd e.symm hx⟩
    · simp [put_same]
    · simp only [awake, put_same, hp, Pc.active]
    · simp only [ThreadOk, put_same]
      exact ⟨fun _ => ⟨sn, rfl⟩, trivial, by omega, fun k => (by rw [hsw] at k; cases k), fun _ => .inl ht.2.1⟩
  | asleep sn =>
    simp only [exec, hp] at he
    simp only [ThreadOk, hp] at ht
    split at he
    · rename_i hc
      simp only [Option.some.injEq] at he; subst he
      obtain ⟨h1, h2⟩ := ht.2.2.2.1 hc.2
      have hwt : s.waits w sn = false := by unfold State.waits; simp; omega
      rw [hwt]
      simp only [Bool.false_eq_true, if_false]
      refine .inl (h.quiet hw rfl rfl rfl rfl rfl (fun x hx => put_ne _ _ hx) (fun _ _ => rfl) (fun x hx => Iff.rfl) hm ?_ (by rw [hp]; rfl)
        (fun _ => not_halting_of_not_top (by rw [hp]; rfl)) ?_)
      · simp only [awake, put_same, hp, Pc.active, hc.2, Bool.or_true, Bool.true_or]
      · simp only [ThreadOk, put_same]
        exact ⟨fun k => (by cases k), ht.2.1⟩
    · cases he
  | leave =>
    simp only [exec, hp, Option.some.injEq] at he; subst he
    simp only [ThreadOk, hp] at ht
    have := h.not_stop hw (h.awake_of_active (by rw [hp]; rfl))
    rw [this]
    simp only [Bool.false_eq_true, if_false]
    refine .inl (h.move hw rfl rfl rfl rfl rfl rfl rfl rfl (by rw [hp]; rfl) (by rw [hp]; rfl) (fun _ => not_halting_of_not_top (by rw [hp]; rfl)) ?_)
    simp only [ThreadOk, State.goto, put_same]
    exact ⟨fun k => (by obtain ⟨_, e⟩ := ht.1 k; cases e), ht.2⟩
  | exited => simp only [exec, hp] at he; cases he

/-- The other steps of a worker. -/
theorem Ctl.other (hC : C.Ok) (h : Ctl C s) (hw : w < C.n) {a : Act}
    (ha : a = .finish w ∨ (∃ r, a = .trigger w r) ∨ (∃ f, a = .close w f) ∨ a = .advance w ∨ a = .retry w ∨ a = .stop w)
    (he : exec C s a = some s') : Ctl C s' := by
  have ht := h.thr w hw
  have hk : ∀ p : Pc, (∀ k, s.pc w ≠ .awaken k ∧ s.pc w ≠ .lockB k ∧ s.pc w ≠ .wake k) →
      s.stop = true → (s.pc w).Halting C.n → p.Halting C.n := by
    intro p hne _ k
    rcases k with e | e | e
    · exact absurd e (hne _).1
    · exact absurd e (hne _).2.1
    · exact absurd e (hne _).2.2
  rcases ha with rfl | ⟨r, rfl⟩ | ⟨f, rfl⟩ | rfl | rfl | rfl
  · cases hp : s.pc w with
    | run r =>
      simp only [exec, hp, Option.some.injEq] at he; subst he
      simp only [ThreadOk, hp] at ht
      refine h.move hw rfl rfl rfl rfl rfl rfl rfl rfl (by rw [hp]; rfl) (by rw [hp]; rfl) (hk _ (by rw [hp]; simp)) ?_
      simp only [ThreadOk, State.goto, put_same]
      exact ⟨fun k => (by obtain ⟨_, e⟩ := ht.1 k; cases e), ht.2⟩
    | _ => simp only [exec, hp] at he; cases he
  · cases hp : s.pc w with
    | boot => simp only [ThreadOk, hp] at ht; exact ht.2.elim
    | run r' =>
      simp only [exec, hp, Option.some.injEq] at he; subst he
      simp only [ThreadOk, hp] at ht
      unfold trigger
      dsimp only
      split
      · refine h.move hw (p := s.pc w) ?_ rfl rfl rfl rfl rfl rfl rfl rfl rfl (fun _ k => k) ?_
        · funext x; unfold put; split
          · rename_i e; rw [e]
          · rfl
        · simp only [ThreadOk, hp]; exact ht
      · refine h.move hw rfl rfl rfl rfl rfl rfl rfl rfl (by rw [hp]; rfl) (by rw [hp]; rfl) (hk _ (by rw [hp]; simp)) ?_
        simp only [ThreadOk, State.goto, put_same]
        exact ⟨fun k => (by obtain ⟨_, e⟩ := ht.1 k; cases e), ht.2⟩
    | events =>
      simp only [exec, hp, Option.some.injEq] at he; subst he
      simp only [ThreadOk, hp] at ht
      unfold trigger
      dsimp only
      split
      · refine h.move hw (p := s.pc w) ?_ rfl rfl rfl rfl rfl rfl rfl rfl rfl (fun _ k => k) ?_
        · funext x; unfold put; split
          · rename_i e; rw [e]
          · rfl
        · simp only [ThreadOk, hp]; exact ht
      · refine h.move hw rfl rfl rfl rfl rfl rfl rfl rfl (by rw [hp]; rfl) (by rw [hp]; rfl) (hk _ (by rw [hp]; simp)) ?_
        simp only [ThreadOk, State.goto, put_same]
        exact ⟨fun k => (by obtain ⟨_, e⟩ := ht.1 k; cases e), ht.2⟩
    | _ => simp only [exec, hp] at he; cases he
  · cases hp : s.pc w with
    | close =>
      simp only [exec, hp, Option.some.injEq] at he; subst he
      simp only [ThreadOk, hp] at ht
      refine h.move hw rfl rfl rfl rfl rfl rfl rfl rfl (by rw [hp]; rfl) (by rw [hp]; rfl) (hk _ (by rw [hp]; simp)) ?_
      simp only [ThreadOk, State.goto, put_same]
      exact ⟨fun k => (by obtain ⟨_, e⟩ := ht.1 k; cases e), ht.2⟩
    | _ => simp only [exec, hp] at he; cases he
  · cases hp : s.pc w with
    | tag =>
      simp only [exec, hp, Option.some.injEq] at he; subst he
      simp only [ThreadOk, hp] at ht
      refine h.move hw rfl rfl rfl rfl rfl rfl rfl rfl (by rw [hp]; rfl) (by rw [hp]; rfl) (hk _ (by rw [hp]; simp)) ?_
      simp only [ThreadOk, State.goto, put_same]
      exact ⟨fun k => (by obtain ⟨_, e⟩ := ht.1 k; cases e), ht.2⟩
    | _ => simp only [exec, hp] at he; cases he
  · cases hp : s.pc w with
    | tag =>
      simp only [exec, hp, Option.some.injEq] at he; subst he
      simp only [ThreadOk, hp] at ht
      refine h.move hw rfl rfl rfl rfl rfl rfl rfl rfl (by rw [hp]; rfl) (by rw [hp]; rfl) (hk _ (by rw [hp]; simp)) ?_
      simp only [ThreadOk, State.goto, put_same]
      exact ⟨fun k => (by obtain ⟨_, e⟩ := ht.1 k; cases e), ht.2⟩
    | _ => simp only [exec, hp] at he; cases he
  · cases hp : s.pc w with
    | tag =>
      simp only [exec, hp, Option.some.injEq] at he; subst he
      simp only [ThreadOk, hp] at ht
      refine h.move hw rfl rfl rfl rfl rfl rfl rfl rfl (by rw [hp]; rfl) (by rw [hp]; rfl) (hk _ (by rw [hp]; simp)) ?_
      simp only [ThreadOk, State.goto, put_same]
      exact ⟨fun k => (by obtain ⟨_, e⟩ := ht.1 k; cases e), ht.2⟩
    | _ => simp only [exec, hp] at he; cases he

/-- A wake-up without a cause: the thread goes back to sleep. -/
theorem Ctl.spurious (hC : C.Ok) (h : Ctl C s) (hw : w < C.n) (hs : s.sig w = false)
    (hc : C.spurious = true ∨ w + 1 ≠ s.awak) (he : exec C s (.spurious w) = some s') :
    Ctl C s' ∧ ∃ sn, s.pc w = .asleep sn ∧ s.waits w sn = true := by
  have ht := h.thr w hw
  have hm := h.mutex w hw
  cases hp : s.pc w with
  | asleep sn =>
    simp only [exec, hp] at he
    simp only [ThreadOk, hp] at ht
    have hwt : s.waits w sn = true := by
      unfold State.waits
      refine decide_eq_true ?_
      rcases ht.2.2.2.2 hs with k | k | ⟨k1, k2⟩
      · exact .inl k
      · exact .inr k
      · rcases hc with k | k
        · rcases hC.calm with e | e
          · rw [k] at e; cases e
          · omega
        · exact absurd k1 k
    split at he
    · simp only [Option.some.injEq] at he; subst he
      rw [hwt]
      refine ⟨h.quiet hw rfl rfl rfl rfl rfl (fun x hx => put_ne _ _ hx) (fun _ _ => rfl) (fun x hx => Iff.rfl) hm ?_ (by rw [hp])
        (fun _ => not_halting_of_not_top (by rw [hp]; rfl)) ?_, sn, rfl, hwt⟩
      · simp only [awake, put_same, hp, Pc.active, hs]
      · simp only [ThreadOk, put_same]
        exact ⟨fun k => (by cases k), ht.2.1, ht.2.2.1, fun k => (by cases k), fun _ => ht.2.2.2.2 hs⟩
    · cases he
  | _ => simp only [exec, hp] at he; cases he

/-- After the decision to stop the threads leave. -/
theorem Bye.step (h : Bye C s) (hw : w < C.n) {a : Act} (ha : a.allowed C s)
    (hact : a = .go w ∨ a = .spurious w ∨ a = .finish w ∨ (∃ r, a = .trigger w r) ∨ (∃ f, a = .close w f) ∨ a = .advance w ∨
      a = .retry w ∨ a = .stop w) (he : exec C s a = some s') :
    Bye C s' ∧ a = .go w ∧ s'.queued = s.queued ∧ s'.hist = s.hist ∧ s'.cnt = s.cnt ∧ s'.arr = s.arr ∧ s'.cur = s.cur ∧
      s'.nw = s.nw ∧ s'.num = s.num ∧ s'.started = s.started ∧ (∃ p, s'.pc = put s.pc w p) ∧ s'.fault = s.fault ∧
      s'.aborted = s.aborted := by
  have hm := h.mutex w hw
  rcases hact with rfl | hact
  · rcases h.thr w hw with hp | ⟨hp | hp, hh⟩ | ⟨sn, hp, h1, h2, h3, h4⟩
    · simp only [exec, hp] at he
      split at he
      · rename_i hh
        have hmx := hm.1 hh
        simp only [Option.some.injEq] at he; subst he
        refine ⟨⟨h.stop, fun x hx => ?_, fun x hx => ?_⟩, rfl, rfl, rfl, rfl, rfl, rfl, rfl, rfl, rfl, ⟨_, rfl⟩, rfl, rfl⟩
        · by_cases e : x = w
          · subst e; simp [put_same]
          · simp only [put_ne _ _ e]
            rw [h.mutex x hx, hmx]
            simp [Ne.symm e]
        · by_cases e : x = w
          · subst e; simp [put_same]
          · simp only [put_ne _ _ e]; exact h.thr x hx
      · rename_i hh
        simp only [Option.some.injEq] at he; subst he
        refine ⟨⟨h.stop, h.mutex, fun x hx => ?_⟩, rfl, rfl, rfl, rfl, rfl, rfl, rfl, rfl, rfl, ⟨_, rfl⟩, rfl, rfl⟩
        by_cases e : x = w
        · subst e; simp [State.goto, put_same]; simpa using hh
        · simp only [State.goto, put_ne _ _ e]; exact h.thr x hx
    · simp only [exec, hp, Option.some.injEq] at he; subst he
      refine ⟨⟨h.stop, h.mutex, fun x hx => ?_⟩, rfl, rfl, rfl, rfl, rfl, rfl, rfl, rfl, rfl, ⟨_, rfl⟩, rfl, rfl⟩
      by_cases e : x = w
      · subst e; simp [State.goto, put_same, h.stop, hh]
      · simp only [State.goto, put_ne _ _ e]; exact h.thr x hx
    · simp only [exec, hp] at he; cases he
    · have hwt : s.waits w sn = false := by unfold State.waits; simp; omega
      simp only [exec, hp] at he
      split at he
      · simp only [Option.some.injEq] at he; subst he
        rw [hwt]
        rw [show (if (false : Bool) = true then Pc.asleep sn else Pc.leave) = .leave from rfl]
        refine ⟨⟨h.stop, h.mutex, fun x hx => ?_⟩, rfl, rfl, rfl, rfl, rfl, rfl, rfl, rfl, rfl, ⟨_, rfl⟩, by simp [h4], rfl⟩
        by_cases e : x = w
        · subst e; simp [put_same, h4]
        · simp only [put_ne _ _ e]; exact h.thr x hx
      · cases he
  · exfalso
    rcases hact with rfl | hact
    · rcases h.thr w hw with hp | ⟨hp | hp, hh⟩ | ⟨sn, hp, h1, h2, h3, h4⟩
      · simp only [exec, hp] at he; cases he
      · simp only [exec, hp] at he; cases he
      · simp only [exec, hp] at he; cases he
      · rw [ha.2.1] at h1; cases h1
    · have hnone : exec C s a = none := by
        rcases h.thr w hw with hp | ⟨hp | hp, hh⟩ | ⟨sn, hp, h1, h2, h3, h4⟩ <;>
          rcases hact with rfl | ⟨r, rfl⟩ | ⟨f, rfl⟩ | rfl | rfl | rfl <;> simp only [exec, hp]
      rw [hnone] at he; cases he

theorem Ctl.congr (h : Ctl C s) (hpc : ∀ x, x < C.n → s'.pc x = s.pc x) (hl : s'.loose = s.loose)
    (hlc : s'.lc = s.lc) (haw : s'.awak = s.awak) (hstop : s'.stop = s.stop) (hsig : s'.sig = s.sig)
    (hheld : s'.held = s.held) (hm : ∀ x, x < C.n → (s'.mutex = .some x ↔ s.mutex = .some x)) : Ctl C s' := by
  have haw' : ∀ x, x < C.n → awake s' x = awake s x := fun x hx => awake_congr (hpc x hx) (by rw [hsig])
  refine ⟨?_, ?_, ?_, ?_, ?_, ?_⟩
  · rw [hl, h.loose]
    congr 1
    exact (List.countP_congr fun x hx => by rw [haw' x (List.mem_range.1 hx)]).symm
  · intro x hx hxt y hy
    rw [hpc x hx] at hxt
    rw [haw' y hy, hpc y hy]
    exact h.alone x hx hxt y hy
  · obtain ⟨x, hx, k⟩ := h.any
    exact ⟨x, hx, by rw [hpc x hx, haw' x hx]; exact k⟩
  · intro x hx; rw [hheld, hm x hx]; exact h.mutex x hx
  · intro x hx; exact (h.thr x hx).congr (hpc x hx) hl hlc haw hstop (by rw [hsig]) (by rw [hheld])
  · intro hs
    rw [hstop] at hs
    obtain ⟨x, hx, k⟩ := h.halt hs
    exact ⟨x, hx, by rw [hpc x hx]; exact k⟩

theorem Bye.congr (h : Bye C s) (hpc : ∀ x, x < C.n → s'.pc x = s.pc x) 
    (hlc : s'.lc = s.lc) (haw : s'.awak = s.awak) (hstop : s'.stop = s.stop) (hsig : s'.sig = s.sig)
    (hheld : s'.held = s.held) (hm : ∀ x, x < C.n → (s'.mutex = .some x ↔ s.mutex = .some x)) : Bye C s' := by
  refine ⟨by rw [hstop, h.stop], ?_, ?_⟩
  · intro x hx; rw [hheld, hm x hx]; exact h.mutex x hx
  · intro x hx; rw [hpc x hx, hheld, hsig, hlc, haw]; exact h.thr x hx

/-- What a step of the main thread, before it has started the workers, changes. -/
theorem boot_step {a : Act} (hmain : (s.pc C.n).booting = true) (hst : s.started = false) (ha : a.allowed C s)
    (hout : a ≠ .outsideLock ∧ a ≠ .outsideUnlock) (he : exec C s a = some s') :
    (∃ p, s'.pc = put s.pc C.n p ∧ (if s'.started then p = .exited else p.booting = true)) ∧ s'.loose = s.loose ∧
    s'.lc = s.lc ∧ s'.awak = s.awak ∧ s'.stop = s.stop ∧ s'.sig = s.sig ∧ s'.held = s.held ∧ s'.mutex = s.mutex ∧
    s'.num = s.num ∧ s'.nw = s.nw ∧ s'.cur = s.cur := by
  have hself : s.pc = put s.pc C.n (s.pc C.n) := by
    funext x; unfold put; split
    · rename_i e; rw [e]
    · rfl
  cases a with
  | go w =>
    simp only [Act.allowed, hst, Bool.false_eq_true, if_false] at ha; subst ha
    cases hp : s.pc C.n with
    | boot =>
      simp only [exec, hp, Option.some.injEq] at he; subst he
      exact ⟨⟨_, rfl, by simp⟩, rfl, rfl, rfl, rfl, rfl, rfl, rfl, rfl, rfl, rfl⟩
    | fetch who r =>
      simp only [exec, hp, Option.some.injEq] at he; subst he
      refine ⟨⟨_, rfl, ?_⟩, rfl, rfl, rfl, rfl, rfl, rfl, rfl, rfl, rfl, rfl⟩
      rw [hp] at hmain
      simp only [hst, Bool.false_eq_true, if_false]
      cases who <;> first | rfl | (cases hmain; done)
    | store who r v i =>
      simp only [exec, hp, Option.some.injEq] at he; subst he
      refine ⟨⟨_, rfl, ?_⟩, rfl, rfl, rfl, rfl, rfl, rfl, rfl, rfl, rfl, rfl⟩
      rw [hp] at hmain
      simp only [hst, Bool.false_eq_true, if_false]
      cases who <;> first | rfl | (cases hmain; done)
    | _ => rw [hp] at hmain; cases hmain
  | trigger w r =>
    simp only [Act.allowed, hst, Bool.false_eq_true, if_false] at ha
    obtain ⟨rfl, ha⟩ := ha
    cases hp : s.pc C.n with
    | boot =>
      simp only [exec, hp, Option.some.injEq] at he; subst he
      unfold trigger
      dsimp only
      split
      · exact ⟨⟨_, hself, by simp only [hst, Bool.false_eq_true, if_false]; exact hmain⟩, rfl, rfl, rfl, rfl, rfl, rfl, rfl, rfl, rfl, rfl⟩
      · exact ⟨⟨_, rfl, by simp only [hst, Bool.false_eq_true, if_false]; rfl⟩, rfl, rfl, rfl, rfl, rfl, rfl, rfl, rfl, rfl, rfl⟩
    | fetch who r => simp only [exec, hp] at he; cases he
    | store who r v i => simp only [exec, hp] at he; cases he
    | _ => rw [hp] at hmain; cases hmain
  | spurious w =>
    simp only [Act.allowed, hst, Bool.false_eq_true, if_false] at ha
    obtain ⟨rfl, ha⟩ := ha
    cases hp : s.pc C.n with
    | boot => simp only [exec, hp] at he; cases he
    | fetch who r => simp only [exec, hp] at he; cases he
    | store who r v i => simp only [exec, hp] at he; cases he
    | _ => rw [hp] at hmain; cases hmain
  | outsideLock => exact absurd rfl hout.1
  | outsideUnlock => exact absurd rfl hout.2
  | _ =>
    simp only [Act.allowed, hst, Bool.false_eq_true, if_false] at ha; subst ha
    cases hp : s.pc C.n with
    | boot => simp only [exec, hp] at he; cases he
    | fetch who r => simp only [exec, hp] at he; cases he
    | store who r v i => simp only [exec, hp] at he; cases he
    | _ => rw [hp] at hmain; cases hmain

/-- A step of a worker changes its own counter only, and the numbers of workers only at the end of a tag. -/
theorem exec_frame {a : Act} (he : exec C s a = some s') (hout : a ≠ .outsideLock ∧ a ≠ .outsideUnlock) :
    ∃ w, (a = .go w ∨ a = .spurious w ∨ a = .finish w ∨ (∃ r, a = .trigger w r) ∨ (∃ f, a = .close w f) ∨ a = .advance w ∨
      a = .retry w ∨ a = .stop w) := by
  cases a with
  | go w => exact ⟨w, .inl rfl⟩
  | spurious w => exact ⟨w, .inr (.inl rfl)⟩
  | finish w => exact ⟨w, .inr (.inr (.inl rfl))⟩
  | trigger w r => exact ⟨w, .inr (.inr (.inr (.inl ⟨r, rfl⟩)))⟩
  | close w f => exact ⟨w, .inr (.inr (.inr (.inr (.inl ⟨f, rfl⟩))))⟩
  | advance w => exact ⟨w, .inr (.inr (.inr (.inr (.inr (.inl rfl)))))⟩
  | retry w => exact ⟨w, .inr (.inr (.inr (.inr (.inr (.inr (.inl rfl))))))⟩
  | stop w => exact ⟨w, .inr (.inr (.inr (.inr (.inr (.inr (.inr rfl))))))⟩
  | outsideLock => exact absurd rfl hout.1
  | outsideUnlock => exact absurd rfl hout.2

/-- The numbers of workers stay in range, and only the thread that acts moves. -/
theorem exec_pc {a : Act} (hC : C.Ok) (he : exec C s a = some s')
    (ha : a = .go w ∨ a = .spurious w ∨ a = .finish w ∨ (∃ r, a = .trigger w r) ∨ (∃ f, a = .close w f) ∨ a = .advance w ∨
      a = .retry w ∨ a = .stop w) (hn : s.num ≤ C.n ∧ ∀ l, s.nw l ≤ C.n) :
    (∀ x, x ≠ w → s'.pc x = s.pc x) ∧ (s'.started = s.started ∨ s.pc w = .boot) ∧ (s'.num ≤ C.n ∧ ∀ l, s'.nw l ≤ C.n) := by
  rcases ha with rfl | rfl | rfl | ⟨r, rfl⟩ | ⟨f, rfl⟩ | rfl | rfl | rfl
  · cases hp : s.pc w with
    | took v i =>
      simp only [exec, hp] at he
      cases hr : s.arr s.cur v i <;> simp only [hr, Option.some.injEq] at he <;> subst he
      · exact ⟨fun _ _ => rfl, .inl rfl, hn⟩
      · exact ⟨fun x hx => put_ne _ _ hx, .inl rfl, hn⟩
    | adv =>
      simp only [exec, hp] at he
      split at he
      · simp only [Option.some.injEq] at he; subst he
        exact ⟨fun x hx => put_ne _ _ hx, .inl rfl, hn⟩
      · split at he <;> simp only [Option.some.injEq] at he <;> subst he
        · exact ⟨fun x hx => put_ne _ _ hx, .inl rfl, hn.2 _, hn.2⟩
        · exact ⟨fun x hx => put_ne _ _ hx, .inl rfl, hn⟩
    | lock sn | unlock sn | lockB k | unlockB | asleep sn | awaken k =>
      simp only [exec, hp] at he
      split at he <;> first
        | (simp only [Option.some.injEq] at he; subst he; exact ⟨fun x hx => put_ne _ _ hx, .inl rfl, hn⟩)
        | (cases he; done)
    | sleep sn =>
      simp only [exec, hp] at he
      split at he
      · simp only [Option.some.injEq] at he; subst he; exact ⟨fun x hx => put_ne _ _ hx, .inl rfl, hn⟩
      · split at he
        · simp only [Option.some.injEq] at he; subst he; exact ⟨fun x hx => put_ne _ _ hx, .inl rfl, hn⟩
        · cases he
    | boot =>
      simp only [exec, hp, Option.some.injEq] at he; subst he
      exact ⟨fun x hx => put_ne _ _ hx, .inr rfl, hn⟩
    | run r => simp only [exec, hp] at he; cases he
    | close => simp only [exec, hp] at he; cases he
    | tag => simp only [exec, hp] at he; cases he
    | exited => simp only [exec, hp] at he; cases he
    | _ =>
      simp only [exec, hp, Option.some.injEq] at he; subst he
      exact ⟨fun x hx => put_ne _ _ hx, .inl rfl, hn⟩
  · cases hp : s.pc w with
    | asleep sn =>
      simp only [exec, hp] at he
      split at he
      · simp only [Option.some.injEq] at he; subst he; exact ⟨fun x hx => put_ne _ _ hx, .inl rfl, hn⟩
      · cases he
    | _ => simp only [exec, hp] at he; cases he
  · cases hp : s.pc w with
    | run r => simp only [exec, hp, Option.some.injEq] at he; subst he; exact ⟨fun x hx => put_ne _ _ hx, .inl rfl, hn⟩
    | _ => simp only [exec, hp] at he; cases he
  · cases hp : s.pc w with
    | boot | run r | events =>
      simp only [exec, hp, Option.some.injEq] at he; subst he
      unfold trigger; dsimp only
      split
      · exact ⟨fun _ _ => rfl, .inl rfl, hn⟩
      · exact ⟨fun x hx => put_ne _ _ hx, .inl rfl, hn⟩
    | _ => simp only [exec, hp] at he; cases he
  · cases hp : s.pc w with
    | close =>
      simp only [exec, hp, Option.some.injEq] at he; subst he
      exact ⟨fun x hx => put_ne _ _ hx, .inl rfl, restrict_le hC _ _, fun l => restrict_le hC _ _⟩
    | _ => simp only [exec, hp] at he; cases he
  all_goals
    cases hp : s.pc w with
    | tag => simp only [exec, hp, Option.some.injEq] at he; subst he; exact ⟨fun x hx => put_ne _ _ hx, .inl rfl, hn⟩
    | _ => simp only [exec, hp] at he; cases he

theorem Act.thread_lt {a : Act} (hst : s.started = true) (ha : a.allowed C s)
    (hact : a = .go w ∨ a = .spurious w ∨ a = .finish w ∨ (∃ r, a = .trigger w r) ∨ (∃ f, a = .close w f) ∨ a = .advance w ∨
      a = .retry w ∨ a = .stop w) : w < C.n := by
  rcases hact with rfl | rfl | rfl | ⟨r, rfl⟩ | ⟨f, rfl⟩ | rfl | rfl | rfl <;>
    simp only [Act.allowed, hst, if_true] at ha <;> first | exact ha | exact ha.1

theorem Crew.init (hC : C.Ok) : Crew C (init C) := by
  refine ⟨.inl ⟨?_, ?_, ?_, ?_, ?_, ?_⟩, ?_, ?_, ?_⟩
  · have : (List.range C.n).countP (awake (Adaptive.init C)) = (List.range C.n).length :=
      List.countP_eq_length.2 fun x hx => by
        have := List.mem_range.1 hx
        simp [awake, Adaptive.init, this, Pc.active]
    rw [this]; simp [Adaptive.init]
  · intro x hx hxt
    simp [Adaptive.init, hx, Pc.top] at hxt
  · exact ⟨0, hC.pos, .inr (by simp [awake, Adaptive.init, hC.pos, Pc.active])⟩
  · intro x hx; simp [Adaptive.init]
  · intro x hx; simp [ThreadOk, Adaptive.init, hx]
  · simp [Adaptive.init]
  · simp [Adaptive.init, Pc.booting]
  · intro x hx
    have h1 : ¬ x < C.n := by omega
    have h2 : x ≠ C.n := by omega
    simp [Adaptive.init, h1, h2]
  · refine ⟨?_, fun l => ?_⟩ <;> simp only [Adaptive.init, Config.maxw] <;> split <;> omega

theorem Crew.step (hC : C.Ok) (h : Crew C s) {a : Act} (ha : a.allowed C s) (he : exec C s a = some s') : Crew C s' := by
  by_cases hout : a ≠ .outsideLock ∧ a ≠ .outsideUnlock
  · obtain ⟨w, hact⟩ := exec_frame he hout
    obtain ⟨hpc, hstd, hnum⟩ := exec_pc hC he hact h.nums
    cases hst : s.started with
    | false =>
      have hmain := h.main
      rw [hst] at hmain
      simp only [Bool.false_eq_true, if_false] at hmain
      obtain ⟨⟨p, hp, hb⟩, h1, h2, h3, h4, h5, h6, h7, h8, h9, h10⟩ := boot_step hmain hst ha hout he
      have hpx : ∀ x, x ≠ C.n → s'.pc x = s.pc x := fun x hx => by rw [hp, put_ne _ _ hx]
      refine ⟨?_, by rw [hp, put_same]; exact hb, fun x hx => by rw [hpx x (by omega)]; exact h.beyond x hx, hnum⟩
      rcases h.phase with k | k
      · exact .inl (k.congr (fun x hx => hpx x (by omega)) h1 h2 h3 h4 h5 h6 (fun x _ => by rw [h7]))
      · exact .inr (k.congr (fun x hx => hpx x (by omega)) h2 h3 h4 h5 h6 (fun x _ => by rw [h7]))
    | true =>
      have hw := Act.thread_lt hst ha hact
      have hmain := h.main
      rw [hst] at hmain
      simp only [if_true] at hmain
      have hnb : s.pc w ≠ .boot := by
        intro e
        rcases h.phase with k | k
        · have := (k.thr w hw).2; rw [e] at this; exact this
        · rcases k.thr w hw with k | ⟨k | k, _⟩ | ⟨sn, k, _⟩ <;> rw [e] at k <;> cases k
      have hst' : s'.started = true := by
        rcases hstd with k | k
        · rw [k, hst]
        · exact absurd k hnb
      refine ⟨?_, by rw [hst']; simp only [if_true]; rw [hpc C.n (by omega)]; exact hmain,
        fun x hx => by rw [hpc x (by omega)]; exact h.beyond x hx, hnum⟩
      rcases h.phase with k | k
      · rcases hact with rfl | rfl | hact
        · exact k.go hC h.nums.1 hw he
        · exact .inl (k.spurious hC hw ha.2.1 ha.2.2 he).1
        · exact .inl (k.other hC hw hact he)
      · exact .inr (k.step hw ha hact he).1
  · have : a = .outsideLock ∨ a = .outsideUnlock := by
      by_contra hc
      exact hout ⟨fun e => hc (.inl e), fun e => hc (.inr e)⟩
    have key : s'.mutex = none ∨ s'.mutex = some (C.n + 1) := by
      rcases this with rfl | rfl <;> (simp only [exec] at he; split at he)
      · simp only [Option.some.injEq] at he; subst he; exact .inr rfl
      · cases he
      · simp only [Option.some.injEq] at he; subst he; exact .inl rfl
      · cases he
    have key' : (s.mutex = none ∨ s.mutex = some (C.n + 1)) ∧ s' = { s with mutex := s'.mutex } := by
      rcases this with rfl | rfl <;> (simp only [exec] at he; split at he)
      · rename_i e
        simp only [Option.some.injEq] at he; subst he; exact ⟨.inl e, rfl⟩
      · cases he
      · rename_i e
        simp only [Option.some.injEq] at he; subst he; exact ⟨.inr e, rfl⟩
      · cases he
    obtain ⟨k0, k1⟩ := key'
    have hmx : ∀ x, x < C.n → (s'.mutex = some x ↔ s.mutex = some x) := by
      intro x hx
      have h1 : s'.mutex ≠ some x := by
        rcases key with e | e <;> rw [e] <;> simp
        omega
      have h2 : s.mutex ≠ some x := by
        rcases k0 with e | e <;> rw [e] <;> simp
        omega
      exact ⟨fun e => absurd e h1, fun e => absurd e h2⟩
    have hpc : s'.pc = s.pc := by rw [k1]
    refine ⟨?_, ?_, by rw [hpc]; exact h.beyond, ?_⟩
    · rcases h.phase with k | k
      · exact .inl (k.congr (fun x _ => by rw [hpc]) (by rw [k1]) (by rw [k1]) (by rw [k1]) (by rw [k1]) (by rw [k1]) (by rw [k1]) hmx)
      · exact .inr (k.congr (fun x _ => by rw [hpc]) (by rw [k1]) (by rw [k1]) (by rw [k1]) (by rw [k1]) (by rw [k1]) hmx)
    · rw [hpc, show s'.started = s.started by rw [k1]]; exact h.main
    · rw [show s'.num = s.num by rw [k1], show s'.nw = s.nw by rw [k1]]; exact h.nums

theorem Reach.crew (hC : C.Ok) (h : Reach C s) : Crew C s := by
  induction h with
  | init => exact .init hC
  | step a _ ha he ih => exact ih.step hC ha he

end

end ReactorC.Adaptive
