import Verif.Adaptive.Ctl

/-!
# The steps keep what holds of the threads
-/

set_option linter.unusedVariables false
set_option linter.unusedSimpArgs false

namespace ReactorC.Adaptive

open Np (Ev Who put)

section
variable {C : Config} {s s' : State} {w : Nat}

theorem restrict_le {C : Config} (hC : C.Ok) (l v : Nat) : restrict 1 (C.maxw l) v ≤ C.n := by
  have := hC.pos
  have : C.maxw l ≤ C.n := by unfold Config.maxw; split <;> omega
  unfold restrict; split
  · omega
  · split <;> omega

theorem Ctl.awake_of_active (h : Ctl C s) (ha : (s.pc w).active = true) : awake s w = true := by simp [awake, ha]

/-- While somebody is awake nobody goes on to the next level. -/
theorem Ctl.no_top (h : Ctl C s) (hw : w < C.n) (ha : awake s w = true) {y : Nat} (hy : y < C.n) : (s.pc y).top = false := by
  cases k : (s.pc y).top with
  | false => rfl
  | true => have := (h.alone y hy k w hw).1; rw [ha] at this; cases this

theorem Ctl.not_stop (h : Ctl C s) (hw : w < C.n) (ha : awake s w = true) : s.stop = false := by
  cases k : s.stop with
  | false => rfl
  | true =>
    obtain ⟨x, hx, hh⟩ := h.halt k
    have := h.no_top hw ha hx
    rcases hh with e | e | e <;> rw [e] at this <;> cases this

theorem Ctl.sig_false (h : Ctl C s) (hw : w < C.n) (hp : ∀ sn, s.pc w ≠ .asleep sn) : s.sig w = false := by
  cases k : s.sig w with
  | false => rfl
  | true => obtain ⟨sn, e⟩ := (h.thr w hw).1 k; exact absurd e (hp sn)

/-- The count when one thread changes. -/
theorem count_change (hw : w < C.n) (h : ∀ x, x ≠ w → awake s' x = awake s x) :
    ((List.range C.n).countP (awake s') : Int) + (if awake s w then 1 else 0) =
      ((List.range C.n).countP (awake s) : Int) + (if awake s' w then 1 else 0) := by
  have := countP_change (f := awake s) (g := awake s') (w := w) (fun x hx => (h x hx).symm) C.n hw
  split at this <;> split at this <;> rename_i h1 h2 <;> simp only [h1, h2, if_true, if_false] <;> first | omega | (simp; omega)

/-- A thread is finished with the level. -/
theorem Ctl.dec (h : Ctl C s) (hw : w < C.n) {sn : Nat} (hp : s.pc w = .dec sn) (hpc : s'.pc = put s.pc w (if s.loose - 1 = 0 then .adv else .sleep sn))
    (hl : s'.loose = s.loose - 1)
    (hlc : s'.lc = s.lc) (haw : s'.awak = s.awak) (hstop : s'.stop = s.stop) (hsig : s'.sig = s.sig)
    (hheld : s'.held = s.held) (hm : s'.mutex = s.mutex) : Ctl C s' := by
  have ha : awake s w = true := h.awake_of_active (by rw [hp]; rfl)
  have hsw : s.sig w = false := h.sig_false hw (by rw [hp]; simp)
  have hne : ∀ x, x ≠ w → s'.pc x = s.pc x := fun x hx => by rw [hpc, put_ne _ _ hx]
  have hpw : s'.pc w = if s.loose - 1 = 0 then .adv else .sleep sn := by rw [hpc, put_same]
  have hna : awake s' w = false := by
    unfold awake; rw [hpw, hsig, hsw]; split <;> rfl
  have haw' : ∀ x, x ≠ w → awake s' x = awake s x := fun x hx => awake_congr (hne x hx) (by rw [hsig])
  have hcount := count_change hw haw'
  simp only [ha, hna, if_true, Bool.false_eq_true, if_false] at hcount
  have hloose : s'.loose = ((List.range C.n).countP (awake s') : Nat) := by rw [hl, h.loose]; omega
  have hthrw := h.thr w hw
  unfold ThreadOk at hthrw
  rw [hp] at hthrw
  obtain ⟨_, hsn, hheldw⟩ := hthrw
  have hst := h.not_stop hw ha
  have hnt : ∀ y, y < C.n → y ≠ w → (s'.pc y).top = false := fun y hy e => by rw [hne y e]; exact h.no_top hw ha hy
  have hothers : ∀ x, x < C.n → x ≠ w → ThreadOk C s' x := by
    intro x hx hxw
    have hx1 := h.thr x hx
    have hone : (s.pc x).active = true → s.loose ≠ 1 := by
      intro k e
      have h2 := countP_two hw hx (Ne.symm hxw) ha (h.awake_of_active k)
      rw [h.loose] at e
      omega
    unfold ThreadOk at hx1 ⊢
    rw [hne x hxw, hlc, haw, hstop, hsig, hheld]
    refine ⟨hx1.1, ?_⟩
    have hx2 := hx1.2
    cases hpx : s.pc x with
    | test sn' | unlock sn' | check sn' | dec sn' =>
      rw [hpx] at hx2 hone
      refine ⟨hx2.1, ?_⟩
      rcases hx2.2 with k | k
      · exact .inl k
      · exact absurd k.2 (hone rfl)
    | fetch who r => rw [hpx] at hx2; cases who <;> exact hx2
    | store who r v i => rw [hpx] at hx2; cases who <;> exact hx2
    | _ => rw [hpx] at hx2; exact hx2
  refine ⟨hloose, ?_, ?_, ?_, ?_, ?_⟩
  · intro x hx hxt y hy
    have hxw : x = w := by
      by_contra e
      rw [hnt x hx e] at hxt; cases hxt
    subst hxw
    rw [hpw] at hxt
    split at hxt
    · rename_i h0
      refine ⟨?_, fun hyt => ?_⟩
      · refine countP_zero.1 ?_ y hy
        rw [hl, h0] at hloose; omega
      · by_contra e
        rw [hnt y hy e] at hyt; cases hyt
    · cases hxt
  · by_cases h0 : s.loose - 1 = 0
    · exact ⟨w, hw, .inl (by rw [hpw, if_pos h0]; rfl)⟩
    · have : 0 < (List.range C.n).countP (awake s') := by
        rw [hl] at hloose; omega
      obtain ⟨x, hx, k⟩ := countP_pos.1 this
      exact ⟨x, hx, .inr k⟩
  · rw [hheld, hm]; exact h.mutex
  · intro x hx
    by_cases e : x = w
    · subst e
      unfold ThreadOk
      rw [hpw, hsig, hsw, hheld, hlc]
      by_cases h0 : s.loose - 1 = 0
      · rw [if_pos h0]
        exact ⟨by simp, hheldw.elim .inr (fun k => .inl k.1)⟩
      · rw [if_neg h0]
        refine ⟨by simp, hsn, ?_⟩
        rcases hheldw with k | k
        · exact k
        · omega
    · exact hothers x hx e
  · rw [hstop, hst]; simp

/-- One thread is enough for the level. -/
theorem Ctl.self (h : Ctl C s) (hw : w < C.n) {k : Nat} (hp : s.pc w = .awaken k) (h0 : w = 0) (hk : k ≤ 1)
    (hpc : s'.pc = put s.pc w .unlockB) (hl : s'.loose = 1)
    (hlc : s'.lc = s.lc) (haw : s'.awak = s.awak) (hstop : s'.stop = s.stop) (hsig : s'.sig = s.sig)
    (hheld : s'.held = s.held) (hm : s'.mutex = s.mutex) : Ctl C s' ∨ Bye C s' := by
  have ht : (s.pc w).top = true := by rw [hp]; rfl
  have hal := h.alone w hw ht
  have hsw : s.sig w = false := h.sig_false hw (by rw [hp]; simp)
  have hne : ∀ x, x ≠ w → s'.pc x = s.pc x := fun x hx => by rw [hpc, put_ne _ _ hx]
  have hpw : s'.pc w = .unlockB := by rw [hpc, put_same]
  have haw' : ∀ x, x ≠ w → awake s' x = awake s x := fun x hx => awake_congr (hne x hx) (by rw [hsig])
  have ha' : awake s' w = true := by unfold awake; rw [hpw]; rfl
  have hthrw := h.thr w hw
  unfold ThreadOk at hthrw
  rw [hp] at hthrw
  obtain ⟨_, hf, hk1, hk2, hk3⟩ := hthrw
  cases hst : s.stop with
  | true =>
    right
    have := hk3 hst
    refine ⟨by rw [hstop, hst], by rw [hheld, hm]; exact h.mutex, fun x hx => ?_⟩
    have : x = w := by omega
    subst this
    exact .inl hpw
  | false =>
    left
    have hcount := count_change hw haw'
    simp only [(hal w hw).1, ha', if_true, Bool.false_eq_true, if_false] at hcount
    have h0c : (List.range C.n).countP (awake s) = 0 := countP_zero.2 fun x hx => (hal x hx).1
    have hnt : ∀ y, y < C.n → (s'.pc y).top = false := by
      intro y hy
      by_cases e : y = w
      · subst e; rw [hpw]; rfl
      · rw [hne y e]
        cases k : (s.pc y).top with
        | false => rfl
        | true => exact absurd ((hal y hy).2 k) e
    refine ⟨by rw [hl]; omega, ?_, ⟨w, hw, .inr ha'⟩, by rw [hheld, hm]; exact h.mutex, ?_, by rw [hstop, hst]; simp⟩
    · intro x hx hxt
      rw [hnt x hx] at hxt; cases hxt
    · intro x hx
      by_cases e : x = w
      · subst e
        unfold ThreadOk
        rw [hpw, hsig, hsw]
        exact ⟨by simp, trivial⟩
      · have hx1 := h.thr x hx
        have hact : (s.pc x).active = false := by
          have := (hal x hx).1
          unfold awake at this
          cases k : (s.pc x).active with
          | false => rfl
          | true => rw [k] at this; cases this
        unfold ThreadOk at hx1 ⊢
        rw [hne x e, hlc, haw, hstop, hsig, hheld]
        refine ⟨hx1.1, ?_⟩
        have hx2 := hx1.2
        cases hpx : s.pc x with
        | test sn' | unlock sn' | check sn' | dec sn' => rw [hpx] at hact; cases hact
        | fetch who r => rw [hpx] at hx2; cases who <;> exact hx2
        | store who r v i => rw [hpx] at hx2; cases who <;> exact hx2
        | _ => rw [hpx] at hx2; exact hx2

theorem countP_lt (g : Nat) : ∀ n, (List.range n).countP (fun x => decide (x < g)) = min n g
  | 0 => by simp
  | n + 1 => by
    rw [List.range_succ, List.countP_append, countP_lt g n]
    simp only [List.countP_cons, List.countP_nil]
    by_cases h : n < g
    · simp [h]; omega
    · simp [h]; omega

/-- The threads of some groups are woken up. -/
theorem Ctl.wake (hC : C.Ok) (h : Ctl C s) (hw : w < C.n) {k : Nat} (hp : s.pc w = .wake k)
    (hpc : s'.pc = put s.pc w .unlockB) (hl : s'.loose = (group C k : Int) + (if group C k ≤ w then 1 else 0))
    (hlc : s'.lc = s.lc + 1) (haw : s'.awak = group C k + (if group C k ≤ w then 1 else 0)) (hstop : s'.stop = s.stop)
    (hsig : ∀ x, s'.sig x = match s.pc x with
          | .asleep _ => s.sig x || decide (x < C.n ∧ condOf x ≤ condOf (k - 1))
          | _ => s.sig x)
    (hheld : s'.held = s.held) (hm : s'.mutex = s.mutex) : Ctl C s' ∨ Bye C s' := by
  have ht : (s.pc w).top = true := by rw [hp]; rfl
  have hal := h.alone w hw ht
  have hsw : s.sig w = false := h.sig_false hw (by rw [hp]; simp)
  have hne : ∀ x, x ≠ w → s'.pc x = s.pc x := fun x hx => by rw [hpc, put_ne _ _ hx]
  have hpw : s'.pc w = .unlockB := by rw [hpc, put_same]
  have hthrw := h.thr w hw
  unfold ThreadOk at hthrw
  rw [hp] at hthrw
  obtain ⟨_, hf, hk1, hk2, hk3⟩ := hthrw
  have hmw := (h.mutex w hw).1 hf
  have hg1 := le_group hk2
  have hg2 := group_le (C := C) (k := k)
  -- the others are asleep
  have hsleep : ∀ x, x < C.n → x ≠ w → ∃ sn, s.pc x = .asleep sn ∧ s.sig x = false ∧ sn ≤ s.lc ∧ s.held x = false := by
    intro x hx e
    obtain ⟨ha, htx⟩ := hal x hx
    have hact : (s.pc x).active = false := by
      unfold awake at ha
      cases k : (s.pc x).active with
      | false => rfl
      | true => rw [k] at ha; cases ha
    have hsx : s.sig x = false := by
      unfold awake at ha
      rw [hact] at ha; simpa using ha
    have htop : (s.pc x).top = false := by
      cases k : (s.pc x).top with
      | false => rfl
      | true => exact absurd (htx k) e
    have hx2 := (h.thr x hx).2
    have hnm : s.held x ≠ true := fun k => by
      have := (h.mutex x hx).1 k
      rw [hmw] at this
      exact e (Option.some.inj this).symm
    cases hpx : s.pc x with
    | asleep sn => rw [hpx] at hx2; exact ⟨sn, rfl, hsx, hx2.2.1, hx2.1⟩
    | sleep sn | doze sn => rw [hpx] at hx2; exact absurd hx2.2 hnm
    | fetch who r => rw [hpx] at hx2 hact htop; cases who <;> first | exact hx2.elim | (cases hact; done) | (cases htop; done)
    | store who r v i => rw [hpx] at hx2 hact htop; cases who <;> first | exact hx2.elim | (cases hact; done) | (cases htop; done)
    | _ => rw [hpx] at hx2 hact htop; first | exact hx2.elim | (cases hact; done) | (cases htop; done)
  have hsig' : ∀ x, x < C.n → x ≠ w → s'.sig x = decide (x < group C k) := by
    intro x hx e
    obtain ⟨sn, k1, k2, k3⟩ := hsleep x hx e
    rw [hsig, k1, k2]
    simp only [Bool.false_or, hx, true_and]
    exact decide_eq_decide.2 (group_iff hx)
  have hsw' : s'.sig w = false := by rw [hsig, hp, hsw]
  have hawk : ∀ x, x < C.n → awake s' x = decide (x < group C k ∨ x = w) := by
    intro x hx
    by_cases e : x = w
    · subst e; unfold awake; rw [hpw]; simp [Pc.active]
    · obtain ⟨sn, k1, k2, k3⟩ := hsleep x hx e
      unfold awake; rw [hne x e, k1, hsig' x hx e]; simp [Pc.active, e]
  cases hst : s.stop with
  | true =>
    right
    have hkn := hk3 hst
    subst hkn
    rw [group_n] at *
    refine ⟨by rw [hstop, hst], by rw [hheld, hm]; exact h.mutex, fun x hx => ?_⟩
    by_cases e : x = w
    · subst e; exact .inl hpw
    · obtain ⟨sn, k1, k2, k3, k4⟩ := hsleep x hx e
      refine .inr (.inr ⟨sn, by rw [hne x e, k1], by rw [hsig' x hx e]; simp [hx], by omega, by omega, by rw [hheld, k4]⟩)
  | false =>
    left
    have hcnt : ((List.range C.n).countP (awake s') : Int) = (group C k : Int) + (if group C k ≤ w then 1 else 0) := by
      have e1 : (List.range C.n).countP (awake s') = (List.range C.n).countP (fun x => decide (x < group C k ∨ x = w)) :=
        List.countP_congr fun x hx => by rw [hawk x (List.mem_range.1 hx)]
      have e2 := countP_change (f := fun x => decide (x < group C k)) (g := fun x => decide (x < group C k ∨ x = w)) (w := w)
        (fun x hx => by simp [hx]) C.n hw
      rw [countP_lt] at e2
      simp only [decide_eq_true_eq, or_true, if_true] at e2
      rw [e1]
      by_cases hgw : group C k ≤ w
      · have : ¬ w < group C k := by omega
        rw [if_neg this] at e2
        rw [if_pos hgw]; omega
      · have : w < group C k := by omega
        rw [if_pos this] at e2
        rw [if_neg hgw]; omega
    have hnt : ∀ y, y < C.n → (s'.pc y).top = false := by
      intro y hy
      by_cases e : y = w
      · subst e; rw [hpw]; rfl
      · obtain ⟨sn, k1, _⟩ := hsleep y hy e
        rw [hne y e, k1]; rfl
    refine ⟨by rw [hl, hcnt], ?_, ⟨w, hw, .inr (by rw [hawk w hw]; simp)⟩, by rw [hheld, hm]; exact h.mutex, ?_,
      by rw [hstop, hst]; simp⟩
    · intro x hx hxt
      rw [hnt x hx] at hxt; cases hxt
    · intro x hx
      by_cases e : x = w
      · subst e
        unfold ThreadOk
        rw [hpw, hsw']
        exact ⟨by simp, trivial⟩
      · obtain ⟨sn, k1, k2, k3, k4⟩ := hsleep x hx e
        unfold ThreadOk
        rw [hne x e, k1, hsig' x hx e, hheld, hlc, haw]
        refine ⟨fun _ => ⟨sn, rfl⟩, k4, by omega, fun hg => ?_, fun hg => ?_⟩
        · have := of_decide_eq_true hg
          exact ⟨by omega, by omega⟩
        · have := of_decide_eq_false hg
          split <;> omega

end

end ReactorC.Adaptive
