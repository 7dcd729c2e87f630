import Verif.FedDet.SeenInv

/-! A measure of what is left to do, which every step makes smaller that is more than a wait. -/

set_option linter.unusedVariables false

namespace ReactorC.FedDet
open ReactorC
open ReactorC.Rti (Topology Down Up Sys Sane put put_same put_other)
open ReactorC.Fedn (Config Fed State Ev Act Pc FInv)

/-! ## Sums -/

def total (f : Nat → Nat) : Nat → Nat
  | 0 => 0
  | n + 1 => total f n + f n

theorem total_le {f g : Nat → Nat} : ∀ {n : Nat}, (∀ i < n, f i ≤ g i) → total f n ≤ total g n
  | 0, _ => Nat.le_refl _
  | n + 1, h => Nat.add_le_add (total_le fun i hi => h i (by omega)) (h n (by omega))

theorem total_eq {f g : Nat → Nat} {n : Nat} (h : ∀ i < n, f i = g i) : total f n = total g n :=
  Nat.le_antisymm (total_le fun i hi => Nat.le_of_eq (h i hi)) (total_le fun i hi => Nat.le_of_eq (h i hi).symm)

theorem total_lt {f g : Nat → Nat} : ∀ {n i : Nat}, i < n → f i < g i → (∀ j < n, f j ≤ g j) → total f n < total g n
  | n + 1, i, hi, h, k => by
    show total f n + f n < total g n + g n
    have h1 := k n (by omega)
    by_cases c : i = n
    · subst c
      have := total_le (f := f) (g := g) (n := i) fun j hj => k j (by omega)
      omega
    · have := total_lt (f := f) (g := g) (n := n) (i := i) (by omega) h fun j hj => k j (by omega)
      omega

/-! ## Tags as numbers -/

def enc (t : Tag) : Nat := t.time.toNat * (UINT_MAX + 1) + t.microstep

theorem enc_lt {T : Topology} {a b : Tag} (ha : Fit T a) (hb : Fit T b) (h : a < b) : enc a < enc b := by
  have key : ∀ {t : Tag}, Fit T t → 0 ≤ t.time ∧ t.microstep ≤ UINT_MAX := by
    intro t ht
    rcases ht.1 with k | k
    · exact absurd k ht.2
    · exact ⟨k.1, by omega⟩
  obtain ⟨h1, h2⟩ := key ha
  obtain ⟨h3, h4⟩ := key hb
  unfold enc
  rw [Tag.lt_def] at h
  by_cases c : a.time < b.time
  · have : (a.time.toNat + 1) * (UINT_MAX + 1) ≤ b.time.toNat * (UINT_MAX + 1) := Nat.mul_le_mul_right _ (by omega)
    rw [Nat.add_mul] at this
    omega
  · have e : a.time = b.time := by omega
    rw [e]
    omega

section
variable {V : Type} {P : Program V} {M : Timing} {rank : Nat → Nat}

/-! ## The measure -/

/-- How far a federate is from its stop tag. -/
def far (P : Program V) (f : Fed) : Nat := enc P.stop - enc f.cur + if f.started then 0 else 1

/-- What there is to do at a tag. -/
def todo (f : Fed) (outs : List (Out V)) (scheds : List (Event V)) : Nat :=
  outs.length + scheds.length + if f.pc = .executing then 1 else 0

open Classical in
/-- How far it is to the next tag. -/
noncomputable def phase (P : Program V) (i : Nat) (f : Fed) (conn : Bool) (up : List Up) : Nat :=
  match f.pc with
  | .starting => 9
  | .asking o t => if P.T.up i ≠ [] ∧ f.lastTAG < t then 7 else if o = some t then 4 else 5
  | .waiting _ _ => 6
  | .resting => 3
  | .ended => 2
  | .gone => if conn = true ∧ Up.resign ∉ up then 1 else 0
  | _ => 0

def mFar (P : Program V) (x : St V) : Nat := total (fun i => far P (x.s.fed i)) P.T.n
def mTodo (P : Program V) (x : St V) : Nat := total (fun i => todo (x.s.fed i) (x.outs i) (x.scheds i)) P.T.n
noncomputable def mPhase (P : Program V) (x : St V) : Nat :=
  total (fun i => phase P i (x.s.fed i) (x.s.sys.rti.node i).connected (x.s.sys.up i)) P.T.n
def mUp (P : Program V) (x : St V) : Nat := total (fun i => Rti.work (x.s.sys.up i)) P.T.n
def mDown (P : Program V) (x : St V) : Nat := total (fun i => (x.s.sys.rti.out i).length - (x.s.fed i).taken) P.T.n

/-- Less is left to do in `y` than in `x`. -/
def Less (P : Program V) (x y : St V) : Prop :=
  mFar P y < mFar P x ∨ (mFar P y ≤ mFar P x ∧ (mTodo P y < mTodo P x ∨ (mTodo P y ≤ mTodo P x ∧
    (mPhase P y < mPhase P x ∨ (mPhase P y ≤ mPhase P x ∧ (mUp P y < mUp P x ∨ (mUp P y ≤ mUp P x ∧ mDown P y < mDown P x)))))))

theorem less_wf (P : Program V) : WellFounded fun y x => Less P x y := by
  have hn : WellFounded (fun a b : Nat => a < b) := Nat.lt_wfRel.wf
  have hw := WellFounded.prod_lex hn (WellFounded.prod_lex hn (WellFounded.prod_lex hn (WellFounded.prod_lex hn hn)))
  refine Subrelation.wf ?_ (InvImage.wf (fun x : St V => (mFar P x, mTodo P x, mPhase P x, mUp P x, mDown P x)) hw)
  intro y x h
  show Prod.Lex _ _ (_, _, _, _, _) (_, _, _, _, _)
  have lex : ∀ {α : Type} {r : α → α → Prop} {a b : Nat} {u v : α}, (a < b ∨ (a ≤ b ∧ r u v)) → Prod.Lex (fun a b : Nat => a < b) r (a, u) (b, v) := by
    intro α r a b u v k
    rcases k with k | ⟨k1, k2⟩
    · exact .left _ _ k
    · rcases Nat.lt_or_eq_of_le k1 with k | k
      · exact .left _ _ k
      · subst k; exact .right _ k2
  exact lex (h.imp id fun h => ⟨h.1, lex (h.2.imp id fun h => ⟨h.1, lex (h.2.imp id fun h => ⟨h.1, lex h.2⟩)⟩)⟩)

/-- A step of a federate. -/
theorem less_own {x y : St V} {i : Nat} (hi : i < P.T.n)
    (ho : ∀ j, j ≠ i → y.s.fed j = x.s.fed j ∧ y.outs j = x.outs j ∧ y.scheds j = x.scheds j ∧ y.s.sys.up j = x.s.sys.up j)
    (hr : y.s.sys.rti = x.s.sys.rti)
    (h : far P (y.s.fed i) < far P (x.s.fed i) ∨ (far P (y.s.fed i) = far P (x.s.fed i) ∧
      (todo (y.s.fed i) (y.outs i) (y.scheds i) < todo (x.s.fed i) (x.outs i) (x.scheds i) ∨
        (todo (y.s.fed i) (y.outs i) (y.scheds i) = todo (x.s.fed i) (x.outs i) (x.scheds i) ∧
          phase P i (y.s.fed i) (x.s.sys.rti.node i).connected (y.s.sys.up i) <
            phase P i (x.s.fed i) (x.s.sys.rti.node i).connected (x.s.sys.up i))))) : Less P x y := by
  have le : ∀ (g g' : Nat → Nat), (∀ j, j ≠ i → g j = g' j) → g i ≤ g' i → ∀ j < P.T.n, g j ≤ g' j := by
    intro g g' h1 h2 j _
    by_cases c : j = i
    · subst c; exact h2
    · exact Nat.le_of_eq (h1 j c)
  have oA : ∀ j, j ≠ i → far P (y.s.fed j) = far P (x.s.fed j) := fun j hj => by rw [(ho j hj).1]
  have oB : ∀ j, j ≠ i → todo (y.s.fed j) (y.outs j) (y.scheds j) = todo (x.s.fed j) (x.outs j) (x.scheds j) := fun j hj => by
    obtain ⟨h1, h2, h3, _⟩ := ho j hj
    rw [h1, h2, h3]
  have oD : ∀ j, j ≠ i → phase P j (y.s.fed j) (y.s.sys.rti.node j).connected (y.s.sys.up j) =
      phase P j (x.s.fed j) (x.s.sys.rti.node j).connected (x.s.sys.up j) := fun j hj => by
    obtain ⟨h1, _, _, h4⟩ := ho j hj
    rw [h1, h4, hr]
  rcases h with h | ⟨h1, h | ⟨h2, h⟩⟩
  · exact .inl (total_lt hi h (le _ _ oA (Nat.le_of_lt h)))
  · exact .inr ⟨total_le (le _ _ oA (Nat.le_of_eq h1)), .inl (total_lt hi h (le _ _ oB (Nat.le_of_lt h)))⟩
  · refine .inr ⟨total_le (le _ _ oA (Nat.le_of_eq h1)), .inr ⟨total_le (le _ _ oB (Nat.le_of_eq h2)), .inl ?_⟩⟩
    refine total_lt hi ?_ (le _ _ oD ?_)
    · rw [hr]; exact h
    · rw [hr]; exact Nat.le_of_lt h

/-- The same with a step of the federation that does not get to a tag. -/
theorem less_phase {x : St V} {i : Nat} (hi : i < P.T.n) {s : State}
    (ho : ∀ j, j ≠ i → s.fed j = x.s.fed j ∧ s.sys.up j = x.s.sys.up j) (hr : s.sys.rti = x.s.sys.rti)
    (hc : (s.fed i).cur = (x.s.fed i).cur) (hst : (s.fed i).started = (x.s.fed i).started)
    (h1 : (s.fed i).pc ≠ .executing) (h2 : (x.s.fed i).pc ≠ .executing)
    (h : phase P i (s.fed i) (x.s.sys.rti.node i).connected (s.sys.up i) <
      phase P i (x.s.fed i) (x.s.sys.rti.node i).connected (x.s.sys.up i)) : Less P x { x with s := s } := by
  refine less_own hi (fun j hj => ⟨(ho j hj).1, rfl, rfl, (ho j hj).2⟩) hr (.inr ⟨?_, .inr ⟨?_, h⟩⟩)
  · show far P (s.fed i) = _
    unfold far; rw [hc, hst]
  · show todo (s.fed i) _ _ = _
    unfold todo; rw [if_neg h1, if_neg h2]

/-! ## Federates -/

section
variable {i : Nat} {f : Fed} {net done : Tag} {l : List Down} {o : Option Tag} {t : Tag}

theorem hasUp_conf (P : Program V) (M : Timing) (i : Nat) : Fedn.hasUp (conf P M) i = true ↔ P.T.up i ≠ [] := Fedn.hasUp_iff

/-- A federate gets to its first tag. -/
def Starts (f f' : Fed) : Prop := f'.pc = .executing ∧ f.started = false ∧ f'.started = true ∧ f'.cur = f.cur

/-- A federate gets nearer to its next tag. -/
def Nearer (P : Program V) (i : Nat) (f f' : Fed) : Prop :=
  f'.pc ≠ .executing ∧ f'.started = f.started ∧ f'.cur = f.cur ∧ ∀ c up c' up', phase P i f' c' up' < phase P i f c up

theorem ret_nearer (hg : P.T.up i ≠ [] → g = f.lastTAG) (ho : o = none → f.started = false)
    (hnext : o ≠ none → P.T.up i ≠ [] → f.next ≤ g)
    (hph : f.pc = .waiting o t ∨ (f.pc = .asking o t ∧ t ≤ g ∧ (P.T.up i ≠ [] → ¬ f.lastTAG < t))) :
    Starts f (f.ret o g) ∨ Nearer P i f (f.ret o g) := by
  unfold Fed.ret
  cases o with
  | none => exact .inl ⟨rfl, ho rfl, rfl, rfl⟩
  | some o =>
    right
    dsimp only
    have h5 : ∀ c up, 4 ≤ phase P i f c up ∧ (g < o → 5 ≤ phase P i f c up) := by
      intro c up
      rcases hph with k | ⟨k1, k2, k3⟩
      · unfold phase; rw [k]; dsimp only; omega
      · unfold phase; rw [k1]; dsimp only
        refine ⟨by split <;> [omega; (split <;> omega)], fun hlt => ?_⟩
        split
        · omega
        · rw [if_neg]
          intro e
          cases e
          exact absurd (Tag.lt_of_le_of_lt k2 hlt) (Tag.lt_irrefl _)
    split
    · rename_i k
      rw [cmp_lt_zero] at k
      refine ⟨by simp, rfl, rfl, fun c up c' up' => ?_⟩
      refine Nat.lt_of_lt_of_le ?_ ((h5 c up).2 k)
      unfold phase
      dsimp only
      rw [if_neg, if_pos rfl]
      · omega
      · rintro ⟨k1, k2⟩
        have := hnext (by simp) k1
        rw [hg k1] at this
        exact absurd (Tag.lt_of_le_of_lt this k2) (Tag.lt_irrefl _)
    · refine ⟨by simp, rfl, rfl, fun c up c' up' => ?_⟩
      refine Nat.lt_of_lt_of_le ?_ (h5 c up).1
      unfold phase
      dsimp only
      omega

theorem ask_nearer (hI : FInv (conf P M) i f net done l) (hpc : f.pc = .asking o t) :
    Starts f (Fedn.ask (conf P M) i f).1 ∨ Nearer P i f (Fedn.ask (conf P M) i f).1 := by
  have ho : o = none → f.started = false := by
    rintro rfl
    have := hI.pc; unfold Fedn.PcOk at this; rw [hpc] at this; exact this.1
  have hn : o ≠ none → f.next = t := by
    intro k
    obtain ⟨o', rfl⟩ := Option.ne_none_iff_exists'.1 k
    have := hI.pc; unfold Fedn.PcOk at this; rw [hpc] at this; exact this.2.2.symm
  have hu : ∀ {b : Bool}, Fedn.hasUp (conf P M) i = b → (b = true ↔ P.T.up i ≠ []) := by
    intro b e; rw [← e]; exact hasUp_conf P M i
  unfold Fedn.ask
  rw [hpc]
  dsimp only
  split
  · rename_i k
    have hno : ¬ P.T.up i ≠ [] := by rw [← hu k.2]; simp
    exact ret_nearer (fun c => absurd c hno) ho (fun _ c => absurd c hno) (.inr ⟨hpc, Tag.le_refl _, fun c => absurd c hno⟩)
  · split
    · rename_i _ k
      rw [ge_iff_le, cmp_ge_zero] at k
      exact ret_nearer (fun _ => rfl) ho (fun c _ => by rw [hn c]; exact k) (.inr ⟨hpc, k, fun _ => Tag.not_lt.2 k⟩)
    · rename_i _ k
      rw [bounded_false, if_neg (by simp)]
      rw [ge_iff_le, cmp_ge_zero] at k
      split
      · rename_i k2
        right
        refine ⟨by simp, rfl, rfl, fun c up c' up' => ?_⟩
        unfold phase
        rw [hpc]
        dsimp only
        rw [if_pos ⟨(hasUp_conf P M i).1 k2, Tag.not_le.1 k⟩]
        omega
      · rename_i k2
        have hno : ¬ P.T.up i ≠ [] := by rw [← hasUp_conf P M i]; exact k2
        exact ret_nearer (fun c => absurd c hno) ho (fun _ c => absurd c hno) (.inr ⟨hpc, Tag.le_refl _, fun c => absurd c hno⟩)

theorem wake_nearer (hI : FInv (conf P M) i f net done l) (hpc : f.pc = .waiting o t) (hg : f.next ≤ f.lastTAG ∨ t ≤ f.lastTAG) :
    Starts f (Fedn.wake f).1 ∨ Nearer P i f (Fedn.wake f).1 := by
  have ho : o = none → f.started = false := by
    rintro rfl
    have := hI.pc; unfold Fedn.PcOk at this; rw [hpc] at this; exact this.1
  have hn : o ≠ none → f.next ≤ t := by
    intro k
    obtain ⟨o', rfl⟩ := Option.ne_none_iff_exists'.1 k
    have := hI.pc; unfold Fedn.PcOk at this; rw [hpc] at this; exact this.2.2.1
  unfold Fedn.wake
  rw [hpc]
  dsimp only
  rw [if_pos]
  · refine ret_nearer (fun _ => rfl) ho (fun c _ => ?_) (.inl hpc)
    rcases hg with k | k
    · exact k
    · exact Tag.le_trans (hn c) k
  · rw [ge_iff_le, ge_iff_le, cmp_ge_zero, cmp_ge_zero]; exact hg

/-- A wait that goes on. -/
theorem wake_same (h : ¬ ∃ o t, f.pc = .waiting o t ∧ (f.next ≤ f.lastTAG ∨ t ≤ f.lastTAG)) : (Fedn.wake f).1 = f := by
  unfold Fedn.wake
  split
  · rename_i o t hpc
    rw [if_neg]
    · split <;> rfl
    · rw [ge_iff_le, ge_iff_le, cmp_ge_zero, cmp_ge_zero]
      exact fun k => h ⟨o, t, hpc, k⟩
  · rfl

theorem ask_same (h : ∀ o t, f.pc ≠ .asking o t) : Fedn.ask (conf P M) i f = (f, none) := by
  unfold Fedn.ask
  split
  · rename_i o t hpc
    exact absurd hpc (h o t)
  · rfl

theorem starts_far {f' : Fed} (h : Starts f f') : far P f' < far P f := by
  obtain ⟨_, h2, h3, h4⟩ := h
  unfold far
  rw [h2, h3, h4]
  simp

theorem advance_nearer (hI : FInv (conf P M) i f net done l) (hpc : f.pc = .resting) (hs : f.stop = P.stop) (hcur : Fit P.T f.cur) (hnext : Fit P.T f.next)
    (hfit : Fit P.T P.stop) :
    ((Fedn.advance (conf P M) i f).pc = .executing ∧ far P (Fedn.advance (conf P M) i f) < far P f) ∨ Nearer P i f (Fedn.advance (conf P M) i f) := by
  have hst : f.started = true := by
    have := hI.pc; unfold Fedn.PcOk at this; rw [hpc] at this; exact this.1
  unfold Fedn.advance
  split
  · right
    refine ⟨by simp, rfl, rfl, fun c up c' up' => ?_⟩
    unfold phase
    rw [hpc]
    dsimp only
    omega
  · rename_i k
    left
    refine ⟨rfl, ?_⟩
    have hlt : f.cur < f.next := by
      rcases Fedn.next_cases f with e | ⟨ev, he, e⟩
      · rw [e]
        rw [ge_iff_le, ge_iff_le, cmp_ge_zero, cmp_ge_zero, e] at k
        exact Tag.not_le.1 fun c => k ⟨Tag.le_refl _, c⟩
      · rw [e]; exact (hI.q ev he).2 hst
    show enc P.stop - enc f.next + (if f.started then 0 else 1) < enc P.stop - enc f.cur + (if f.started then 0 else 1)
    have h1 := enc_lt hcur hnext hlt
    have h2 : enc f.next ≤ enc P.stop := by
      have := Fedn.next_le_stop f
      rw [hs] at this
      rcases Tag.lt_or_eq_of_le this with c | c
      · exact Nat.le_of_lt (enc_lt hnext hfit c)
      · rw [c]
    omega

end

end

end ReactorC.FedDet
