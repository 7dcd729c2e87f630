import Verif.Cycle.RunStep

/-!
# C86: which inputs are final, and what has been computed from them
-/

namespace ReactorC.Cycle.Run
open ReactorC
variable {S V : Type} {M : Federation S V} {x : Nat → S}

theorem arr_ge (hw : WF M) {k : Nat} (hk : k < M.P.nc) (m : Nat) : m ≤ M.arr k m := by
  cases hd : M.delayed k with
  | false => exact Nat.le_of_eq (hw.same k hk hd m).symm
  | true => exact Nat.le_of_lt (hw.later k hk hd m)

theorem cyc_same (hw : WF M) {k : Nat} (hk : k < M.P.nc) (hc : cyc M k = true) (m : Nat) : M.arr k m = m := by
  unfold cyc at hc
  simp only [Bool.and_eq_true, Bool.not_eq_true'] at hc
  exact hw.same k hk hc.1.1 m

/-- What has been sent and is no longer on the way has arrived. -/
theorem past_final {s : State S V} (h : Inv M x s) {k m : Nat} (hk : k < M.P.nc) (hp : Past M s k m)
    (hc : ∀ e ∈ s.chan k, e.1 ≠ M.tau (M.arr k m)) :
    (s.fed (M.P.conn k).dst).inp (M.tau (M.arr k m)) (M.P.conn k).port = sends M s k m := by
  have hC := h.chan k hk
  by_cases hs : Sent M s k m
  · rcases hC.status m hs with ⟨h1, _⟩ | ⟨_, h1⟩
    · exact absurd rfl (hc _ h1)
    · exact h1
  · have hno : (s.fed (M.P.conn k).dst).inp (M.tau (M.arr k m)) (M.P.conn k).port = none := hC.notSent m hs
    rw [hno]
    rcases hp with hp | hp
    · cases ho : sends M s k m with
      | none => rfl
      | some v => exact absurd (Or.inl ⟨hp, Or.inl (by rw [ho]; rfl)⟩) hs
    · exact absurd hp hs

/-- What has been sent has been computed. -/
theorem past_pos (hw : WF M) {s : State S V} {k m : Nat} (hk : k < M.P.nc) (hp : Past M s k m) :
    m < srcN M s k ∨ (m = srcN M s k ∧ (M.P.conn k).sendLevel ≤ srcPos M s k) := by
  have := (hw.outLevel k hk).1
  rcases hp with hp | hp | ⟨h1, h2⟩
  · exact Or.inl hp
  · exact Or.inl hp.1
  · exact Or.inr ⟨h1, by omega⟩

/-- The inputs of tags that are over. -/
theorem input_over (hw : WF M) {s : State S V} (h : Inv M x s) {k m : Nat} (hk : k < M.P.nc) (hm : M.arr k m < (s.fed (M.P.conn k).dst).n) :
    (s.fed (M.P.conn k).dst).inp (M.tau (M.arr k m)) (M.P.conn k).port = sends M s k m ∧ Past M s k m := by
  obtain ⟨h1, h2⟩ := h.ahead k hk
  have hp : Past M s k m := by
    by_contra hn
    have := h2 m hn
    omega
  refine ⟨past_final h hk hp ?_, hp⟩
  intro e he e1
  have := h1 e he
  rw [e1] at this
  have := le_of_mono hw.tags this
  omega

/-- The inputs of the levels that may be executed are what has been sent, by levels that have been executed. -/
theorem input_final (hw : WF M) {s : State S V} (h : Inv M x s) {k m : Nat} (hk : k < M.P.nc) (hm : M.arr k m = (s.fed (M.P.conn k).dst).n)
    (ha : ((M.P.cfg (M.P.conn k).dst).port (M.P.conn k).port).level < adm M.P (M.P.conn k).dst (s.fed (M.P.conn k).dst).pc) :
    (s.fed (M.P.conn k).dst).inp (M.tau (s.fed (M.P.conn k).dst).n) (M.P.conn k).port = sends M s k m ∧ Past M s k m := by
  have hC := h.chan k hk
  have hF := h.fed _ (hw.dst k hk)
  have hb : (s.fed (M.P.conn k).dst).pc ≠ .before := by
    intro e
    rw [e] at ha
    exact absurd ha (Nat.not_lt_zero _)
  by_cases hc : cyc M k = true
  · have had : M.tau (s.fed (M.P.conn k).dst).n ≤ (s.fed (M.P.conn k).dst).lv.known (M.P.conn k).port :=
      hF.admitted _ (hw.port k hk) (hw.listed k hk hc).1 ha
    have hp : Past M s k m := by
      by_contra hn
      have : (s.fed (M.P.conn k).dst).lv.known (M.P.conn k).port < M.tau (M.arr k m) := hC.future m hn
      rw [hm] at this
      exact absurd this (Tag.not_lt.2 had)
    refine ⟨?_, hp⟩
    rw [← hm]
    refine past_final h hk hp ?_
    intro e he e1
    have := hC.unknown e he
    rw [e1, hm] at this
    exact absurd this (Tag.not_lt.2 had)
  · have hS := begun h hk (hw.dst k hk) hb (by simpa using hc)
    have hp : Past M s k m := Or.inl (hS.1 m (Nat.le_of_eq hm))
    refine ⟨?_, hp⟩
    rw [← hm]
    refine past_final h hk hp ?_
    intro e he e1
    have := hS.2 e he
    rw [e1, hm] at this
    exact Tag.lt_irrefl _ this

theorem input_gap (hw : WF M) {s : State S V} (h : Inv M x s) {k i : Nat} (hk : k < M.P.nc) (hm : ∀ m, M.arr k m ≠ i) :
    (s.fed (M.P.conn k).dst).inp (M.tau i) (M.P.conn k).port = none :=
  (h.chan k hk).gap _ fun m e => hm m (inj_of_mono hw.tags e.symm)

/-- The steps that do not execute a level or complete a tag leave the states of the reactors as they are. -/
theorem step_cases {s s' : State S V} (st : Step M s s') :
    (∀ i, (s'.fed i).tr = (s.fed i).tr ∧ (s'.fed i).n = (s.fed i).n ∧ pos M.P i (s'.fed i).pc = pos M.P i (s.fed i).pc) ∨
    (∃ j L, j < M.P.n ∧ (s.fed j).pc = .passed L ∧ s' = execLevel M s j L) ∨
    (∃ j, j < M.P.n ∧ (s.fed j).pc = .level (M.P.levels j) ∧ s' = { s with fed := upd s.fed j (toNext M j (s.fed j)) }) := by
  have one : ∀ {j : Nat} {f : Node S V} {ch : Nat → List (Tag × Option V)} {b : Bool}, f.tr = (s.fed j).tr → f.n = (s.fed j).n →
      pos M.P j f.pc = pos M.P j (s.fed j).pc →
      ∀ i, ((State.mk (upd s.fed j f) ch b).fed i).tr = (s.fed i).tr ∧ ((State.mk (upd s.fed j f) ch b).fed i).n = (s.fed i).n ∧
        pos M.P i ((State.mk (upd s.fed j f) ch b).fed i).pc = pos M.P i (s.fed i).pc := by
    intro j f ch b h1 h2 h3 i
    dsimp only
    by_cases e : i = j
    · rw [e, upd_same]
      exact ⟨h1, h2, h3⟩
    · rw [upd_other _ _ e]
      exact ⟨rfl, rfl, rfl⟩
  cases st with
  | ptag => exact Or.inl (one rfl rfl rfl)
  | tag => exact Or.inl (one rfl rfl rfl)
  | start hj hb => exact Or.inl (one rfl rfl (by rw [hb]; rfl))
  | stall hj hp =>
    refine Or.inl (one rfl rfl ?_)
    rw [hp]
    dsimp only
    split <;> rfl
  | @exec j L hj hp => exact Or.inr (Or.inl ⟨j, L, hj, hp, rfl⟩)
  | @finish j hj hp => exact Or.inr (Or.inr ⟨j, hj, hp, rfl⟩)
  | @deliver k t o rest hk hc =>
    left
    unfold deliver
    cases o with
    | none => exact one rfl rfl rfl
    | some v => exact one rfl rfl rfl

/-- Tag `m` has been executed in federate `j` up to level `L`. -/
def Done (M : Federation S V) (s : State S V) (j m L : Nat) : Prop :=
  (m < (s.fed j).n ∧ L ≤ M.P.levels j) ∨ (m = (s.fed j).n ∧ L ≤ pos M.P j (s.fed j).pc)

theorem done_of_past (hw : WF M) {s : State S V} {k m : Nat} (hk : k < M.P.nc) (hp : Past M s k m) :
    Done M s (M.P.conn k).src m (M.P.conn k).sendLevel := by
  have := hw.outLevel k hk
  rcases past_pos hw hk hp with h1 | h1
  · exact Or.inl ⟨h1, by omega⟩
  · exact Or.inr h1

/-- The states of the reactors are those of every solution. -/
theorem reach_agrees (hw : WF M) {s : State S V} (h : Reach M x s) {N : Nat} {st : Nat → Nat → Nat → S} {inp : Nat → Nat → Nat → Option V}
    (hs : Solution M x N st inp) : ∀ j < M.P.n, ∀ m < N, ∀ L, Done M s j m L → (s.fed j).tr m L = st j m L := by
  induction h with
  | init h =>
    intro j hj m hm L hd
    unfold Done at hd
    rw [h.n j, h.pc j] at hd
    rcases hd with hd | ⟨h1, h2⟩
    · omega
    · have : L = 0 := Nat.le_zero.1 h2
      rw [h1, this, h.tr, hs.init j hj (by omega)]
  | @step s s' hr stp ih =>
    have hI := reach_inv hw hr
    have hI' := step_inv hw hI stp
    rcases step_cases stp with h | ⟨j, K, hj, hp, rfl⟩ | ⟨j, hj, hp, rfl⟩
    · intro i hi m hm L hd
      unfold Done at hd
      rw [(h i).2.1, (h i).2.2] at hd
      rw [(h i).1]
      exact ih i hi m hm L hd
    · intro i hi m hm L hd
      unfold Done execLevel at hd
      unfold execLevel
      dsimp only at hd ⊢
      by_cases e : i = j
      · subst e
        rw [upd_same] at hd ⊢
        dsimp only at hd ⊢
        have hF := hI.fed i hi
        have hpos : pos M.P i (s.fed i).pc = K := by rw [hp]; rfl
        have hK := hF.rangeP K hp
        by_cases e1 : m = (s.fed i).n
        · subst e1
          rw [upd_same]
          have hL : L ≤ K + 1 := by
            rcases hd with h1 | h1
            · omega
            · exact h1.2
          by_cases e2 : L = K + 1
          · subst e2
            have hst : (s.fed i).st = (s.fed i).tr (s.fed i).n K := by
              have := hF.st
              unfold view at this
              dsimp only at this
              rw [hp] at this
              exact this
            rw [upd_same, hs.step i hi _ hm K hK, hst, ih i hi _ hm K (Or.inr ⟨rfl, by omega⟩)]
            apply hw.reads
            intro p hlev
            by_cases hcn : ∃ k < M.P.nc, (M.P.conn k).dst = i ∧ (M.P.conn k).port = p
            · obtain ⟨k, hk, hd, hpp⟩ := hcn
              by_cases hex : ∃ m', M.arr k m' = (s.fed i).n
              · obtain ⟨m', hm'⟩ := hex
                have h1 := input_final hw hI hk (m := m') (by rw [hd]; exact hm') (by rw [hd, hpp, hp]; exact Nat.lt_succ_of_le hlev)
                rw [hd, hpp] at h1
                have h2 := hs.conn k hk m' (by omega)
                rw [hd, hpp, hm'] at h2
                rw [h1.1, h2]
                unfold sends
                have := arr_ge hw hk m'
                rw [ih _ (hw.src k hk) m' (by omega) _ (done_of_past hw hk h1.2)]
              · have hex : ∀ m', M.arr k m' ≠ (s.fed i).n := fun m' hm' => hex ⟨m', hm'⟩
                have h1 := input_gap hw hI hk hex
                have h2 := hs.gap k hk _ hm hex
                rw [hd, hpp] at h1 h2
                rw [h1, h2]
            · have hcn : ∀ k < M.P.nc, ¬((M.P.conn k).dst = i ∧ (M.P.conn k).port = p) := fun k hk hh => hcn ⟨k, hk, hh⟩
              rw [hI.noConn i hi p hcn, hs.none i hi p hcn _ hm]
          · rw [upd_other _ _ e2]
            exact ih i hi _ hm L (Or.inr ⟨rfl, by omega⟩)
        · rw [upd_other _ _ e1]
          rcases hd with h1 | h1
          · exact ih i hi m hm L (Or.inl h1)
          · exact absurd h1.1 e1
      · rw [upd_other _ _ e] at hd ⊢
        exact ih i hi m hm L hd
    · intro i hi m hm L hd
      have hH := (hI'.hist i hi).next
      unfold Done at hd
      dsimp only at hd hH ⊢
      by_cases e : i = j
      · subst e
        rw [upd_same] at hd hH ⊢
        have hn : (toNext M i (s.fed i)).n = (s.fed i).n + 1 := rfl
        have htr : ∀ m, m ≤ (s.fed i).n → (toNext M i (s.fed i)).tr m = (s.fed i).tr m := fun m hm => upd_other _ _ (by omega)
        have old : ∀ m, m < N → m ≤ (s.fed i).n → ∀ L, L ≤ M.P.levels i → (s.fed i).tr m L = st i m L := by
          intro m hm h1 L hL
          by_cases e1 : m = (s.fed i).n
          · exact ih i hi m hm L (Or.inr ⟨e1, by rw [hp]; exact hL⟩)
          · exact ih i hi m hm L (Or.inl ⟨by omega, hL⟩)
        rw [hn] at hd hH
        rcases hd with ⟨h1, h2⟩ | ⟨h1, h2⟩
        · rw [htr m (by omega)]
          exact old m hm (by omega) L h2
        · have h2 : L = 0 := Nat.le_zero.1 h2
          subst h1 h2
          rw [hH _ (Nat.lt_succ_self _), htr _ (Nat.le_refl _), old _ (by omega) (Nat.le_refl _) _ (Nat.le_refl _), hs.next i hi _ hm]
      · rw [upd_other _ _ e] at hd ⊢
        exact ih i hi m hm L hd

/-- An execution of which `N` tags are complete is a solution. -/
theorem completed_solution (hw : WF M) {s : State S V} (h : Inv M x s) {N : Nat} (hc : Completed M s N) :
    Solution M x N (fun j m L => (s.fed j).tr m L) (fun j i p => (s.fed j).inp (M.tau i) p) := by
  refine ⟨?_, ?_, ?_, ?_, ?_, ?_⟩
  · exact fun j hj _ => (h.hist j hj).zero
  · intro j hj m hm
    have := hc j hj
    exact (h.hist j hj).next m (by omega)
  · intro j hj m hm
    have := hc j hj
    exact (h.hist j hj).step m (by omega)
  · intro k hk m hm
    have := hc _ (hw.dst k hk)
    exact (input_over hw h hk (by omega)).1
  · exact fun k hk i _ hm => input_gap hw h hk hm
  · exact fun j hj p hp i _ => h.noConn j hj p hp _

end ReactorC.Cycle.Run
