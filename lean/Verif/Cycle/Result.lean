import Verif.Cycle.Inv

/-!
# C85: which inputs are final, and what has been computed from them
-/

namespace ReactorC.Cycle
open ReactorC
variable {S V : Type} {P : Prog S V} {g : Tag} {x : Nat → S}

theorem pos_le_adm (P : Prog S V) (j : Nat) (pc : Pc) : pos P j pc ≤ adm P j pc := by
  cases pc <;> simp [pos, adm]

theorem sent_of_done (hw : WF P) {s : State S V} {k : Nat} (hk : k < P.nc) (hd : (s.fed (P.conn k).src).pc = .done) :
    (P.conn k).absLevel < srcPos P s k := by
  have h1 := (hw.outLevel k hk).2
  unfold srcPos
  rw [hd]
  exact h1

theorem sent_of_abs (hw : WF P) {s : State S V} {k : Nat} (hk : k < P.nc) (hc : inCycle P k = true)
    (ha : (P.conn k).absLevel < srcPos P s k) : Sent P s k := by
  have h1 := (hw.outLevel k hk).1
  have h2 := (hw.listed k hk hc).2
  cases ho : sends P s k with
  | none => exact Or.inr ⟨ha, h2, ho⟩
  | some v => exact Or.inl ⟨by omega, by rw [ho]; rfl⟩

theorem sent_pos (hw : WF P) {s : State S V} {k : Nat} (hk : k < P.nc) (hs : Sent P s k) : (P.conn k).sendLevel < srcPos P s k := by
  have h1 := (hw.outLevel k hk).1
  rcases hs with ⟨h2, _⟩ | ⟨h2, _⟩
  · exact h2
  · omega

/-- An input from a cycle that is known is what has been sent. -/
theorem known_final (hw : WF P) {s : State S V} (h : Inv P g x s) {k : Nat} (hk : k < P.nc) (hc : inCycle P k = true)
    (hkn : g ≤ (s.fed (P.conn k).dst).lv.known (P.conn k).port) :
    Sent P s k ∧ (s.fed (P.conn k).dst).inp (P.conn k).port = sends P s k := by
  have hC := h.chan k hk
  by_cases hs : Sent P s k
  · rcases hC.sent hs with ⟨r, _, _, h3, _⟩ | ⟨_, _, h3⟩
    · exact absurd hkn (Tag.not_le.2 h3)
    · exact ⟨hs, h3⟩
  · by_cases hd : (s.fed (P.conn k).src).pc = .done
    · exact absurd (sent_of_abs hw hk hc (sent_of_done hw hk hd)) hs
    · exact absurd hkn (Tag.not_le.2 ((hC.notYet hs).2.2 hd).2)

theorem cycle_final (hw : WF P) {s : State S V} (h : Inv P g x s) {k : Nat} (hk : k < P.nc) (hc : inCycle P k = true)
    (ha : ((P.cfg (P.conn k).dst).port (P.conn k).port).level < adm P (P.conn k).dst (s.fed (P.conn k).dst).pc) :
    Sent P s k ∧ (s.fed (P.conn k).dst).inp (P.conn k).port = sends P s k :=
  known_final hw h hk hc ((h.fed _ (hw.dst k hk)).admitted _ (hw.port k hk) (hw.listed k hk hc).1 ha)

theorem settled_final (hw : WF P) {s : State S V} (h : Inv P g x s) {k : Nat} (hk : k < P.nc) (hs : Settled P g s k) :
    (s.fed (P.conn k).dst).inp (P.conn k).port = sends P s k := by
  have hC := h.chan k hk
  by_cases hS : Sent P s k
  · rcases hC.sent hS with ⟨r, h1, _⟩ | ⟨_, _, h3⟩
    · exact absurd rfl (hs.2 (g, sends P s k) (by rw [h1]; exact List.mem_cons_self))
    · exact h3
  · rw [(hC.notYet hS).1]
    cases ho : sends P s k with
    | none => rfl
    | some v =>
      refine absurd (Or.inl ⟨?_, by rw [ho]; rfl⟩) hS
      have := (hw.outLevel k hk).1
      have := sent_of_done hw hk hs.1
      omega

/-- The inputs of the levels that may be executed are what has been sent, by levels that have been executed. -/
theorem input_final (hw : WF P) {s : State S V} (h : Inv P g x s) {k : Nat} (hk : k < P.nc)
    (ha : ((P.cfg (P.conn k).dst).port (P.conn k).port).level < adm P (P.conn k).dst (s.fed (P.conn k).dst).pc) :
    (s.fed (P.conn k).dst).inp (P.conn k).port = sends P s k ∧ (P.conn k).sendLevel ≤ srcPos P s k := by
  by_cases hc : inCycle P k = true
  · obtain ⟨h1, h2⟩ := cycle_final hw h hk hc ha
    exact ⟨h2, Nat.le_of_lt (sent_pos hw hk h1)⟩
  · have hb : (s.fed (P.conn k).dst).pc ≠ .before := by
      intro e
      rw [e] at ha
      exact absurd ha (Nat.not_lt_zero _)
    have hs := h.begun k hk hb (by simpa using hc)
    refine ⟨settled_final hw h hk hs, ?_⟩
    have := (hw.outLevel k hk).1
    have := sent_of_done hw hk hs.1
    omega

/-- The steps that do not execute a level leave the states of the reactors as they are. -/
theorem step_cases {s s' : State S V} (st : Step P g s s') :
    (∀ i, (s'.fed i).tr = (s.fed i).tr ∧ pos P i (s'.fed i).pc = pos P i (s.fed i).pc) ∨
    (∃ j L, j < P.n ∧ (s.fed j).pc = .passed L ∧ s' = execLevel P g s j L) := by
  have one : ∀ {j : Nat} {f : Fed S V} {ch : Nat → List (Tag × Option V)} {b : Bool}, f.tr = (s.fed j).tr → pos P j f.pc = pos P j (s.fed j).pc →
      ∀ i, ((State.mk (upd s.fed j f) ch b).fed i).tr = (s.fed i).tr ∧
        pos P i ((State.mk (upd s.fed j f) ch b).fed i).pc = pos P i (s.fed i).pc := by
    intro j f ch b h1 h2 i
    dsimp only
    by_cases e : i = j
    · rw [e, upd_same]
      exact ⟨h1, h2⟩
    · rw [upd_other _ _ e]
      exact ⟨rfl, rfl⟩
  cases st with
  | work w =>
    cases w with
    | ptag => exact Or.inl (one rfl rfl)
    | tag => exact Or.inl (one rfl rfl)
    | start hj hb => exact Or.inl (one rfl (by rw [hb]; rfl))
    | stall hj hp =>
      refine Or.inl (one rfl ?_)
      rw [hp]
      dsimp only
      split <;> rfl
    | @exec j L hj hp => exact Or.inr ⟨j, L, hj, hp, rfl⟩
    | finish hj hp => exact Or.inl (one rfl (by rw [hp]; rfl))
    | @deliver k t o rest hk hc =>
      left
      unfold deliver
      cases o with
      | none => exact one rfl rfl
      | some v => exact one rfl rfl
  | later => exact Or.inl fun _ => ⟨rfl, rfl⟩
  | grant => exact Or.inl (one rfl rfl)

/-- The states of the reactors are those of every solution. -/
theorem reach_agrees (hw : WF P) (hg : g.microstep < UINT_MAX) {s : State S V} (h : Reach P g x s) {st : Nat → Nat → S} {inp : Nat → Nat → Option V}
    (hs : Solution P x st inp) : ∀ j < P.n, ∀ L ≤ pos P j (s.fed j).pc, (s.fed j).tr L = st j L := by
  induction h with
  | init h =>
    intro j _ L hL
    rw [h.pc j] at hL
    have : L = 0 := Nat.le_zero.1 hL
    rw [this, h.tr, hs.init]
  | @step s s' hr stp ih =>
    have hI := reach_inv hw hg hr
    rcases step_cases stp with h | ⟨j, M, hj, hp, rfl⟩
    · intro i hi L hL
      rw [(h i).2] at hL
      rw [(h i).1]
      exact ih i hi L hL
    · intro i hi L hL
      unfold execLevel at hL ⊢
      dsimp only at hL ⊢
      by_cases e : i = j
      · subst e
        rw [upd_same] at hL ⊢
        have hL : L ≤ M + 1 := hL
        dsimp only
        have hF := hI.fed i hi
        have hpos : pos P i (s.fed i).pc = M := by rw [hp]; rfl
        by_cases e2 : L = M + 1
        · subst e2
          rw [upd_same, hs.step i hi M (hF.rangeP M hp), hF.st, hpos, ih i hi M (by omega)]
          apply hw.reads
          intro p hlev
          by_cases hcn : ∃ k < P.nc, (P.conn k).dst = i ∧ (P.conn k).port = p
          · obtain ⟨k, hk, hd, hpp⟩ := hcn
            have := input_final hw hI hk (by rw [hd, hpp, hp]; exact Nat.lt_succ_of_le hlev)
            rw [hd, hpp] at this
            rw [this.1]
            have h2 := hs.conn k hk
            rw [hd, hpp] at h2
            rw [h2]
            unfold sends
            rw [ih _ (hw.src k hk) _ this.2]
          · have hcn : ∀ k < P.nc, ¬((P.conn k).dst = i ∧ (P.conn k).port = p) := fun k hk hh => hcn ⟨k, hk, hh⟩
            rw [hI.noConn i p hcn, hs.none i p hcn]
        · rw [upd_other _ _ e2]
          exact ih i hi L (by omega)
      · rw [upd_other _ _ e] at hL ⊢
        exact ih i hi L hL

/-- A connection whose destination has got to the level of the port has the input of every solution. -/
theorem reach_input (hw : WF P) (hg : g.microstep < UINT_MAX) {s : State S V} (h : Reach P g x s) {st : Nat → Nat → S} {inp : Nat → Nat → Option V}
    (hs : Solution P x st inp) {j p : Nat} (hj : j < P.n) (ha : ((P.cfg j).port p).level < adm P j (s.fed j).pc) :
    (s.fed j).inp p = inp j p := by
  have hI := reach_inv hw hg h
  by_cases hcn : ∃ k < P.nc, (P.conn k).dst = j ∧ (P.conn k).port = p
  · obtain ⟨k, hk, hd, hpp⟩ := hcn
    have := input_final hw hI hk (by rw [hd, hpp]; exact ha)
    rw [hd, hpp] at this
    rw [this.1]
    have h2 := hs.conn k hk
    rw [hd, hpp] at h2
    rw [h2]
    unfold sends
    rw [reach_agrees hw hg h hs _ (hw.src k hk) _ this.2]
  · have hcn : ∀ k < P.nc, ¬((P.conn k).dst = j ∧ (P.conn k).port = p) := fun k hk hh => hcn ⟨k, hk, hh⟩
    rw [hI.noConn j p hcn, hs.none j p hcn]

/-- A complete execution is a solution. -/
theorem complete_solution (hw : WF P) {s : State S V} (h : Inv P g x s) (hc : Complete P s) :
    Solution P x (fun j L => if j < P.n then (s.fed j).tr L else x j) (fun j p => (s.fed j).inp p) := by
  refine ⟨?_, ?_, ?_, h.noConn⟩
  · intro j
    split
    · rename_i hj
      exact (h.fed j hj).tr0
    · rfl
  · intro j hj L hL
    rw [if_pos hj, if_pos hj]
    exact (h.fed j hj).trS L (by rw [hc j hj]; exact hL)
  · intro k hk
    rw [if_pos (hw.src k hk)]
    refine (input_final hw h hk ?_).1
    rw [hc _ (hw.dst k hk)]
    exact hw.inLevel k hk

end ReactorC.Cycle
