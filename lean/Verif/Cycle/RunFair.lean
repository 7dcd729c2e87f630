import Verif.Cycle.RunProgress
import Verif.Cycle.RunFairSpec
import Mathlib.Data.Nat.Pairing

/-!
# C86: what happens in the steps of a fair execution, and that there are fair executions
-/

namespace ReactorC.Cycle.Run
open ReactorC
variable {S V : Type} {M : Federation S V} {x : Nat → S} {rank : Nat → Nat → Nat}

theorem Does.step (hw : WF M) {a : Actor} {s s' : State S V} (h : Does M a s s') : Step M s s' := by
  cases h with
  | ptag h1 h2 h3 h4 => exact .ptag h1 h2 h3 h4
  | tag h1 h2 h3 h4 => exact .tag h1 h2 (Tag.le_trans (Tag.le_of_lt h3) (mono_le hw.tags h2)) h4
  | start h1 h2 h3 => exact .start h1 h2 h3
  | stall h1 h2 h3 h4 => exact .stall h1 h2 h3 h4
  | exec h1 h2 => exact .exec h1 h2
  | finish h1 h2 => exact .finish h1 h2
  | deliver h1 h2 => exact .deliver h1 h2

/-! ### There are fair executions -/

def code : Nat → Actor
  | n => if n % 3 = 0 then .grant (n / 3) else if n % 3 = 1 then .work (n / 3) else .arrive (n / 3)

theorem code_onto (a : Actor) : ∃ n, code n = a := by
  cases a with
  | grant j => exact ⟨3 * j, by unfold code; rw [if_pos (by omega)]; congr 1; omega⟩
  | work j => exact ⟨3 * j + 1, by unfold code; rw [if_neg (by omega), if_pos (by omega)]; congr 1; omega⟩
  | arrive j => exact ⟨3 * j + 2, by unfold code; rw [if_neg (by omega), if_neg (by omega)]; congr 1; omega⟩

open Classical in
/-- Who is asked acts, if possible. -/
noncomputable def asked (M : Federation S V) (a : Actor) (s : State S V) : State S V := if h : ∃ s', Does M a s s' then h.choose else s

theorem asked_does {a : Actor} {s : State S V} (h : ∃ s', Does M a s s') : Does M a s (asked M a s) := by
  unfold asked
  rw [dif_pos h]
  exact h.choose_spec

theorem asked_not {a : Actor} {s : State S V} (h : ¬∃ s', Does M a s s') : asked M a s = s := by
  unfold asked
  rw [dif_neg h]

/-- Everybody is asked again and again. -/
noncomputable def inTurn (M : Federation S V) (s : State S V) : Nat → State S V
  | 0 => s
  | i + 1 => asked M (code i.unpair.1) (inTurn M s i)

theorem fair_exists (hw : WF M) {s : State S V} (h : Reach M x s) : Fair M x (inTurn M s) := by
  refine ⟨h, fun i => ?_, fun a i0 ha => ?_⟩
  · by_cases c : ∃ s', Does M (code i.unpair.1) (inTurn M s i) s'
    · exact .inr ((asked_does c).step hw)
    · exact .inl (asked_not c)
  · obtain ⟨n, hn⟩ := code_onto a
    have e : code (Nat.pair n i0).unpair.1 = a := by rw [Nat.unpair_pair, hn]
    refine ⟨Nat.pair n i0, Nat.right_le_pair n i0, ?_⟩
    show Does M a _ (asked M (code (Nat.pair n i0).unpair.1) (inTurn M s (Nat.pair n i0)))
    rw [e]
    exact asked_does (ha _ (Nat.right_le_pair n i0))

/-! ### What a step does to a federate and to a connection -/

/-- A step of federate `j`. -/
def Worked (M : Federation S V) (j : Nat) (f f' : Node S V) : Prop :=
  f'.lv.lastTAG = f.lv.lastTAG ∧
  ((f.pc = .before ∧ f'.pc = .level 0 ∧ f'.n = f.n) ∨
   (∃ L, f.pc = .level L ∧ L < M.P.levels j ∧ f'.pc = (if L ≥ f.lv.mlaa then .level L else .passed L) ∧ f'.n = f.n) ∨
   (∃ L, f.pc = .passed L ∧ f'.pc = .level (L + 1) ∧ f'.n = f.n) ∨
   (f.pc = .level (M.P.levels j) ∧ f'.pc = .before ∧ f'.n = f.n + 1))

theorem stall_last (lv : Level.State) (L : Nat) : (Level.stall lv L).lastTAG = lv.lastTAG := by
  unfold Level.stall
  split <;> rfl

theorem does_work {j : Nat} {s s' : State S V} (h : Does M (.work j) s s') : Worked M j (s.fed j) (s'.fed j) := by
  cases h with
  | start _ h2 => dsimp only; rw [upd_same]; exact ⟨rfl, .inl ⟨h2, rfl, rfl⟩⟩
  | @stall _ _ L _ h2 h3 => dsimp only; rw [upd_same]; exact ⟨stall_last _ _, .inr (.inl ⟨L, h2, h3, rfl, rfl⟩)⟩
  | @exec _ _ L _ h2 =>
    unfold execLevel; dsimp only; rw [upd_same]
    exact ⟨rfl, .inr (.inr (.inl ⟨L, h2, rfl, rfl⟩))⟩
  | finish _ h2 => dsimp only; rw [upd_same]; exact ⟨rfl, .inr (.inr (.inr ⟨h2, rfl, rfl⟩))⟩

theorem does_grant (hw : WF M) {j : Nat} {s s' : State S V} (h : Does M (.grant j) s s') :
    (s'.fed j).n = (s.fed j).n ∧ M.tau (s.fed j).n ≤ (s'.fed j).lv.lastTAG := by
  cases h with
  | ptag _ _ h3 => dsimp only; rw [upd_same]; exact ⟨rfl, Tag.le_refl _⟩
  | @tag _ _ i _ h2 h3 =>
    dsimp only
    rw [upd_same]
    refine ⟨rfl, ?_⟩
    have := mono_le hw.tags h2
    show _ ≤ (Level.handleTag (M.P.cfg j) (s.fed j).lv (M.tau i)).lastTAG
    rw [last_handleTag (Tag.le_trans (Tag.le_of_lt h3) this)]
    exact this

theorem does_arrive {k : Nat} {s s' : State S V} (h : Does M (.arrive k) s s') : ∃ e, s.chan k = e :: s'.chan k := by
  cases h with
  | @deliver _ _ t o rest _ h2 =>
    refine ⟨(t, o), ?_⟩
    rw [h2]
    unfold deliver
    cases o <;> simp [upd]

/-- Each step leaves a federate at its place and does not take away its grant, or is a step of the federate. -/
theorem node_step (hw : WF M) {s s' : State S V} (h : Step M s s') (j : Nat) :
    ((s'.fed j).n = (s.fed j).n ∧ (s'.fed j).pc = (s.fed j).pc ∧ (s.fed j).lv.lastTAG ≤ (s'.fed j).lv.lastTAG) ∨ Worked M j (s.fed j) (s'.fed j) := by
  have other : ∀ {i : Nat} {f : Node S V}, j ≠ i →
      ((upd s.fed i f j).n = (s.fed j).n ∧ (upd s.fed i f j).pc = (s.fed j).pc ∧ (s.fed j).lv.lastTAG ≤ (upd s.fed i f j).lv.lastTAG) := by
    intro i f hne
    rw [upd_other _ _ hne]
    exact ⟨rfl, rfl, Tag.le_refl _⟩
  cases h with
  | @ptag i h1 h2 h3 h4 =>
    by_cases e : j = i
    · subst e; left; dsimp only; rw [upd_same]; exact ⟨rfl, rfl, Tag.le_of_lt h3⟩
    · exact .inl (other e)
  | @tag i t h1 h2 h3 h4 =>
    by_cases e : j = i
    · subst e; left; dsimp only; rw [upd_same]
      refine ⟨rfl, rfl, ?_⟩
      dsimp only
      rw [last_handleTag h3]
      exact h3
    · exact .inl (other e)
  | @start i h1 h2 h3 =>
    by_cases e : j = i
    · subst e; exact .inr (does_work (.start h1 h2 h3))
    · exact .inl (other e)
  | @stall i L h1 h2 h3 h4 =>
    by_cases e : j = i
    · subst e; exact .inr (does_work (.stall h1 h2 h3 h4))
    · exact .inl (other e)
  | @exec i L h1 h2 =>
    by_cases e : j = i
    · subst e; exact .inr (does_work (.exec h1 h2))
    · exact .inl (other e)
  | @finish i h1 h2 =>
    by_cases e : j = i
    · subst e; exact .inr (does_work (.finish h1 h2))
    · exact .inl (other e)
  | @deliver k t o rest hk hc =>
    left
    by_cases e : j = (M.P.conn k).dst
    · subst e
      have hu : ∀ t', (Level.updatePort (M.P.cfg (M.P.conn k).dst) (s.fed (M.P.conn k).dst).lv (M.P.conn k).port t').lastTAG =
          (s.fed (M.P.conn k).dst).lv.lastTAG := by
        intro t'
        rcases Level.updatePort_cases (M.P.cfg (M.P.conn k).dst) (s.fed (M.P.conn k).dst).lv (M.P.conn k).port t' with ⟨e, _⟩ | e <;> rw [e]
      unfold deliver
      cases o with
      | none =>
        dsimp only; rw [upd_same]
        refine ⟨rfl, rfl, ?_⟩
        dsimp only
        rw [hu]
        exact Tag.le_refl _
      | some v =>
        dsimp only; rw [upd_same]
        refine ⟨rfl, rfl, ?_⟩
        obtain ⟨st, est⟩ := handleMessage_lv hw.toLocal (j := (M.P.conn k).dst) (s.fed (M.P.conn k).dst).lv (M.P.conn k).port t
        dsimp only
        rw [est]
        dsimp only
        rw [hu]
        exact Tag.le_refl _
    · unfold deliver
      cases o with
      | none => exact other e
      | some v => exact other e

/-- Each step leaves a connection as it is, sends on it, or takes the first message from it. -/
theorem chan_step {s s' : State S V} (h : Step M s s') (k : Nat) :
    s'.chan k = s.chan k ∨
    (∃ L, (s.fed (M.P.conn k).src).pc = .passed L ∧ s'.chan k = s.chan k ++
      sendNow M.P (M.tau (M.arr k (s.fed (M.P.conn k).src).n)) k L (s.fed (M.P.conn k).src).st) ∨
    ∃ e, s.chan k = e :: s'.chan k := by
  cases h with
  | ptag => exact .inl rfl
  | tag => exact .inl rfl
  | start => exact .inl rfl
  | stall => exact .inl rfl
  | @exec j L h1 h2 =>
    unfold execLevel
    dsimp only
    by_cases c : k < M.P.nc ∧ (M.P.conn k).src = j
    · rw [if_pos c]
      obtain ⟨_, rfl⟩ := c
      exact .inr (.inl ⟨L, h2, rfl⟩)
    · rw [if_neg c]
      exact .inl rfl
  | finish => exact .inl rfl
  | @deliver i t o rest hk hc =>
    by_cases e : k = i
    · subst e
      exact .inr (.inr (does_arrive (.deliver hk hc)))
    · left
      unfold deliver
      cases o <;> exact upd_other _ _ e

end ReactorC.Cycle.Run
