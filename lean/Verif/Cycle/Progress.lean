import Verif.Cycle.Result

/-!
# C85: progress and termination
-/

namespace ReactorC.Cycle
open ReactorC
variable {S V : Type} {P : Prog S V} {g : Tag} {x : Nat → S} {rank : Nat → Nat → Nat}

theorem rank_mono (ho : Ordered P rank) (j : Nat) {a b : Nat} (h : a ≤ b) : rank j a ≤ rank j b := by
  induction h with
  | refl => exact Nat.le_refl _
  | step _ ih => exact Nat.le_trans ih (Nat.le_of_lt (ho.mono j _))

theorem pos_le (P : Prog S V) {j : Nat} {f : Fed S V} (h : FedInv P g x j f) : pos P j f.pc ≤ P.levels j := by
  cases hp : f.pc with
  | before => exact Nat.zero_le _
  | level L => exact h.rangeL L hp
  | passed L => exact Nat.le_of_lt (h.rangeP L hp)
  | done => exact Nat.le_refl _

/-- If nothing can happen, every federate that is not done waits for another one, of lower rank. -/
theorem waits_for (hw : WF P) (ho : Ordered P rank) {s : State S V} (h : Inv P g x s) (hno : ∀ s', ¬ Work P g s s') {j : Nat} (hj : j < P.n)
    (hd : (s.fed j).pc ≠ .done) : ∃ i < P.n, (s.fed i).pc ≠ .done ∧ rank i (pos P i (s.fed i).pc) < rank j (pos P j (s.fed j).pc) := by
  have hF := h.fed j hj
  have hempty : ∀ k < P.nc, s.chan k = [] := by
    intro k hk
    cases hc : s.chan k with
    | nil => rfl
    | cons e rest =>
      obtain ⟨t, o⟩ := e
      exact absurd (Work.deliver hk hc) (hno _)
  -- a source of a connection that is not within a cycle
  have outside : (s.fed j).pc = .before → ∀ k < P.nc, (P.conn k).dst = j → inCycle P k = false → ¬ Settled P g s k →
      ∃ i < P.n, (s.fed i).pc ≠ .done ∧ rank i (pos P i (s.fed i).pc) < rank j (pos P j (s.fed j).pc) := by
    intro hb k hk hdst hcy hn
    refine ⟨_, hw.src k hk, fun e => hn ⟨e, fun e he => ?_⟩, ?_⟩
    · rw [hempty k hk] at he
      cases he
    · have h1 := ho.edge k hk
      unfold exit entry at h1
      rw [hcy, hdst] at h1
      simp only [Bool.false_eq_true, if_false] at h1
      have h2 := rank_mono ho (P.conn k).src (pos_le P (h.fed _ (hw.src k hk)))
      rw [hb]
      exact Nat.lt_of_le_of_lt h2 h1
  cases hp : (s.fed j).pc with
  | done => exact absurd hp hd
  | passed L => exact absurd (Work.exec hj hp) (hno _)
  | before =>
    rw [← hp]
    by_cases hl : g ≤ (s.fed j).lv.lastTAG
    · exact absurd (Work.start hj hp hl) (hno _)
    · have hl := Tag.not_le.1 hl
      by_cases hz : P.zdc j = true
      · have : ¬ StrictIn P g s j := fun hs => hno _ (Work.ptag hj hz hl hs)
        unfold StrictIn at this
        simp only [not_forall] at this
        obtain ⟨k, hk, hdst, hzs, hn⟩ := this
        exact outside hp k hk hdst (by unfold inCycle; rw [hzs]; rfl) hn
      · have : ¬ AllIn P g s j := fun hs => hno _ (Work.tag hj hl hs)
        unfold AllIn at this
        simp only [not_forall] at this
        obtain ⟨k, hk, hdst, hn⟩ := this
        exact outside hp k hk hdst (by unfold inCycle; rw [hdst]; simp [hz]) hn
  | level L =>
    rw [← hp]
    have hr := hF.rangeL L hp
    by_cases hL : L = P.levels j
    · exact absurd (Work.finish hj (hL ▸ hp)) (hno _)
    · have hL : L < P.levels j := by omega
      have hb : (s.fed j).pc ≠ .before := by rw [hp]; simp
      cases ha : (s.fed j).lv.asleep L with
      | false => exact absurd (Work.stall hj hp hL ha) (hno _)
      | true =>
        obtain ⟨_, h1, _⟩ := hF.asleep L ha
        have hfew := hw.few j
        have h2 := hF.level hb L (by unfold Level.INT_MAX; omega)
        have h3 : ¬ ∀ p < (P.cfg j).n, ((P.cfg j).port p).cycle = true → ((P.cfg j).port p).level ≤ L → g ≤ (s.fed j).lv.known p := by
          rw [← h2]
          omega
        simp only [not_forall] at h3
        obtain ⟨p, hpn, hcy, hlev, hkn⟩ := h3
        obtain ⟨k, hk, hdst, hpp, hic⟩ := hw.connected j hj p hpn hcy
        have hC := h.chan k hk
        have hns : ¬ Sent P s k := by
          intro hs
          rcases hC.sent hs with ⟨r, h4, _⟩ | ⟨_, h4, _⟩
          · rw [hempty k hk] at h4
            cases h4
          · rw [hdst, hpp] at h4
            exact hkn h4
        have hpos : ¬ (P.conn k).absLevel < srcPos P s k := fun h => hns (sent_of_abs hw hk hic h)
        refine ⟨_, hw.src k hk, fun e => hpos (sent_of_done hw hk e), ?_⟩
        have h1 := ho.edge k hk
        unfold exit entry at h1
        rw [hic, hdst, hpp] at h1
        simp only [if_true] at h1
        have h4 := rank_mono ho (P.conn k).src (Nat.le_of_not_lt hpos)
        unfold srcPos at h4
        have h5 := rank_mono ho j hlev
        rw [hp]
        show _ < rank j L
        omega

theorem no_stuck (hw : WF P) (ho : Ordered P rank) {s : State S V} (h : Inv P g x s) (hno : ∀ s', ¬ Work P g s s') : Complete P s := by
  have : ∀ r j, j < P.n → rank j (pos P j (s.fed j).pc) < r → (s.fed j).pc = .done := by
    intro r
    induction r with
    | zero => exact fun j _ h => absurd h (Nat.not_lt_zero _)
    | succ r ih =>
      intro j hj hr
      by_contra hd
      obtain ⟨i, hi, h1, h2⟩ := waits_for hw ho h hno hj hd
      exact h1 (ih i hi (by omega))
  exact fun j hj => this _ j hj (Nat.lt_succ_self _)

/-! ### Termination -/

def sumTo (f : Nat → Nat) : Nat → Nat
  | 0 => 0
  | n + 1 => sumTo f n + f n

theorem sumTo_congr {f f' : Nat → Nat} {n : Nat} (h : ∀ i < n, f i = f' i) : sumTo f n = sumTo f' n := by
  induction n with
  | zero => rfl
  | succ n ih => rw [sumTo, sumTo, ih (fun i hi => h i (by omega)), h n (by omega)]

theorem sumTo_upd {α : Type} {w : Nat → α → Nat} {f : Nat → α} {j n : Nat} (hj : j < n) (y : α) :
    sumTo (fun i => w i (upd f j y i)) n + w j (f j) = sumTo (fun i => w i (f i)) n + w j y := by
  induction n with
  | zero => omega
  | succ n ih =>
    rw [sumTo, sumTo]
    by_cases e : j = n
    · subst e
      rw [upd_same]
      have : sumTo (fun i => w i (upd f j y i)) j = sumTo (fun i => w i (f i)) j :=
        sumTo_congr fun i hi => by rw [upd_other _ _ (by omega)]
      omega
    · have := ih (by omega)
      rw [upd_other _ _ (by omega)]
      omega

theorem sumTo_le {f f' : Nat → Nat} {n : Nat} {c : Nat} (h : ∀ i < n, f i ≤ f' i + c) : sumTo f n ≤ sumTo f' n + c * n := by
  induction n with
  | zero => exact Nat.zero_le _
  | succ n ih =>
    have h1 := ih (fun i hi => h i (by omega))
    have h2 := h n (by omega)
    rw [sumTo, sumTo, Nat.mul_succ]
    omega

/-- How much a federate has to do. -/
def pcLeft (P : Prog S V) (j : Nat) : Pc → Nat
  | .before => 2 * P.levels j + 2
  | .level L => 2 * (P.levels j - L) + 1
  | .passed L => 2 * (P.levels j - L)
  | .done => 0

/-- Whether it can go to sleep. -/
def awake (f : Fed S V) : Nat :=
  match f.pc with
  | .level L => if f.lv.asleep L = true then 0 else 1
  | _ => 1

theorem awake_le (f : Fed S V) : awake f ≤ 1 := by
  unfold awake
  split
  · split <;> omega
  · omega

def fedLeft (P : Prog S V) (g : Tag) (j : Nat) (f : Fed S V) : Nat :=
  (4 * P.nc + 2) * pcLeft P j f.pc + (if f.lv.lastTAG < g then 2 else 0) + awake f

/-- A number that every step of the work decreases. -/
def left (P : Prog S V) (g : Tag) (s : State S V) : Nat :=
  sumTo (fun j => fedLeft P g j (s.fed j)) P.n + sumTo (fun k => 2 * (s.chan k).length) P.nc

theorem left_fed {s : State S V} {j : Nat} (hj : j < P.n) {f : Fed S V} (h : fedLeft P g j f < fedLeft P g j (s.fed j)) :
    left P g { s with fed := upd s.fed j f } < left P g s := by
  unfold left
  dsimp only
  have := sumTo_upd (w := fedLeft P g) (f := s.fed) hj f
  omega

theorem mul_step {C a b : Nat} (h : b + 1 ≤ a) : C * b + C ≤ C * a := by
  have := Nat.mul_le_mul_left C h
  rw [Nat.mul_add, Nat.mul_one] at this
  exact this

theorem work_left (hw : WF P) {s s' : State S V} (h : Inv P g x s) (st : Work P g s s') : left P g s' < left P g s := by
  cases st with
  | @ptag j hj hz hl hs =>
    apply left_fed hj
    unfold fedLeft
    have h1 := awake_le { s.fed j with lv := Level.handlePtag (P.cfg j) (s.fed j).lv g }
    rw [if_pos hl, if_neg (show ¬ ({ s.fed j with lv := Level.handlePtag (P.cfg j) (s.fed j).lv g } : Fed S V).lv.lastTAG < g from Tag.lt_irrefl g)]
    dsimp only at h1 ⊢
    omega
  | @tag j hj hl ha =>
    apply left_fed hj
    unfold fedLeft
    have h1 := awake_le { s.fed j with lv := Level.handleTag (P.cfg j) (s.fed j).lv g }
    have h2 : (Level.handleTag (P.cfg j) (s.fed j).lv g).lastTAG = g := by
      have e1 : (Level.updatePorts (P.cfg j) (s.fed j).lv g).lastTAG = (s.fed j).lv.lastTAG := by
        unfold Level.updatePorts Level.broadcast
        dsimp only
        split
        · split <;> rfl
        · rfl
      unfold Level.handleTag
      dsimp only
      rw [e1, if_pos ((cmp_ge_zero _ _).2 (Tag.le_of_lt hl))]
    rw [if_pos hl]
    dsimp only at h1 ⊢
    rw [h2, if_neg (Tag.lt_irrefl g)]
    omega
  | @start j hj hb hl =>
    apply left_fed hj
    unfold fedLeft
    generalize hf : ({ s.fed j with
      pc := .level 0
      lv := Level.nextTag (P.cfg j) (s.fed j).lv g (fun _ => false) (fun p => ((s.fed j).inp p).isSome) } : Fed S V) = f
    have h1 := awake_le f
    have h2 : f.lv.lastTAG = (s.fed j).lv.lastTAG := by rw [← hf]; rfl
    have h3 : f.pc = .level 0 := by rw [← hf]
    rw [h2, h3, hb]
    have := mul_step (C := 4 * P.nc + 2) (show pcLeft P j (.level 0) + 1 ≤ pcLeft P j .before by simp [pcLeft])
    omega
  | @stall j L hj hp hL ha =>
    apply left_fed hj
    unfold fedLeft
    generalize hf : ({ s.fed j with
      pc := if L ≥ (s.fed j).lv.mlaa then .level L else .passed L
      lv := Level.stall (s.fed j).lv L } : Fed S V) = f
    have h1 := awake_le f
    have h2 : f.lv.lastTAG = (s.fed j).lv.lastTAG := by
      rw [← hf]
      show (Level.stall (s.fed j).lv L).lastTAG = _
      unfold Level.stall
      split <;> rfl
    have h4 : awake (s.fed j) = 1 := by
      unfold awake
      rw [hp]
      simp [ha]
    rw [h2, h4, hp]
    by_cases hm : L ≥ (s.fed j).lv.mlaa
    · have h3 : f.pc = .level L := by rw [← hf]; exact if_pos hm
      have h5 : awake f = 0 := by
        unfold awake
        rw [h3]
        have : f.lv.asleep L = true := by
          rw [← hf]
          show (Level.stall (s.fed j).lv L).asleep L = true
          unfold Level.stall
          rw [if_pos hm]
          exact if_pos rfl
        simp [this]
      rw [h3, h5]
      omega
    · have h3 : f.pc = .passed L := by rw [← hf]; exact if_neg hm
      rw [h3]
      have := mul_step (C := 4 * P.nc + 2) (show pcLeft P j (.passed L) + 1 ≤ pcLeft P j (.level L) by simp [pcLeft])
      omega
  | @exec j L hj hp =>
    unfold left execLevel
    dsimp only
    generalize hf : ({ s.fed j with
      pc := .level (L + 1)
      st := P.exec j L (s.fed j).st (s.fed j).inp
      tr := upd (s.fed j).tr (L + 1) (P.exec j L (s.fed j).st (s.fed j).inp) } : Fed S V) = f
    have h1 := sumTo_upd (w := fedLeft P g) (f := s.fed) hj f
    have h2 : fedLeft P g j f + (4 * P.nc + 2) ≤ fedLeft P g j (s.fed j) + 1 := by
      unfold fedLeft
      have h1 := awake_le f
      have h2 : f.lv.lastTAG = (s.fed j).lv.lastTAG := by rw [← hf]
      have h3 : f.pc = .level (L + 1) := by rw [← hf]
      have hr := (h.fed j hj).rangeP L hp
      rw [h2, h3, hp]
      have := mul_step (C := 4 * P.nc + 2) (show pcLeft P j (.level (L + 1)) + 1 ≤ pcLeft P j (.passed L) by simp only [pcLeft]; omega)
      omega
    have h3 : sumTo (fun k => 2 * (if k < P.nc ∧ (P.conn k).src = j then s.chan k ++ sendNow P g k L (s.fed j).st else s.chan k).length) P.nc ≤
        sumTo (fun k => 2 * (s.chan k).length) P.nc + 4 * P.nc := by
      apply sumTo_le
      intro k _
      split
      · rw [List.length_append]
        have : (sendNow P g k L (s.fed j).st).length ≤ 2 := by
          unfold sendNow
          rw [List.length_append]
          split <;> split <;> simp
        omega
      · omega
    omega
  | @finish j hj hp =>
    apply left_fed hj
    unfold fedLeft
    have h1 := awake_le { s.fed j with pc := .done }
    rw [hp]
    dsimp only at h1 ⊢
    have := mul_step (C := 4 * P.nc + 2) (show pcLeft P j .done + 1 ≤ pcLeft P j (.level (P.levels j)) by simp [pcLeft])
    omega
  | @deliver k t o rest hk hc =>
    have hj := hw.dst k hk
    have h2 := sumTo_upd (w := fun _ l => 2 * List.length l) (f := s.chan) hk rest
    rw [hc] at h2
    have key : ∃ f : Fed S V, ∃ b, deliver P g s k t o rest = ⟨upd s.fed (P.conn k).dst f, upd s.chan k rest, b⟩ ∧
        f.pc = (s.fed (P.conn k).dst).pc ∧ f.lv.lastTAG = (s.fed (P.conn k).dst).lv.lastTAG := by
      have hu : ∀ t', (Level.updatePort (P.cfg (P.conn k).dst) (s.fed (P.conn k).dst).lv (P.conn k).port t').lastTAG =
          (s.fed (P.conn k).dst).lv.lastTAG := by
        intro t'
        rcases Level.updatePort_cases (P.cfg (P.conn k).dst) (s.fed (P.conn k).dst).lv (P.conn k).port t' with ⟨e, _⟩ | e <;> rw [e]
      cases o with
      | none => exact ⟨_, _, rfl, rfl, hu t⟩
      | some v =>
        refine ⟨_, _, rfl, rfl, ?_⟩
        obtain ⟨st, est⟩ := handleMessage_lv hw.toLocal (j := (P.conn k).dst) (s.fed (P.conn k).dst).lv (P.conn k).port t
        dsimp only
        rw [est]
        exact hu t
    obtain ⟨f, b, e, e1, e2⟩ := key
    rw [e]
    unfold left
    dsimp only
    have h1 := sumTo_upd (w := fedLeft P g) (f := s.fed) hj f
    have h3 : fedLeft P g (P.conn k).dst f ≤ fedLeft P g (P.conn k).dst (s.fed (P.conn k).dst) + 1 := by
      unfold fedLeft
      have h1 := awake_le f
      rw [e1, e2]
      omega
    rw [List.length_cons] at h2
    omega

end ReactorC.Cycle
