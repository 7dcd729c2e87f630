import Verif.Cycle.RunResult
import Verif.Cycle.Progress

/-!
# C86: progress
-/

namespace ReactorC.Cycle.Run
open ReactorC
variable {S V : Type} {M : Federation S V} {x : Nat → S} {rank : Nat → Nat → Nat}

theorem rank_mono (ho : Ordered M rank) (j : Nat) {a b : Nat} (h : a ≤ b) : rank j a ≤ rank j b := by
  induction h with
  | refl => exact Nat.le_refl _
  | step _ ih => exact Nat.le_trans ih (Nat.le_of_lt (ho.mono j _))

/-- How much a federate has to do until it has completed the first `N` tags. -/
def nodeLeft (M : Federation S V) (N j : Nat) (f : Node S V) : Nat :=
  if N ≤ f.n then 0 else
    (4 * M.P.nc + 4) * ((N - 1 - f.n) * (2 * M.P.levels j + 4) + pcLeft M.P j f.pc) + (if f.lv.lastTAG < M.tau f.n then 2 else 0) + awake (view M f)

def left (M : Federation S V) (N : Nat) (s : State S V) : Nat :=
  sumTo (fun j => nodeLeft M N j (s.fed j)) M.P.n + sumTo (fun k => 2 * (s.chan k).length) M.P.nc

theorem left_fed {N : Nat} {s : State S V} {j : Nat} (hj : j < M.P.n) {f : Node S V} (h : nodeLeft M N j f < nodeLeft M N j (s.fed j)) :
    left M N { s with fed := upd s.fed j f } < left M N s := by
  unfold left
  dsimp only
  have := sumTo_upd (w := nodeLeft M N) (f := s.fed) hj f
  omega

theorem exists_min {n : Nat} {q : Nat → Prop} (f : Nat → Nat) (h : ∃ i < n, q i) : ∃ i < n, q i ∧ ∀ i' < n, q i' → f i ≤ f i' := by
  have : ∀ r i, i < n → q i → f i ≤ r → ∃ i < n, q i ∧ ∀ i' < n, q i' → f i ≤ f i' := by
    intro r
    induction r with
    | zero => exact fun i hi hq hr => ⟨i, hi, hq, fun _ _ _ => by omega⟩
    | succ r ih =>
      intro i hi hq hr
      by_cases hex : ∃ i' < n, q i' ∧ f i' ≤ r
      · obtain ⟨i', h1, h2, h3⟩ := hex
        exact ih i' h1 h2 h3
      · refine ⟨i, hi, hq, ?_⟩
        intro i' hi' hq'
        by_contra hlt
        exact hex ⟨i', hi', hq', by omega⟩
  obtain ⟨i, hi, hq⟩ := h
  exact this _ i hi hq (Nat.le_refl _)

theorem deliver_left (hw : WF M) {N : Nat} {s : State S V} {k : Nat} {t : Tag} {o : Option V} {rest : List (Tag × Option V)}
    (hk : k < M.P.nc) (hc : s.chan k = (t, o) :: rest) : left M N (deliver M s k t o rest) < left M N s := by
  have hj := hw.dst k hk
  have h2 := sumTo_upd (w := fun _ l => 2 * List.length l) (f := s.chan) hk rest
  rw [hc] at h2
  have key : ∃ f : Node S V, ∃ b, deliver M s k t o rest = ⟨upd s.fed (M.P.conn k).dst f, upd s.chan k rest, b⟩ ∧
      f.pc = (s.fed (M.P.conn k).dst).pc ∧ f.lv.lastTAG = (s.fed (M.P.conn k).dst).lv.lastTAG ∧ f.n = (s.fed (M.P.conn k).dst).n := by
    have hu : ∀ t', (Level.updatePort (M.P.cfg (M.P.conn k).dst) (s.fed (M.P.conn k).dst).lv (M.P.conn k).port t').lastTAG =
        (s.fed (M.P.conn k).dst).lv.lastTAG := by
      intro t'
      rcases Level.updatePort_cases (M.P.cfg (M.P.conn k).dst) (s.fed (M.P.conn k).dst).lv (M.P.conn k).port t' with ⟨e, _⟩ | e <;> rw [e]
    cases o with
    | none => exact ⟨_, _, rfl, rfl, hu t, rfl⟩
    | some v =>
      refine ⟨_, _, rfl, rfl, ?_, rfl⟩
      obtain ⟨st, est⟩ := handleMessage_lv hw.toLocal (j := (M.P.conn k).dst) (s.fed (M.P.conn k).dst).lv (M.P.conn k).port t
      dsimp only
      rw [est]
      exact hu t
  obtain ⟨f, b, e, e1, e2, e3⟩ := key
  rw [e]
  unfold left
  dsimp only
  have h1 := sumTo_upd (w := nodeLeft M N) (f := s.fed) hj f
  have h3 : nodeLeft M N (M.P.conn k).dst f ≤ nodeLeft M N (M.P.conn k).dst (s.fed (M.P.conn k).dst) + 1 := by
    unfold nodeLeft
    have h1 := awake_le (view M f)
    rw [e1, e2, e3]
    split <;> omega
  rw [List.length_cons] at h2
  omega

/-- As long as some federate has not completed the first `N` tags, something can happen that brings this closer. -/
theorem can_step (hw : WF M) (ho : Ordered M rank) {s : State S V} (h : Inv M x s) (hdn : ∀ j, (s.fed j).pc ≠ .done) {N : Nat} (hn : ¬ Completed M s N) :
    ∃ s', Step M s s' ∧ left M N s' < left M N s := by
  by_cases hne : ∃ k < M.P.nc, s.chan k ≠ []
  · obtain ⟨k, hk, hne⟩ := hne
    cases hc : s.chan k with
    | nil => exact absurd hc hne
    | cons e rest =>
      obtain ⟨t, o⟩ := e
      exact ⟨_, Step.deliver hk hc, deliver_left hw hk hc⟩
  · have hempty : ∀ k < M.P.nc, s.chan k = [] := by
      intro k hk
      by_contra hc
      exact hne ⟨k, hk, hc⟩
    -- the federate that is behind all others
    have hex : ∃ j < M.P.n, (s.fed j).n < N := by
      by_contra hc
      exact hn fun j hj => by
        by_contra hlt
        exact hc ⟨j, hj, by omega⟩
    obtain ⟨j0, hj0, hn0, hmin0⟩ := exists_min (fun j => (s.fed j).n) (q := fun j => (s.fed j).n < N) hex
    have hmin0 : ∀ i < M.P.n, (s.fed j0).n ≤ (s.fed i).n := by
      intro i hi
      by_cases h1 : (s.fed i).n < N
      · exact hmin0 i hi h1
      · have hn0 : (s.fed j0).n < N := hn0
        omega
    obtain ⟨j, hj, hjn, hmin⟩ := exists_min (fun j => rank j (pos M.P j (s.fed j).pc)) (q := fun j => (s.fed j).n = (s.fed j0).n) ⟨j0, hj0, rfl⟩
    have hjN : (s.fed j).n < N := by
      have hjn : (s.fed j).n = (s.fed j0).n := hjn
      have hn0 : (s.fed j0).n < N := hn0
      omega
    have hlow : ∀ i < M.P.n, (s.fed j).n ≤ (s.fed i).n := by
      intro i hi
      have hjn : (s.fed j).n = (s.fed j0).n := hjn
      rw [hjn]
      exact hmin0 i hi
    have hrank : ∀ i < M.P.n, (s.fed i).n = (s.fed j).n → rank j (pos M.P j (s.fed j).pc) ≤ rank i (pos M.P i (s.fed i).pc) := by
      intro i hi e
      exact hmin i hi (e.trans hjn)
    have hF := h.fed j hj
    -- connections that are not within cycles
    have hbefore : (s.fed j).pc = .before → ∀ k < M.P.nc, (M.P.conn k).dst = j → cyc M k = false → Settled M s k (s.fed j).n := by
      intro hb k hk hd hc
      refine ⟨?_, by rw [hempty k hk]; intro e he; cases he⟩
      intro m hm
      have h1 := hlow _ (hw.src k hk)
      cases hdel : M.delayed k with
      | true =>
        have := hw.later k hk hdel m
        omega
      | false =>
        rw [hw.same k hk hdel] at hm
        by_contra hlt
        have e : (s.fed (M.P.conn k).src).n = (s.fed j).n := by omega
        have h2 := hrank _ (hw.src k hk) e
        have h3 := ho.edge k hk hdel
        unfold exit entry at h3
        rw [hc, hd] at h3
        simp only [Bool.false_eq_true, if_false] at h3
        have h4 := rank_mono ho (M.P.conn k).src (pos_le M.P (h.fed _ (hw.src k hk)))
        unfold view at h4
        dsimp only at h4
        rw [hb] at h2
        have h2 : rank j 0 ≤ _ := h2
        omega
    have one : ∀ {f : Node S V}, f.n = (s.fed j).n →
        (4 * M.P.nc + 4) * pcLeft M.P j f.pc + (if f.lv.lastTAG < M.tau (s.fed j).n then 2 else 0) + awake (view M f) <
          (4 * M.P.nc + 4) * pcLeft M.P j (s.fed j).pc + (if (s.fed j).lv.lastTAG < M.tau (s.fed j).n then 2 else 0) + awake (view M (s.fed j)) →
        nodeLeft M N j f < nodeLeft M N j (s.fed j) := by
      intro f e hlt
      unfold nodeLeft
      have hN : ¬ N ≤ (s.fed j).n := by omega
      rw [e, if_neg hN, if_neg hN, Nat.mul_add _ ((N - 1 - (s.fed j).n) * _), Nat.mul_add _ ((N - 1 - (s.fed j).n) * _)]
      omega
    cases hp : (s.fed j).pc with
    | done => exact absurd hp (hdn j)
    | passed L =>
      refine ⟨_, Step.exec hj hp, ?_⟩
      unfold left execLevel
      dsimp only
      generalize hf : ({ s.fed j with
          pc := .level (L + 1)
          st := M.P.exec j L (s.fed j).st ((s.fed j).inp (M.tau (s.fed j).n))
          tr := upd (s.fed j).tr (s.fed j).n (upd ((s.fed j).tr (s.fed j).n) (L + 1)
            (M.P.exec j L (s.fed j).st ((s.fed j).inp (M.tau (s.fed j).n)))) } : Node S V) = f
      have h1 := sumTo_upd (w := nodeLeft M N) (f := s.fed) hj f
      have h2 : nodeLeft M N j f + (4 * M.P.nc + 4) ≤ nodeLeft M N j (s.fed j) + 1 := by
        unfold nodeLeft
        have h1 := awake_le (view M f)
        have h2 : f.lv.lastTAG = (s.fed j).lv.lastTAG := by rw [← hf]
        have h3 : f.pc = .level (L + 1) := by rw [← hf]
        have h4 : f.n = (s.fed j).n := by rw [← hf]
        have hr : L < M.P.levels j := hF.rangeP L hp
        have hN : ¬ N ≤ (s.fed j).n := by omega
        rw [h2, h3, h4, hp, if_neg hN, if_neg hN, Nat.mul_add _ ((N - 1 - (s.fed j).n) * _), Nat.mul_add _ ((N - 1 - (s.fed j).n) * _)]
        have := mul_step (C := 4 * M.P.nc + 4) (show pcLeft M.P j (.level (L + 1)) + 1 ≤ pcLeft M.P j (.passed L) by simp only [pcLeft]; omega)
        omega
      have h3 : sumTo (fun k => 2 * (if k < M.P.nc ∧ (M.P.conn k).src = j then
          s.chan k ++ sendNow M.P (M.tau (M.arr k (s.fed j).n)) k L (s.fed j).st else s.chan k).length) M.P.nc ≤
          sumTo (fun k => 2 * (s.chan k).length) M.P.nc + 4 * M.P.nc := by
        apply sumTo_le
        intro k _
        split
        · rw [List.length_append]
          have : (sendNow M.P (M.tau (M.arr k (s.fed j).n)) k L (s.fed j).st).length ≤ 2 := by
            unfold sendNow
            rw [List.length_append]
            split <;> split <;> simp
          omega
        · omega
      omega
    | before =>
      by_cases hl : M.tau (s.fed j).n ≤ (s.fed j).lv.lastTAG
      · refine ⟨_, Step.start hj hp hl, left_fed hj (one rfl ?_)⟩
        generalize hf : ({ s.fed j with
          pc := .level 0
          lv := Level.nextTag (M.P.cfg j) (s.fed j).lv (M.tau (s.fed j).n) (fun _ => false)
            (fun p => ((s.fed j).inp (M.tau (s.fed j).n) p).isSome) } : Node S V) = f
        have h1 := awake_le (view M f)
        have h2 : f.lv.lastTAG = (s.fed j).lv.lastTAG := by rw [← hf]; rfl
        have h3 : f.pc = .level 0 := by rw [← hf]
        rw [h2, h3, hp]
        have := mul_step (C := 4 * M.P.nc + 4) (show pcLeft M.P j (.level 0) + 1 ≤ pcLeft M.P j .before by simp [pcLeft])
        omega
      · have hl := Tag.not_le.1 hl
        by_cases hz : M.P.zdc j = true
        · refine ⟨_, Step.ptag hj hz hl ?_, left_fed hj (one rfl ?_)⟩
          · rw [ptagIn_iff hw]
            intro k hk hd
            split
            · rename_i hc
              refine ⟨?_, by rw [hempty k hk]; intro e he; cases he⟩
              intro m hm
              rw [cyc_same hw hk hc] at hm
              have := hlow _ (hw.src k hk)
              omega
            · rename_i hc
              exact hbefore hp k hk hd (by simpa using hc)
          · generalize hf : ({ s.fed j with lv := Level.handlePtag (M.P.cfg j) (s.fed j).lv (M.tau (s.fed j).n) } : Node S V) = f
            have h1 := awake_le (view M f)
            have h2 : f.lv.lastTAG = M.tau (s.fed j).n := by rw [← hf]; rfl
            have h3 : f.pc = (s.fed j).pc := by rw [← hf]
            rw [h2, h3, if_pos hl, if_neg (Tag.lt_irrefl _)]
            omega
        · refine ⟨_, Step.tag (i := (s.fed j).n) hj (Nat.le_refl _) (Tag.le_of_lt hl) ?_, left_fed hj (one rfl ?_)⟩
          · intro k hk hd
            refine hbefore hp k hk hd ?_
            unfold cyc
            rw [hd]
            simp [hz]
          · generalize hf : ({ s.fed j with lv := Level.handleTag (M.P.cfg j) (s.fed j).lv (M.tau (s.fed j).n) } : Node S V) = f
            have h1 := awake_le (view M f)
            have h2 : f.lv.lastTAG = M.tau (s.fed j).n := by rw [← hf]; exact last_handleTag (Tag.le_of_lt hl)
            have h3 : f.pc = (s.fed j).pc := by rw [← hf]
            rw [h2, h3, if_pos hl, if_neg (Tag.lt_irrefl _)]
            omega
    | level L =>
      have hr : L ≤ M.P.levels j := hF.rangeL L hp
      by_cases hL : L = M.P.levels j
      · refine ⟨_, Step.finish hj (hL ▸ hp), left_fed hj ?_⟩
        have h1 := awake_le (view M (toNext M j (s.fed j)))
        generalize hf : toNext M j (s.fed j) = f at h1
        have h3 : f.pc = .before := by rw [← hf]; rfl
        have h4 : f.n = (s.fed j).n + 1 := by rw [← hf]; rfl
        unfold nodeLeft
        have hN : ¬ N ≤ (s.fed j).n := by omega
        rw [h3, h4, hp, if_neg hN]
        by_cases hlast : N ≤ (s.fed j).n + 1
        · rw [if_pos hlast]
          have : 0 < (4 * M.P.nc + 4) * ((N - 1 - (s.fed j).n) * (2 * M.P.levels j + 4) + pcLeft M.P j (.level L)) := by
            apply Nat.mul_pos
            · omega
            · simp only [pcLeft]
              omega
          omega
        · rw [if_neg hlast]
          have h5 : (N - 1 - ((s.fed j).n + 1)) * (2 * M.P.levels j + 4) + (2 * M.P.levels j + 4) = (N - 1 - (s.fed j).n) * (2 * M.P.levels j + 4) := by
            rw [← Nat.succ_mul]
            congr 1
            omega
          have := mul_step (C := 4 * M.P.nc + 4) (show (N - 1 - ((s.fed j).n + 1)) * (2 * M.P.levels j + 4) + pcLeft M.P j .before + 1 ≤
            (N - 1 - (s.fed j).n) * (2 * M.P.levels j + 4) + pcLeft M.P j (.level L) by simp only [pcLeft]; omega)
          have h6 : (if f.lv.lastTAG < M.tau ((s.fed j).n + 1) then 2 else 0) ≤ 2 := by split <;> omega
          omega
      · have hL : L < M.P.levels j := by omega
        have hb : (s.fed j).pc ≠ .before := by rw [hp]; simp
        cases ha : (s.fed j).lv.asleep L with
        | false =>
          refine ⟨_, Step.stall hj hp hL ha, left_fed hj (one rfl ?_)⟩
          generalize hf : ({ s.fed j with
            pc := if L ≥ (s.fed j).lv.mlaa then .level L else .passed L
            lv := Level.stall (s.fed j).lv L } : Node S V) = f
          have h1 := awake_le (view M f)
          have h2 : f.lv.lastTAG = (s.fed j).lv.lastTAG := by
            rw [← hf]
            show (Level.stall (s.fed j).lv L).lastTAG = _
            unfold Level.stall
            split <;> rfl
          have h4 : awake (view M (s.fed j)) = 1 := by
            unfold awake view
            dsimp only
            rw [hp]
            simp [ha]
          rw [h2, h4, hp]
          by_cases hm : L ≥ (s.fed j).lv.mlaa
          · have h3 : f.pc = .level L := by rw [← hf]; exact if_pos hm
            have h5 : awake (view M f) = 0 := by
              unfold awake view
              dsimp only
              rw [h3]
              have : f.lv.asleep L = true := by
                rw [← hf]
                show (Level.stall (s.fed j).lv L).asleep L = true
                unfold Level.stall
                rw [if_pos hm]
                exact if_pos rfl
              simp [this]
            rw [h3, h5]
            omega
          · have h3 : f.pc = .passed L := by rw [← hf]; exact if_neg hm
            rw [h3]
            have := mul_step (C := 4 * M.P.nc + 4) (show pcLeft M.P j (.passed L) + 1 ≤ pcLeft M.P j (.level L) by simp [pcLeft])
            omega
        | true =>
          exfalso
          obtain ⟨_, h1, _⟩ := hF.asleep L ha
          have hfew := hw.few j
          have h2 := hF.level hb L (by unfold Level.INT_MAX; omega)
          have h3 : ¬ ∀ p < (M.P.cfg j).n, ((M.P.cfg j).port p).cycle = true → ((M.P.cfg j).port p).level ≤ L →
              M.tau (s.fed j).n ≤ (s.fed j).lv.known p := by
            intro hall
            have := h2.2 hall
            omega
          simp only [not_forall] at h3
          obtain ⟨p, hpn, hcy, hlev, hkn⟩ := h3
          obtain ⟨k, hk, hdst, hpp, hic⟩ := hw.connected j hj p hpn hcy
          have hC := h.chan k hk
          have hns : ¬ Sent M s k (s.fed j).n := by
            intro hs
            rcases hC.status _ hs with ⟨h4, _⟩ | ⟨h4, _⟩
            · rw [hempty k hk] at h4
              cases h4
            · rw [hdst, hpp] at h4
              rw [cyc_same hw hk hic] at h4
              exact hkn h4
          have htells := (hw.listed k hk hic).2
          have hlo := hlow _ (hw.src k hk)
          have hsrc : (s.fed (M.P.conn k).src).n = (s.fed j).n := by
            by_contra hne
            exact hns (Or.inl ⟨by unfold srcN; omega, Or.inr htells⟩)
          have hpos : ¬ (M.P.conn k).absLevel < srcPos M s k := by
            intro hlt
            apply hns
            right
            refine ⟨hsrc.symm, ?_⟩
            have := (hw.outLevel k hk).1
            cases ho : sends M s k (s.fed j).n with
            | none => exact Or.inr ⟨hlt, htells, rfl⟩
            | some v => exact Or.inl ⟨by omega, rfl⟩
          have hdel : M.delayed k = false := by
            unfold cyc at hic
            simp only [Bool.and_eq_true, Bool.not_eq_true'] at hic
            exact hic.1.1
          have h1 := ho.edge k hk hdel
          unfold exit entry at h1
          rw [hic, hdst, hpp] at h1
          simp only [if_true] at h1
          have h4 := rank_mono ho (M.P.conn k).src (Nat.le_of_not_lt hpos)
          unfold srcPos at h4
          have h5 := rank_mono ho j hlev
          have h6 := hrank _ (hw.src k hk) hsrc
          rw [hp] at h6
          have h6 : rank j L ≤ _ := h6
          omega

theorem never_done {s : State S V} (h : Reach M x s) (j : Nat) : (s.fed j).pc ≠ .done := by
  induction h generalizing j with
  | init h =>
    rw [h.pc]
    simp
  | @step s s' _ st ih =>
    have one : ∀ {i : Nat} {f : Node S V} {ch : Nat → List (Tag × Option V)} {b : Bool}, f.pc ≠ .done →
        ((State.mk (upd s.fed i f) ch b).fed j).pc ≠ .done := by
      intro i f ch b h1
      dsimp only
      by_cases e : j = i
      · rw [e, upd_same]
        exact h1
      · rw [upd_other _ _ e]
        exact ih j
    cases st with
    | ptag => exact one (ih _)
    | tag => exact one (ih _)
    | start hj hb => exact one (by simp)
    | stall hj hp =>
      refine one ?_
      dsimp only
      split <;> simp
    | exec hj hp => exact one (by simp)
    | finish hj hp => exact one (by simp [toNext])
    | @deliver k t o rest hk hc =>
      unfold deliver
      cases o with
      | none => exact one (ih _)
      | some v => exact one (ih _)

/-- What can happen from a state on. -/
inductive Steps (M : Federation S V) : State S V → State S V → Prop
  | refl {s} : Steps M s s
  | step {s s' s''} : Step M s s' → Steps M s' s'' → Steps M s s''

theorem Steps.reach {s s' : State S V} (h : Reach M x s) (st : Steps M s s') : Reach M x s' := by
  induction st with
  | refl => exact h
  | step st _ ih => exact ih (Reach.step h st)

theorem completes (hw : WF M) (ho : Ordered M rank) {s : State S V} (h : Reach M x s) (N : Nat) : ∃ s', Steps M s s' ∧ Completed M s' N := by
  generalize hr : left M N s = r
  induction r using Nat.strongRecOn generalizing s with
  | ind r ih =>
    by_cases hc : Completed M s N
    · exact ⟨s, Steps.refl, hc⟩
    · obtain ⟨s1, h1, h2⟩ := can_step hw ho (reach_inv hw h) (never_done h) hc
      obtain ⟨s', h3, h4⟩ := ih (left M N s1) (by omega) (Reach.step h h1) rfl
      exact ⟨s', Steps.step h1 h3, h4⟩

end ReactorC.Cycle.Run
