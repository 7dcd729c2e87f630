import Verif.Cycle.RunInv

/-!
# C86: messages and grants
-/

namespace ReactorC.Cycle.Run
open ReactorC
variable {S V : Type} {M : Federation S V} {x : Nat → S}

theorem newKnown_eq {cur known t : Tag} (h1 : known < t) (h2 : cur ≤ t) : Level.newKnown cur known t = t := by
  rcases Level.newKnown_cases cur known t with ⟨_, h3, _⟩ | ⟨_, h3, _⟩ | ⟨_, _, _, h3 | ⟨_, h3⟩⟩
  · exact absurd (Tag.lt_trans h1 h3) (Tag.lt_irrefl _)
  · exact absurd h1 (Tag.not_lt.2 h3)
  · exact h3
  · exact absurd h3 (Tag.not_lt.2 h2)

/-- A message or notice about a tag about which nothing is known. -/
theorem updatePort_eq {c : Level.Config} {lv : Level.State} {p : Nat} {t : Tag} (h1 : lv.known p < t) (h2 : lv.cur ≤ t) :
    (Level.updatePort c lv p t).known p = t ∧ (∀ q, q ≠ p → (Level.updatePort c lv p t).known q = lv.known q) ∧
      (Level.updatePort c lv p t).lastTAG = lv.lastTAG ∧ (Level.updatePort c lv p t).prov = lv.prov := by
  have e := newKnown_eq h1 h2
  rcases Level.updatePort_cases c lv p t with ⟨_, h3⟩ | h3
  · rw [e] at h3
    rw [← h3] at h1
    exact absurd h1 (Tag.lt_irrefl _)
  · rw [h3, e]
    exact ⟨if_pos rfl, fun q hq => if_neg hq, rfl, rfl⟩

theorem node_status {j : Nat} {f : Node S V} {lv : Level.State} (st : Nat → Level.Status) (h : NodeInv M j { f with lv := lv }) :
    NodeInv M j { f with lv := { lv with status := st } } := fed_status (f := view M f) st h

theorem deliver_inv (hw : WF M) {s : State S V} (h : Inv M x s) {k : Nat} (hk : k < M.P.nc) {t : Tag} {o : Option V}
    {rest : List (Tag × Option V)} (hc : s.chan k = (t, o) :: rest) : Inv M x (deliver M s k t o rest) := by
  have hj := hw.dst k hk
  have hF := h.fed _ hj
  have hC := h.chan k hk
  unfold ChanInv at hC
  rw [hc] at hC
  obtain ⟨m0, hs0, e0⟩ := hC.origin (t, o) List.mem_cons_self
  have et : t = M.tau (M.arr k m0) := (Prod.mk.inj e0).1
  have htm : t.microstep < UINT_MAX := by rw [et]; exact hw.small _
  have hkn : (s.fed (M.P.conn k).dst).lv.known (M.P.conn k).port < t := hC.unknown (t, o) List.mem_cons_self
  have htg : M.tau (s.fed (M.P.conn k).dst).n ≤ t := (h.ahead k hk).1 (t, o) (by rw [hc]; exact List.mem_cons_self)
  have hcl : (s.fed (M.P.conn k).dst).lv.cur ≤ M.tau (s.fed (M.P.conn k).dst).n := curLe hF
  have hcur : (s.fed (M.P.conn k).dst).lv.cur ≤ t := Tag.le_trans hcl htg
  have hnone : (s.fed (M.P.conn k).dst).inp t (M.P.conn k).port = none := by
    rcases hC.status m0 hs0 with ⟨_, h1⟩ | ⟨h1, _⟩
    · rw [et]
      exact h1
    · rw [← et] at h1
      exact absurd hkn (Tag.not_lt.2 h1)
  -- a message for the tag comes before the level of its reaction
  have hahead : t = M.tau (s.fed (M.P.conn k).dst).n →
      pos M.P (M.P.conn k).dst (s.fed (M.P.conn k).dst).pc ≤ ((M.P.cfg (M.P.conn k).dst).port (M.P.conn k).port).level ∧
      ¬ ((M.P.cfg (M.P.conn k).dst).port (M.P.conn k).port).level < adm M.P (M.P.conn k).dst (s.fed (M.P.conn k).dst).pc ∧
      ((s.fed (M.P.conn k).dst).pc ≠ .before →
        (s.fed (M.P.conn k).dst).lv.mlaa ≤ ((M.P.cfg (M.P.conn k).dst).port (M.P.conn k).port).level) := by
    intro e
    rw [e] at hkn
    by_cases hb : (s.fed (M.P.conn k).dst).pc = .before
    · rw [hb]
      exact ⟨Nat.zero_le _, Nat.not_lt_zero _, fun hn => absurd rfl hn⟩
    · have hcy : cyc M k = true := by
        by_contra hn
        have := begun h hk hj hb (by simpa using hn)
        have := this.2 (t, o) (by rw [hc]; exact List.mem_cons_self)
        rw [e] at this
        exact Tag.lt_irrefl _ this
      have hl := (hw.listed k hk hcy).1
      have hna : ¬ ((M.P.cfg (M.P.conn k).dst).port (M.P.conn k).port).level < adm M.P (M.P.conn k).dst (s.fed (M.P.conn k).dst).pc := by
        intro hlt
        exact absurd (hF.admitted _ (hw.port k hk) hl hlt) (Tag.not_le.2 hkn)
      refine ⟨?_, hna, fun _ => ?_⟩
      · have : pos M.P (M.P.conn k).dst (s.fed (M.P.conn k).dst).pc ≤ adm M.P (M.P.conn k).dst (s.fed (M.P.conn k).dst).pc := by
          cases (s.fed (M.P.conn k).dst).pc <;> simp [pos, adm]
        omega
      · by_contra hlt
        have h1 := hw.inLevel k hk
        have h2 := hw.few (M.P.conn k).dst
        have := (hF.level hb _ (by unfold Level.INT_MAX; omega)).1 (Nat.lt_of_not_le hlt) _ (hw.port k hk) hl (Nat.le_refl _)
        exact absurd this (Tag.not_le.2 hkn)
  have hU := fed_updatePort hw.toLocal hj hF (hw.small _) (p := (M.P.conn k).port) htg htm
  have hU : NodeInv M (M.P.conn k).dst { s.fed (M.P.conn k).dst with
      lv := Level.updatePort (M.P.cfg (M.P.conn k).dst) (s.fed (M.P.conn k).dst).lv (M.P.conn k).port t } := hU
  obtain ⟨k1, k2, k3, k4⟩ := updatePort_eq (c := M.P.cfg (M.P.conn k).dst) hkn hcur
  -- the new state of the destination
  have key : ∃ f' : Node S V, ∃ b : Bool, b = false ∧
      deliver M s k t o rest = ⟨upd s.fed (M.P.conn k).dst f', upd s.chan k rest, s.fault || b⟩ ∧
      NodeInv M (M.P.conn k).dst f' ∧ f'.n = (s.fed (M.P.conn k).dst).n ∧ f'.pc = (s.fed (M.P.conn k).dst).pc ∧
      f'.tr = (s.fed (M.P.conn k).dst).tr ∧
      f'.lv.lastTAG = (s.fed (M.P.conn k).dst).lv.lastTAG ∧
      f'.lv.known (M.P.conn k).port = t ∧ (∀ q, q ≠ (M.P.conn k).port → f'.lv.known q = (s.fed (M.P.conn k).dst).lv.known q) ∧
      (∀ t' q, q ≠ (M.P.conn k).port ∨ t' ≠ t → f'.inp t' q = (s.fed (M.P.conn k).dst).inp t' q) ∧
      f'.inp t (M.P.conn k).port = o := by
    cases o with
    | none =>
      refine ⟨{ s.fed (M.P.conn k).dst with
          lv := Level.updatePort (M.P.cfg (M.P.conn k).dst) (s.fed (M.P.conn k).dst).lv (M.P.conn k).port t }, false, rfl, ?_, hU, rfl, rfl,
        rfl, k3, k1, k2, fun _ _ _ => rfl, hnone⟩
      unfold deliver
      simp
    | some v =>
      obtain ⟨st, est⟩ := handleMessage_lv hw.toLocal (j := (M.P.conn k).dst) (s.fed (M.P.conn k).dst).lv (M.P.conn k).port t
      have hS := node_status st hU
      have hnow : (!Level.handleMessageNow (M.P.cfg (M.P.conn k).dst) (s.fed (M.P.conn k).dst).lv (M.P.conn k).port t true &&
            decide (t ≤ (s.fed (M.P.conn k).dst).lv.cur) ||
          Level.handleMessageNow (M.P.cfg (M.P.conn k).dst) (s.fed (M.P.conn k).dst).lv (M.P.conn k).port t true &&
            decide (((M.P.cfg (M.P.conn k).dst).port (M.P.conn k).port).level < adm M.P (M.P.conn k).dst (s.fed (M.P.conn k).dst).pc)) = false := by
        by_cases e : t = M.tau (s.fed (M.P.conn k).dst).n
        · obtain ⟨h1, h2, h3⟩ := hahead e
          rw [decide_eq_false h2, Bool.and_false, Bool.or_false]
          by_cases hb : (s.fed (M.P.conn k).dst).pc = .before
          · have : (s.fed (M.P.conn k).dst).lv.cur < M.tau (s.fed (M.P.conn k).dst).n := hF.curB hb
            rw [decide_eq_false (by rw [e]; exact Tag.not_le.2 this), Bool.and_false]
          · have hcur : (s.fed (M.P.conn k).dst).lv.cur = M.tau (s.fed (M.P.conn k).dst).n := (hF.curA hb).1
            have hnow : Level.handleMessageNow (M.P.cfg (M.P.conn k).dst) (s.fed (M.P.conn k).dst).lv (M.P.conn k).port t true = true := by
              unfold Level.handleMessageNow
              simp only [Bool.and_eq_true, decide_eq_true_eq, cmp_eq_zero, gt_iff_lt, cmp_gt_zero, Bool.not_eq_true']
              refine ⟨⟨⟨⟨⟨?_, ?_⟩, trivial⟩, hkn⟩, hF.running⟩, hw.logical k hk⟩
              · have := h3 hb
                unfold Level.Port.level at this
                have := Nat.mod_le ((M.P.cfg (M.P.conn k).dst).port (M.P.conn k).port).index 65536
                omega
              · rw [e, hcur]
            rw [hnow]
            rfl
        · have hgt : M.tau (s.fed (M.P.conn k).dst).n < t := by
            rcases Tag.lt_or_eq_of_le htg with h1 | h1
            · exact h1
            · exact absurd h1.symm e
          have hlt := Tag.lt_of_le_of_lt hcl hgt
          have hnow : Level.handleMessageNow (M.P.cfg (M.P.conn k).dst) (s.fed (M.P.conn k).dst).lv (M.P.conn k).port t true = false := by
            unfold Level.handleMessageNow
            have : ¬ lf_tag_compare t (s.fed (M.P.conn k).dst).lv.cur = 0 := by
              rw [cmp_eq_zero]
              intro e'
              rw [e'] at hlt
              exact Tag.lt_irrefl _ hlt
            simp [this]
          rw [hnow, decide_eq_false (Tag.not_le.2 hlt)]
          rfl
      refine ⟨{ s.fed (M.P.conn k).dst with
          lv := Level.handleMessage (M.P.cfg (M.P.conn k).dst) (s.fed (M.P.conn k).dst).lv (M.P.conn k).port t true
          inp := fun t' => if t' = t then upd ((s.fed (M.P.conn k).dst).inp t') (M.P.conn k).port (some v) else (s.fed (M.P.conn k).dst).inp t' },
        _, hnow, ?_, ?_, rfl, rfl, rfl, ?_, ?_, ?_, ?_, ?_⟩
      · unfold deliver
        dsimp only
        rw [Bool.or_assoc]
      · rw [est]
        by_cases e : t = M.tau (s.fed (M.P.conn k).dst).n
        · have h1 := fed_setInp hw.toLocal hS (some v) (hahead e).1
          unfold NodeInv
          have e1 : view M { s.fed (M.P.conn k).dst with
              lv := { Level.updatePort (M.P.cfg (M.P.conn k).dst) (s.fed (M.P.conn k).dst).lv (M.P.conn k).port t with status := st }
              inp := fun t' => if t' = t then upd ((s.fed (M.P.conn k).dst).inp t') (M.P.conn k).port (some v) else (s.fed (M.P.conn k).dst).inp t' } =
              { view M { s.fed (M.P.conn k).dst with
                lv := { Level.updatePort (M.P.cfg (M.P.conn k).dst) (s.fed (M.P.conn k).dst).lv (M.P.conn k).port t with status := st } } with
                inp := upd (view M { s.fed (M.P.conn k).dst with
                lv := { Level.updatePort (M.P.cfg (M.P.conn k).dst) (s.fed (M.P.conn k).dst).lv (M.P.conn k).port t with status := st } }).inp
                  (M.P.conn k).port (some v) } := by
            unfold view
            dsimp only
            rw [if_pos e.symm]
          rw [e1]
          exact h1
        · have e1 : view M { s.fed (M.P.conn k).dst with
              lv := { Level.updatePort (M.P.cfg (M.P.conn k).dst) (s.fed (M.P.conn k).dst).lv (M.P.conn k).port t with status := st }
              inp := fun t' => if t' = t then upd ((s.fed (M.P.conn k).dst).inp t') (M.P.conn k).port (some v) else (s.fed (M.P.conn k).dst).inp t' } =
              view M { s.fed (M.P.conn k).dst with
                lv := { Level.updatePort (M.P.cfg (M.P.conn k).dst) (s.fed (M.P.conn k).dst).lv (M.P.conn k).port t with status := st } } := by
            unfold view
            dsimp only
            rw [if_neg fun e2 => e e2.symm]
          unfold NodeInv
          rw [e1]
          exact hS
      · dsimp only
        rw [est]
        exact k3
      · dsimp only
        rw [est]
        exact k1
      · intro q hq
        dsimp only
        rw [est]
        exact k2 q hq
      · intro t' q hq
        dsimp only
        split
        · rename_i e
          exact upd_other _ _ (hq.resolve_right fun hn => hn e)
        · rfl
      · dsimp only
        rw [if_pos rfl, upd_same]
  obtain ⟨f', b, hb, hE, hF', hn', hpc, htr, hlt, hk1, hk2, hi1, hi2⟩ := key
  subst hb
  rw [hE, Bool.or_false]
  have hfed : ∀ i, i ≠ (M.P.conn k).dst → upd s.fed (M.P.conn k).dst f' i = s.fed i := fun i hi => upd_other _ _ hi
  have hns : ∀ i, (upd s.fed (M.P.conn k).dst f' i).n = (s.fed i).n := by
    intro i
    by_cases e : i = (M.P.conn k).dst
    · rw [e, upd_same, hn']
    · rw [hfed i e]
  have hpcs : ∀ i, (upd s.fed (M.P.conn k).dst f' i).pc = (s.fed i).pc := by
    intro i
    by_cases e : i = (M.P.conn k).dst
    · rw [e, upd_same, hpc]
    · rw [hfed i e]
  have htrs : ∀ i, (upd s.fed (M.P.conn k).dst f' i).tr = (s.fed i).tr := by
    intro i
    by_cases e : i = (M.P.conn k).dst
    · rw [e, upd_same, htr]
    · rw [hfed i e]
  generalize hs' : (⟨upd s.fed (M.P.conn k).dst f', upd s.chan k rest, s.fault⟩ : State S V) = s'
  have hfs : s'.fed = upd s.fed (M.P.conn k).dst f' := by rw [← hs']
  have hch : s'.chan = upd s.chan k rest := by rw [← hs']
  have e1 : ∀ k', srcN M s' k' = srcN M s k' := by
    intro k'
    unfold srcN
    rw [hfs, hns]
  have e2 : ∀ k', srcPos M s' k' = srcPos M s k' := by
    intro k'
    unfold srcPos
    rw [hfs, hpcs]
  have e3 : ∀ k' m, sends M s' k' m = sends M s k' m := by
    intro k' m
    unfold sends
    rw [hfs, htrs]
  have e4 : ∀ k' m, Sent M s' k' m ↔ Sent M s k' m := by
    intro k' m
    unfold Sent
    rw [e1, e2, e3]
  have e5 : ∀ k' m, Past M s' k' m ↔ Past M s k' m := by
    intro k' m
    unfold Past
    rw [e1, e4]
  have hpr : Progress M s s' := by
    refine ⟨fun k' => Nat.le_of_eq (e1 k').symm, fun k' m => (e5 k' m).2, ?_⟩
    intro k' _ e he
    left
    rw [hch] at he
    by_cases ek : k' = k
    · rw [ek, upd_same] at he
      rw [ek, hc]
      exact List.mem_cons_of_mem _ he
    · rw [upd_other _ _ ek] at he
      exact he
  have hknown : ∀ i q, (s.fed i).lv.known q ≤ (upd s.fed (M.P.conn k).dst f' i).lv.known q := by
    intro i q
    by_cases e : i = (M.P.conn k).dst
    · rw [e, upd_same]
      by_cases e' : q = (M.P.conn k).port
      · rw [e', hk1]
        exact Tag.le_of_lt hkn
      · rw [hk2 q e']
        exact Tag.le_refl _
    · rw [hfed i e]
      exact Tag.le_refl _
  have hlts : ∀ i, (upd s.fed (M.P.conn k).dst f' i).lv.lastTAG = (s.fed i).lv.lastTAG := by
    intro i
    by_cases e : i = (M.P.conn k).dst
    · rw [e, upd_same, hlt]
    · rw [hfed i e]
  refine ⟨by rw [← hs']; exact h.ok, ?_, ?_, ?_, ?_, ?_, ?_⟩
  · intro i hi
    rw [hfs]
    by_cases e : i = (M.P.conn k).dst
    · rw [e, upd_same]
      exact hF'
    · rw [hfed i e]
      exact h.fed i hi
  · intro i hi
    have hH := h.hist i hi
    refine ⟨?_, ?_, ?_⟩
    · rw [hfs, htrs]
      exact hH.zero
    · rw [hfs, htrs, hns]
      exact hH.next
    · intro m hm L hL
      rw [hfs, hns] at hm
      rw [hfs, htrs, hH.step m hm L hL]
      have : (upd s.fed (M.P.conn k).dst f' i).inp (M.tau m) = (s.fed i).inp (M.tau m) := by
        by_cases e : i = (M.P.conn k).dst
        · rw [e, upd_same]
          funext q
          apply hi1
          right
          rw [e] at hm
          intro e'
          exact absurd (mono_lt hw.tags hm) (Tag.not_lt.2 (e' ▸ htg))
        · rw [hfed i e]
      rw [this]
  · intro i hi m hm hl
    rw [hfs] at hm hl ⊢
    rw [hns] at hm ⊢
    rw [hlts] at hl
    rcases h.grants i hi m hm hl with ⟨h1, h2⟩ | ⟨h1, h2⟩
    · exact Or.inl ⟨h1, hpr.ptagIn hw h2⟩
    · exact Or.inr ⟨hpr.allIn hw h1, fun p hp => Tag.le_trans (h2 p hp) (hknown i p)⟩
  · intro k' hk'
    rw [hfs, hns]
    exact hpr.ahead hw hk' (h.ahead k' hk')
  · intro k' hk'
    by_cases e : k' = k
    · subst e
      unfold ChanInv
      rw [hch, upd_same, hfs, upd_same, hk1]
      have hC' := hC.mono (e4 k') (fun m _ => e3 k' m) (fun m hm => (e5 k' m).2 hm)
      exact hC'.arrive (ta_mono hw hk) hi2 (fun t' ht' => hi1 t' _ (Or.inr ht'))
    · have hC0 := h.chan k' hk'
      unfold ChanInv at hC0 ⊢
      rw [hch, upd_other _ _ e, hfs]
      have e6 : (upd s.fed (M.P.conn k).dst f' (M.P.conn k').dst).lv.known (M.P.conn k').port = (s.fed (M.P.conn k').dst).lv.known (M.P.conn k').port ∧
          ∀ t', (upd s.fed (M.P.conn k).dst f' (M.P.conn k').dst).inp t' (M.P.conn k').port = (s.fed (M.P.conn k').dst).inp t' (M.P.conn k').port := by
        by_cases e5 : (M.P.conn k').dst = (M.P.conn k).dst
        · have e6 : (M.P.conn k').port ≠ (M.P.conn k).port := fun e6 => e (hw.inj k' hk' k hk e5 e6)
          rw [e5, upd_same]
          exact ⟨hk2 _ e6, fun t' => hi1 t' _ (Or.inl e6)⟩
        · rw [hfed _ e5]
          exact ⟨rfl, fun _ => rfl⟩
      rw [e6.1]
      simp only [e6.2]
      exact hC0.mono (e4 k') (fun m _ => e3 k' m) (fun m hm => (e5 k' m).2 hm)
  · intro i hi p hp t'
    rw [hfs]
    by_cases e : i = (M.P.conn k).dst
    · subst e
      rw [upd_same, hi1 t' p (Or.inl fun e => hp k hk ⟨rfl, e.symm⟩)]
      exact h.noConn _ hi p hp t'
    · rw [hfed i e]
      exact h.noConn i hi p hp t'

theorem known_handleTag {c : Level.Config} {lv : Level.State} {t : Tag} (p : Nat) :
    (Level.handleTag c lv t).known p = lv.known p ∨ (lv.known p ≤ t ∧ (Level.handleTag c lv t).known p = t) := by
  obtain ⟨m, sl, pr, e, _⟩ := Level.handleTag_cases c lv t
  rw [e]
  show Level.knownAfterGrant lv t p = _ ∨ (_ ∧ Level.knownAfterGrant lv t p = _)
  unfold Level.knownAfterGrant
  split
  · rename_i h
    exact Or.inr ⟨(cmp_ge_zero _ _).1 h, rfl⟩
  · exact Or.inl rfl

theorem last_handleTag {c : Level.Config} {lv : Level.State} {t : Tag} (h : lv.lastTAG ≤ t) : (Level.handleTag c lv t).lastTAG = t := by
  obtain ⟨m, sl, pr, e, _⟩ := Level.handleTag_cases c lv t
  rw [e]
  show (if lv.lastTAG ≤ t then t else lv.lastTAG) = t
  rw [if_pos h]

theorem step_inv (hw : WF M) {s s' : State S V} (h : Inv M x s) (st : Step M s s') : Inv M x s' := by
  cases st with
  | @ptag j hj hz hl hs =>
    obtain ⟨h1, hb⟩ := fed_ptag (h.fed j hj) hl
    refine local_inv hw h hj h1 rfl rfl rfl rfl (Or.inl rfl) ?_
    intro i hi hli
    have : i = (s.fed j).n := by
      have := le_of_mono hw.tags (show M.tau i ≤ M.tau (s.fed j).n from hli)
      have : (s.fed j).n ≤ i := hi
      omega
    exact Or.inl ⟨this, this ▸ (ptagIn_iff hw).1 hs⟩
  | @tag j i hj hi hl ha =>
    obtain ⟨h1, h2, h3⟩ := fed_tag hw.toLocal (h.fed j hj) (mono_le hw.tags hi) hl
    refine local_inv hw h hj h1 rfl rfl rfl rfl (Or.inr ⟨i, ha, fun p => known_handleTag p⟩) ?_
    intro i' hi' hli
    have hli : M.tau i' ≤ (Level.handleTag (M.P.cfg j) (s.fed j).lv (M.tau i)).lastTAG := hli
    rw [last_handleTag hl] at hli
    have hle := le_of_mono hw.tags hli
    refine Or.inr ⟨fun k hk hd => settled_mono hw (ha k hk hd) hle, fun p _ => ?_⟩
    show M.tau i' ≤ (Level.handleTag (M.P.cfg j) (s.fed j).lv (M.tau i)).known p
    rcases known_handleTag (c := M.P.cfg j) (lv := (s.fed j).lv) (t := M.tau i) p with h4 | ⟨_, h4⟩
    · have : M.tau i ≤ (Level.handleTag (M.P.cfg j) (s.fed j).lv (M.tau i)).known p := by
        obtain ⟨m, sl, pr, e, _⟩ := Level.handleTag_cases (M.P.cfg j) (s.fed j).lv (M.tau i)
        rw [e]
        exact (Level.knownAfterGrant_ge (s.fed j).lv (M.tau i) p).2
      exact Tag.le_trans hli this
    · rw [h4]
      exact hli
  | @start j hj hb hl =>
    obtain ⟨h1, h2⟩ := fed_start hw.toLocal hj (h.fed j hj) hb hl (fun p => ((s.fed j).inp (M.tau (s.fed j).n) p).isSome)
    refine local_inv hw h hj h1 rfl rfl rfl (by rw [hb]; rfl) (Or.inl h2) ?_
    intro i hi hli
    rcases h.grants j hj i hi hli with h3 | ⟨h3, h4⟩
    · exact Or.inl h3
    · refine Or.inr ⟨h3, ?_⟩
      intro p hp
      show M.tau i ≤ (Level.nextTag _ _ _ _ _).known p
      have h2' : ∀ p, (Level.nextTag (M.P.cfg j) (s.fed j).lv (M.tau (s.fed j).n) (fun _ => false)
        (fun p => ((s.fed j).inp (M.tau (s.fed j).n) p).isSome)).known p = (s.fed j).lv.known p := fun p => congrFun h2 p
      rw [h2']
      exact h4 p hp
  | @stall j L hj hp hL _ =>
    have h1 := fed_stall hw.toLocal (h.fed j hj) hp hL
    have hlv : (Level.stall (s.fed j).lv L).known = (s.fed j).lv.known ∧ (Level.stall (s.fed j).lv L).lastTAG = (s.fed j).lv.lastTAG := by
      unfold Level.stall
      split <;> exact ⟨rfl, rfl⟩
    refine local_inv hw h hj h1 rfl rfl rfl ?_ (Or.inl hlv.1) ?_
    · rw [hp]
      dsimp only
      split <;> rfl
    · intro i hi hli
      dsimp only at hi hli ⊢
      rw [hlv.2] at hli
      rw [hlv.1]
      exact h.grants j hj i hi hli
  | @exec j L hj hp => exact exec_inv hw h hj hp
  | @finish j hj hp => exact finish_inv hw h hj hp
  | @deliver k t o rest hk hc => exact deliver_inv hw h hk hc

theorem reach_inv (hw : WF M) {s : State S V} (h : Reach M x s) : Inv M x s := by
  induction h with
  | init h => exact init_inv hw h
  | step _ st ih => exact step_inv hw ih st

end ReactorC.Cycle.Run
