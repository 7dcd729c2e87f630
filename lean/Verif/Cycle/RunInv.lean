import Verif.Cycle.RunLemmas

/-!
# C86: the invariant holds in every step
-/

namespace ReactorC.Cycle.Run
open ReactorC
variable {S V : Type} {M : Federation S V} {x : Nat → S}

/-- Time goes on at the source of a connection: what has been settled stays settled. -/
structure Progress (M : Federation S V) (s s' : State S V) : Prop where
  n : ∀ k, srcN M s k ≤ srcN M s' k
  past : ∀ k m, Past M s k m → Past M s' k m
  chan : ∀ k < M.P.nc, ∀ e ∈ s'.chan k, e ∈ s.chan k ∨ ∃ m, ¬ Past M s k m ∧ e.1 = M.tau (M.arr k m)

theorem Progress.settled (hw : WF M) {s s' : State S V} (h : Progress M s s') {k i : Nat} (hk : k < M.P.nc) (hs : Settled M s k i) : Settled M s' k i := by
  refine ⟨fun m hm => Nat.lt_of_lt_of_le (hs.1 m hm) (h.n k), ?_⟩
  intro e he
  rcases h.chan k hk e he with h1 | ⟨m, h1, h2⟩
  · exact hs.2 e h1
  · rw [h2]
    refine mono_lt hw.tags ?_
    by_contra hlt
    exact h1 (Or.inl (hs.1 m (by omega)))

theorem Progress.settledBefore (hw : WF M) {s s' : State S V} (h : Progress M s s') {k i : Nat} (hk : k < M.P.nc) (hs : SettledBefore M s k i) :
    SettledBefore M s' k i := by
  refine ⟨fun m hm => Nat.lt_of_lt_of_le (hs.1 m hm) (h.n k), ?_⟩
  intro e he
  rcases h.chan k hk e he with h1 | ⟨m, h1, h2⟩
  · exact hs.2 e h1
  · rw [h2]
    refine mono_le hw.tags ?_
    by_contra hlt
    exact h1 (Or.inl (hs.1 m (by omega)))

theorem Progress.allIn (hw : WF M) {s s' : State S V} (h : Progress M s s') {j i : Nat} (hs : AllIn M s j i) : AllIn M s' j i :=
  fun k hk hd => h.settled hw hk (hs k hk hd)

theorem Progress.ptagIn (hw : WF M) {s s' : State S V} (h : Progress M s s') {j i : Nat} (hs : PtagOk M s j i) : PtagOk M s' j i := by
  intro k hk hd
  have := hs k hk hd
  split
  · rename_i hc
    rw [if_pos hc] at this
    exact h.settledBefore hw hk this
  · rename_i hc
    rw [if_neg hc] at this
    exact h.settled hw hk this

theorem Progress.ahead (hw : WF M) {s s' : State S V} (h : Progress M s s') {k i : Nat} (hk : k < M.P.nc) (hs : Ahead M s k i) : Ahead M s' k i := by
  refine ⟨?_, fun m hm => hs.2 m fun hc => hm (h.past k m hc)⟩
  intro e he
  rcases h.chan k hk e he with h1 | ⟨m, h1, h2⟩
  · exact hs.1 e h1
  · rw [h2]
    exact mono_le hw.tags (hs.2 m h1)

/-- A federate that executes a tag has all inputs that do not come from its cycle. -/
theorem begun {s : State S V} (h : Inv M x s) {k : Nat} (hk : k < M.P.nc) (hd : (M.P.conn k).dst < M.P.n)
    (hb : (s.fed (M.P.conn k).dst).pc ≠ .before) (hc : cyc M k = false) : Settled M s k (s.fed (M.P.conn k).dst).n := by
  have h1 := ((h.fed _ hd).curA hb).2
  rcases h.grants _ hd _ (Nat.le_refl _) h1 with ⟨_, h2⟩ | ⟨h2, _⟩
  · have := h2 k hk rfl
    rw [if_neg (by rw [hc]; simp)] at this
    exact this
  · exact h2 k hk rfl

theorem finish_inv (hw : WF M) {s : State S V} (h : Inv M x s) {j : Nat} (hj : j < M.P.n) (hp : (s.fed j).pc = .level (M.P.levels j)) :
    Inv M x { s with fed := upd s.fed j (toNext M j (s.fed j)) } := by
  have hF := h.fed j hj
  have hb : (s.fed j).pc ≠ .before := by rw [hp]; simp
  have hcur := hF.curA hb
  generalize hf' : toNext M j (s.fed j) = f'
  have hn' : f'.n = (s.fed j).n + 1 := by rw [← hf']; rfl
  have hlv : f'.lv = (s.fed j).lv := by rw [← hf']; rfl
  have hpc : f'.pc = .before := by rw [← hf']; rfl
  have hinp : f'.inp = (s.fed j).inp := by rw [← hf']; rfl
  have hst : (s.fed j).st = (s.fed j).tr (s.fed j).n (M.P.levels j) := by
    have := hF.st
    unfold view at this
    dsimp only at this
    rw [hp] at this
    exact this
  have htr1 : f'.tr ((s.fed j).n + 1) 0 = M.enter j ((s.fed j).n + 1) ((s.fed j).tr (s.fed j).n (M.P.levels j)) := by
    rw [← hf', ← hst]
    unfold toNext
    dsimp only
    rw [upd_same, upd_same]
  have hst' : f'.st = f'.tr ((s.fed j).n + 1) 0 := by
    rw [← hf']
    unfold toNext
    dsimp only
    rw [upd_same, upd_same]
  have htr : ∀ m, m ≤ (s.fed j).n → f'.tr m = (s.fed j).tr m := by
    intro m hm
    rw [← hf']
    exact upd_other _ _ (by omega)
  have hfed : ∀ i, i ≠ j → upd s.fed j f' i = s.fed i := fun i hi => upd_other _ _ hi
  have hlvs : ∀ i, (upd s.fed j f' i).lv = (s.fed i).lv := by
    intro i
    by_cases e : i = j
    · rw [e, upd_same, hlv]
    · rw [hfed i e]
  have hinps : ∀ i, (upd s.fed j f' i).inp = (s.fed i).inp := by
    intro i
    by_cases e : i = j
    · rw [e, upd_same, hinp]
    · rw [hfed i e]
  generalize hs' : ({ s with fed := upd s.fed j f' } : State S V) = s'
  have hfs : s'.fed = upd s.fed j f' := by rw [← hs']
  have hch : s'.chan = s.chan := by rw [← hs']
  have e3 : ∀ k m, m ≤ srcN M s k → sends M s' k m = sends M s k m := by
    intro k m hm
    unfold sends
    rw [hfs]
    by_cases e : (M.P.conn k).src = j
    · unfold srcN at hm
      rw [e] at hm
      rw [e, upd_same, htr m hm]
    · rw [hfed _ e]
  have e4 : ∀ k, k < M.P.nc → ∀ m, Sent M s' k m ↔ Sent M s k m := by
    intro k hk m
    by_cases e : (M.P.conn k).src = j
    · have e1 : srcN M s' k = srcN M s k + 1 := by
        unfold srcN
        rw [hfs, e, upd_same, hn']
      have e2 : srcPos M s' k = 0 := by
        unfold srcPos
        rw [hfs, e, upd_same, hpc]
        rfl
      have e5 : srcPos M s k = M.P.levels (M.P.conn k).src := by
        unfold srcPos
        rw [e, hp]
        rfl
      have hout := hw.outLevel k hk
      unfold Sent
      rw [e1, e2, e5]
      constructor
      · rintro (⟨h1, h2⟩ | ⟨h1, h2⟩)
        · rw [e3 k m (by omega)] at h2
          by_cases h3 : m < srcN M s k
          · exact Or.inl ⟨h3, h2⟩
          · right
            refine ⟨by omega, ?_⟩
            cases ho : sends M s k m with
            | none =>
              rw [ho] at h2
              rcases h2 with h2 | h2
              · cases h2
              · exact Or.inr ⟨hout.2, h2, rfl⟩
            | some v => exact Or.inl ⟨by omega, rfl⟩
        · omega
      · rintro (⟨h1, h2⟩ | ⟨h1, h2⟩)
        · left
          rw [e3 k m (by omega)]
          exact ⟨by omega, h2⟩
        · left
          rw [e3 k m (by omega)]
          refine ⟨by omega, ?_⟩
          rcases h2 with h2 | h2
          · exact Or.inl h2.2
          · exact Or.inr h2.2.1
    · unfold Sent srcN srcPos sends
      rw [hfs, hfed _ e]
  have hN : ∀ k, srcN M s k ≤ srcN M s' k := by
    intro k
    unfold srcN
    rw [hfs]
    by_cases e : (M.P.conn k).src = j
    · rw [e, upd_same, hn']
      omega
    · rw [hfed _ e]
      exact Nat.le_refl _
  have e5 : ∀ k m, Past M s k m → Past M s' k m := by
    rintro k m (h1 | h1)
    · exact Or.inl (Nat.lt_of_lt_of_le h1 (hN k))
    · rcases Nat.lt_or_ge k M.P.nc with hk | hk
      · exact Or.inr ((e4 k hk m).2 h1)
      · by_cases e : (M.P.conn k).src = j
        · left
          have := sent_le h1
          unfold srcN at this ⊢
          rw [e] at this
          rw [hfs, e, upd_same, hn']
          omega
        · right
          unfold Sent srcN srcPos sends at h1 ⊢
          rw [hfs, hfed _ e]
          exact h1
  have hpr : Progress M s s' := ⟨hN, e5, fun k _ e he => Or.inl (by rw [hch] at he; exact he)⟩
  have hgrants := h.grants j hj
  refine ⟨by rw [← hs']; exact h.ok, ?_, ?_, ?_, ?_, ?_, ?_⟩
  · intro i hi
    rw [hfs]
    by_cases e : i = j
    · subst e
      rw [upd_same]
      unfold NodeInv view
      rw [hn', hlv, hpc, hst']
      refine ⟨hF.running, fun _ => ?_, fun hn => absurd rfl hn, ?_, fun hn => absurd rfl hn, ?_, fun _ hn => (by cases hn), fun _ hn => (by cases hn), ?_, rfl,
        ?_, rfl⟩
      · show (s.fed i).lv.cur < _
        have : (s.fed i).lv.cur = M.tau (s.fed i).n := hcur.1
        rw [this]
        exact hw.tags _
      · intro hl
        right
        rcases hgrants ((s.fed i).n + 1) (by omega) hl with ⟨h1, _⟩ | ⟨_, h1⟩
        · omega
        · exact h1
      · intro L hL
        obtain ⟨h1, _, h2⟩ := hF.asleep L hL
        have h1 : (s.fed i).pc = .level L := h1
        rw [hp] at h1
        cases h1
        omega
      · intro p _ _ hl
        exact absurd hl (Nat.not_lt_zero _)
      · intro L hL
        exact absurd hL (Nat.not_lt_zero _)
    · rw [hfed i e]
      exact h.fed i hi
  · intro i hi
    rw [hfs]
    by_cases e : i = j
    · subst e
      rw [upd_same]
      have hH := h.hist i hi
      refine ⟨?_, ?_, ?_⟩
      · rw [htr 0 (Nat.zero_le _)]
        exact hH.zero
      · intro m hm
        rw [hn'] at hm
        rw [htr m (by omega)]
        by_cases e : m = (s.fed i).n
        · rw [e]
          exact htr1
        · rw [htr (m + 1) (by omega)]
          exact hH.next m (by omega)
      · intro m hm L hL
        rw [hn'] at hm
        rw [htr m (by omega), hinp]
        by_cases e : m = (s.fed i).n
        · have := hF.trS L (by
            unfold view
            dsimp only
            rw [hp]
            exact hL)
          rw [e]
          exact this
        · exact hH.step m (by omega) L hL
    · rw [hfed i e]
      exact h.hist i hi
  · intro i hi
    rw [hfs]
    by_cases e : i = j
    · subst e
      rw [upd_same]
      intro m hm hl
      rw [hn'] at hm
      rw [hlv] at hl ⊢
      rcases hgrants m (by omega) hl with ⟨h1, _⟩ | ⟨h1, h2⟩
      · omega
      · exact Or.inr ⟨hpr.allIn hw h1, h2⟩
    · rw [hfed i e]
      intro m hm hl
      rcases h.grants i hi m hm hl with ⟨h1, h2⟩ | ⟨h1, h2⟩
      · exact Or.inl ⟨h1, hpr.ptagIn hw h2⟩
      · exact Or.inr ⟨hpr.allIn hw h1, h2⟩
  · intro k hk
    apply hpr.ahead hw hk
    rw [hfs]
    by_cases e : (M.P.conn k).dst = j
    · rw [e, upd_same, hn']
      have hC := h.chan k hk
      have hor : ∀ e ∈ s.chan k, ∃ m, e.1 = M.tau (M.arr k m) := by
        intro e he
        obtain ⟨m, _, h2⟩ := hC.origin e he
        exact ⟨m, by rw [h2]⟩
      have hlift : ∀ t, (∃ m, t = M.tau m) → M.tau (s.fed j).n < t → M.tau ((s.fed j).n + 1) ≤ t := by
        rintro t ⟨m, rfl⟩ hlt
        exact mono_le hw.tags (lt_of_mono hw.tags hlt)
      by_cases hc : cyc M k = true
      · have had := hF.admitted (M.P.conn k).port (e ▸ hw.port k hk) (e ▸ (hw.listed k hk hc).1) (by
          unfold view
          dsimp only
          rw [hp]
          exact e ▸ hw.inLevel k hk)
        have had : M.tau (s.fed j).n ≤ (s.fed j).lv.known (M.P.conn k).port := had
        rw [← e] at had
        refine ⟨?_, ?_⟩
        · intro y hy
          rw [← e]
          rw [← e] at hlift
          obtain ⟨m, hm⟩ := hor y hy
          exact hlift _ ⟨_, hm⟩ (Tag.lt_of_le_of_lt had (hC.unknown y hy))
        · intro m hm
          rw [← e]
          exact lt_of_mono hw.tags (Tag.lt_of_le_of_lt had (hC.future m hm))
      · have hS := begun h hk (hw.dst k hk) (by rw [e]; exact hb) (by simpa using hc)
        rw [e] at hS
        refine ⟨?_, ?_⟩
        · intro y hy
          obtain ⟨m, hm⟩ := hor y hy
          exact hlift _ ⟨_, hm⟩ (hS.2 y hy)
        · intro m hm
          by_contra hlt
          exact hm (Or.inl (hS.1 m (by omega)))
    · rw [hfed _ e]
      exact h.ahead k hk
  · intro k hk
    have hC := h.chan k hk
    unfold ChanInv at hC ⊢
    rw [hch, hfs, hinps, hlvs]
    exact hC.mono (e4 k hk) (fun m hm => e3 k m (sent_le hm)) (e5 k)
  · intro i hi p hp t
    rw [hfs, hinps]
    exact h.noConn i hi p hp t

theorem exec_inv (hw : WF M) {s : State S V} (h : Inv M x s) {j L : Nat} (hj : j < M.P.n) (hp : (s.fed j).pc = .passed L) :
    Inv M x (execLevel M s j L) := by
  have hF := h.fed j hj
  have hL := hF.rangeP L hp
  have hF' := fed_exec hF hp
  generalize hf' : ({ s.fed j with
      pc := .level (L + 1)
      st := M.P.exec j L (s.fed j).st ((s.fed j).inp (M.tau (s.fed j).n))
      tr := upd (s.fed j).tr (s.fed j).n (upd ((s.fed j).tr (s.fed j).n) (L + 1)
        (M.P.exec j L (s.fed j).st ((s.fed j).inp (M.tau (s.fed j).n)))) } : Node S V) = f'
  have hE : execLevel M s j L = { s with
      fed := upd s.fed j f'
      chan := fun k => if k < M.P.nc ∧ (M.P.conn k).src = j then
        s.chan k ++ sendNow M.P (M.tau (M.arr k (s.fed j).n)) k L (s.fed j).st else s.chan k } := by
    rw [← hf']
    rfl
  have hn' : f'.n = (s.fed j).n := by rw [← hf']
  have hlv : f'.lv = (s.fed j).lv := by rw [← hf']
  have hpc : f'.pc = .level (L + 1) := by rw [← hf']
  have hinp : f'.inp = (s.fed j).inp := by rw [← hf']
  have htr : ∀ m K, m ≠ (s.fed j).n ∨ K ≤ L → f'.tr m K = (s.fed j).tr m K := by
    intro m K hK
    rw [← hf']
    dsimp only
    by_cases e : m = (s.fed j).n
    · rw [e, upd_same]
      exact upd_other _ _ (by omega)
    · rw [upd_other _ _ e]
  have hst : (s.fed j).st = (s.fed j).tr (s.fed j).n L := by
    have := hF.st
    unfold view at this
    dsimp only at this
    rw [hp] at this
    exact this
  have hview : NodeInv M j f' := by
    have e1 : view M f' = { view M (s.fed j) with
        pc := .level (L + 1)
        st := M.P.exec j L (view M (s.fed j)).st (view M (s.fed j)).inp
        tr := upd (view M (s.fed j)).tr (L + 1) (M.P.exec j L (view M (s.fed j)).st (view M (s.fed j)).inp) } := by
      rw [← hf']
      unfold view
      dsimp only
      rw [upd_same]
    unfold NodeInv
    rw [e1, hn', htr _ 0 (Or.inr (Nat.zero_le _))]
    exact hF'
  rw [hE]
  have hfed : ∀ i, i ≠ j → upd s.fed j f' i = s.fed i := fun i hi => upd_other _ _ hi
  have hlvs : ∀ i, (upd s.fed j f' i).lv = (s.fed i).lv := by
    intro i
    by_cases e : i = j
    · rw [e, upd_same, hlv]
    · rw [hfed i e]
  have hns : ∀ i, (upd s.fed j f' i).n = (s.fed i).n := by
    intro i
    by_cases e : i = j
    · rw [e, upd_same, hn']
    · rw [hfed i e]
  have hinps : ∀ i, (upd s.fed j f' i).inp = (s.fed i).inp := by
    intro i
    by_cases e : i = j
    · rw [e, upd_same, hinp]
    · rw [hfed i e]
  generalize hs' : ({ s with
      fed := upd s.fed j f'
      chan := fun k => if k < M.P.nc ∧ (M.P.conn k).src = j then
        s.chan k ++ sendNow M.P (M.tau (M.arr k (s.fed j).n)) k L (s.fed j).st else s.chan k } : State S V) = s'
  have hfs : s'.fed = upd s.fed j f' := by rw [← hs']
  have hch : ∀ k, s'.chan k = if k < M.P.nc ∧ (M.P.conn k).src = j then
        s.chan k ++ sendNow M.P (M.tau (M.arr k (s.fed j).n)) k L (s.fed j).st else s.chan k := by
    intro k
    rw [← hs']
  have eN : ∀ k, srcN M s' k = srcN M s k := by
    intro k
    unfold srcN
    rw [hfs, hns]
  have other : ∀ k, (M.P.conn k).src ≠ j → (∀ m, sends M s' k m = sends M s k m) ∧ (∀ m, Sent M s' k m ↔ Sent M s k m) := by
    intro k e
    have e1 : ∀ m, sends M s' k m = sends M s k m := by
      intro m
      unfold sends
      rw [hfs, hfed _ e]
    refine ⟨e1, ?_⟩
    intro m
    have e2 : srcPos M s' k = srcPos M s k := by
      unfold srcPos
      rw [hfs, hfed _ e]
    unfold Sent
    rw [eN, e1, e2]
  -- what is sent
  have key : ∀ k, k < M.P.nc → (M.P.conn k).src = j →
      (∀ m, Sent M s k m → sends M s' k m = sends M s k m) ∧
      ((sendNow M.P (M.tau (M.arr k (s.fed j).n)) k L (s.fed j).st = [] ∧ ∀ m, Sent M s' k m ↔ Sent M s k m) ∨
       (sendNow M.P (M.tau (M.arr k (s.fed j).n)) k L (s.fed j).st = [(M.tau (M.arr k (s.fed j).n), sends M s' k (s.fed j).n)] ∧
        ¬ Sent M s k (s.fed j).n ∧ ∀ m, Sent M s' k m ↔ Sent M s k m ∨ m = (s.fed j).n)) := by
    intro k hk e
    have hout := hw.outLevel k hk
    have n1 : srcN M s k = (s.fed j).n := by
      unfold srcN
      rw [e]
    have p1 : srcPos M s k = L := by
      unfold srcPos
      rw [e, hp]
      rfl
    have p2 : srcPos M s' k = L + 1 := by
      unfold srcPos
      rw [hfs, e, upd_same, hpc]
      rfl
    have e3 : ∀ m, m ≠ (s.fed j).n ∨ (M.P.conn k).sendLevel ≤ L → sends M s' k m = sends M s k m := by
      intro m hm
      unfold sends
      rw [hfs, e, upd_same, htr m _ hm]
    have e4 : (M.P.conn k).sendLevel ≤ L → M.P.out k (s.fed j).st = sends M s k (s.fed j).n := by
      intro hle
      have hF0 : FedInv M.P (M.tau (s.fed j).n) (fun _ => (s.fed j).tr (s.fed j).n 0) (M.P.conn k).src (view M (s.fed j)) := by
        rw [e]
        exact hF
      have := out_stable (hw.stable k hk) hF0 L hle (by
        unfold view
        dsimp only
        rw [hp]
        exact Nat.le_refl _)
      rw [hst]
      unfold sends
      rw [e]
      exact this
    have hne : ∀ m, m ≠ (s.fed j).n → (Sent M s' k m ↔ Sent M s k m) := by
      intro m hm
      unfold Sent
      rw [eN, e3 m (Or.inl hm), n1]
      constructor
      · rintro (h1 | ⟨h1, _⟩)
        · exact Or.inl h1
        · exact absurd h1 hm
      · rintro (h1 | ⟨h1, _⟩)
        · exact Or.inl h1
        · exact absurd h1 hm
    have hs0 : Sent M s k (s.fed j).n ↔ (((M.P.conn k).sendLevel < L ∧ (sends M s k (s.fed j).n).isSome = true) ∨
        ((M.P.conn k).absLevel < L ∧ (M.P.conn k).tells = true ∧ sends M s k (s.fed j).n = none)) := by
      unfold Sent
      rw [n1, p1]
      constructor
      · rintro (h1 | h1)
        · omega
        · exact h1.2
      · exact fun h1 => Or.inr ⟨rfl, h1⟩
    have hs1 : Sent M s' k (s.fed j).n ↔ (((M.P.conn k).sendLevel < L + 1 ∧ (sends M s' k (s.fed j).n).isSome = true) ∨
        ((M.P.conn k).absLevel < L + 1 ∧ (M.P.conn k).tells = true ∧ sends M s' k (s.fed j).n = none)) := by
      unfold Sent
      rw [eN, n1, p2]
      constructor
      · rintro (h1 | h1)
        · omega
        · exact h1.2
      · exact fun h1 => Or.inr ⟨rfl, h1⟩
    have lift : (Sent M s' k (s.fed j).n ↔ Sent M s k (s.fed j).n) → ∀ m, Sent M s' k m ↔ Sent M s k m := by
      intro h1 m
      by_cases e5 : m = (s.fed j).n
      · rw [e5]
        exact h1
      · exact hne m e5
    have lift' : Sent M s' k (s.fed j).n → ∀ m, Sent M s' k m ↔ Sent M s k m ∨ m = (s.fed j).n := by
      intro h1 m
      by_cases e5 : m = (s.fed j).n
      · rw [e5]
        exact ⟨fun _ => Or.inr rfl, fun _ => h1⟩
      · rw [hne m e5]
        exact ⟨Or.inl, fun h2 => h2.resolve_right e5⟩
    refine ⟨?_, ?_⟩
    · intro m hm
      by_cases e5 : m = (s.fed j).n
      · apply e3
        right
        rw [e5, hs0] at hm
        omega
      · exact e3 m (Or.inl e5)
    · unfold sendNow
      rcases Nat.lt_or_ge L (M.P.conn k).sendLevel with hl | hl
      · left
        refine ⟨by rw [if_neg (by omega), if_neg (by omega)]; rfl, lift ?_⟩
        rw [hs0, hs1]
        constructor <;> omega
      · have e5 := e3 (s.fed j).n (Or.inr hl)
        have e6 := e4 hl
        rw [e5] at hs1 ⊢
        rw [e6]
        cases ho : sends M s k (s.fed j).n with
        | some v =>
          rw [ho] at hs0 hs1
          simp only [Option.isSome_some, and_true, reduceCtorEq, and_false, or_false] at hs0 hs1 ⊢
          by_cases h1 : L = (M.P.conn k).sendLevel
          · right
            rw [if_pos h1]
            refine ⟨rfl, by rw [hs0]; omega, lift' (hs1.2 (by omega))⟩
          · left
            rw [if_neg h1]
            refine ⟨rfl, lift ?_⟩
            rw [hs0, hs1]
            omega
        | none =>
          rw [ho] at hs0 hs1
          simp only [Option.isSome_none, Bool.false_eq_true, and_false, false_or, and_true, if_false, List.nil_append] at hs0 hs1 ⊢
          by_cases h1 : L = (M.P.conn k).absLevel ∧ (M.P.conn k).tells = true
          · right
            rw [if_pos h1]
            refine ⟨rfl, by rw [hs0]; omega, lift' (hs1.2 ⟨by omega, h1.2⟩)⟩
          · left
            rw [if_neg h1]
            refine ⟨rfl, lift ?_⟩
            rw [hs0, hs1]
            constructor
            · rintro ⟨h2, h3⟩
              refine ⟨?_, h3⟩
              by_contra hlt
              exact h1 ⟨by omega, h3⟩
            · rintro ⟨h2, h3⟩
              exact ⟨by omega, h3⟩
  have hsent : ∀ k m, k < M.P.nc → Sent M s k m → Sent M s' k m := by
    intro k m hk hm
    by_cases e : (M.P.conn k).src = j
    · rcases (key k hk e).2 with ⟨_, h1⟩ | ⟨_, _, h1⟩
      · exact (h1 m).2 hm
      · exact (h1 m).2 (Or.inl hm)
    · exact ((other k e).2 m).2 hm
  have hpast : ∀ k m, k < M.P.nc → Past M s k m → Past M s' k m := by
    rintro k m hk (h1 | h1)
    · exact Or.inl (by rw [eN]; exact h1)
    · exact Or.inr (hsent k m hk h1)
  have hnotpast : ∀ k, (M.P.conn k).src = j → ¬ Sent M s k (s.fed j).n → ¬ Past M s k (s.fed j).n := by
    rintro k e hns (h1 | h1)
    · unfold srcN at h1
      rw [e] at h1
      omega
    · exact hns h1
  have hset : ∀ k i, k < M.P.nc → (∀ m, M.arr k m ≤ i → m < srcN M s k) → (∀ e ∈ s.chan k, M.tau i < e.1) → ∀ e ∈ s'.chan k, M.tau i < e.1 := by
    intro k i hk h1 h2 e he
    rw [hch] at he
    split at he
    · rename_i hc
      rcases List.mem_append.1 he with he | he
      · exact h2 e he
      · rcases (key k hk hc.2).2 with ⟨h3, _⟩ | ⟨h3, h4, _⟩
        · rw [h3] at he
          cases he
        · rw [h3, List.mem_singleton] at he
          rw [he]
          refine mono_lt hw.tags ?_
          by_contra hlt
          exact hnotpast k hc.2 h4 (Or.inl (h1 _ (by omega)))
    · exact h2 e he
  have hfrom : ∀ k, k < M.P.nc → ∀ e ∈ s'.chan k, e ∈ s.chan k ∨ ∃ m, ¬ Past M s k m ∧ e.1 = M.tau (M.arr k m) := by
    intro k hk e he
    rw [hch] at he
    split at he
    · rename_i hc
      rcases List.mem_append.1 he with he | he
      · exact Or.inl he
      · rcases (key k hk hc.2).2 with ⟨h3, _⟩ | ⟨h3, h4, _⟩
        · rw [h3] at he
          cases he
        · rw [h3, List.mem_singleton] at he
          exact Or.inr ⟨_, hnotpast k hc.2 h4, by rw [he]⟩
    · exact Or.inl he
  have hS : ∀ k i, k < M.P.nc → Settled M s k i → Settled M s' k i := by
    intro k i hk h1
    exact ⟨fun m hm => by have := h1.1 m hm; have e := eN k; unfold srcN at e; omega, hset k i hk h1.1 h1.2⟩
  have hSB : ∀ k i, k < M.P.nc → SettledBefore M s k i → SettledBefore M s' k i := by
    intro k i hk h1
    refine ⟨fun m hm => by have := h1.1 m hm; have e := eN k; unfold srcN at e; omega, ?_⟩
    intro e he
    rcases hfrom k hk e he with h2 | ⟨m, h2, h3⟩
    · exact h1.2 e h2
    · rw [h3]
      refine mono_le hw.tags ?_
      by_contra hlt
      exact h2 (Or.inl (h1.1 m (by omega)))
  have hG : ∀ i f, Granted M s i f → Granted M s' i f := by
    intro i f hg m hm hl
    rcases hg m hm hl with ⟨h1, h2⟩ | ⟨h1, h2⟩
    · refine Or.inl ⟨h1, ?_⟩
      intro k hk hd
      have := h2 k hk hd
      split
      · rename_i hc
        rw [if_pos hc] at this
        exact hSB k m hk this
      · rename_i hc
        rw [if_neg hc] at this
        exact hS k m hk this
    · exact Or.inr ⟨fun k hk hd => hS k m hk (h1 k hk hd), h2⟩
  refine ⟨by rw [← hs']; exact h.ok, ?_, ?_, ?_, ?_, ?_, ?_⟩
  · intro i hi
    rw [hfs]
    by_cases e : i = j
    · rw [e, upd_same]
      exact hview
    · rw [hfed i e]
      exact h.fed i hi
  · intro i hi
    rw [hfs]
    by_cases e : i = j
    · rw [e, upd_same]
      have hH := h.hist j hj
      refine ⟨?_, ?_, ?_⟩
      · rw [htr 0 0 (Or.inr (Nat.zero_le _))]
        exact hH.zero
      · intro m hm
        rw [hn'] at hm
        rw [htr (m + 1) 0 (Or.inr (Nat.zero_le _)), htr m _ (Or.inl (by omega))]
        exact hH.next m hm
      · intro m hm K hK
        rw [hn'] at hm
        rw [htr m _ (Or.inl (by omega)), htr m _ (Or.inl (by omega)), hinp]
        exact hH.step m hm K hK
    · rw [hfed i e]
      exact h.hist i hi
  · intro i hi
    apply hG
    have := h.grants i hi
    unfold Granted at this ⊢
    rw [hfs, hns, hlvs]
    exact this
  · intro k hk
    obtain ⟨h1, h2⟩ := h.ahead k hk
    rw [hfs, hns]
    refine ⟨?_, fun m hm => h2 m fun hc => hm (hpast k m hk hc)⟩
    intro e he
    rcases hfrom k hk e he with h3 | ⟨m, h3, h4⟩
    · exact h1 e h3
    · rw [h4]
      exact mono_le hw.tags (h2 m h3)
  · intro k hk
    have hC := h.chan k hk
    unfold ChanInv at hC ⊢
    rw [hch, hfs, hinps, hlvs]
    by_cases e : (M.P.conn k).src = j
    · rw [if_pos ⟨hk, e⟩]
      obtain ⟨h1, h2⟩ := key k hk e
      rcases h2 with ⟨h3, h4⟩ | ⟨h3, h4, h5⟩
      · rw [h3, List.append_nil]
        exact hC.mono h4 h1 (fun m => hpast k m hk)
      · rw [h3]
        refine hC.send (ta_mono hw hk) (hnotpast k e h4) (fun m hm => Or.inr hm) h5 h1 (fun m => hpast k m hk) (Or.inr ((h5 _).2 (Or.inr rfl))) ?_
        intro m hm
        left
        unfold srcN
        rw [e]
        exact hm
    · rw [if_neg (fun hc => e hc.2)]
      exact hC.mono (other k e).2 (fun m _ => (other k e).1 m) (fun m => hpast k m hk)
  · intro i hi p hp t
    rw [hfs, hinps]
    exact h.noConn i hi p hp t

end ReactorC.Cycle.Run
