import Verif.Cycle.Lemmas

/-!
# C85: the invariant holds in every step
-/

namespace ReactorC.Cycle
open ReactorC
variable {S V : Type} {P : Prog S V} {g : Tag} {x : Nat → S}

/-- An output is not changed after the reaction that sends it. -/
theorem out_stable {k : Nat} (hw : ∀ L x i, (P.conn k).sendLevel ≤ L → P.out k (P.exec (P.conn k).src L x i) = P.out k x) {f : Fed S V} (h : FedInv P g x (P.conn k).src f) :
    ∀ L, (P.conn k).sendLevel ≤ L → L ≤ pos P (P.conn k).src f.pc → P.out k (f.tr L) = P.out k (f.tr (P.conn k).sendLevel) := by
  intro L h1
  induction h1 with
  | refl => exact fun _ => rfl
  | @step L h1 ih =>
    intro h2
    have h1 : (P.conn k).sendLevel ≤ L := h1
    have h2 : L + 1 ≤ pos P (P.conn k).src f.pc := h2
    show P.out k (f.tr (L + 1)) = _
    rw [h.trS L (by omega), hw L _ _ h1]
    exact ih (by omega)

theorem exec_inv (hw : WF P) {s : State S V} (h : Inv P g x s) {j L : Nat} (hj : j < P.n) (hp : (s.fed j).pc = .passed L) :
    Inv P g x (execLevel P g s j L) := by
  have hF := h.fed j hj
  have hF' := fed_exec hF hp
  generalize hf' : ({ s.fed j with
      pc := .level (L + 1)
      st := P.exec j L (s.fed j).st (s.fed j).inp
      tr := upd (s.fed j).tr (L + 1) (P.exec j L (s.fed j).st (s.fed j).inp) } : Fed S V) = f' at hF'
  have hlv : f'.lv = (s.fed j).lv := by rw [← hf']
  have hinp : f'.inp = (s.fed j).inp := by rw [← hf']
  have hpc : f'.pc = .level (L + 1) := by rw [← hf']
  have htr : ∀ M, M ≤ L → f'.tr M = (s.fed j).tr M := by
    intro M hM
    rw [← hf']
    exact upd_other _ _ (by omega)
  have hst : (s.fed j).st = (s.fed j).tr L := by
    have := hF.st
    rw [hp] at this
    exact this
  have hE : execLevel P g s j L = { s with
      fed := upd s.fed j f'
      chan := fun k => if k < P.nc ∧ (P.conn k).src = j then s.chan k ++ sendNow P g k L (s.fed j).st else s.chan k } := by
    rw [← hf']
    rfl
  rw [hE]
  have hfed : ∀ i, i ≠ j → upd s.fed j f' i = s.fed i := fun i hi => upd_other _ _ hi
  have hlvs : ∀ i, (upd s.fed j f' i).lv = (s.fed i).lv := by
    intro i
    by_cases e : i = j
    · rw [e, upd_same, hlv]
    · rw [hfed i e]
  have hinps : ∀ i, (upd s.fed j f' i).inp = (s.fed i).inp := by
    intro i
    by_cases e : i = j
    · rw [e, upd_same, hinp]
    · rw [hfed i e]
  have hset : ∀ k, Settled P g s k → Settled P g { s with
      fed := upd s.fed j f'
      chan := fun k => if k < P.nc ∧ (P.conn k).src = j then s.chan k ++ sendNow P g k L (s.fed j).st else s.chan k } k := by
    rintro k ⟨h1, h2⟩
    have e : (P.conn k).src ≠ j := by
      intro e
      rw [e, hp] at h1
      cases h1
    refine ⟨?_, ?_⟩
    · show (upd s.fed j f' (P.conn k).src).pc = .done
      rw [hfed _ e]
      exact h1
    · dsimp only
      rw [if_neg (fun hc => e hc.2)]
      exact h2
  refine ⟨h.ok, ?_, ?_, ?_, ?_, ?_⟩
  · intro i hi
    show FedInv P g x i (upd s.fed j f' i)
    by_cases e : i = j
    · rw [e, upd_same]
      exact hF'
    · rw [hfed i e]
      exact h.fed i hi
  · intro i hi
    dsimp only
    rw [hlvs i]
    intro hl
    rcases h.grants i hi hl with ⟨h1, h2, h3⟩ | h1
    · exact Or.inl ⟨h1, h2, fun k hk hd hz => hset k (h3 k hk hd hz)⟩
    · exact Or.inr fun k hk hd => hset k (h1 k hk hd)
  · intro k hk
    dsimp only
    intro hb hc
    apply hset
    refine h.begun k hk ?_ hc
    by_cases e : (P.conn k).dst = j
    · rw [e, hp]
      simp
    · rw [hfed _ e] at hb
      exact hb
  · intro k hk
    have hc := h.chan k hk
    unfold ChanInv at hc ⊢
    dsimp only
    rw [hlvs, hinps]
    by_cases e : (P.conn k).src = j
    · rw [if_pos ⟨hk, e⟩]
      have hout := hw.outLevel k hk
      have hnd : ¬ (upd s.fed j f' (P.conn k).src).pc = .done := by
        rw [e, upd_same, hpc]
        simp
      have hnd0 : ¬ (s.fed (P.conn k).src).pc = .done := by
        rw [e, hp]
        simp
      have e1 : srcPos P s k = L := by
        unfold srcPos
        rw [e, hp]
        rfl
      generalize hs' : ({ s with
          fed := upd s.fed j f'
          chan := fun k => if k < P.nc ∧ (P.conn k).src = j then s.chan k ++ sendNow P g k L (s.fed j).st else s.chan k } : State S V) = s'
      have e2 : srcPos P s' k = L + 1 := by
        unfold srcPos
        rw [← hs']
        dsimp only
        rw [e, upd_same, hpc]
        rfl
      have e3 : (P.conn k).sendLevel ≤ L → sends P s' k = sends P s k := by
        intro hle
        unfold sends
        rw [← hs']
        dsimp only
        rw [e, upd_same, htr _ hle]
      have e4 : (P.conn k).sendLevel ≤ L → P.out k (s.fed j).st = sends P s k := by
        intro hle
        have hF0 := hF
        rw [← e] at hF0
        have := out_stable (hw.stable k hk) hF0 L hle (by
          have := e1
          unfold srcPos at this
          omega)
        rw [hst]
        unfold sends
        rw [← this, e]
      unfold sendNow
      rcases Nat.lt_trichotomy L (P.conn k).sendLevel with hl | hl | hl
      · have hns : ¬ Sent P s k := by
          unfold Sent
          rw [e1]
          omega
        have hns' : ¬ Sent P s' k := by
          unfold Sent
          rw [e2]
          omega
        rw [if_neg (by omega), if_neg (by omega), List.nil_append, List.append_nil]
        obtain ⟨h1, h2, h3⟩ := hc.notYet hns
        exact ⟨fun _ => ⟨h1, h2, fun _ => h3 hnd0⟩, fun hs => absurd hs hns'⟩
      · have hns : ¬ Sent P s k := by
          unfold Sent
          rw [e1]
          omega
        obtain ⟨h1, h2, h3⟩ := hc.notYet hns
        obtain ⟨h4, h5⟩ := h3 hnd0
        rw [e3 (by omega), e4 (by omega), h4, List.nil_append]
        by_cases hso : (sends P s k).isSome = true
        · have hsent : Sent P s' k := by
            left
            rw [e2, e3 (by omega)]
            exact ⟨by omega, hso⟩
          have hne : ¬ sends P s k = none := by
            intro hn
            rw [hn] at hso
            cases hso
          rw [if_pos ⟨hl, hso⟩, if_neg (fun hn => hne hn.2.2)]
          refine ⟨fun hn => absurd hsent hn, fun _ => Or.inl ⟨[], rfl, ?_, h5, h1⟩⟩
          intro y hy
          cases hy
        · have hno : sends P s k = none := by
            cases hh : sends P s k with
            | none => rfl
            | some v =>
              rw [hh] at hso
              exact absurd rfl hso
          rw [if_neg (fun hn => hso hn.2), List.nil_append]
          by_cases ht : L = (P.conn k).absLevel ∧ (P.conn k).tells = true
          · rw [if_pos ⟨ht.1, ht.2, hno⟩]
            have hsent : Sent P s' k := by
              right
              rw [e2, e3 (by omega)]
              exact ⟨by omega, ht.2, hno⟩
            refine ⟨fun hn => absurd hsent hn, fun _ => Or.inl ⟨[], by rw [hno], ?_, h5, h1⟩⟩
            intro y hy
            cases hy
          · rw [if_neg (fun hn => ht ⟨hn.1, hn.2.1⟩)]
            have hns' : ¬ Sent P s' k := by
              rintro (⟨_, h6⟩ | ⟨h6, h7, _⟩)
              · rw [e3 (by omega)] at h6
                exact hso h6
              · rw [e2] at h6
                exact ht ⟨by omega, h7⟩
            refine ⟨fun _ => ⟨h1, ?_, fun _ => ⟨rfl, h5⟩⟩, fun hs => absurd hs hns'⟩
            intro y hy
            cases hy
      · rw [e3 (by omega), e4 (by omega), if_neg (by omega), List.nil_append]
        by_cases ht : L = (P.conn k).absLevel ∧ (P.conn k).tells = true ∧ sends P s k = none
        · rw [if_pos ht]
          have hns : ¬ Sent P s k := by
            rintro (⟨_, h6⟩ | ⟨h6, _⟩)
            · rw [ht.2.2] at h6
              cases h6
            · rw [e1] at h6
              omega
          have hsent : Sent P s' k := by
            right
            rw [e2, e3 (by omega)]
            exact ⟨by omega, ht.2.1, ht.2.2⟩
          obtain ⟨h1, h2, h3⟩ := hc.notYet hns
          obtain ⟨h4, h5⟩ := h3 hnd0
          rw [h4, List.nil_append]
          refine ⟨fun hn => absurd hsent hn, fun _ => Or.inl ⟨[], by rw [ht.2.2], ?_, h5, h1⟩⟩
          intro y hy
          cases hy
        · rw [if_neg ht, List.append_nil]
          have hiff : Sent P s' k ↔ Sent P s k := by
            unfold Sent
            rw [e1, e2, e3 (by omega)]
            constructor
            · rintro (⟨_, h6⟩ | ⟨h6, h7, h8⟩)
              · exact Or.inl ⟨by omega, h6⟩
              · refine Or.inr ⟨?_, h7, h8⟩
                by_contra hlt
                exact ht ⟨by omega, h7, h8⟩
            · rintro (⟨_, h6⟩ | ⟨h6, h7, h8⟩)
              · exact Or.inl ⟨by omega, h6⟩
              · exact Or.inr ⟨by omega, h7, h8⟩
          refine ⟨fun hn => ?_, fun hs => hc.sent (hiff.1 hs)⟩
          obtain ⟨h1, h2, h3⟩ := hc.notYet fun hs => hn (hiff.2 hs)
          exact ⟨h1, h2, fun _ => h3 hnd0⟩
    · rw [if_neg (fun hn => e hn.2)]
      have e1 : sends P { s with
          fed := upd s.fed j f'
          chan := fun k => if k < P.nc ∧ (P.conn k).src = j then s.chan k ++ sendNow P g k L (s.fed j).st else s.chan k } k = sends P s k := by
        unfold sends
        dsimp only
        rw [hfed _ e]
      have e2 : srcPos P { s with
          fed := upd s.fed j f'
          chan := fun k => if k < P.nc ∧ (P.conn k).src = j then s.chan k ++ sendNow P g k L (s.fed j).st else s.chan k } k = srcPos P s k := by
        unfold srcPos
        dsimp only
        rw [hfed _ e]
      unfold Sent
      rw [e1, e2, hfed _ e]
      exact hc
  · intro i p hn
    show (upd s.fed j f' i).inp p = none
    rw [hinps]
    exact h.noConn i p hn

theorem handleMessage_lv (hw : Local P) {j : Nat} (lv : Level.State) (p : Nat) (t : Tag) :
    ∃ st, Level.handleMessage (P.cfg j) lv p t true = { Level.updatePort (P.cfg j) lv p t with status := st } := by
  unfold Level.handleMessage
  split
  · exact ⟨_, rfl⟩
  · have : Level.actualTag (P.cfg j) lv p t = t := by
      unfold Level.actualTag
      rw [hw.central j]
      simp
    rw [this]
    exact ⟨_, rfl⟩

/-- What is on the way is for the tag or a later one; if it is for the tag, it is what has been sent, and the port is not known. -/
theorem head_cases {s : State S V} (h : Inv P g x s) {k : Nat} (hk : k < P.nc) {t : Tag} {o : Option V} {rest : List (Tag × Option V)}
    (hc : s.chan k = (t, o) :: rest) :
    (t = g ∧ Sent P s k ∧ o = sends P s k ∧ Later g rest ∧ (s.fed (P.conn k).dst).lv.known (P.conn k).port < g ∧
      (s.fed (P.conn k).dst).inp (P.conn k).port = none) ∨
    (g < t ∧ t.microstep < UINT_MAX ∧ Later g rest ∧ ((Sent P s k ∧ g ≤ (s.fed (P.conn k).dst).lv.known (P.conn k).port ∧
      (s.fed (P.conn k).dst).inp (P.conn k).port = sends P s k) ∨ (¬ Sent P s k ∧ (s.fed (P.conn k).src).pc = .done ∧
        (s.fed (P.conn k).dst).inp (P.conn k).port = none))) := by
  have hC := h.chan k hk
  by_cases hs : Sent P s k
  · rcases hC.sent hs with ⟨r, h1, h2, h3, h4⟩ | ⟨h1, h2, h3⟩
    · rw [hc] at h1
      cases h1
      exact Or.inl ⟨rfl, hs, rfl, h2, h3, h4⟩
    · rw [hc] at h1
      have h4 := h1 (t, o) List.mem_cons_self
      exact Or.inr ⟨h4.1, h4.2, fun e he => h1 e (List.mem_cons_of_mem _ he), Or.inl ⟨hs, h2, h3⟩⟩
  · obtain ⟨h1, h2, h3⟩ := hC.notYet hs
    rw [hc] at h2 h3
    have h4 := h2 (t, o) List.mem_cons_self
    refine Or.inr ⟨h4.1, h4.2, fun e he => h2 e (List.mem_cons_of_mem _ he), Or.inr ⟨hs, ?_, h1⟩⟩
    by_contra hd
    cases (h3 hd).1

theorem deliver_inv (hw : WF P) (hg : g.microstep < UINT_MAX) {s : State S V} (h : Inv P g x s) {k : Nat} (hk : k < P.nc) {t : Tag}
    {o : Option V} {rest : List (Tag × Option V)} (hc : s.chan k = (t, o) :: rest) : Inv P g x (deliver P g s k t o rest) := by
  have hj := hw.dst k hk
  have hF := h.fed _ hj
  have hhead := head_cases h hk hc
  have htg : g ≤ t ∧ t.microstep < UINT_MAX := by
    rcases hhead with ⟨e, _⟩ | ⟨h1, h2, _⟩
    · rw [e]
      exact ⟨Tag.le_refl _, hg⟩
    · exact ⟨Tag.le_of_lt h1, h2⟩
  -- a message for the tag comes before the level of its reaction
  have hahead : t = g → pos P (P.conn k).dst (s.fed (P.conn k).dst).pc ≤ ((P.cfg (P.conn k).dst).port (P.conn k).port).level ∧
      ¬ ((P.cfg (P.conn k).dst).port (P.conn k).port).level < adm P (P.conn k).dst (s.fed (P.conn k).dst).pc ∧
      ((s.fed (P.conn k).dst).pc ≠ .before →
        (s.fed (P.conn k).dst).lv.mlaa ≤ ((P.cfg (P.conn k).dst).port (P.conn k).port).level) := by
    intro e
    subst e
    rcases hhead with ⟨_, _, _, _, hkn, _⟩ | ⟨h1, _⟩
    · by_cases hb : (s.fed (P.conn k).dst).pc = .before
      · rw [hb]
        exact ⟨Nat.zero_le _, Nat.not_lt_zero _, fun hn => absurd rfl hn⟩
      · have hcy : inCycle P k = true := by
          by_contra hn
          have := h.begun k hk hb (by simpa using hn)
          exact this.2 (t, o) (by rw [hc]; exact List.mem_cons_self) rfl
        have hl := (hw.listed k hk hcy).1
        have hna : ¬ ((P.cfg (P.conn k).dst).port (P.conn k).port).level < adm P (P.conn k).dst (s.fed (P.conn k).dst).pc := by
          intro hlt
          exact absurd (hF.admitted _ (hw.port k hk) hl hlt) (Tag.not_le.2 hkn)
        refine ⟨?_, hna, fun _ => ?_⟩
        · have : pos P (P.conn k).dst (s.fed (P.conn k).dst).pc ≤ adm P (P.conn k).dst (s.fed (P.conn k).dst).pc := by
            cases (s.fed (P.conn k).dst).pc <;> simp [pos, adm]
          omega
        · by_contra hlt
          have h1 := hw.inLevel k hk
          have h2 := hw.few (P.conn k).dst
          have := (hF.level hb _ (by unfold Level.INT_MAX; omega)).1 (Nat.lt_of_not_le hlt) _ (hw.port k hk) hl (Nat.le_refl _)
          exact absurd this (Tag.not_le.2 hkn)
    · exact absurd h1 (Tag.lt_irrefl _)
  obtain ⟨k1, k2⟩ := updatePort_known hF hg (p := (P.conn k).port) htg.1 htg.2
  have hU := fed_updatePort hw.toLocal hj hF hg (p := (P.conn k).port) htg.1 htg.2
  -- the new state of the destination
  have key : ∃ f' : Fed S V, ∃ b : Bool, b = false ∧
      deliver P g s k t o rest = ⟨upd s.fed (P.conn k).dst f', upd s.chan k rest, s.fault || b⟩ ∧
      FedInv P g x (P.conn k).dst f' ∧ f'.pc = (s.fed (P.conn k).dst).pc ∧ f'.tr = (s.fed (P.conn k).dst).tr ∧
      f'.lv.lastTAG = (s.fed (P.conn k).dst).lv.lastTAG ∧ f'.lv.prov = (s.fed (P.conn k).dst).lv.prov ∧
      g ≤ f'.lv.known (P.conn k).port ∧ (∀ q, q ≠ (P.conn k).port → f'.lv.known q = (s.fed (P.conn k).dst).lv.known q) ∧
      (∀ q, q ≠ (P.conn k).port → f'.inp q = (s.fed (P.conn k).dst).inp q) ∧
      (t = g → o.isSome = true → f'.inp (P.conn k).port = o) ∧
      (t ≠ g ∨ o = none → f'.inp = (s.fed (P.conn k).dst).inp) := by
    have hlp : (Level.updatePort (P.cfg (P.conn k).dst) (s.fed (P.conn k).dst).lv (P.conn k).port t).lastTAG =
        (s.fed (P.conn k).dst).lv.lastTAG ∧
        (Level.updatePort (P.cfg (P.conn k).dst) (s.fed (P.conn k).dst).lv (P.conn k).port t).prov =
        (s.fed (P.conn k).dst).lv.prov := by
      rcases Level.updatePort_cases (P.cfg (P.conn k).dst) (s.fed (P.conn k).dst).lv (P.conn k).port t with ⟨e, _⟩ | e <;>
        rw [e] <;> exact ⟨rfl, rfl⟩
    cases o with
    | none =>
      refine ⟨{ s.fed (P.conn k).dst with
          lv := Level.updatePort (P.cfg (P.conn k).dst) (s.fed (P.conn k).dst).lv (P.conn k).port t }, false, rfl, ?_, hU, rfl, rfl,
        hlp.1, hlp.2, k1, k2, fun _ _ => rfl, fun _ hn => (by cases hn), fun _ => rfl⟩
      unfold deliver
      simp
    | some v =>
      obtain ⟨st, est⟩ := handleMessage_lv hw.toLocal (j := (P.conn k).dst) (s.fed (P.conn k).dst).lv (P.conn k).port t
      have hS := fed_status st hU
      have hnow : (!Level.handleMessageNow (P.cfg (P.conn k).dst) (s.fed (P.conn k).dst).lv (P.conn k).port t true &&
            decide (t ≤ (s.fed (P.conn k).dst).lv.cur) ||
          Level.handleMessageNow (P.cfg (P.conn k).dst) (s.fed (P.conn k).dst).lv (P.conn k).port t true &&
            decide (((P.cfg (P.conn k).dst).port (P.conn k).port).level < adm P (P.conn k).dst (s.fed (P.conn k).dst).pc)) = false := by
        by_cases e : t = g
        · obtain ⟨h1, h2, h3⟩ := hahead e
          rw [decide_eq_false h2, Bool.and_false, Bool.or_false]
          by_cases hb : (s.fed (P.conn k).dst).pc = .before
          · have := hF.curB hb
            rw [decide_eq_false (by rw [e]; exact Tag.not_le.2 this), Bool.and_false]
          · have hcur := (hF.curA hb).1
            have hkn : (s.fed (P.conn k).dst).lv.known (P.conn k).port < g := by
              rcases hhead with ⟨_, _, _, _, hkn, _⟩ | ⟨h4, _⟩
              · exact hkn
              · rw [e] at h4
                exact absurd h4 (Tag.lt_irrefl _)
            have hnow : Level.handleMessageNow (P.cfg (P.conn k).dst) (s.fed (P.conn k).dst).lv (P.conn k).port t true = true := by
              unfold Level.handleMessageNow
              simp only [Bool.and_eq_true, decide_eq_true_eq, cmp_eq_zero, gt_iff_lt, cmp_gt_zero, Bool.not_eq_true']
              refine ⟨⟨⟨⟨⟨?_, ?_⟩, trivial⟩, ?_⟩, hF.running⟩, hw.logical k hk⟩
              · have := h3 hb
                unfold Level.Port.level at this
                have := Nat.mod_le ((P.cfg (P.conn k).dst).port (P.conn k).port).index 65536
                omega
              · rw [e, hcur]
              · rw [e]
                exact hkn
            rw [hnow]
            rfl
        · have hgt : g < t := by
            rcases hhead with ⟨e', _⟩ | ⟨h1, _⟩
            · exact absurd e' e
            · exact h1
          have hlt := Tag.lt_of_le_of_lt (curLe hF) hgt
          have hnow : Level.handleMessageNow (P.cfg (P.conn k).dst) (s.fed (P.conn k).dst).lv (P.conn k).port t true = false := by
            unfold Level.handleMessageNow
            have : ¬ lf_tag_compare t (s.fed (P.conn k).dst).lv.cur = 0 := by
              rw [cmp_eq_zero]
              intro e'
              rw [e'] at hlt
              exact Tag.lt_irrefl _ hlt
            simp [this]
          rw [hnow, decide_eq_false (Tag.not_le.2 hlt)]
          rfl
      by_cases e : t = g
      · refine ⟨{ s.fed (P.conn k).dst with
            lv := Level.handleMessage (P.cfg (P.conn k).dst) (s.fed (P.conn k).dst).lv (P.conn k).port t true
            inp := upd (s.fed (P.conn k).dst).inp (P.conn k).port (some v) }, _, hnow, ?_, ?_, rfl, rfl, ?_, ?_, ?_, ?_, ?_, ?_, ?_⟩
        · unfold deliver
          dsimp only
          rw [if_pos e, Bool.or_assoc]
        · rw [est]
          exact fed_setInp hw.toLocal hS (some v) (hahead e).1
        · dsimp only
          rw [est]
          exact hlp.1
        · dsimp only
          rw [est]
          exact hlp.2
        · dsimp only
          rw [est]
          exact k1
        · intro q hq
          dsimp only
          rw [est]
          exact k2 q hq
        · intro q hq
          exact upd_other _ _ hq
        · intro _ _
          exact upd_same _ _ _
        · rintro (h1 | h1)
          · exact absurd e h1
          · cases h1
      · refine ⟨{ s.fed (P.conn k).dst with
            lv := Level.handleMessage (P.cfg (P.conn k).dst) (s.fed (P.conn k).dst).lv (P.conn k).port t true },
          _, hnow, ?_, ?_, rfl, rfl, ?_, ?_, ?_, ?_, fun _ _ => rfl, fun h1 => absurd h1 e, fun _ => rfl⟩
        · unfold deliver
          dsimp only
          rw [if_neg e, Bool.or_assoc]
        · rw [est]
          exact hS
        · dsimp only
          rw [est]
          exact hlp.1
        · dsimp only
          rw [est]
          exact hlp.2
        · dsimp only
          rw [est]
          exact k1
        · intro q hq
          dsimp only
          rw [est]
          exact k2 q hq
  obtain ⟨f', b, hb, hE, hF', hpc, htr, hlt, hpr, hk1, hk2, hi1, hi2, hi3⟩ := key
  subst hb
  rw [hE, Bool.or_false]
  have hfed : ∀ i, i ≠ (P.conn k).dst → upd s.fed (P.conn k).dst f' i = s.fed i := fun i hi => upd_other _ _ hi
  have hpcs : ∀ i, (upd s.fed (P.conn k).dst f' i).pc = (s.fed i).pc := by
    intro i
    by_cases e : i = (P.conn k).dst
    · rw [e, upd_same, hpc]
    · rw [hfed i e]
  have htrs : ∀ i, (upd s.fed (P.conn k).dst f' i).tr = (s.fed i).tr := by
    intro i
    by_cases e : i = (P.conn k).dst
    · rw [e, upd_same, htr]
    · rw [hfed i e]
  have hset : ∀ k', Settled P g s k' → Settled P g ⟨upd s.fed (P.conn k).dst f', upd s.chan k rest, s.fault⟩ k' := by
    rintro k' ⟨h1, h2⟩
    refine ⟨?_, ?_⟩
    · dsimp only
      rw [hpcs]
      exact h1
    · dsimp only
      by_cases e : k' = k
      · rw [e, upd_same]
        intro y hy
        exact h2 y (by rw [e, hc]; exact List.mem_cons_of_mem _ hy)
      · rw [upd_other _ _ e]
        exact h2
  refine ⟨h.ok, ?_, ?_, ?_, ?_, ?_⟩
  · intro i hi
    dsimp only
    by_cases e : i = (P.conn k).dst
    · rw [e, upd_same]
      exact hF'
    · rw [hfed i e]
      exact h.fed i hi
  · intro i hi
    dsimp only
    have e1 : (upd s.fed (P.conn k).dst f' i).lv.lastTAG = (s.fed i).lv.lastTAG ∧
        (upd s.fed (P.conn k).dst f' i).lv.prov = (s.fed i).lv.prov := by
      by_cases e : i = (P.conn k).dst
      · rw [e, upd_same]
        exact ⟨hlt, hpr⟩
      · rw [hfed i e]
        exact ⟨rfl, rfl⟩
    rw [e1.1, e1.2]
    intro hl
    rcases h.grants i hi hl with ⟨h1, h2, h3⟩ | h1
    · exact Or.inl ⟨h1, h2, fun k hk hd hz => hset k (h3 k hk hd hz)⟩
    · exact Or.inr fun k hk hd => hset k (h1 k hk hd)
  · intro k' hk'
    dsimp only
    rw [hpcs]
    intro hb hc
    exact hset k' (h.begun k' hk' hb hc)
  · intro k' hk'
    have hC := h.chan k' hk'
    unfold ChanInv at hC ⊢
    have e1 : sends P ⟨upd s.fed (P.conn k).dst f', upd s.chan k rest, s.fault⟩ k' = sends P s k' := by
      unfold sends
      dsimp only
      rw [htrs]
    have e2 : Sent P ⟨upd s.fed (P.conn k).dst f', upd s.chan k rest, s.fault⟩ k' = Sent P s k' := by
      unfold Sent srcPos
      dsimp only
      rw [e1, hpcs]
    rw [e1, e2]
    dsimp only
    rw [hpcs]
    by_cases e : k' = k
    · subst e
      rw [upd_same, upd_same]
      rcases hhead with ⟨h1, h2, h3, h4, h5, h6⟩ | ⟨h1, h2, h3, h4⟩
      · refine ⟨fun hn => absurd h2 hn, fun _ => Or.inr ⟨h4, hk1, ?_⟩⟩
        rw [← h3]
        by_cases hso : o.isSome = true
        · exact hi2 h1 hso
        · have : o = none := by
            cases o with
            | none => rfl
            | some v => exact absurd rfl hso
          rw [hi3 (Or.inr this), h6, this]
      · have e3 : f'.inp = (s.fed (P.conn k').dst).inp := hi3 (Or.inl fun e => by
          rw [e] at h1
          exact Tag.lt_irrefl _ h1)
        rw [e3]
        rcases h4 with ⟨h5, h6, h7⟩ | ⟨h5, h6, h7⟩
        · exact ⟨fun hn => absurd h5 hn, fun _ => Or.inr ⟨h3, hk1, h7⟩⟩
        · exact ⟨fun _ => ⟨h7, h3, fun hn => absurd h6 hn⟩, fun hs => absurd hs h5⟩
    · rw [upd_other _ _ e]
      have e4 : (upd s.fed (P.conn k).dst f' (P.conn k').dst).lv.known (P.conn k').port = (s.fed (P.conn k').dst).lv.known (P.conn k').port ∧
          (upd s.fed (P.conn k).dst f' (P.conn k').dst).inp (P.conn k').port = (s.fed (P.conn k').dst).inp (P.conn k').port := by
        by_cases e5 : (P.conn k').dst = (P.conn k).dst
        · have e6 : (P.conn k').port ≠ (P.conn k).port := fun e6 => e (hw.inj k' hk' k hk e5 e6)
          rw [e5, upd_same]
          exact ⟨hk2 _ e6, hi1 _ e6⟩
        · rw [hfed _ e5]
          exact ⟨rfl, rfl⟩
      rw [e4.1, e4.2]
      exact hC
  · intro i p hn
    dsimp only
    by_cases e : i = (P.conn k).dst
    · subst e
      rw [upd_same, hi1 p (fun e => hn k hk ⟨rfl, e.symm⟩)]
      exact h.noConn _ p hn
    · rw [hfed i e]
      exact h.noConn i p hn

theorem work_inv (hw : WF P) (hg : g.microstep < UINT_MAX) {s s' : State S V} (h : Inv P g x s) (st : Work P g s s') : Inv P g x s' := by
  cases st with
  | @ptag j hj hz hl hs =>
    obtain ⟨h1, hb⟩ := fed_ptag (h.fed j hj) hl
    exact local_inv h hj h1 rfl rfl rfl (fun hd => hd) (Or.inl rfl) (fun _ => Or.inl ⟨rfl, hz, hs⟩) (fun hn => absurd hb hn)
  | @tag j hj hl ha =>
    obtain ⟨h1, h2, h3⟩ := fed_tag hw.toLocal (h.fed j hj) (Tag.le_refl g) (Tag.le_of_lt hl)
    exact local_inv h hj h1 rfl rfl rfl (fun hd => hd) (Or.inr ⟨ha, h2⟩) (fun _ => Or.inr ha) (fun hn => Or.inl hn)
  | @start j hj hb hl =>
    obtain ⟨h1, h2⟩ := fed_start hw.toLocal hj (h.fed j hj) hb hl (fun p => ((s.fed j).inp p).isSome)
    refine local_inv h hj h1 rfl rfl (by rw [hb]; rfl) (fun hd => by rw [hb] at hd; cases hd) (Or.inl h2) (fun _ => h.grants j hj hl) ?_
    intro _
    right
    intro k hk hd hc
    rcases h.grants j hj hl with ⟨_, h4, h5⟩ | h4
    · refine h5 k hk hd ?_
      unfold inCycle at hc
      rw [hd, h4, Bool.and_true] at hc
      exact hc
    · exact h4 k hk hd
  | @stall j L hj hp hL _ =>
    have h1 := fed_stall hw.toLocal (h.fed j hj) hp hL
    refine local_inv h hj h1 rfl rfl ?_ (fun hd => by rw [hp] at hd; cases hd) (Or.inl ?_) ?_ (fun _ => Or.inl (by rw [hp]; simp))
    · rw [hp]
      dsimp only
      split <;> rfl
    · show (Level.stall (s.fed j).lv L).known = _
      unfold Level.stall
      split <;> rfl
    · show g ≤ (Level.stall (s.fed j).lv L).lastTAG → ((Level.stall (s.fed j).lv L).prov = true ∧ _) ∨ _
      unfold Level.stall
      split <;> exact h.grants j hj
  | @exec j L hj hp => exact exec_inv hw h hj hp
  | @finish j hj hp =>
    exact local_inv h hj (fed_finish (h.fed j hj) hp) rfl rfl (by rw [hp]; rfl) (fun _ => rfl) (Or.inl rfl) (h.grants j hj)
      (fun _ => Or.inl (by rw [hp]; simp))
  | @deliver k t o rest hk hc => exact deliver_inv hw hg h hk hc

theorem step_inv (hw : WF P) (hg : g.microstep < UINT_MAX) {s s' : State S V} (h : Inv P g x s) (st : Step P g s s') : Inv P g x s' := by
  cases st with
  | work w => exact work_inv hw hg h w
  | @later k t o hk hd ht hm =>
    have hset : ∀ k', Settled P g s k' → Settled P g { s with chan := upd s.chan k (s.chan k ++ [(t, o)]) } k' := by
      rintro k' ⟨h1, h2⟩
      refine ⟨h1, ?_⟩
      dsimp only
      by_cases e : k' = k
      · rw [e, upd_same]
        intro y hy
        rcases List.mem_append.1 hy with hy | hy
        · exact h2 y (e ▸ hy)
        · rw [List.mem_singleton] at hy
          subst hy
          intro e
          dsimp only at e
          rw [e] at ht
          exact Tag.lt_irrefl _ ht
      · rw [upd_other _ _ e]
        exact h2
    refine ⟨h.ok, h.fed, ?_, fun k hk hb hc => hset k (h.begun k hk hb hc), ?_, h.noConn⟩
    · intro i hi hl
      rcases h.grants i hi hl with ⟨h1, h2, h3⟩ | h1
      · exact Or.inl ⟨h1, h2, fun k hk hd hz => hset k (h3 k hk hd hz)⟩
      · exact Or.inr fun k hk hd => hset k (h1 k hk hd)
    · intro k' hk'
      have hC := h.chan k' hk'
      unfold ChanInv at hC ⊢
      by_cases e : k' = k
      · subst e
        have happ : ∀ l : List (Tag × Option V), Later g l → Later g (l ++ [(t, o)]) := by
          intro l hl y hy
          rcases List.mem_append.1 hy with hy | hy
          · exact hl y hy
          · rw [List.mem_singleton] at hy
            subst hy
            exact ⟨ht, hm⟩
        dsimp only
        rw [upd_same]
        refine ⟨fun hn => ?_, fun hs => ?_⟩
        · obtain ⟨h1, h2, _⟩ := hC.notYet hn
          exact ⟨h1, happ _ h2, fun hn => absurd hd hn⟩
        · rcases hC.sent hs with ⟨r, h1, h2, h3⟩ | ⟨h1, h2⟩
          · exact Or.inl ⟨r ++ [(t, o)], by rw [h1]; rfl, happ _ h2, h3⟩
          · exact Or.inr ⟨happ _ h1, h2⟩
      · dsimp only
        rw [upd_other _ _ e]
        exact hC
  | @grant j t hj ht hl ha =>
    obtain ⟨h1, h2, h3⟩ := fed_tag hw.toLocal (h.fed j hj) ht hl
    exact local_inv h hj h1 rfl rfl rfl (fun hd => hd) (Or.inr ⟨ha, h2⟩) (fun _ => Or.inr ha) (fun hn => Or.inl hn)

theorem reach_inv (hw : WF P) (hg : g.microstep < UINT_MAX) {s : State S V} (h : Reach P g x s) : Inv P g x s := by
  induction h with
  | init h => exact init_inv h
  | step _ st ih => exact step_inv hw hg ih st

end ReactorC.Cycle
