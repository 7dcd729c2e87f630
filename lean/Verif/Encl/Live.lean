import Verif.Encl.Safe
import Verif.Rti.ProgressProps

/-! Lemmas for the enclaves: the grants are up to date. -/

set_option linter.unusedSimpArgs false
set_option linter.unusedVariables false

namespace ReactorC.Encl
open ReactorC ReactorC.Rti

section
variable {T : Topology} {start : Int}

/-! Without zero-delay cycles the local RTI does what the remote one does. -/

theorem notifyIfSafe_eq (h0 : 0 ≤ start) (hT : T.Ok) (hz : T.NoZeroDelayCycle) {i : Nat} (hi : i < T.n) {s : Rti}
    (hp : PI T s) : notifyIfSafe T start i s = Rti.notifyIfSafe T start i s := by
  have key : (tagAdvanceGrantIfSafe T start i s).2.2 = false := by
    unfold tagAdvanceGrantIfSafe
    by_cases hA : lf_tag_compare (minUpstreamCompleted T i s) (s.node i).lastGranted > 0 ∧
        lf_tag_compare (minUpstreamCompleted T i s) (s.node i).nextEvent ≥ 0
    · rw [if_pos hA]
    · rw [if_neg hA]
      obtain ⟨s1, d, h1, h2, h3, h4, h5⟩ := eimt_spec h0 hi s
      rw [h1]
      dsimp only
      have q2 := @eimtStrict_quiet T start h0 hT i s1
      generalize hs2 : eimtStrict T start i s1 = r at q2 ⊢
      obtain ⟨s2, ds⟩ := r
      dsimp only at q2 ⊢
      obtain ⟨p1, k1⟩ := h2.pi h0 hp
      obtain ⟨p2, k2⟩ := q2.pi h0 p1
      have hzdc := not_zdc hT hz p2 i
      split
      · rfl
      · split
        · rename_i h; rw [hzdc] at h; simp at h
        · rfl
  unfold notifyIfSafe Rti.notifyIfSafe
  dsimp only
  rw [key]
  rfl

theorem notifyDownstream_eq (h0 : 0 ≤ start) (hT : T.Ok) (hD : T.DownOk) (hz : T.NoZeroDelayCycle) (depth : Nat) :
    ∀ (i : Nat) (a : Rti × (Nat → Bool)), PI T a.1 →
      notifyDownstream T start depth i a = Rti.notifyDownstream T start depth i a ∧
      PI T (notifyDownstream T start depth i a).1 := by
  induction depth with
  | zero => intro i a hp; exact ⟨rfl, ⟨hp.cache, hp.prov, hp.ok, hp.sent, hp.gone, hp.time⟩⟩
  | succ depth ihd =>
    intro i a hp
    unfold notifyDownstream Rti.notifyDownstream
    have hr := hD i
    generalize T.down i = js at hr
    have hp' : PI T (a.1, put a.2 i true).1 := hp
    generalize (a.1, put a.2 i true) = b at hp'
    induction js generalizing b with
    | nil => exact ⟨rfl, hp'⟩
    | cons j js ih =>
      rw [List.foldl_cons, List.foldl_cons]
      have hrs : ∀ j ∈ js, j < T.n := fun j hj => hr j (List.mem_cons_of_mem _ hj)
      have hj := hr j List.mem_cons_self
      have e : (if b.2 j then b else notifyDownstream T start depth j (notifyIfSafe T start j b.1, b.2)) =
          (if b.2 j then b else Rti.notifyDownstream T start depth j (Rti.notifyIfSafe T start j b.1, b.2)) ∧
          PI T (if b.2 j then b else notifyDownstream T start depth j (notifyIfSafe T start j b.1, b.2)).1 := by
        by_cases hb : b.2 j = true
        · rw [if_pos hb, if_pos hb]; exact ⟨rfl, hp'⟩
        · rw [if_neg hb, if_neg hb, notifyIfSafe_eq h0 hT hz hj hp']
          exact ihd j _ (notifyIfSafe_pi h0 hT hz hj hp').1
      rw [← e.1]
      exact ih hrs _ e.2

theorem notifyAllDownstream_eq (h0 : 0 ≤ start) (hT : T.Ok) (hD : T.DownOk) (hz : T.NoZeroDelayCycle) (i : Nat) {s : Rti}
    (hp : PI T s) : notifyAllDownstream T start i s = Rti.notifyAllDownstream T start i s := by
  unfold notifyAllDownstream Rti.notifyAllDownstream
  rw [(notifyDownstream_eq h0 hT hD hz (T.n + 1) i (s, fun _ => false) hp).1]

theorem updateNextEvent_eq (h0 : 0 ≤ start) (hT : T.Ok) (hD : T.DownOk) (hz : T.NoZeroDelayCycle) {i : Nat} (hi : i < T.n)
    {t : Tag} (ht : 0 ≤ t.time) {s : Rti} (hc : (s.node i).connected = true) (hp : PI T s) :
    updateNextEvent T start i t s = Rti.updateNextEvent T start i t s ∧
    ((updateNextEvent T start i t s).node i).nextEvent = t ∧
    ∀ j, j ≠ i → (s.node j).nextEvent ≠ NEVER_TAG →
      ((updateNextEvent T start i t s).node j).nextEvent = (s.node j).nextEvent := by
  have hneg : NEVER_TAG.time < 0 := by decide
  have htn : t ≠ NEVER_TAG := by intro e; subst e; omega
  unfold updateNextEvent Rti.updateNextEvent
  dsimp only
  have p1 : PI T (s.setNode i fun nd => { nd with nextEvent := t }) :=
    hp.setNode i _ (fun c hc => .inl hc) rfl (.inl rfl) (fun h => by dsimp only at h; rw [hc] at h; cases h) (.inr ht)
  have e1 : ((s.setNode i fun nd => { nd with nextEvent := t }).node i).nextEvent = t := by rw [setNode_same]
  have e2 : ∀ j, j ≠ i → ((s.setNode i fun nd => { nd with nextEvent := t }).node j).nextEvent = (s.node j).nextEvent :=
    fun j hj => by rw [setNode_other _ _ hj]
  generalize (s.setNode i fun nd => { nd with nextEvent := t }) = a at p1 e1 e2
  by_cases hu : T.up i ≠ []
  · rw [if_pos hu, if_pos hu, notifyIfSafe_eq h0 hT hz hi p1]
    obtain ⟨k1, k2, _⟩ := notifyIfSafe_pi h0 hT hz hi p1
    rw [notifyAllDownstream_eq h0 hT hD hz i k1]
    obtain ⟨m1, m2, _⟩ := notifyAllDownstream_pi h0 hT hD hz hi k1
    have hs := k2.trans m2
    refine ⟨rfl, ?_, fun j hj hn => ?_⟩
    · rw [hs.next i (by rw [e1]; exact htn), e1]
    · rw [hs.next j (by rw [e2 j hj]; exact hn), e2 j hj]
  · rw [if_neg hu, if_neg hu]
    have hu : T.up i = [] := by simpa using hu
    have p2 := p1.setNode i (fun nd => { nd with lastGranted := t }) (fun c hc => .inl hc) rfl (.inr hu) (p1.gone i) (p1.time i)
    rw [notifyAllDownstream_eq h0 hT hD hz i p2]
    obtain ⟨m1, m2, _⟩ := notifyAllDownstream_pi h0 hT hD hz hi p2
    refine ⟨rfl, ?_, fun j hj hn => ?_⟩
    · rw [m2.next i (by rw [setNode_same]; dsimp only; rw [e1]; exact htn), setNode_same]; exact e1
    · rw [m2.next j (by rw [setNode_other _ _ hj, e2 j hj]; exact hn), setNode_other _ _ hj, e2 j hj]

theorem logicalTagComplete_eq (h0 : 0 ≤ start) (hT : T.Ok) (hD : T.DownOk) (hz : T.NoZeroDelayCycle) {i : Nat} {c : Tag}
    {s : Rti} (hp : PI T s) : logicalTagComplete T start i c s = Rti.logicalTagComplete T start i c s := by
  unfold logicalTagComplete Rti.logicalTagComplete
  have p1 : PI T (s.setNode i fun nd => { nd with completed := c }) :=
    hp.setNode i _ (fun c hc => .inl hc) rfl (.inl rfl) (hp.gone i) (hp.time i)
  have : ∀ (l : List Nat) (a : Rti), (∀ j ∈ l, j < T.n) → PI T a →
      l.foldl (fun (s : Rti) (j : Nat) => notifyAllDownstream T start j (notifyIfSafe T start j s)) a =
      l.foldl (fun (s : Rti) (j : Nat) => Rti.notifyAllDownstream T start j (Rti.notifyIfSafe T start j s)) a := by
    intro l
    induction l with
    | nil => intro a _ _; rfl
    | cons j l ih =>
      intro a hl ha
      rw [List.foldl_cons, List.foldl_cons]
      have hj := hl j List.mem_cons_self
      obtain ⟨a1, _, _⟩ := notifyIfSafe_pi h0 hT hz hj ha
      obtain ⟨b1, _, _⟩ := notifyAllDownstream_pi h0 hT hD hz hj a1
      rw [notifyIfSafe_eq h0 hT hz hj ha, notifyAllDownstream_eq h0 hT hD hz j a1]
      exact ih _ (fun x hx => hl x (List.mem_cons_of_mem _ hx)) b1
  exact this _ _ (fun j hj => hD i j hj) p1

/-! ## The invariant -/

def Waits (σ : Sys) (e : Nat) : Bool :=
  match σ.call e with
  | .waiting _ _ => true
  | _ => false

structure WInv (T : Topology) (start : Int) (σ : Sys) : Prop where
  pi : PI T σ.rti
  cur : Current T start (Waits σ) σ.rti
  wait : ∀ e p t, σ.call e = .waiting p t →
    (p = NEVER_TAG ∨ Down.tag p ∈ σ.rti.out e) ∧ p < (σ.rti.node e).nextEvent ∧ (σ.rti.node e).nextEvent ≤ t

theorem waits_of {σ : Sys} {e : Nat} {p t : Tag} (h : σ.call e = .waiting p t) : Waits σ e = true := by
  unfold Waits; rw [h]

theorem of_waits {σ : Sys} {e : Nat} (h : Waits σ e = true) : ∃ p t, σ.call e = .waiting p t := by
  unfold Waits at h
  split at h
  · rename_i p t hc; exact ⟨p, t, hc⟩
  · cases h

theorem WInv.step (hT : T.Ok) (hD : T.DownOk) (hz : T.NoZeroDelayCycle) (hK : T.Consistent) (h0 : 0 ≤ start)
    (h1 : start < FOREVER) (hn : T.n ≠ 1) {σ σ' : Sys} (hb : BInv T start σ) (hi : EInv T start σ) (hv : WInv T start σ)
    {a : Act} (hw : a.allowed T start σ) (hq : a.undisturbed σ) (h : exec T start σ a = some σ') : WInv T start σ' := by
  have hneg : NEVER_TAG.time < 0 := by decide
  have hR : ∀ j, Waits σ j = true → j < T.n := by
    intro j hj
    obtain ⟨p, t, hc⟩ := of_waits hj
    exact hb.call j (by rw [hc]; simp)
  unfold exec at h
  cases a with
  | enter e t =>
    dsimp only at h
    rw [if_neg hn] at h
    cases h
    have hsub : ∀ j p u, put σ.call e (.entering t) j = .waiting p u → σ.call j = .waiting p u := by
      intro j p u hj
      by_cases x : j = e
      · subst x; rw [put_same] at hj; cases hj
      · rwa [put_other _ _ _ x] at hj
    refine ⟨hv.pi, fun j hj => ?_, fun j p u hj => hv.wait j p u (hsub j p u hj)⟩
    obtain ⟨p, u, hc⟩ := of_waits hj
    exact hv.cur j (waits_of (hsub j p u hc))
  | update e =>
    dsimp only at h
    split at h
    · rename_i t hc
      have he := hb.call e (by rw [hc]; simp)
      obtain ⟨ht, hst⟩ := hb.tags e t hc
      obtain ⟨_, l2, l3, l4⟩ := updateNextEvent_linv (start := start) hT hD h0 hb.linv he (t := t)
      obtain ⟨e1, e2, e3⟩ := updateNextEvent_eq h0 hT hD hz he (sane_time ht) (hb.linv.conn e) hv.pi
      obtain ⟨m1, m2⟩ := updateNextEvent_pi h0 hT hD hz hK hR he hv.pi (hb.linv.conn e) (sane_time ht) hv.cur
      rw [← e1] at m1 m2
      generalize updateNextEvent T start e t σ.rti = r at h l2 l3 l4 e2 e3 m1 m2
      have others : ∀ j p u, j ≠ e → σ.call j = .waiting p u →
          (p = NEVER_TAG ∨ Down.tag p ∈ r.out j) ∧ p < (r.node j).nextEvent ∧ (r.node j).nextEvent ≤ u := by
        intro j p u x hj
        obtain ⟨k1, k2⟩ := hv.wait j p u hj
        rw [e3 j x (hv.cur j (waits_of hj)).1]
        exact ⟨k1.imp id (l2 j _), k2⟩
      by_cases hg : lf_tag_compare (r.node e).lastGranted t ≥ 0
      · rw [if_pos hg] at h
        cases h
        have hsub : ∀ j p u, put σ.call e .idle j = .waiting p u → σ.call j = .waiting p u ∧ j ≠ e := by
          intro j p u hj
          by_cases x : j = e
          · subst x; rw [put_same] at hj; cases hj
          · rw [put_other _ _ _ x] at hj; exact ⟨hj, x⟩
        refine ⟨m1, fun j hj => ?_, fun j p u hj => ?_⟩
        · obtain ⟨p, u, hc'⟩ := of_waits hj
          obtain ⟨k1, k2⟩ := hsub j p u hc'
          exact m2 j (by rw [put_other _ _ _ k2]; exact waits_of k1)
        · obtain ⟨k1, k2⟩ := hsub j p u hj
          exact others j p u k2 k1
      · have hu : ¬ T.up e = [] := fun k => hg ((cmp_ge_zero _ _).2 (l4 k))
        rw [if_neg hg, if_neg hu] at h
        cases h
        refine ⟨m1, fun j hj => ?_, fun j p u hj => ?_⟩
        · refine m2 j ?_
          by_cases x : j = e
          · subst x; exact put_same _ _ _
          · obtain ⟨p, u, hc'⟩ := of_waits hj
            dsimp only at hc'
            rw [put_other _ _ _ x] at hc'
            rw [put_other _ _ _ x]; exact waits_of hc'
        · dsimp only at hj
          by_cases x : j = e
          · subst x; rw [put_same] at hj; cases hj
            refine ⟨(hb.linv.sent j hu).imp id (l2 j _), ?_, ?_⟩
            · rw [e2]
              rw [ge_iff_le, not_le, cmp_lt_zero] at hg
              exact Tag.lt_of_le_of_lt (l3 j hu) hg
            · rw [e2]; exact Tag.le_refl _
          · rw [put_other _ _ _ x] at hj; exact others j p u x hj
    · cases h
  | wake e =>
    dsimp only at h
    split at h
    · split at h
      · cases h
        have hsub : ∀ j p u, put σ.call e .idle j = .waiting p u → σ.call j = .waiting p u := by
          intro j p u hj
          by_cases x : j = e
          · subst x; rw [put_same] at hj; cases hj
          · rwa [put_other _ _ _ x] at hj
        refine ⟨hv.pi, fun j hj => ?_, fun j p u hj => hv.wait j p u (hsub j p u hj)⟩
        obtain ⟨p, u, hc⟩ := of_waits hj
        exact hv.cur j (waits_of (hsub j p u hc))
      · cases h
    · cases h
  | complete e c =>
    dsimp only at h
    rw [if_neg hn] at h
    cases h
    obtain ⟨m1, m2⟩ := logicalTagComplete_pi (i := e) (c := c) h0 hT hD hz hv.pi
    rw [← logicalTagComplete_eq h0 hT hD hz hv.pi] at m1 m2
    have l1 := hb.linv.setNode e (fun nd => { nd with completed := c }) rfl (.inl rfl)
    obtain ⟨_, g2⟩ := Micros.linv (logicalTagComplete_micros h0 hT hD (i := e) (c := c) (s := σ.rti)) l1
    refine ⟨m1, m2.current hv.cur, fun j p u hj => ?_⟩
    obtain ⟨k1, k2⟩ := hv.wait j p u hj
    refine ⟨k1.imp id (g2.2 j _), ?_⟩
    dsimp only
    rw [m2.next j (hv.cur j (waits_of hj)).1]; exact k2
  | message i d s w m =>
    dsimp only at h
    cases h
    obtain ⟨h2, h3, h4, _, h5, h6, h7, h8, h9, h10, h11⟩ := hw
    have hc : Cause T start i d s w m := ⟨h3, h4, h5, h6, h7, h8, h11⟩
    have hlater := hi.rti.later hT hi.comp hc h10 (Tag.lt_of_le_of_lt (hi.done i) h9) (hb.linv.conn i)
    have pw : PI T (σ.rti.write d (.msg m)) :=
      ⟨hv.pi.cache, hv.pi.prov, hv.pi.ok, fun j hu => (hv.pi.sent j hu).imp id fun h => mem_write.2 (.inl h), hv.pi.gone,
        hv.pi.time⟩
    have cw : Current T start (Waits σ) (σ.rti.write d (.msg m)) := hv.cur
    have ww : ∀ e p t, σ.call e = .waiting p t →
        (p = NEVER_TAG ∨ Down.tag p ∈ (σ.rti.write d (.msg m)).out e) ∧
        p < ((σ.rti.write d (.msg m)).node e).nextEvent ∧ ((σ.rti.write d (.msg m)).node e).nextEvent ≤ t := by
      intro e p t he
      obtain ⟨k1, k2⟩ := hv.wait e p t he
      exact ⟨k1.imp id fun h => mem_write.2 (.inl h), k2⟩
    have hnx : ∀ u, (((σ.rti.write d (.msg m)).node u).nextEvent = NEVER_TAG ∨
        Sane T ((σ.rti.write d (.msg m)).node u).nextEvent) ∧ ((σ.rti.write d (.msg m)).node u).nextEvent ≤ σ.net u :=
      hi.rti.next
    suffices H : PI T (updateOtherNet d m (σ.rti.write d (.msg m))) ∧
        Current T start (Waits σ) (updateOtherNet d m (σ.rti.write d (.msg m))) ∧
        ∀ e p t, σ.call e = .waiting p t →
          (p = NEVER_TAG ∨ Down.tag p ∈ (updateOtherNet d m (σ.rti.write d (.msg m))).out e) ∧
          p < ((updateOtherNet d m (σ.rti.write d (.msg m))).node e).nextEvent ∧
          ((updateOtherNet d m (σ.rti.write d (.msg m))).node e).nextEvent ≤ t from ⟨H.1, H.2.1, H.2.2⟩
    have hcn : ((σ.rti.write d (.msg m)).node d).connected = true := hb.linv.conn d
    generalize hr : σ.rti.write d (.msg m) = r at pw cw ww hnx hcn
    have hsst := sane_start hT h0 h1
    have heffS : ∀ x, Sane T (eff start r x) := by
      intro x
      unfold eff
      split
      · exact hsst
      · rename_i hne; exact (hnx x).1.resolve_left hne
    unfold updateOtherNet
    by_cases hlt : lf_tag_compare m (r.node d).nextEvent < 0
    · rw [if_pos hlt]
      have hlt := (cmp_lt_zero _ _).1 hlt
      have hmt := sane_time h7
      have hdn : (r.node d).nextEvent ≠ NEVER_TAG := by intro e; rw [e] at hlt; tag_omega
      have hdS := (hnx d).1.resolve_left hdn
      have hmF : m < FOREVER_TAG := Tag.lt_of_lt_of_le hlt (le_forever hdS.delay)
      have hmN : m ≠ NEVER_TAG := by intro e; subst e; omega
      refine ⟨pw.setNode d _ (fun c hc => .inl hc) rfl (.inl rfl) (fun h => ?_) (.inr hmt), fun j hj => ?_, fun j p u hj => ?_⟩
      · dsimp only at h
        rw [hcn] at h
        cases h
      · obtain ⟨k1, k2⟩ := cw j hj
        by_cases x : j = d
        · subst x
          refine ⟨by rw [setNode_same]; exact hmN, ?_⟩
          right; right; right
          obtain ⟨hdel, hroom⟩ := @room_delays T hT (fun _ => true) j h3 i
          have hconn := (delays_connection (conn := fun _ => true) hT h3 rfl h4).2 rfl
          -- the sender
          have heff : eff start (r.setNode j fun nd => { nd with nextEvent := m }) i ≤ s ∧
              Sane T (eff start (r.setNode j fun nd => { nd with nextEvent := m }) i) := by
            by_cases y : i = j
            · subst y
              have : eff start (r.setNode i fun nd => { nd with nextEvent := m }) i = m := by
                unfold eff; rw [setNode_same]; dsimp only; rw [if_neg hmN]
              rw [this]
              exact ⟨Tag.le_trans (Tag.le_of_lt hlt) (Tag.le_trans (hnx i).2 h10), h7⟩
            · have : eff start (r.setNode j fun nd => { nd with nextEvent := m }) i = eff start r i := by
                unfold eff; rw [setNode_other _ _ y]
              rw [this]
              refine ⟨?_, heffS i⟩
              unfold eff
              split
              · exact h8
              · exact Tag.le_trans (hnx i).2 h10
          have hsum := hc.bound hT heff.2 heff.1 h3 delay_zero (.inr ⟨by decide, by
            have : ZERO_TAG.microstep = 0 := rfl
            omega⟩) hconn
          rw [add_zero h7] at hsum
          refine ⟨fun _ => true, i, ?_, ?_⟩
          · rcases Tag.lt_or_eq_of_le (le_forever hdel) with k | k
            · exact k
            · rw [k, add_forever_right heff.2.delay] at hsum
              exact absurd (Tag.lt_of_lt_of_le hmF hsum) (Tag.lt_irrefl _)
          · rw [setNode_same]; exact hsum
        · refine ⟨by rw [setNode_other _ _ x]; exact k1, ?_⟩
          unfold Settled
          rw [setNode_other _ _ x]
          rcases k2 with k | k | k | ⟨conn, y, k3, k4⟩
          · exact .inl k
          · exact .inr (.inl k)
          · exact .inr (.inr (.inl k))
          · refine .inr (.inr (.inr ⟨conn, y, k3, Tag.le_trans ?_ k4⟩))
            by_cases z : y = d
            · subst z
              have e1 : eff start (r.setNode y fun nd => { nd with nextEvent := m }) y = m := by
                unfold eff; rw [setNode_same]; dsimp only; rw [if_neg hmN]
              have e2 : eff start r y = (r.node y).nextEvent := by unfold eff; rw [if_neg hdn]
              obtain ⟨hdel, hroom⟩ := @room_delays T hT conn j (hR j hj) y
              rw [e1]
              refine add_mono_left h7 (heffS y) hdel hroom ?_
              rw [e2]; exact Tag.le_of_lt hlt
            · have : eff start (r.setNode d fun nd => { nd with nextEvent := m }) y = eff start r y := by
                unfold eff; rw [setNode_other _ _ z]
              rw [this]; exact Tag.le_refl _
      · obtain ⟨k1, k2, k3⟩ := ww j p u hj
        by_cases x : j = d
        · subst x
          refine ⟨k1, ?_, ?_⟩
          · rw [setNode_same]
            rcases k1 with k | k
            · rw [k]; show NEVER_TAG < m; tag_omega
            · rw [← hr] at k
              rcases mem_write.1 k with k | ⟨_, k⟩
              · rcases hlater _ k with k | k
                · exact k
                · rw [k] at hmF; exact absurd hmF (Tag.lt_irrefl _)
              · cases k
          · rw [setNode_same]; exact Tag.le_trans (Tag.le_of_lt hlt) k3
        · rw [setNode_other _ _ x]; exact ⟨k1, k2, k3⟩
    · rw [if_neg hlt]
      exact ⟨pw, cw, ww⟩

theorem Reach.winv (hT : T.Ok) (hD : T.DownOk) (hz : T.NoZeroDelayCycle) (hK : T.Consistent) (h0 : 0 ≤ start)
    (h1 : start < FOREVER) (hn : T.n ≠ 1) {σ : Sys} (h : Reach T start false σ) : WInv T start σ := by
  induction h with
  | init =>
    refine ⟨⟨fun u c hc => (by cases hc), fun j => rfl, fun j => rfl, fun j _ => .inl rfl, fun j hj => (by cases hj),
      fun j => .inl rfl⟩, fun j hj => (by cases hj), fun e p t h => (by cases h)⟩
  | step a hr hw hq he ih =>
    rcases hq with k | k
    · cases k
    · exact ih.step hT hD hz hK h0 h1 hn (hr.binv hT hD h0 hn) (hr.einv hT hD h0 h1 hn) hw k he

end
end ReactorC.Encl
