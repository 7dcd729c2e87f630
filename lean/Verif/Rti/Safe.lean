import Verif.Rti.SysInv

/-! Every step of a federation keeps the invariant of Verif.Rti.SysInv. -/

set_option linter.unusedSimpArgs false
set_option linter.unusedVariables false

namespace ReactorC.Rti
open ReactorC

section
variable {T : Topology} {start : Int}

/-- The RTI forwards a message. -/
theorem SInv.message (hT : T.Ok) (hD : T.DownOk) (h0 : 0 ≤ start) (h1 : start < FOREVER) {β : Nat → Tag} {σ : Sys}
    (h : SInv T start β σ) {i d : Nat} {s : Tag} {w : Int} {m : Tag} {q : List Up} {r : Rti}
    (hi : (σ.rti.node i).connected = true) (hq : σ.up i = .msg d s w m :: q)
    (hr : handleTimedMessage T start d m σ.rti = some r) :
    ∃ β', SInv T start β' { σ with rti := r, up := put σ.up i q } := by
  have hp := h.pre i hi
  rw [hq] at hp
  obtain ⟨hc, hbs, hcs, hp⟩ := hp
  -- the queue is shorter
  have hpop : SInv T start β { σ with up := put σ.up i q } := by
    have := h.send i q (σ.net i) (σ.done i) (Tag.le_refl _) (fun _ _ => hp)
    rwa [put_self, put_self] at this
  unfold handleTimedMessage at hr
  by_cases hd : (σ.rti.node d).connected = false
  · rw [if_pos hd] at hr
    cases hr
    exact ⟨β, hpop⟩
  rw [if_neg hd] at hr
  have hd : (σ.rti.node d).connected = true := by simpa using hd
  by_cases hb : σ.rti.broken d = true
  · rw [if_pos hb] at hr; cases hr
  rw [if_neg hb] at hr
  dsimp only at hr
  have hlater := h.rti.later hT h.comp hc hbs hcs hi
  have hms : (⟨start, 0⟩ : Tag) ≤ m := Tag.le_trans hc.started (Tag.le_trans (le_delay w hc.sane) hc.delay)
  have hrw := h.rti.writeMsg hlater
  -- the bounds afterwards
  obtain ⟨β', hβle, hβm, hβ'd, hβ's, hCO⟩ : ∃ β' : Nat → Tag, (∀ u, β' u ≤ β u) ∧ β' d ≤ m ∧
      (∀ u, u ≠ d → β' u = β u) ∧ (∀ u, Sane T (β' u) ∧ (⟨start, 0⟩ : Tag) ≤ β' u) ∧
      (β' d = β d ∨ β' d = m) := by
    by_cases hm : m < β d
    · refine ⟨put β d m, fun u => ?_, ?_, fun u hu => put_other _ _ _ hu, fun u => ?_, .inr (put_same _ _ _)⟩
      · by_cases hu : u = d
        · subst hu; rw [put_same]; exact Tag.le_of_lt hm
        · rw [put_other _ _ _ hu]; exact Tag.le_refl _
      · rw [put_same]; exact Tag.le_refl _
      · by_cases hu : u = d
        · subst hu; rw [put_same]; exact ⟨hc.msg, hms⟩
        · rw [put_other _ _ _ hu]; exact h.rti.sane u
    · exact ⟨β, fun _ => Tag.le_refl _, Tag.not_lt.1 hm, fun _ _ => rfl, h.rti.sane, .inl rfl⟩
  have hβ'eq : β' = β ∨ β' = put β d m := by
    rcases hCO with k | k
    · left; funext u
      by_cases hu : u = d
      · subst hu; exact k
      · exact hβ'd u hu
    · right; funext u
      by_cases hu : u = d
      · subst hu; rw [put_same]; exact k
      · rw [put_other _ _ _ hu]; exact hβ'd u hu
  -- rebasing any state with the same connections
  have rebase : ∀ a : Rti, (a.node d).connected = true → RInv T start β a → (∀ u, (a.node u).nextEvent ≤ β' u) →
      RInv T start β' a := by
    intro a ha hra hn
    refine hra.rebase hβ's hn (fun own R j hR hco => ?_) (fun R j hR hco => ?_)
    · rcases hβ'eq with k | k
      · rw [k]; exact hco
      · rw [k]; exact hco.lower hT hR (fun u => (hra.sane u).1) hc hbs ha
    · rcases hβ'eq with k | k
      · rw [k]; exact hco.1
      · rw [k]
        by_cases hj : j = d
        · subst hj; rw [put_same]; exact hco.2.message hT (fun u => (hra.sane u).1) hc hbs (.inr ha) hR
        · rw [put_other _ _ _ hj]; exact hco.1
  -- the state after the message is noted as being in transit
  generalize hw : σ.rti.write d (.msg m) = a at hr hrw
  have an : a.node = σ.rti.node := by rw [← hw]; rfl
  have ao : ∀ u p, Down.msg p ∈ a.out u → Down.msg p ∈ σ.rti.out u ∨ (u = d ∧ p = m) := by
    intro u p hp
    rw [← hw, mem_write] at hp
    rcases hp with hp | ⟨k1, k2⟩
    · exact .inl hp
    · cases k2; exact .inr ⟨k1, rfl⟩
  have at' : a.transit = σ.rti.transit := by rw [← hw]; rfl
  generalize hb' : (if lf_tag_compare (a.node d).completed m < 0 then
      if m ∈ a.transit d then a else { a with transit := put a.transit d (m :: a.transit d) } else a) = b at hr
  have hbn : b.node = σ.rti.node := by
    rw [← hb', ← an]; split
    · split <;> rfl
    · rfl
  have hbo : b.out = a.out := by
    rw [← hb']; split
    · split <;> rfl
    · rfl
  have hbt : (∀ u, u ≠ d → b.transit u = σ.rti.transit u) ∧ (∀ t ∈ b.transit d, t ∈ σ.rti.transit d ∨ t = m) ∧
      (∀ t ∈ σ.rti.transit d, t ∈ b.transit d) ∧ (m ∈ b.transit d ∨ m ≤ (σ.rti.node d).completed) := by
    rw [← hb', ← an, ← at']
    split
    · split
      · rename_i hmem
        exact ⟨fun _ _ => rfl, fun t ht => .inl ht, fun t ht => ht, .inl hmem⟩
      · refine ⟨fun u hu => put_other _ _ _ hu, fun t ht => ?_, fun t ht => ?_, .inl ?_⟩ <;> dsimp only at * <;>
          rw [put_same] at *
        · rcases List.mem_cons.1 ht with k | k
          · exact .inr k
          · exact .inl k
        · exact List.mem_cons_of_mem _ ht
        · exact List.mem_cons_self
    · rename_i hcm
      rw [cmp_lt_zero, Tag.not_lt] at hcm
      exact ⟨fun _ _ => rfl, fun t ht => .inl ht, fun t ht => ht, .inr hcm⟩
  have hrb : RInv T start β b := hrw.congr (by rw [hbn, an]) hbo
  -- the invariant for `b`, except for the bound of the next event
  have fin : ∀ c : Rti, RInv T start β' c → MKeep b c →
      SInv T start β' { σ with rti := c, up := put σ.up i q } := by
    intro c hrc k
    have hconn : ∀ u, (c.node u).connected = true → (σ.rti.node u).connected = true := by
      intro u hu; rw [← hbn]; exact k.connected u hu
    have hcomp : ∀ u, (c.node u).completed = (σ.rti.node u).completed := by
      intro u; rw [k.completed u, hbn]
    refine ⟨hrc, fun u => ?_, fun u t ht => ?_, fun u hu t ht => ?_, fun u hu => ?_, fun u hu p hpo => ?_⟩
    · dsimp only; rw [hcomp]; exact h.comp u
    · dsimp only at ht; rw [k.transit] at ht
      by_cases hud : u = d
      · subst hud
        rcases hbt.2.1 t ht with k | k
        · exact h.transit u t k
        · rw [k]; exact ⟨hc.msg, hms⟩
      · rw [hbt.1 u hud] at ht; exact h.transit u t ht
    · dsimp only at ht; rw [k.transit] at ht
      by_cases hud : u = d
      · subst hud
        rcases hbt.2.1 t ht with k' | k'
        · exact Tag.le_trans (hβle u) (h.low u (hconn u hu) t k')
        · rw [k']; exact hβm
      · rw [hbt.1 u hud] at ht; exact Tag.le_trans (hβle u) (h.low u (hconn u hu) t ht)
    · dsimp only; rw [k.transit, hcomp]
      refine (hpop.pre u (hconn u hu)).mono (hβle u) fun t ht => ?_
      by_cases hud : u = d
      · subst hud; exact hbt.2.2.1 t ht
      · rw [hbt.1 u hud]; exact ht
    · dsimp only at hpo ⊢; rw [k.transit]
      have hpo := (k.msgs u p).1 hpo
      rw [hbo] at hpo
      rcases ao u p hpo with hpo | ⟨rfl, rfl⟩
      · rcases h.msgs u (hconn u hu) p hpo with k' | k'
        · exact .inl k'
        · right
          by_cases hud : u = d
          · subst hud; exact hbt.2.2.1 p k'
          · rw [hbt.1 u hud]; exact k'
      · rcases hbt.2.2.2 with k' | k'
        · exact .inr k'
        · exact .inl (Tag.le_trans k' ((h.pre u hd).done_ge (h.low u hd)))
  by_cases hnx : lf_tag_compare m (b.node d).nextEvent < 0
  · rw [if_pos hnx] at hr
    cases hr
    rw [cmp_lt_zero] at hnx
    have hmβ : m ≤ β d := Tag.le_trans (Tag.le_of_lt hnx) (hrb.next d).2
    have hmβ' : m ≤ β' d := by
      rcases hCO with k | k
      · rw [k]; exact hmβ
      · rw [k]; exact Tag.le_refl _
    have r1 := hrb.setNext d hc.msg hmβ
    have r2 := rebase _ (by rw [setNode_same, hbn]; exact hd) r1 (by
      intro u
      by_cases hu : u = d
      · subst hu; rw [setNode_same]; exact hmβ'
      · rw [setNode_other _ _ hu, hβ'd u hu]; exact (hrb.next u).2)
    obtain ⟨r3, k3⟩ := updateFederate_inv hT hD h0 h1 r2 hc.dest (t := m) hc.msg (by
      intro x hx
      rcases hbt.2.1 x hx with k | k
      · exact (h.transit d x k).1
      · rw [k]; exact hc.msg) (.inl hmβ')
    have k2 := (mkeep_setNode b d (fun nd => { nd with nextEvent := m }) (fun _ => rfl) (fun _ h => h)).trans k3
    rw [updateFederate_setNext] at r3 k2
    exact ⟨β', fin _ r3 k2⟩
  · rw [if_neg hnx] at hr
    cases hr
    rw [cmp_lt_zero, Tag.not_lt] at hnx
    refine ⟨β', fin _ (rebase _ (by rw [hbn]; exact hd) hrb fun u => ?_) (.refl _)⟩
    by_cases hu : u = d
    · subst hu
      rcases hCO with k | k
      · rw [k]; exact (hrb.next u).2
      · rw [k]; exact hnx
    · rw [hβ'd u hu]; exact (hrb.next u).2

theorem SInv.step (hT : T.Ok) (hD : T.DownOk) (h0 : 0 ≤ start) (h1 : start < FOREVER) {β : Nat → Tag} {σ σ' : Sys}
    (h : SInv T start β σ) (hs : Step T start σ σ') : ∃ β', SInv T start β' σ' := by
  cases hs with
  | sendMsg i d s w m hi hd hw hs hF hm hst hdone hnet hdel =>
    refine ⟨β, ?_⟩
    have := h.send i (σ.up i ++ [.msg d s w m]) (σ.net i) (σ.done i) (Tag.le_refl _)
      (fun _ hp => hp.sendMsg ⟨hd, hw, hs, hF, hm, hst, hdel⟩ hnet hdone)
    rwa [put_self, put_self] at this
  | receive i p hp hdone hnet =>
    refine ⟨β, ?_⟩
    have := h.send i (σ.up i) p (σ.done i) (Tag.le_refl _) (fun hi hpre => by
      rcases h.msgs i hi p hp with k | k
      · exact absurd (Tag.lt_of_lt_of_le hdone k) (Tag.lt_irrefl _)
      · exact hpre.receive hdone (h.low i hi) k)
    rwa [put_self, put_self] at this
  | sendNet i n p hi hn hp hst hnp hnet =>
    refine ⟨β, ?_⟩
    have := h.send i (σ.up i ++ [.net n p]) p (σ.done i) (Tag.le_refl _)
      (fun _ hpre => hpre.sendNet hn hp hst hnp hi hnet)
    rwa [put_self] at this
  | sendLtc i c hi hc hdone =>
    refine ⟨β, ?_⟩
    have := h.send i (σ.up i ++ [.ltc c]) (σ.net i) c hdone (fun _ hpre => hpre.sendLtc hc hdone)
    rwa [put_self] at this
  | sendResign i hi =>
    refine ⟨β, ?_⟩
    have := h.send i (σ.up i ++ [.resign]) (σ.net i) (σ.done i) (Tag.le_refl _) (fun _ hpre => hpre.sendResign)
    rwa [put_self, put_self] at this
  | msg i d s w m q r hi hq hr => exact h.message hT hD h0 h1 hi hq hr
  | net i n p q hi hq =>
    have hp := h.pre i hi
    rw [hq] at hp
    obtain ⟨hn, hps, hst, hnp, hbp, hin, hp⟩ := hp
    obtain ⟨p1, p2, p3⟩ := peekTag_spec (σ.rti.transit i)
    obtain ⟨b', hb'p, hb't, hbb', hb's, hcase⟩ : ∃ b', b' ≤ p ∧ (∀ t ∈ σ.rti.transit i, b' ≤ t) ∧ β i ≤ b' ∧ Sane T b' ∧
        (n ≤ b' ∨ ∃ x ∈ σ.rti.transit i, x ≤ b') := by
      by_cases hc : peekTag (σ.rti.transit i) < p
      · have hmem : peekTag (σ.rti.transit i) ∈ σ.rti.transit i := by
          rcases p3 with k | k
          · rw [k] at hc
            exact absurd (Tag.lt_of_lt_of_le hc (le_forever hps.delay)) (Tag.lt_irrefl _)
          · exact k
        exact ⟨_, Tag.le_of_lt hc, p2, h.low i hi _ hmem, (h.transit i _ hmem).1, .inr ⟨_, hmem, Tag.le_refl _⟩⟩
      · exact ⟨p, Tag.le_refl _, fun t ht => Tag.le_trans (Tag.not_lt.1 hc) (p2 t ht), hbp, hps, .inl hnp⟩
    refine ⟨put β i b', ?_⟩
    have r1 : RInv T start (put β i b') σ.rti := by
      refine h.rti.raise hT (fun u => ?_) (fun u => ?_)
      · by_cases hu : u = i
        · subst hu; rw [put_same]; exact hb's
        · rw [put_other _ _ _ hu]; exact (h.rti.sane u).1
      · by_cases hu : u = i
        · subst hu; rw [put_same]; exact hbb'
        · rw [put_other _ _ _ hu]; exact Tag.le_refl _
    have s1 : SInv T start (put β i b') { σ with rti := σ.rti, up := put σ.up i q } := by
      refine h.pop i q r1 (fun u hu => ⟨rfl, put_other _ _ _ hu, rfl⟩) (fun u hu => hu) (fun u p hp => hp) (h.comp i)
        (fun t ht => ht) (fun _ t ht => ?_) (fun _ => ?_) (fun _ t ht => .inr ht)
      · rw [put_same]; exact hb't t ht
      · rw [put_same]; exact hp b' hb'p hb't
    obtain ⟨r2, k2⟩ := updateFederate_inv hT hD h0 h1 r1 hin hn (fun x hx => (h.transit i x hx).1)
      (by rw [put_same]; exact hcase)
    exact s1.frame r2 k2
  | ltc i c q hi hq =>
    refine ⟨β, ?_⟩
    have hp := h.pre i hi
    rw [hq] at hp
    obtain ⟨hs, hle, hp⟩ := hp
    have r1 := completed_raise h.rti hs (h.comp i) hle
    have s1 : SInv T start β
        { σ with rti := σ.rti.setNode i (fun nd => { nd with completed := c }), up := put σ.up i (.clean c :: q) } := by
      refine h.pop i _ r1 (fun u hu => ⟨by rw [setNode_other _ _ hu], rfl, rfl⟩) (fun u hu => ?_) (fun u p hp => hp)
        (by rw [setNode_same]; exact .inr hs) (fun t ht => ht) (fun _ => h.low i hi) (fun _ => ?_) (fun _ t ht => .inr ht)
      · by_cases hui : u = i
        · subst hui; exact hi
        · rw [setNode_other _ _ hui] at hu; exact hu
      · rw [setNode_same]; exact ⟨Tag.le_refl _, hp⟩
    obtain ⟨r2, k2⟩ := (logicalTagComplete_micros h0 hT hD (i := i) (c := c) (s := σ.rti)).inv hT h0 h1 r1
    exact s1.frame r2 k2
  | clean i c q hq =>
    refine ⟨β, ?_⟩
    have htr : ∀ u, u ≠ i → (removeInTransit i c σ.rti).transit u = σ.rti.transit u := by
      intro u hu; exact put_other _ _ _ hu
    have hti : ∀ t, t ∈ (removeInTransit i c σ.rti).transit i ↔
        t ∈ σ.rti.transit i ∧ ¬ (t < FOREVER_TAG ∧ t ≤ c) := by
      intro t
      unfold removeInTransit
      dsimp only
      rw [put_same, List.mem_filter, decide_eq_true_iff, cmp_lt_zero, cmp_le_zero]
    refine h.pop i q (h.rti.congr rfl rfl) (fun u hu => ⟨rfl, rfl, htr u hu⟩) (fun u hu => hu) (fun u p hp => hp) (h.comp i)
      (fun t ht => ((hti t).1 ht).1) (fun hi t ht => h.low i hi t ((hti t).1 ht).1) (fun hi => ?_) (fun hi t ht => ?_)
    · have hp := h.pre i hi
      rw [hq] at hp
      refine hp.2.mono (Tag.le_refl _) fun t ht => (hti t).2 ⟨ht.1, fun k => ?_⟩
      exact absurd (Tag.lt_of_lt_of_le ht.2 k.2) (Tag.lt_irrefl _)
    · have hp := h.pre i hi
      have hdone := hp.done_ge (h.low i hi)
      rw [hq] at hp
      by_cases hk : t < FOREVER_TAG ∧ t ≤ c
      · exact .inl (Tag.le_trans hk.2 (Tag.le_trans hp.1 hdone))
      · exact .inr ((hti t).2 ⟨ht, hk⟩)
  | resign i q hi hq =>
    refine ⟨put β i FOREVER_TAG, ?_⟩
    have hF : Sane T FOREVER_TAG := .inl rfl
    have r1 : RInv T start (put β i FOREVER_TAG) σ.rti := by
      refine h.rti.raise hT (fun u => ?_) (fun u => ?_)
      · by_cases hu : u = i
        · subst hu; rw [put_same]; exact hF
        · rw [put_other _ _ _ hu]; exact (h.rti.sane u).1
      · by_cases hu : u = i
        · subst hu; rw [put_same]; exact le_forever (h.rti.sane u).1.delay
        · rw [put_other _ _ _ hu]; exact Tag.le_refl _
    have r2 := r1.setNext i hF (by rw [put_same]; exact Tag.le_refl _)
    have r3 := r2.setNode i (fun nd => { nd with connected := false }) (fun _ => rfl) (fun _ h => by cases h) (fun _ => rfl)
      (fun _ => rfl)
    rw [setNode_setNode] at r3
    have s1 : SInv T start (put β i FOREVER_TAG)
        { σ with rti := σ.rti.setNode i (fun nd => { nd with connected := false, nextEvent := FOREVER_TAG }),
                 up := put σ.up i q } := by
      have hf : ((σ.rti.setNode i (fun nd => { nd with connected := false, nextEvent := FOREVER_TAG })).node i).connected
          = true → False := by
        rw [setNode_same]; intro h; cases h
      refine h.pop i q r3 (fun u hu => ⟨by rw [setNode_other _ _ hu], put_other _ _ _ hu, rfl⟩) (fun u hu => ?_)
        (fun u p hp => hp) (by rw [setNode_same]; exact h.comp i) (fun t ht => ht) (fun k => (hf k).elim)
        (fun k => (hf k).elim) (fun k => (hf k).elim)
      by_cases hui : u = i
      · subst hui; exact hi
      · rw [setNode_other _ _ hui] at hu; exact hu
    obtain ⟨r4, k4⟩ := (notifyAllDownstream_micros h0 hT hD i _).inv hT h0 h1 r3
    exact s1.frame r4 k4
  | stop t ht hst =>
    refine ⟨β, ?_⟩
    have hc : ∀ nd, (stopNode t nd).connected = nd.connected ∧ (stopNode t nd).completed = nd.completed ∧
        (stopNode t nd).cache = nd.cache ∧
        ((stopNode t nd).nextEvent = nd.nextEvent ∨ ((stopNode t nd).nextEvent = t ∧ t ≤ nd.nextEvent)) := by
      intro nd
      unfold stopNode
      split
      · split
        · rename_i hk
          rw [ge_iff_le, cmp_ge_zero] at hk
          exact ⟨rfl, rfl, rfl, .inr ⟨rfl, hk⟩⟩
        · exact ⟨rfl, rfl, rfl, .inl rfl⟩
      · exact ⟨rfl, rfl, rfl, .inl rfl⟩
    have k : MKeep σ.rti { σ.rti with node := fun j => stopNode t (σ.rti.node j) } :=
      ⟨fun j => (hc _).2.1, fun j hj => by rw [← (hc _).1]; exact hj, rfl, rfl, fun _ _ => Iff.rfl⟩
    refine h.frame ⟨h.rti.sane, fun u => ?_, fun u c hcc => ?_, fun j g hg => (h.rti.tags j g hg).mono k,
      fun j g hg => (h.rti.ptags j g hg).mono k,
      fun j g hg u w hm => (h.rti.outside j g hg u w hm).imp id (·.mono k), h.rti.order⟩ k
    · dsimp only
      rcases (hc (σ.rti.node u)).2.2.2 with e | ⟨e, e'⟩
      · rw [e]; exact h.rti.next u
      · rw [e]; exact ⟨.inr ht, Tag.le_trans e' (h.rti.next u).2⟩
    · dsimp only at hcc
      rw [(hc _).2.2.1] at hcc
      obtain ⟨a1, conn, a2, a3⟩ := h.rti.cache u c hcc
      exact ⟨a1, conn, fun j hj => a2 j (k.connected j hj), a3⟩
  | closed i =>
    exact ⟨β, h.frame (h.rti.setNode i _ (fun _ => rfl) (fun _ h => by cases h) (fun _ => rfl) (fun _ => rfl))
      (mkeep_setNode _ i _ (fun _ => rfl) (fun _ h => by cases h))⟩
  | breaks i =>
    exact ⟨β, ⟨h.rti.congr rfl rfl, h.comp, h.transit, h.low, h.pre, h.msgs⟩⟩

theorem Reach.inv (hT : T.Ok) (hD : T.DownOk) (h0 : 0 ≤ start) (h1 : start < FOREVER) {σ : Sys} (h : Reach T start σ) :
    ∃ β, SInv T start β σ := by
  induction h with
  | init => exact ⟨_, .init hT h0 h1⟩
  | step _ hs ih =>
    obtain ⟨β, ih⟩ := ih
    exact ih.step hT hD h0 h1 hs

end

end ReactorC.Rti
