import Verif.Rti.ProgressProps

/-! What handling a message changes of the next event tags and of the messages in transit. -/

set_option linter.unusedVariables false

namespace ReactorC.Rti
open ReactorC

section
variable {T : Topology} {start : Int}

theorem Micro.transit {a b : Rti} (h : Micro T start a b) : b.transit = a.transit := by
  cases h with
  | cache i hi => exact (keeps_updateMin i a).transit
  | heard i => exact (keeps_heard i a).transit
  | tag i t => rfl
  | ptag i t => rfl
  | drop i hb => rfl
  | deep => rfl

theorem Micros.transit {a b : Rti} (h : Micros T start a b) : b.transit = a.transit := by
  induction h with
  | refl => rfl
  | tail _ h ih => exact h.transit.trans ih

/-- The next event tag of `k` is set, and those of others that are known are kept. -/
theorem updateNextEvent_next (hT : T.Ok) (hD : T.DownOk) (hz : T.NoZeroDelayCycle) (h0 : 0 ≤ start) {k : Nat} (hk : k < T.n) {s : Rti}
    (hp : PI T s) (hcn : (s.node k).connected = true) {t : Tag} (ht : 0 ≤ t.time) :
    (updateNextEvent T start k t s).transit = s.transit ∧ ((updateNextEvent T start k t s).node k).nextEvent = t ∧
    ∀ j, j ≠ k → (s.node j).nextEvent ≠ NEVER_TAG → ((updateNextEvent T start k t s).node j).nextEvent = (s.node j).nextEvent := by
  have hneg : NEVER_TAG.time < 0 := by decide
  have htn : t ≠ NEVER_TAG := by intro e; subst e; omega
  have p1 : PI T (s.setNode k fun nd => { nd with nextEvent := t }) :=
    hp.setNode k _ (fun c hc => .inl hc) rfl (.inl rfl) (fun h => by dsimp only at h; rw [hcn] at h; cases h) (.inr ht)
  have e1 : ((s.setNode k fun nd => { nd with nextEvent := t }).node k).nextEvent = t := by rw [setNode_same]
  have o1 : ∀ j, j ≠ k → ((s.setNode k fun nd => { nd with nextEvent := t }).node j).nextEvent = (s.node j).nextEvent :=
    fun j hj => by rw [setNode_other _ _ hj]
  have t1 : (s.setNode k fun nd => { nd with nextEvent := t }).transit = s.transit := rfl
  unfold updateNextEvent
  dsimp only
  generalize (s.setNode k fun nd => { nd with nextEvent := t }) = a at p1 e1 o1 t1
  have mid : ∀ b, PI T b → b.transit = a.transit → (∀ j, (a.node j).nextEvent ≠ NEVER_TAG → (b.node j).nextEvent = (a.node j).nextEvent) →
      (notifyAllDownstream T start k b).transit = s.transit ∧ ((notifyAllDownstream T start k b).node k).nextEvent = t ∧
      ∀ j, j ≠ k → (s.node j).nextEvent ≠ NEVER_TAG → ((notifyAllDownstream T start k b).node j).nextEvent = (s.node j).nextEvent := by
    intro b pb tb nb
    obtain ⟨_, h2, _⟩ := notifyAllDownstream_pi h0 hT hD hz hk pb
    have hb := (notifyAllDownstream_micros h0 hT hD k b).transit
    have ek : (b.node k).nextEvent = t := by rw [nb k (by rw [e1]; exact htn), e1]
    refine ⟨by rw [hb, tb, t1], by rw [h2.next k (by rw [ek]; exact htn), ek], fun j hj hn => ?_⟩
    have ej : (b.node j).nextEvent = (s.node j).nextEvent := by rw [nb j (by rw [o1 j hj]; exact hn), o1 j hj]
    rw [h2.next j (by rw [ej]; exact hn), ej]
  split
  · obtain ⟨h1, h2, _⟩ := notifyIfSafe_pi h0 hT hz hk p1
    exact mid _ h1 (notifyIfSafe_micros h0 hT hk a).transit fun j hj => h2.next j hj
  · rename_i hu
    have hu : T.up k = [] := by simpa using hu
    refine mid _ (p1.setNode k _ (fun c hc => .inl hc) rfl (.inr hu) (p1.gone k) (p1.time k)) rfl fun j _ => ?_
    by_cases e : j = k
    · subst e; rw [setNode_same]
    · rw [setNode_other _ _ e]

theorem updateFederate_next (hT : T.Ok) (hD : T.DownOk) (hz : T.NoZeroDelayCycle) (h0 : 0 ≤ start) {k : Nat} (hk : k < T.n) {s : Rti}
    (hp : PI T s) (hcn : (s.node k).connected = true) {t : Tag} (ht : 0 ≤ t.time) (htr : ∀ x ∈ s.transit k, Sane T x) (htF : t ≤ FOREVER_TAG) :
    (updateFederateNextEvent T start k t s).transit = s.transit ∧
    (((updateFederateNextEvent T start k t s).node k).nextEvent = t ∨
      ((updateFederateNextEvent T start k t s).node k).nextEvent ∈ s.transit k) ∧
    ∀ j, j ≠ k → (s.node j).nextEvent ≠ NEVER_TAG →
      ((updateFederateNextEvent T start k t s).node j).nextEvent = (s.node j).nextEvent := by
  unfold updateFederateNextEvent
  split
  · rename_i hlt
    rw [cmp_lt_zero] at hlt
    have hm : peekTag (s.transit k) ∈ s.transit k := by
      rcases (peekTag_spec (s.transit k)).2.2 with e | e
      · rw [e] at hlt; exact absurd (Tag.lt_of_lt_of_le hlt htF) (Tag.lt_irrefl _)
      · exact e
    obtain ⟨h1, h2, h3⟩ := updateNextEvent_next hT hD hz h0 hk hp hcn (htr _ hm).time
    exact ⟨h1, .inr (by rw [h2]; exact hm), h3⟩
  · obtain ⟨h1, h2, h3⟩ := updateNextEvent_next hT hD hz h0 hk hp hcn ht
    exact ⟨h1, .inl h2, h3⟩

theorem Sane.le_forever {t : Tag} (h : Sane T t) : t ≤ FOREVER_TAG := by
  have hFt : FOREVER_TAG.time = FOREVER := rfl
  have hFm : FOREVER_TAG.microstep = UINT_MAX := rfl
  obtain ⟨_, h2, h3⟩ := h.delay
  tag_omega

/-- What handling a message changes. -/
theorem handled_seen (hT : T.Ok) (hD : T.DownOk) (hz : T.NoZeroDelayCycle) (h0 : 0 ≤ start) (h1 : start < FOREVER) {σ : Sys}
    (hr : Reach T start σ) (p : PI T σ.rti) {i : Nat} (hcn : (σ.rti.node i).connected = true) {r : Rti} (hcase : Handled T start σ i r) :
    (∀ j t, t ∈ r.transit j → (t ∈ σ.rti.transit j ∧ ∀ c q, σ.up i = .clean c :: q → j = i → t < FOREVER_TAG → c < t) ∨
      ∃ s w q, σ.up i = .msg j s w t :: q ∧ (σ.rti.node j).connected = true) ∧
    (∀ n p q, σ.up i = .net n p :: q → (r.node i).nextEvent = n ∨ (r.node i).nextEvent ∈ r.transit i) ∧
    (∀ j, (σ.rti.node j).nextEvent ≠ NEVER_TAG → (r.node j).nextEvent = (σ.rti.node j).nextEvent ∨ (r.node j).nextEvent ∈ r.transit j ∨
      (∃ s w m q, σ.up i = .msg j s w m :: q ∧ (σ.rti.node j).connected = true ∧ (r.node j).nextEvent = m) ∨
      (j = i ∧ ((∃ n p q, σ.up i = .net n p :: q) ∨ ∃ q, σ.up i = .resign :: q))) := by
  obtain ⟨β, sv⟩ := hr.inv hT hD h0 h1
  have num := hr.numbered
  have hi : i < T.n := num.1 i (by
    rcases hcase with ⟨d, s, w, m, q, hq, _⟩ | ⟨n, pp, q, hq, _⟩ | ⟨k, q, hq, _⟩ | ⟨k, q, hq, _⟩ | ⟨q, hq, _⟩ <;> (rw [hq]; simp))
  have hpre := sv.pre i hcn
  rcases hcase with ⟨d, s, w, m, q, hq, hm⟩ | ⟨n, pp, q, hq, e'⟩ | ⟨k, q, hq, e'⟩ | ⟨k, q, hq, e'⟩ | ⟨q, hq, e'⟩
  · rw [hq] at hpre ⊢
    obtain ⟨hcause, _⟩ := hpre
    have none : ∀ j t c q', Up.msg d s w m :: q = .clean c :: q' → j = i → t < FOREVER_TAG → c < t := by
      intro j t c q' e
      cases (List.cons.inj e).1
    unfold handleTimedMessage at hm
    by_cases hd : (σ.rti.node d).connected = false
    · rw [if_pos hd] at hm; cases hm
      exact ⟨fun j t ht => .inl ⟨ht, none j t⟩, fun n p q e => (by cases (List.cons.inj e).1), fun j _ => .inl rfl⟩
    rw [if_neg hd, if_neg (by rw [p.ok d]; simp)] at hm
    have hd : (σ.rti.node d).connected = true := by simpa using hd
    dsimp only at hm
    have prep : PI T (σ.rti.write d (.msg m)) :=
      ⟨p.cache, p.prov, p.ok, fun j hu => (p.sent j hu).imp id fun h => mem_write.2 (.inl h), p.gone, p.time⟩
    generalize hb' : (if lf_tag_compare ((σ.rti.write d (.msg m)).node d).completed m < 0 then
          if m ∈ (σ.rti.write d (.msg m)).transit d then σ.rti.write d (.msg m)
          else { σ.rti.write d (.msg m) with transit := put (σ.rti.write d (.msg m)).transit d (m :: (σ.rti.write d (.msg m)).transit d) }
          else σ.rti.write d (.msg m)) = b at hm
    have key : PI T b ∧ b.node = σ.rti.node ∧ (∀ x ∈ b.transit d, Sane T x) ∧
        ∀ j t, t ∈ b.transit j → t ∈ σ.rti.transit j ∨ (j = d ∧ t = m) := by
      have tb : ∀ x ∈ (σ.rti.write d (.msg m)).transit d, Sane T x := fun x hx => (sv.transit d x hx).1
      rw [← hb']
      split
      · split
        · exact ⟨prep, rfl, tb, fun j t h => .inl h⟩
        · refine ⟨⟨prep.cache, prep.prov, prep.ok, prep.sent, prep.gone, prep.time⟩, rfl, fun x hx => ?_, fun j t h => ?_⟩
          · dsimp only at hx
            rw [put_same] at hx
            rcases List.mem_cons.1 hx with k | k
            · rw [k]; exact hcause.msg
            · exact tb x k
          · dsimp only at h
            by_cases e : j = d
            · subst e
              rw [put_same] at h
              rcases List.mem_cons.1 h with h | h
              · exact .inr ⟨rfl, h⟩
              · exact .inl h
            · rw [put_other _ _ _ e] at h; exact .inl h
      · exact ⟨prep, rfl, tb, fun j t h => .inl h⟩
    obtain ⟨k1, k2, k3, k4⟩ := key
    have tr : ∀ j t, t ∈ b.transit j → (t ∈ σ.rti.transit j ∧ ∀ c q', Up.msg d s w m :: q = .clean c :: q' → j = i → t < FOREVER_TAG → c < t) ∨
        ∃ s' w' q', Up.msg d s w m :: q = .msg j s' w' t :: q' ∧ (σ.rti.node j).connected = true := by
      intro j t ht
      rcases k4 j t ht with h | ⟨rfl, rfl⟩
      · exact .inl ⟨h, none j t⟩
      · exact .inr ⟨s, w, q, rfl, hd⟩
    split at hm
    · cases hm
      obtain ⟨m1, m2, m3⟩ := updateFederate_next hT hD hz h0 hcause.dest k1 (by rw [k2]; exact hd) hcause.msg.time k3 hcause.msg.le_forever
      refine ⟨fun j t ht => tr j t (by rw [m1] at ht; exact ht), fun n p q e => (by cases (List.cons.inj e).1), fun j hj => ?_⟩
      by_cases e : j = d
      · subst e
        rcases m2 with m2 | m2
        · exact .inr (.inr (.inl ⟨s, w, m, q, rfl, hd, m2⟩))
        · exact .inr (.inl (by rw [m1]; exact m2))
      · left
        rw [m3 j e (by rw [k2]; exact hj), k2]
    · cases hm
      exact ⟨tr, fun n p q e => (by cases (List.cons.inj e).1), fun j _ => .inl (by rw [k2])⟩
  · rw [hq] at hpre
    obtain ⟨m1, m2, m3⟩ := updateFederate_next hT hD hz h0 hi p hcn hpre.1.time (fun x hx => (sv.transit i x hx).1) hpre.1.le_forever
    have e' : r = updateFederateNextEvent T start i n σ.rti := e'
    rw [← e'] at m1 m2 m3
    refine ⟨fun j t ht => .inl ⟨by rw [m1] at ht; exact ht, fun c q' e => by rw [hq] at e; cases (List.cons.inj e).1⟩,
      fun n' p' q' e => ?_, fun j hj => ?_⟩
    · rw [hq] at e
      cases e
      rw [m1]; exact m2
    · by_cases e : j = i
      · exact .inr (.inr (.inr ⟨e, .inl ⟨n, pp, q, hq⟩⟩))
      · exact .inl (m3 j e hj)
  · obtain ⟨m1, m2⟩ := logicalTagComplete_pi (i := i) (c := k) h0 hT hD hz p
    have ht : (logicalTagComplete T start i k σ.rti).transit = σ.rti.transit := (logicalTagComplete_micros h0 hT hD).transit
    rw [← e'] at m2 ht
    exact ⟨fun j t h => .inl ⟨by rw [ht] at h; exact h, fun c q' e => by rw [hq] at e; cases (List.cons.inj e).1⟩,
      fun n p q' e => (by rw [hq] at e; cases (List.cons.inj e).1), fun j hj => .inl (m2.next j hj)⟩
  · subst e'
    refine ⟨fun j t h => .inl ?_, fun n p q' e => (by rw [hq] at e; cases (List.cons.inj e).1), fun j hj => .inl rfl⟩
    unfold removeInTransit at h
    dsimp only at h
    by_cases e : j = i
    · subst e
      rw [put_same, List.mem_filter, decide_eq_true_eq, cmp_lt_zero, cmp_le_zero] at h
      refine ⟨h.1, fun c q' e _ hF => ?_⟩
      rw [hq] at e
      cases e
      exact Tag.not_le.1 fun hle => h.2 ⟨hF, hle⟩
    · rw [put_other _ _ _ e] at h
      exact ⟨h, fun _ _ _ e' => absurd e' e⟩
  · have p1 : PI T (σ.rti.setNode i fun nd => { nd with connected := false, nextEvent := FOREVER_TAG }) :=
      p.setNode i _ (fun c hc => .inl hc) rfl (.inl rfl) (fun _ => rfl) (.inr (by show 0 ≤ FOREVER_TAG.time; decide))
    obtain ⟨_, m2, _⟩ := notifyAllDownstream_pi h0 hT hD hz hi p1
    have ht : (handleResign T start i σ.rti).transit = σ.rti.transit := (notifyAllDownstream_micros h0 hT hD i _).transit
    rw [← e'] at ht
    refine ⟨fun j t h => .inl ⟨by rw [ht] at h; exact h, fun c q' e => by rw [hq] at e; cases (List.cons.inj e).1⟩,
      fun n p q' e => (by rw [hq] at e; cases (List.cons.inj e).1), fun j hj => ?_⟩
    by_cases e : j = i
    · exact .inr (.inr (.inr ⟨e, .inr ⟨q, hq⟩⟩))
    · left
      rw [e']
      unfold handleResign
      rw [m2.next j (by rw [setNode_other _ _ e]; exact hj), setNode_other _ _ e]

end

end ReactorC.Rti
