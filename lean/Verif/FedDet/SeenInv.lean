import Verif.FedDet.Seen

/-! Every step keeps what the RTI knows of the federates that wait for it. -/

set_option linter.unusedVariables false

namespace ReactorC.FedDet
open ReactorC
open ReactorC.Rti (Topology Down Up Sys Sane put put_same put_other)
open ReactorC.Fedn (Config Fed State Ev Act Pc FInv)

variable {V : Type} {P : Program V} {M : Timing} {rank : Nat → Nat}

/-- What the RTI knows of the federates that wait for it; `R` are those whose next event tag it has handled at least once. -/
structure Seen (P : Program V) (M : Timing) (s : State) (R : Nat → Bool) : Prop where
  pi : Rti.PI P.T s.sys.rti
  bound : ∀ j, R j = true → j < P.T.n
  current : Rti.Current P.T P.start R s.sys.rti
  front : ∀ i < P.T.n, Front (conf P M) i (s.fed i)
  tr : ∀ i < P.T.n, Tr P.stop (s.fed i) (s.sys.up i) (s.sys.rti.transit i) (s.sys.rti.out i)
  wt : ∀ i < P.T.n, Wt P.stop (s.fed i) (s.sys.up i) (s.sys.rti.out i) (s.sys.rti.node i).nextEvent (R i)

theorem Seen.own {s s' : State} {R : Nat → Bool} (h : Seen P M s R) (i : Nat) (hr : s'.sys.rti = s.sys.rti)
    (ho : ∀ j, j ≠ i → s'.fed j = s.fed j ∧ s'.sys.up j = s.sys.up j)
    (hi : i < P.T.n → Front (conf P M) i (s'.fed i) ∧ Tr P.stop (s'.fed i) (s'.sys.up i) (s.sys.rti.transit i) (s.sys.rti.out i) ∧
      Wt P.stop (s'.fed i) (s'.sys.up i) (s.sys.rti.out i) (s.sys.rti.node i).nextEvent (R i)) : Seen P M s' R := by
  refine ⟨by rw [hr]; exact h.pi, h.bound, by rw [hr]; exact h.current, fun j hj => ?_, fun j hj => ?_, fun j hj => ?_⟩
  all_goals
    try rw [hr]
    by_cases e : j = i
  · subst e; exact (hi hj).1
  · rw [(ho j e).1]; exact h.front j hj
  · subst e; exact (hi hj).2.1
  · rw [(ho j e).1, (ho j e).2]; exact h.tr j hj
  · subst e; exact (hi hj).2.2
  · rw [(ho j e).1, (ho j e).2]; exact h.wt j hj

/-- What is known of a message that is read next. -/
theorem Inv.reading {x : St V} (h : Inv P M x) (hP : P.Ok rank) (hM : M.Ok) {i : Nat} (hi : i < P.T.n) (hng : (x.s.fed i).pc ≠ .gone) {m : Tag}
    (hn : NextDown x.s i m) :
    ((x.s.fed i).cur ≤ m ∧ ((x.s.fed i).started = true → (x.s.fed i).cur < m)) ∧ m ≤ P.stop := by
  have hF := h.finv hP hM hi hng
  have hmem : Down.msg m ∈ x.s.sys.rti.out i := List.mem_of_getElem? hn
  have hms := Rti.reach_msgs hP.topology hP.down hP.start0.1 hP.start0.2 (h.sys hP hM) hmem
  have hlt : (x.s.fed i).started = true → (x.s.fed i).cur < m := fun k =>
    Fedn.C60_messages_in_time_without_cycles_partial (hP.conf hM) (conf_calm P M) hP.noCycle h.reach hi k hng hn
  refine ⟨⟨?_, hlt⟩, (Fedn.within (hP.conf hM) (conf_calm P M) (τ := P.stop) (fun _ _ => Tag.le_refl _) h.reach).out i m hmem⟩
  cases hst : (x.s.fed i).started with
  | true => exact Tag.le_of_lt (hlt hst)
  | false => rw [hF.first hst]; exact hms.2.1

/-- What is assumed of a step, beyond that it can be taken. -/
def Fine (s : State) : Act → Prop
  | .schedule _ _ e => e.rem = some 0
  | .complete i need => Down.msg (s.fed i).cur ∈ (s.sys.rti.out i).take (s.fed i).taken → need = true
  | .send .. => True
  | .take .. => True
  | a => Own a

theorem Inv.seen_own {x : St V} (h : Inv P M x) (hP : P.Ok rank) (hM : M.Ok) {R : Nat → Bool} (hS : Seen P M x.s R) {a : Act}
    (ha : Fine x.s a) (hp : Fedn.pre (conf P M) x.s a) : Seen P M (Fedn.post (conf P M) x.s a) R := by
  have up : ∀ (j : Nat) (q : List Up) (k : Nat), k ≠ j → put x.s.sys.up j q k = x.s.sys.up k := fun j q k hk => put_other _ _ _ hk
  have fed : ∀ (j : Nat) (f : Fed) (k : Nat), k ≠ j → put x.s.fed j f k = x.s.fed k := fun j f k hk => put_other _ _ _ hk
  cases a with
  | handle j => exact absurd ha id
  | closed j => exact absurd ha id
  | breaks j => exact absurd ha id
  | physical j e => exact absurd ha id
  | leave j => exact absurd ha id
  | stop t => exact absurd ha id
  | learn j t => exact absurd ha id
  | tick j t =>
    refine hS.own j rfl (fun k hk => ⟨fed j _ k hk, rfl⟩) fun hj => ?_
    show Front _ _ (put x.s.fed j _ j) ∧ Tr _ (put x.s.fed j _ j) _ _ _ ∧ Wt _ (put x.s.fed j _ j) _ _ _ _
    rw [put_same]
    have hF := hS.front j hj
    exact ⟨⟨hF.ask, hF.wait, hF.pause, hF.zero, hF.rem⟩, hS.tr j hj, hS.wt j hj⟩
  | begin j =>
    have hpc : (x.s.fed j).pc = .starting := hp.2.1
    refine hS.own j rfl (fun k hk => ⟨fed j _ k hk, rfl⟩) fun hj => ?_
    show Front _ _ (put x.s.fed j _ j) ∧ Tr _ (put x.s.fed j _ j) _ _ _ ∧ Wt _ (put x.s.fed j _ j) _ _ _ _
    rw [put_same]
    have hF := hS.front j hj
    refine ⟨⟨fun t k => (by cases k; rfl), fun o t k => (by cases k), fun o k => (by cases k), fun k => hF.zero ?_, hF.rem⟩, ?_, Wt.of_not fun o t k => (by cases k)⟩
    · rcases k with k | k
      · exact .inl k
      · cases k
    · exact (hS.tr j hj).mono (fun k => by rw [hpc] at k; cases k) (fun e he => he) rfl (fun k => by rw [hpc] at k; cases k) fun u hu => hu
  | resume j =>
    refine hS.own j rfl (fun k hk => ⟨fed j _ k hk, rfl⟩) fun hj => ?_
    show Front _ _ (put x.s.fed j _ j) ∧ Tr _ (put x.s.fed j _ j) _ _ _ ∧ Wt _ (put x.s.fed j _ j) _ _ _ _
    rw [put_same]
    have e : Fedn.resume (x.s.fed j) = x.s.fed j := by
      unfold Fedn.resume
      cases hpc : (x.s.fed j).pc with
      | pausing o => exact absurd hpc ((hS.front j hj).pause o)
      | _ => rfl
    rw [e]; exact ⟨hS.front j hj, hS.tr j hj, hS.wt j hj⟩
  | ask j =>
    have hj' : j < P.T.n := hp.1
    refine hS.own j (sendNet_rti _ _ _) (fun k hk => ⟨fed j _ k hk, ?_⟩) fun hj => ?_
    · show (Fedn.sendNet j _ x.s.sys).up k = _
      rw [sendNet_up]; exact up j _ k hk
    · show Front _ _ (put x.s.fed j _ j) ∧ Tr _ (put x.s.fed j _ j) ((Fedn.sendNet j _ x.s.sys).up j) _ _ ∧
        Wt _ (put x.s.fed j _ j) ((Fedn.sendNet j _ x.s.sys).up j) _ _ _
      rw [put_same, sendNet_up, put_same]
      by_cases hg : (x.s.fed j).pc = .gone
      · have e : Fedn.ask (conf P M) j (x.s.fed j) = (x.s.fed j, none) := by unfold Fedn.ask; rw [hg]
        rw [e]
        simpa [netOf] using ⟨hS.front j hj, hS.tr j hj, hS.wt j hj⟩
      · exact ask_seen (hS.front j hj) (h.finv hP hM hj hg) (h.past j hj).stop (hS.tr j hj) (hS.wt j hj) _
  | wake j =>
    have hj' : j < P.T.n := hp.1
    refine hS.own j (sendNet_rti _ _ _) (fun k hk => ⟨fed j _ k hk, ?_⟩) fun hj => ?_
    · show (Fedn.sendNet j _ x.s.sys).up k = _
      rw [sendNet_up]; exact up j _ k hk
    · show Front _ _ (put x.s.fed j _ j) ∧ Tr _ (put x.s.fed j _ j) ((Fedn.sendNet j _ x.s.sys).up j) _ _ ∧
        Wt _ (put x.s.fed j _ j) ((Fedn.sendNet j _ x.s.sys).up j) _ _ _
      rw [put_same, sendNet_up, put_same]
      by_cases hg : (x.s.fed j).pc = .gone
      · have e : Fedn.wake (x.s.fed j) = (x.s.fed j, none) := by unfold Fedn.wake; rw [hg]
        rw [e]
        simpa [netOf] using ⟨hS.front j hj, hS.tr j hj, hS.wt j hj⟩
      · exact wake_seen (hS.front j hj) (h.finv hP hM hj hg) (h.past j hj).stop (hS.tr j hj) (hS.wt j hj) hp.2 _
  | advance j =>
    refine hS.own j rfl (fun k hk => ⟨fed j _ k hk, rfl⟩) fun hj => ?_
    show Front _ _ (put x.s.fed j _ j) ∧ Tr _ (put x.s.fed j _ j) _ _ _ ∧ Wt _ (put x.s.fed j _ j) _ _ _ _
    rw [put_same]
    obtain ⟨h1, h2, h3⟩ := advance_seen (hS.front j hj) (h.past j hj).stop (hS.tr j hj) hp.2.1
    exact ⟨h1, h2, Wt.of_not h3⟩
  | send j d w =>
    have hpc : (x.s.fed j).pc = .executing := hp.2.2.2.1
    refine hS.own j rfl (fun k hk => ⟨rfl, up j _ k hk⟩) fun hj => ?_
    show Front _ _ (x.s.fed j) ∧ Tr _ (x.s.fed j) (put x.s.sys.up j _ j) _ _ ∧ Wt _ (x.s.fed j) (put x.s.sys.up j _ j) _ _ _
    rw [put_same]
    exact ⟨hS.front j hj, (hS.tr j hj).mono id (fun e he => he) rfl (fun k => .inr ⟨k, rfl⟩) fun u hu => List.mem_append_left _ hu,
      Wt.of_not fun o t k => by rw [hpc] at k; cases k⟩
  | schedule j δ e =>
    have hpc : (x.s.fed j).pc = .executing := hp.2.1
    refine hS.own j rfl (fun k hk => ⟨fed j _ k hk, rfl⟩) fun hj => ?_
    show Front _ _ (put x.s.fed j _ j) ∧ Tr _ (put x.s.fed j _ j) _ _ _ ∧ Wt _ (put x.s.fed j _ j) _ _ _ _
    rw [put_same]
    have hF := hS.front j hj
    refine ⟨⟨hF.ask, hF.wait, hF.pause, hF.zero, fun e' he' => ?_⟩,
      (hS.tr j hj).mono id (fun e he => List.mem_cons_of_mem _ he) rfl (fun k => .inr ⟨k, rfl⟩) fun u hu => hu,
      Wt.of_not fun o t k => by rw [hpc] at k; cases k⟩
    rcases List.mem_cons.1 he' with rfl | he'
    · exact ha
    · exact hF.rem e' he'
  | complete j need =>
    have hpc : (x.s.fed j).pc = .executing := hp.2
    have e : ∀ (n : Option Tag) (σ : Sys), (Fedn.sendLtc j n σ).up = put σ.up j (σ.up j ++ (match n with | none => [] | some c => [Up.ltc c])) := by
      intro n σ
      cases n with
      | none =>
        funext k
        by_cases c : k = j
        · subst c; rw [put_same]; simp [Fedn.sendLtc]
        · rw [put_other _ _ _ c]; rfl
      | some n => rfl
    refine hS.own j ?_ (fun k hk => ⟨fed j _ k hk, ?_⟩) fun hj => ?_
    · show (Fedn.sendLtc j _ x.s.sys).rti = _
      unfold Fedn.sendLtc; split <;> rfl
    · show (Fedn.sendLtc j _ x.s.sys).up k = _
      rw [e]; exact up j _ k hk
    · show Front _ _ (put x.s.fed j _ j) ∧ Tr _ (put x.s.fed j _ j) ((Fedn.sendLtc j _ x.s.sys).up j) _ _ ∧
        Wt _ (put x.s.fed j _ j) ((Fedn.sendLtc j _ x.s.sys).up j) _ _ _
      rw [put_same, e, put_same]
      obtain ⟨h1, h2, h3⟩ := complete_seen (hS.front j hj) (h.finv hP hM hj (by rw [hpc]; simp)) (hS.tr j hj) hpc ha
      exact ⟨h1, h2, Wt.of_not h3⟩
  | exit j =>
    have hpc : (x.s.fed j).pc = .ended := hp.2
    refine hS.own j (sendNet_rti _ _ _) (fun k hk => ⟨fed j _ k hk, ?_⟩) fun hj => ?_
    · show (Fedn.sendNet j _ x.s.sys).up k = _
      rw [sendNet_up]; exact up j _ k hk
    · show Front _ _ (put x.s.fed j _ j) ∧ Tr _ (put x.s.fed j _ j) _ _ _ ∧ Wt _ (put x.s.fed j _ j) _ _ _ _
      rw [put_same]
      have hF := hS.front j hj
      refine ⟨⟨fun t k => (by cases k), fun o t k => (by cases k), fun o k => (by cases k), fun k => hF.zero ?_, hF.rem⟩, fun k => absurd rfl k, Wt.of_not fun o t k => (by cases k)⟩
      rcases k with k | k
      · exact .inl k
      · cases k
  | take j direct need =>
    obtain ⟨hj', hfree, hsome⟩ := id hp
    have hj' : j < P.T.n := hj'
    have hng : (x.s.fed j).pc ≠ .gone := by
      intro k; unfold Fed.free at hfree; rw [k] at hfree; cases hfree
    show Seen P M (Fedn.take j direct need x.s) R
    unfold Fedn.take
    cases hy : (x.s.sys.rti.out j)[(x.s.fed j).taken]? with
    | none => exact hS
    | some y =>
      cases y with
      | tag g =>
        refine hS.own j rfl (fun k hk => ⟨fed j _ k hk, rfl⟩) fun hj => ?_
        show Front _ _ (put x.s.fed j _ j) ∧ Tr _ (put x.s.fed j _ j) _ _ _ ∧ Wt _ (put x.s.fed j _ j) _ _ _ _
        rw [put_same]
        exact takeTag_seen (hS.front j hj) (hS.tr j hj) (hS.wt j hj) hy
      | ptag g => exact absurd (List.mem_of_getElem? hy) (hP.noPtag (h.sys hP hM) j g)
      | msg m =>
        have e : ∀ b : Bool, (if b = true then Fedn.receive j m x.s.sys else x.s.sys).rti = x.s.sys.rti ∧
            (if b = true then Fedn.receive j m x.s.sys else x.s.sys).up = x.s.sys.up := by
          intro b
          cases b
          · exact ⟨rfl, rfl⟩
          · exact ⟨Fedn.receive_rti _ _ _, by
              show (Fedn.receive j m x.s.sys).up = _
              unfold Fedn.receive; split <;> rfl⟩
        refine hS.own j (e _).1 (fun k hk => ⟨fed j _ k hk, congrFun (e _).2 k⟩) fun hj => ?_
        show Front _ _ (put x.s.fed j _ j) ∧ Tr _ (put x.s.fed j _ j) ((if _ then Fedn.receive j m x.s.sys else x.s.sys).up j) _ _ ∧
          Wt _ (put x.s.fed j _ j) ((if _ then Fedn.receive j m x.s.sys else x.s.sys).up j) _ _ _
        rw [put_same, (e _).2]
        obtain ⟨k1, k2⟩ := h.reading hP hM hj hng hy
        exact takeMsg_seen (hS.front j hj) (h.finv hP hM hj hng) (hS.tr j hj) (hS.wt j hj) hy k1 (h.past j hj).stop k2

theorem Seen.leave {s : State} {R : Nat → Bool} (hS : Seen P M s R) {j : Nat} (hpc : (s.fed j).pc = .gone) :
    Seen P M (Fedn.post (conf P M) s (.leave j)) R := by
  refine hS.own j rfl (fun k hk => ⟨put_other _ _ _ hk, put_other _ _ _ hk⟩) fun hj => ?_
  show Front _ _ (put s.fed j _ j) ∧ Tr _ (put s.fed j _ j) _ _ _ ∧ Wt _ (put s.fed j _ j) _ _ _ _
  rw [put_same]
  have hF := hS.front j hj
  refine ⟨⟨fun t k => (by cases k), fun o t k => (by cases k), fun o k => (by cases k), fun k => hF.zero ?_, hF.rem⟩, fun k => absurd rfl k, Wt.of_not fun o t k => (by cases k)⟩
  rcases k with k | k
  · exact .inl k
  · cases k

theorem Program.Ok.noZero (hP : P.Ok rank) : P.T.NoZeroDelayCycle := by
  intro u ws h
  by_contra k
  refine hP.noCycle ⟨u, ws, h, fun w hw => ?_⟩
  by_contra c
  exact k ⟨w, hw, by omega⟩

/-- The RTI has handled something. -/
theorem handle_handled {i : Nat} {σ σ' : Sys} (h : Fedn.handle (conf P M) i σ = some σ') : Rti.Handled P.T P.start σ i σ'.rti ∧
    ∃ y q q', σ.up i = y :: q ∧ σ'.up = put σ.up i q' ∧ ((q' = q ∧ ∀ c, y ≠ .ltc c) ∨ ∃ c, y = .ltc c ∧ q' = .clean c :: q) := by
  unfold Fedn.handle at h
  split at h
  · rename_i c q hq
    cases h
    exact ⟨.inr (.inr (.inr (.inl ⟨c, q, hq, rfl⟩))), _, q, q, hq, rfl, .inl ⟨rfl, fun c => by simp⟩⟩
  · rename_i d t w m q hq
    split at h
    · split at h
      · rename_i r hr
        cases h
        exact ⟨.inl ⟨d, t, w, m, q, hq, hr⟩, _, q, q, hq, rfl, .inl ⟨rfl, fun c => by simp⟩⟩
      · cases h
    · cases h
  · rename_i n p q hq
    split at h
    · cases h
      exact ⟨.inr (.inl ⟨n, p, q, hq, rfl⟩), _, q, q, hq, rfl, .inl ⟨rfl, fun c => by simp⟩⟩
    · cases h
  · rename_i c q hq
    split at h
    · cases h
      exact ⟨.inr (.inr (.inl ⟨c, q, hq, rfl⟩)), _, q, _, hq, rfl, .inr ⟨c, rfl, rfl⟩⟩
    · cases h
  · rename_i q hq
    split at h
    · cases h
      exact ⟨.inr (.inr (.inr (.inr ⟨q, hq, rfl⟩))), _, q, q, hq, rfl, .inl ⟨rfl, fun c => by simp⟩⟩
    · cases h
  · cases h

theorem Inv.seen_handle {x : St V} (h : Inv P M x) (hP : P.Ok rank) (hM : M.Ok) (hK : P.T.Consistent) (hfit : Fit P.T P.stop)
    {R : Nat → Bool} (hS : Seen P M x.s R) {i : Nat} {σ' : Sys} (hh : Fedn.handle (conf P M) i x.s.sys = some σ') :
    Seen P M ⟨σ', x.s.fed⟩ (Rti.hears x.s.sys (.handle i) R) := by
  obtain ⟨hcase, y, q, q', hq, hup, hq'⟩ := handle_handled hh
  have hsys := h.sys hP hM
  have hcn := h.live.conn (i := i) (.inl (by rw [hq]; simp))
  have h0 := hP.start0
  obtain ⟨g1, g2, g3⟩ := Rti.handled_current hP.topology hP.down hP.noZero hK h0.1 h0.2 hsys hS.pi hS.bound hS.current hcn hcase
  obtain ⟨s1, s2, s3⟩ := Rti.handled_seen hP.topology hP.down hP.noZero h0.1 h0.2 hsys hS.pi hcn hcase
  obtain ⟨_, _, _, hout, heff⟩ := h.effect hP hM hh
  have hin : i < P.T.n := hsys.numbered.1 i (by rw [hq]; simp)
  have hw := Fedn.within (hP.conf hM) (conf_calm P M) (τ := P.stop) (fun _ _ => Tag.le_refl _) h.reach
  have hF : ∀ t, t ≤ P.stop → t < FOREVER_TAG := by
    intro t ht
    have e1 : FOREVER_TAG.time = FOREVER := rfl
    rcases hfit.1 with c | ⟨_, c, _⟩
    · exact absurd c hfit.2
    · rw [Tag.le_def] at ht; rw [Tag.lt_def]; omega
  have taken : ∀ j < P.T.n, (x.s.fed j).taken ≤ (x.s.sys.rti.out j).length := fun j hj =>
    ((h.reach.inv (hP.conf hM) (conf_calm P M)).good j hj).taken
  -- what is yet to be read stays, and what is forwarded is added
  have old : ∀ j < P.T.n, ∀ m, Down.msg m ∈ (x.s.sys.rti.out j).drop (x.s.fed j).taken → Down.msg m ∈ (σ'.rti.out j).drop (x.s.fed j).taken := by
    intro j hj m hm
    obtain ⟨l, e⟩ := hout j
    rw [← e, List.drop_append_of_le_length (taken j hj)]
    exact List.mem_append_left _ hm
  have new : ∀ j < P.T.n, ∀ s w m q, x.s.sys.up i = .msg j s w m :: q → Down.msg m ∈ (σ'.rti.out j).drop (x.s.fed j).taken := by
    intro j hj s w m q'' e
    rcases heff with ⟨d, t, w', m', q3, e3, _, _, ⟨l, hl, _⟩, _⟩ | ⟨k, _⟩
    · rw [e] at e3
      cases e3
      rw [hl, List.drop_append_of_le_length (taken j hj)]
      exact List.mem_append_right _ List.mem_cons_self
    · exact absurd ⟨j, s, w, m, q'', e⟩ k
  have tr' : ∀ j < P.T.n, Tr P.stop (x.s.fed j) (σ'.up j) (σ'.rti.transit j) (σ'.rti.out j) := by
    intro j hj hne t ht
    rcases s1 j t ht with ⟨k1, k2⟩ | ⟨s, w, q2, k1, _⟩
    · obtain ⟨m1, m2, m3⟩ := hS.tr j hj hne t k1
      refine ⟨m1, (hout j).subset m2, ?_⟩
      rcases m3 with m3 | m3 | m3 | ⟨c, m3, m4⟩
      · exact .inl (old j hj t m3)
      · exact .inr (.inl m3)
      · exact .inr (.inr (.inl m3))
      · refine .inr (.inr (.inr ⟨c, ?_, m4⟩))
        rw [hup]
        by_cases e : j = i
        · subst e
          rw [put_same]
          rw [hq] at m3 k2
          rcases hq' with ⟨rfl, hy⟩ | ⟨c', rfl, rfl⟩
          · rcases m3 with m3 | m3
            · rcases List.mem_cons.1 m3 with m3 | m3
              · exact absurd m3.symm (hy c)
              · exact .inl m3
            · rcases List.mem_cons.1 m3 with m3 | m3
              · have := k2 c q' (by rw [← m3]) rfl (hF t m1)
                exact absurd (Tag.lt_of_lt_of_le this m4) (Tag.lt_irrefl _)
              · exact .inr m3
          · rcases m3 with m3 | m3
            · rcases List.mem_cons.1 m3 with m3 | m3
              · cases m3; exact .inr List.mem_cons_self
              · exact .inl (List.mem_cons_of_mem _ m3)
            · rcases List.mem_cons.1 m3 with m3 | m3
              · cases m3
              · exact .inr (List.mem_cons_of_mem _ m3)
        · rw [put_other _ _ _ e]; exact m3
    · have hm := new j hj s w t q2 k1
      exact ⟨hw.up i j s w t (by rw [k1]; exact List.mem_cons_self), List.mem_of_mem_drop hm, .inl hm⟩
  -- a tag in transit to a federate that waits, and that the RTI has read everything from
  have next : ∀ j < P.T.n, ∀ o t, (x.s.fed j).pc = .waiting o t → σ'.up j = [] → ∀ n ∈ σ'.rti.transit j, n ≤ P.stop ∧
      (goal (x.s.fed j) ≤ n ∨ ∃ m, Down.msg m ∈ (σ'.rti.out j).drop (x.s.fed j).taken ∧ m ≤ n) := by
    intro j hj o t hpc hnil n hn
    have hng : (x.s.fed j).pc ≠ .gone := by rw [hpc]; simp
    obtain ⟨k1, _, k3⟩ := tr' j hj hng n hn
    refine ⟨k1, ?_⟩
    rcases k3 with k | ⟨e, he, k⟩ | ⟨k, _⟩ | ⟨c, k, _⟩
    · exact .inr ⟨n, k, Tag.le_refl _⟩
    · left
      unfold goal
      split
      · rw [← k]; exact Fedn.next_le he
      · rw [← k]; exact ((h.finv hP hM hj hng).q e he).1
    · rw [hpc] at k; cases k
    · rw [hnil] at k; rcases k with k | k <;> cases k
  refine ⟨g1, g2, g3, hS.front, tr', fun j hj o t hpc => ?_⟩
  show (σ'.up j = [] ∧ _ ∧ _ ∧ (_ ∨ ∃ m, Down.msg m ∈ (σ'.rti.out j).drop (x.s.fed j).taken ∧ m ≤ _)) ∨ _
  have hpc : (x.s.fed j).pc = .waiting o t := hpc
  have hng : (x.s.fed j).pc ≠ .gone := by rw [hpc]; simp
  by_cases hlast : j = i ∧ ∃ n p, y = .net n p ∧ q = []
  · obtain ⟨rfl, n, p, rfl, rfl⟩ := hlast
    have hnil : σ'.up j = [] := by
      rw [hup, put_same]
      rcases hq' with ⟨e, _⟩ | ⟨c, e, _⟩
      · exact e
      · cases e
    obtain ⟨q2, n2, p2, w1, w2, w3⟩ : ∃ q2 n2 p2, x.s.sys.up j = q2 ++ [Up.net n2 p2] ∧ goal (x.s.fed j) ≤ n2 ∧ n2 ≤ P.stop := by
      rcases hS.wt j hj o t hpc with ⟨k, _⟩ | k
      · rw [hq] at k; cases k
      · exact k
    have e : n2 = n := by
      rw [hq] at w1
      cases q2 with
      | nil => cases w1; rfl
      | cons a q2 =>
        have := congrArg List.length w1
        simp at this
    subst e
    refine .inl ⟨hnil, ?_, ?_⟩
    · show Rti.hears x.s.sys (.handle j) R j = true
      unfold Rti.hears
      dsimp only
      rw [hq]
      exact put_same _ _ _
    · rcases s2 n2 p [] hq with k | k
      · rw [show ((⟨σ', x.s.fed⟩ : State).sys.rti.node j).nextEvent = n2 from k]
        exact ⟨w3, .inl w2⟩
      · exact next j hj o t hpc hnil _ k
  · rcases hS.wt j hj o t hpc with ⟨k1, k2, k3, k4⟩ | ⟨q2, n2, p2, w1, w2, w3⟩
    · -- the RTI has read everything
      have hji : j ≠ i := by
        rintro rfl
        rw [hq] at k1; cases k1
      have hnil : σ'.up j = [] := by rw [hup, put_other _ _ _ hji]; exact k1
      refine .inl ⟨hnil, ?_, ?_⟩
      · show Rti.hears x.s.sys (.handle i) R j = true
        unfold Rti.hears
        dsimp only
        rw [hq]
        cases y with
        | net n p => exact (put_other _ _ _ hji).trans k2
        | _ => exact k2
      · rcases s3 j (hS.current j k2).1 with e | e | ⟨s, w, m, q2, e1, _, e2⟩ | ⟨e, _⟩
        · rw [show ((⟨σ', x.s.fed⟩ : State).sys.rti.node j).nextEvent = (x.s.sys.rti.node j).nextEvent from e]
          refine ⟨k3, k4.imp id ?_⟩
          rintro ⟨m, m1, m2⟩
          exact ⟨m, old j hj m m1, m2⟩
        · exact next j hj o t hpc hnil _ e
        · rw [show ((⟨σ', x.s.fed⟩ : State).sys.rti.node j).nextEvent = m from e2]
          exact ⟨hw.up i j s w m (by rw [e1]; exact List.mem_cons_self), .inr ⟨m, new j hj s w m q2 e1, Tag.le_refl _⟩⟩
        · exact absurd e hji
    · -- more is to be read
      refine .inr ?_
      show ∃ q n p, σ'.up j = _ ∧ _
      rw [hup]
      by_cases e : j = i
      · subst e
        rw [put_same]
        rw [hq] at w1
        cases q2 with
        | nil => cases w1; exact absurd ⟨rfl, n2, p2, rfl, rfl⟩ hlast
        | cons a q2 =>
          cases w1
          rcases hq' with ⟨rfl, _⟩ | ⟨c, _, rfl⟩
          · exact ⟨q2, n2, p2, rfl, w2, w3⟩
          · exact ⟨.clean c :: q2, n2, p2, rfl, w2, w3⟩
      · rw [put_other _ _ _ e]; exact ⟨q2, n2, p2, w1, w2, w3⟩

theorem Inv.seen {x y : St V} (h : Inv P M x) (hP : P.Ok rank) (hM : M.Ok) (hK : P.T.Consistent) (hfit : Fit P.T P.stop)
    {R : Nat → Bool} (hS : Seen P M x.s R) (st : Step P M x y) : ∃ R', Seen P M y.s R' := by
  have rti : ∀ i, Fedn.pre (conf P M) x.s (.handle i) → ∃ R', Seen P M (Fedn.post (conf P M) x.s (.handle i)) R' := by
    intro i hp
    obtain ⟨σ', hσ⟩ := Option.isSome_iff_exists.1 hp
    refine ⟨Rti.hears x.s.sys (.handle i) R, ?_⟩
    rw [show Fedn.post (conf P M) x.s (.handle i) = ⟨σ', x.s.fed⟩ from by unfold Fedn.post; dsimp only; rw [hσ]]
    exact h.seen_handle hP hM hK hfit hS hσ
  cases st with
  | idle a ha hp =>
    refine ⟨R, h.seen_own hP hM hS ?_ hp⟩
    cases a <;> first | exact trivial | exact absurd ha id
  | moves i a ha hp _ =>
    refine ⟨R, h.seen_own hP hM hS ?_ hp⟩
    cases a <;> first | exact trivial | exact absurd ha id
  | enters i a ha hp _ _ =>
    refine ⟨R, ?_⟩
    refine h.seen_own hP hM hS ?_ hp
    cases a <;> first | exact trivial | exact absurd ha id
  | sends i o r _ hp => exact ⟨R, h.seen_own hP hM hS (a := _) (hp := hp) (by exact trivial)⟩
  | drops i o r _ _ _ => exact ⟨R, hS⟩
  | schedules i e r _ hp _ => exact ⟨R, h.seen_own hP hM hS (a := _) (hp := hp) (by exact rfl)⟩
  | completes i need _ _ hp hn => exact ⟨R, h.seen_own hP hM hS (a := _) (hp := hp) (by exact hn)⟩
  | handles i _ hp => exact rti i hp
  | forwards i d e r _ _ hp => exact rti i hp
  | takes i direct need _ hp => exact ⟨R, h.seen_own hP hM hS (a := _) (hp := hp) (by exact trivial)⟩
  | receives i direct need m e r _ _ hp _ => exact ⟨R, h.seen_own hP hM hS (a := _) (hp := hp) (by exact trivial)⟩
  | resigns i hg _ _ hp => exact ⟨R, hS.leave hg⟩

theorem Seen.init (P : Program V) (M : Timing) : Seen P M (Fedn.init (conf P M)) fun _ => false := by
  refine ⟨⟨fun u c hc => (by cases hc), fun j => rfl, fun j => rfl, fun j _ => .inl rfl, fun j hj => (by cases hj),
      fun j => .inl rfl⟩, fun j hj => (by cases hj), fun j hj => (by cases hj), fun i _ => ⟨fun t k => (by cases k), fun o t k => (by cases k), fun o k => (by cases k),
      fun _ => ?_, fun e he => ?_⟩, fun i _ _ t ht => (by cases ht), fun i _ => Wt.of_not fun o t k => (by cases k)⟩
  · exact List.mem_cons_self
  · obtain ⟨a, _, rfl⟩ := List.mem_map.1 he
    rfl

theorem Reach.seen {x : St V} (h : Reach P M x) (hP : P.Ok rank) (hM : M.Ok) (hK : P.T.Consistent) (hfit : Fit P.T P.stop) :
    ∃ R, Seen P M x.s R := by
  induction h with
  | init _ => exact ⟨_, Seen.init P M⟩
  | step hr st ih =>
    obtain ⟨R, hS⟩ := ih
    exact (hr.inv hP hM).seen hP hM hK hfit hS st

end ReactorC.FedDet
