import Verif.FedDet.Measure

/-! Which steps make the measure smaller. -/

set_option linter.unusedVariables false

namespace ReactorC.FedDet
open ReactorC
open ReactorC.Rti (Topology Down Up Sys Sane put put_same put_other)
open ReactorC.Fedn (Config Fed State Ev Act Pc FInv)

variable {V : Type} {P : Program V} {M : Timing} {rank : Nat → Nat}

/-- The state of the federation after a step of the thread that advances the tag. -/
theorem less_mover {x y : St V} {i : Nat} (hi : i < P.T.n) {f' : Fed} {n : Option Tag} {s : State}
    (hs : s = { sys := Fedn.sendNet i n x.s.sys, fed := put x.s.fed i f' })
    (hpc : (x.s.fed i).pc ≠ .executing) (h : (f'.pc = .executing ∧ far P f' < far P (x.s.fed i)) ∨ Nearer P i (x.s.fed i) f') :
    Less P x { x with s := s } ∧ Less P x (x.enter P i s) ∨ Less P x { x with s := s } ∧ f'.pc ≠ .executing := by
  subst hs
  have fed : ∀ j, j ≠ i → put x.s.fed i f' j = x.s.fed j := fun j hj => put_other _ _ _ hj
  have up : ∀ j, j ≠ i → (Fedn.sendNet i n x.s.sys).up j = x.s.sys.up j := fun j hj => by rw [sendNet_up]; exact put_other _ _ _ hj
  rcases h with ⟨_, h⟩ | ⟨h1, h2, h3, h4⟩
  · refine .inl ⟨less_own hi (fun j hj => ⟨fed j hj, rfl, rfl, up j hj⟩) (sendNet_rti _ _ _) (.inl ?_),
      less_own hi (fun j hj => ⟨fed j hj, put_other _ _ _ hj, put_other _ _ _ hj, up j hj⟩) (sendNet_rti _ _ _) (.inl ?_)⟩
    · show far P (put x.s.fed i f' i) < _
      rw [put_same]; exact h
    · show far P (put x.s.fed i f' i) < _
      rw [put_same]; exact h
  · refine .inr ⟨less_phase hi (fun j hj => ⟨fed j hj, up j hj⟩) (sendNet_rti _ _ _) ?_ ?_ ?_ hpc ?_, h1⟩
    · show (put x.s.fed i f' i).cur = _
      rw [put_same]; exact h3
    · show (put x.s.fed i f' i).started = _
      rw [put_same]; exact h2
    · show (put x.s.fed i f' i).pc ≠ _
      rw [put_same]; exact h1
    · show phase P i (put x.s.fed i f' i) _ _ < _
      rw [put_same]; exact h4 _ _ _ _

/-- A step that the thread that advances the tag takes when it does not wait. -/
structure Moving (P : Program V) (M : Timing) (x : St V) (i : Nat) (a : Act) : Prop where
  pre : Fedn.pre (conf P M) x.s a
  mover : Mover i a
  which : (∃ o t, a = .ask i ∧ (x.s.fed i).pc = .asking o t) ∨
    (∃ o t, a = .wake i ∧ (x.s.fed i).pc = .waiting o t ∧ ((x.s.fed i).next ≤ (x.s.fed i).lastTAG ∨ t ≤ (x.s.fed i).lastTAG)) ∨
    (a = .advance i ∧ (x.s.fed i).pc = .resting)

theorem Inv.moving {x : St V} (h : Inv P M x) (hP : P.Ok rank) (hM : M.Ok) (hfit : Fit P.T P.stop) {i : Nat} {a : Act} (hm : Moving P M x i a) :
    ((Fedn.post (conf P M) x.s a).fed i).pc = .executing ∧ Less P x (x.enter P i (Fedn.post (conf P M) x.s a)) ∨
      ((Fedn.post (conf P M) x.s a).fed i).pc ≠ .executing ∧ Less P x { x with s := Fedn.post (conf P M) x.s a } := by
  have key : ∀ {f' : Fed} {n : Option Tag}, i < P.T.n → (x.s.fed i).pc ≠ .executing →
      Fedn.post (conf P M) x.s a = { sys := Fedn.sendNet i n x.s.sys, fed := put x.s.fed i f' } →
      ((f'.pc = .executing ∧ far P f' < far P (x.s.fed i)) ∨ Nearer P i (x.s.fed i) f') →
      (((Fedn.post (conf P M) x.s a).fed i).pc = .executing ∧ Less P x (x.enter P i (Fedn.post (conf P M) x.s a)) ∨
        ((Fedn.post (conf P M) x.s a).fed i).pc ≠ .executing ∧ Less P x { x with s := Fedn.post (conf P M) x.s a }) := by
    intro f' n hi hpc e hh
    have e1 : ((Fedn.post (conf P M) x.s a).fed i) = f' := by rw [e]; exact put_same _ _ _
    rw [e1]
    rcases hh with hh | hh
    · rcases less_mover (y := x) hi e hpc (.inl hh) with ⟨_, k⟩ | ⟨_, k⟩
      · exact .inl ⟨hh.1, k⟩
      · exact absurd hh.1 k
    · rcases less_mover (y := x) hi e hpc (.inr hh) with ⟨k, _⟩ | ⟨k, _⟩
      · exact .inr ⟨hh.1, k⟩
      · exact .inr ⟨hh.1, k⟩
  have st : ∀ {f' : Fed}, Starts (x.s.fed i) f' ∨ Nearer P i (x.s.fed i) f' →
      (f'.pc = .executing ∧ far P f' < far P (x.s.fed i)) ∨ Nearer P i (x.s.fed i) f' := fun k =>
    k.imp (fun k => ⟨k.1, starts_far k⟩) id
  rcases hm.which with ⟨o, t, rfl, hpc⟩ | ⟨o, t, rfl, hpc, hg⟩ | ⟨rfl, hpc⟩
  · have hi : i < P.T.n := hm.pre.1
    exact key hi (by rw [hpc]; simp) rfl (st (ask_nearer (h.finv hP hM hi (by rw [hpc]; simp)) hpc))
  · have hi : i < P.T.n := hm.pre.1
    exact key hi (by rw [hpc]; simp) rfl (st (wake_nearer (h.finv hP hM hi (by rw [hpc]; simp)) hpc hg))
  · have hi : i < P.T.n := hm.pre.1
    refine key (n := none) hi (by rw [hpc]; simp) rfl ?_
    exact advance_nearer (h.finv hP hM hi (by rw [hpc]; simp)) hpc (h.past i hi).stop (h.past i hi).fit
      ⟨hm.pre.2.2.1, hm.pre.2.2.2.1⟩ hfit

theorem less_begin {x : St V} {i : Nat} (hp : Fedn.pre (conf P M) x.s (.begin i)) : Less P x { x with s := Fedn.post (conf P M) x.s (.begin i) } := by
  have hi : i < P.T.n := hp.1
  have hpc : (x.s.fed i).pc = .starting := hp.2.1
  have e : (Fedn.post (conf P M) x.s (.begin i)).fed i = { x.s.fed i with pc := .asking none (x.s.fed i).cur } := put_same _ _ _
  refine less_phase hi (fun j hj => ⟨put_other _ _ _ hj, rfl⟩) rfl ?_ ?_ ?_ ?_ ?_
  · rw [e]
  · rw [e]
  · rw [e]; simp
  · rw [hpc]; simp
  · rw [e]
    unfold phase
    rw [hpc]
    dsimp only
    split
    · omega
    · split <;> omega

theorem less_exit {x : St V} {i : Nat} (hp : Fedn.pre (conf P M) x.s (.exit i)) : Less P x { x with s := Fedn.post (conf P M) x.s (.exit i) } := by
  have hi : i < P.T.n := hp.1
  have hpc : (x.s.fed i).pc = .ended := hp.2
  have e : (Fedn.post (conf P M) x.s (.exit i)).fed i = { x.s.fed i with pc := .gone } := put_same _ _ _
  refine less_phase hi (fun j hj => ⟨put_other _ _ _ hj, ?_⟩) (sendNet_rti _ _ _) ?_ ?_ ?_ ?_ ?_
  · show (Fedn.sendNet i _ x.s.sys).up j = _
    rw [sendNet_up]; exact put_other _ _ _ hj
  · rw [e]
  · rw [e]
  · rw [e]; simp
  · rw [hpc]; simp
  · rw [e]
    unfold phase
    rw [hpc]
    dsimp only
    split <;> omega

theorem less_resigns {x : St V} {i : Nat} (hi : i < P.T.n) (hg : (x.s.fed i).pc = .gone) (hc : (x.s.sys.rti.node i).connected = true)
    (hn : Up.resign ∉ x.s.sys.up i) : Less P x { x with s := Fedn.post (conf P M) x.s (.leave i) } := by
  have e : (Fedn.post (conf P M) x.s (.leave i)).fed i = { x.s.fed i with pc := .gone } := put_same _ _ _
  have eu : (Fedn.post (conf P M) x.s (.leave i)).sys.up i = x.s.sys.up i ++ [.resign] := put_same _ _ _
  refine less_phase hi (fun j hj => ⟨put_other _ _ _ hj, put_other _ _ _ hj⟩) rfl ?_ ?_ ?_ ?_ ?_
  · rw [e]
  · rw [e]
  · rw [e]; simp
  · rw [hg]; simp
  · rw [e, eu]
    unfold phase
    rw [hg]
    dsimp only
    rw [if_pos (c := _ ∧ Up.resign ∉ x.s.sys.up i) ⟨hc, hn⟩, if_neg]
    · omega
    · rintro ⟨_, k⟩
      exact k (List.mem_append_right _ List.mem_cons_self)

/-- Less is to be done at a tag. -/
theorem less_todo {x y : St V} {i : Nat} (hi : i < P.T.n)
    (ho : ∀ j, j ≠ i → y.s.fed j = x.s.fed j ∧ y.outs j = x.outs j ∧ y.scheds j = x.scheds j ∧ y.s.sys.up j = x.s.sys.up j)
    (hr : y.s.sys.rti = x.s.sys.rti) (hc : (y.s.fed i).cur = (x.s.fed i).cur) (hst : (y.s.fed i).started = (x.s.fed i).started)
    (h : todo (y.s.fed i) (y.outs i) (y.scheds i) < todo (x.s.fed i) (x.outs i) (x.scheds i)) : Less P x y := by
  refine less_own hi ho hr (.inr ⟨?_, .inl h⟩)
  unfold far; rw [hc, hst]

theorem less_sends {x : St V} {i : Nat} {o : Out V} {r : List (Out V)} (ho : x.outs i = o :: r) (u : Nat → List (Nat × Event V))
    (hp : Fedn.pre (conf P M) x.s (.send i o.dest o.delay)) :
    Less P x { x with s := Fedn.post (conf P M) x.s (.send i o.dest o.delay), outs := put x.outs i r, up := u } := by
  refine less_todo (i := i) hp.1 (fun j hj => ⟨rfl, put_other _ _ _ hj, rfl, put_other _ _ _ hj⟩) rfl rfl rfl ?_
  show todo (x.s.fed i) (put x.outs i r i) (x.scheds i) < _
  rw [put_same, ho]
  unfold todo
  rw [List.length_cons]
  omega

theorem less_drops {x : St V} {i : Nat} (hi : i < P.T.n) {o : Out V} {r : List (Out V)} (ho : x.outs i = o :: r) :
    Less P x { x with outs := put x.outs i r } := by
  refine less_todo (i := i) hi (fun j hj => ⟨rfl, put_other _ _ _ hj, rfl, rfl⟩) rfl rfl rfl ?_
  show todo (x.s.fed i) (put x.outs i r i) (x.scheds i) < _
  rw [put_same, ho]
  unfold todo
  rw [List.length_cons]
  omega

theorem less_schedules {x : St V} {i : Nat} {e : Event V} {r : List (Event V)} (he : x.scheds i = e :: r) (p : Nat → List (Event V))
    (hp : Fedn.pre (conf P M) x.s (.schedule i 0 ⟨e.1, some 0⟩)) :
    Less P x { x with s := Fedn.post (conf P M) x.s (.schedule i 0 ⟨e.1, some 0⟩), scheds := put x.scheds i r, pend := p } := by
  have e1 : (Fedn.post (conf P M) x.s (.schedule i 0 ⟨e.1, some 0⟩)).fed i = { x.s.fed i with q := ⟨e.1, some 0⟩ :: (x.s.fed i).q } := put_same _ _ _
  refine less_todo (i := i) hp.1 (fun j hj => ⟨put_other _ _ _ hj, rfl, put_other _ _ _ hj, rfl⟩) rfl ?_ ?_ ?_
  · dsimp only; rw [e1]
  · dsimp only; rw [e1]
  · dsimp only
    rw [e1, put_same, he]
    unfold todo
    rw [List.length_cons]
    dsimp only
    omega

theorem less_completes {x : St V} {i : Nat} {need : Bool} (hp : Fedn.pre (conf P M) x.s (.complete i need)) :
    Less P x { x with s := Fedn.post (conf P M) x.s (.complete i need) } := by
  have hpc : (x.s.fed i).pc = .executing := hp.2
  have e1 : (Fedn.post (conf P M) x.s (.complete i need)).fed i = (Fedn.complete need (x.s.fed i)).1 := put_same _ _ _
  have e2 : (Fedn.complete need (x.s.fed i)).1.cur = (x.s.fed i).cur ∧ (Fedn.complete need (x.s.fed i)).1.started = (x.s.fed i).started := by
    unfold Fedn.complete Fedn.confirm
    dsimp only
    split
    · exact ⟨rfl, rfl⟩
    · split <;> exact ⟨rfl, rfl⟩
  refine less_todo (i := i) hp.1 (fun j hj => ⟨put_other _ _ _ hj, rfl, rfl, ?_⟩) (Fedn.sendLtc_rti _ _ _) ?_ ?_ ?_
  · show (Fedn.sendLtc i _ x.s.sys).up j = _
    unfold Fedn.sendLtc
    split
    · rfl
    · exact put_other _ _ _ hj
  · dsimp only; rw [e1]; exact e2.1
  · dsimp only; rw [e1]; exact e2.2
  · dsimp only
    rw [e1]
    unfold todo
    rw [hpc, if_pos rfl, if_neg]
    · omega
    · unfold Fedn.complete; simp

/-! ## The RTI -/

theorem handle_conn (hP : P.Ok rank) {i : Nat} {s : State} {σ' : Sys} (hr : Rti.Reach P.T P.start s.sys) (hw : Rti.Whole s.sys.rti)
    (hc : (s.sys.rti.node i).connected = true) (hh : Fedn.handle (conf P M) i s.sys = some σ') :
    (∀ j, (σ'.rti.node j).connected = true → (s.sys.rti.node j).connected = true) ∧
      ∀ q, s.sys.up i = .resign :: q → (σ'.rti.node i).connected = false := by
  have h0 := hP.start0
  obtain ⟨β, hi⟩ := hr.inv hP.topology hP.down h0.1 h0.2
  have hp := hi.pre i hc
  have tame : Rti.Tame s.sys.rti σ'.rti → (∀ q, s.sys.up i ≠ .resign :: q) →
      ((∀ j, (σ'.rti.node j).connected = true → (s.sys.rti.node j).connected = true) ∧
        ∀ q, s.sys.up i = .resign :: q → (σ'.rti.node i).connected = false) := fun k k' =>
    And.intro (fun j hj => by rw [← k.connected hw j]; exact hj) (fun q hq => absurd hq (k' q))
  obtain ⟨hcase, _⟩ := handle_handled hh
  rcases hcase with ⟨d, t, w, m, q, hq, e⟩ | ⟨n, p, q, hq, e⟩ | ⟨c, q, hq, e⟩ | ⟨c, q, hq, e⟩ | ⟨q, hq, e⟩
  · rw [hq] at hp
    obtain ⟨r, e', _, _, k⟩ := Rti.handleTimed_any hP.topology hP.down h0.1 hp.1.dest m s.sys.rti hw
    rw [e] at e'
    cases e'
    exact ⟨fun j hj => by rw [← k j]; exact hj, fun q' hq' => by rw [hq] at hq'; cases hq'⟩
  · rw [hq] at hp
    refine tame ?_ fun q' hq' => by rw [hq] at hq'; cases hq'
    rw [e]; exact Rti.updateFederate_tame hP.topology hP.down h0.1 hp.2.2.2.2.2.1 _ _
  · refine tame ?_ fun q' hq' => by rw [hq] at hq'; cases hq'
    rw [e]; exact Rti.logicalTagComplete_tame hP.topology hP.down h0.1 i c _
  · refine tame ?_ fun q' hq' => by rw [hq] at hq'; cases hq'
    rw [e]; exact Rti.removeInTransit_tame i c _
  · have ht : Rti.Tame (s.sys.rti.setNode i fun nd => { nd with connected := false, nextEvent := FOREVER_TAG })
        (Rti.handleResign P.T P.start i s.sys.rti) := (Rti.notifyAllDownstream_micros h0.1 hP.topology hP.down i _).tame
    have hw' : Rti.Whole (s.sys.rti.setNode i fun nd => { nd with connected := false, nextEvent := FOREVER_TAG }) := hw
    have ei : (σ'.rti.node i).connected = false := by
      rw [e, ht.connected hw' i, Rti.setNode_same]
    refine ⟨fun j hj => ?_, fun _ _ => ei⟩
    by_cases c : j = i
    · subst c; exact hc
    · rw [e, ht.connected hw' j, Rti.setNode_other _ _ c] at hj; exact hj

theorem Inv.less_handle {x : St V} (h : Inv P M x) (hP : P.Ok rank) (hM : M.Ok) {i : Nat} {σ' : Sys}
    (hh : Fedn.handle (conf P M) i x.s.sys = some σ') (u : Nat → List (Nat × Event V)) (d : Nat → List (Event V)) :
    Less P x { x with s := ⟨σ', x.s.fed⟩, up := u, down := d } := by
  obtain ⟨hcase, y, q, q', hq, hup, hq'⟩ := handle_handled hh
  have hc := h.live.conn (i := i) (.inl (by rw [hq]; simp))
  have hi : i < P.T.n := (h.sys hP hM).numbered.1 i (by rw [hq]; simp)
  obtain ⟨k1, k2⟩ := handle_conn hP (h.sys hP hM) h.live.whole hc hh
  refine .inr ⟨Nat.le_refl _, .inr ⟨Nat.le_refl _, .inr ⟨total_le fun j _ => ?_, .inl ?_⟩⟩⟩
  · show phase P j (x.s.fed j) (σ'.rti.node j).connected (σ'.up j) ≤ _
    unfold phase
    split
    all_goals try exact Nat.le_refl _
    split
    · rename_i k
      rw [if_pos]
      refine ⟨k1 j k.1, fun c => ?_⟩
      obtain ⟨m1, m2⟩ := k
      rw [hup] at m2
      by_cases e : j = i
      · subst e
        rw [put_same] at m2
        rw [hq] at c
        rcases List.mem_cons.1 c with c | c
        · rw [k2 q (by rw [hq, ← c])] at m1; cases m1
        · rcases hq' with ⟨rfl, _⟩ | ⟨_, _, rfl⟩
          · exact m2 c
          · exact m2 (List.mem_cons_of_mem _ c)
      · rw [put_other _ _ _ e] at m2; exact m2 c
    · split <;> omega
  · have lt : Rti.work q' < Rti.work (y :: q) := by
      rcases hq' with ⟨rfl, _⟩ | ⟨c, rfl, rfl⟩
      · cases y <;> simp [Rti.work]
      · simp [Rti.work]
    refine total_lt hi ?_ fun j _ => ?_
    · show Rti.work (σ'.up i) < _
      rw [hup, put_same, hq]; exact lt
    · show Rti.work (σ'.up j) ≤ _
      rw [hup]
      by_cases e : j = i
      · subst e; rw [put_same, hq]; exact Nat.le_of_lt lt
      · rw [put_other _ _ _ e]

/-! ## Reading -/

theorem Inv.less_take {x : St V} (h : Inv P M x) (hP : P.Ok rank) (hM : M.Ok) {i : Nat} {direct need : Bool}
    (hp : Fedn.pre (conf P M) x.s (.take i direct need)) (p d : Nat → List (Event V)) :
    Less P x { x with s := Fedn.post (conf P M) x.s (.take i direct need), pend := p, down := d } := by
  obtain ⟨hi, hfree, hsome⟩ := id hp
  have hi : i < P.T.n := hi
  have hng : (x.s.fed i).pc ≠ .gone := by
    intro k; unfold Fed.free at hfree; rw [k] at hfree; cases hfree
  have hna : ∀ o t, (x.s.fed i).pc ≠ .asking o t := by
    intro o t k; unfold Fed.free at hfree; rw [k] at hfree; cases hfree
  have key : ∀ (f' : Fed) (σ : Sys), f'.cur = (x.s.fed i).cur → f'.started = (x.s.fed i).started → f'.pc = (x.s.fed i).pc →
      f'.taken = (x.s.fed i).taken + 1 → (x.s.fed i).taken < (x.s.sys.rti.out i).length → σ.rti = x.s.sys.rti → σ.up = x.s.sys.up →
      Less P x { x with s := ⟨σ, put x.s.fed i f'⟩, pend := p, down := d } := by
    intro f' σ e1 e2 e3 e4 hlt hr hu
    have gen : ∀ (F : Nat → Fed → Nat), F i f' = F i (x.s.fed i) → ∀ j, F j (put x.s.fed i f' j) = F j (x.s.fed j) := by
      intro F e j
      by_cases c : j = i
      · subst c; rw [put_same]; exact e
      · rw [put_other _ _ _ c]
    refine .inr ⟨total_le fun j _ => Nat.le_of_eq ?_, .inr ⟨total_le fun j _ => Nat.le_of_eq ?_, .inr ⟨total_le fun j _ => Nat.le_of_eq ?_,
      .inr ⟨total_le fun j _ => Nat.le_of_eq ?_, total_lt hi ?_ fun j _ => ?_⟩⟩⟩⟩
    · exact gen (fun _ f => far P f) (by unfold far; rw [e1, e2]) j
    · exact gen (fun j f => todo f (x.outs j) (x.scheds j)) (by unfold todo; rw [e3]) j
    · show phase P j (put x.s.fed i f' j) (σ.rti.node j).connected (σ.up j) = _
      rw [hr, hu]
      refine gen (fun j f => phase P j f (x.s.sys.rti.node j).connected (x.s.sys.up j)) ?_ j
      unfold phase
      rw [e3]
      split
      all_goals try rfl
      exact absurd (by assumption) (hna _ _)
    · show Rti.work (σ.up j) = _
      rw [hu]
    · show (σ.rti.out i).length - (put x.s.fed i f' i).taken < _
      rw [hr, put_same, e4]; omega
    · show (σ.rti.out j).length - (put x.s.fed i f' j).taken ≤ _
      rw [hr]
      by_cases c : j = i
      · subst c; rw [put_same, e4]; omega
      · rw [put_other _ _ _ c]
  show Less P x { x with s := Fedn.take i direct need x.s, pend := p, down := d }
  unfold Fedn.take
  cases hy : (x.s.sys.rti.out i)[(x.s.fed i).taken]? with
  | none => rw [hy] at hsome; exact absurd hsome id
  | some y =>
    have hlt := (List.getElem?_eq_some_iff.1 hy).1
    cases y with
    | tag g =>
      refine key _ _ ?_ ?_ ?_ ?_ hlt rfl rfl
      all_goals
        unfold Fedn.takeTag Fed.read
        split <;> rfl
    | ptag g => exact absurd (List.mem_of_getElem? hy) (hP.noPtag (h.sys hP hM) i g)
    | msg m =>
      obtain ⟨k1, k2⟩ := h.reading hP hM hi hng hy
      have e := takeMsg_eq (f := x.s.fed i) (direct := direct) (P := P) k1 (h.past i hi).stop k2
      dsimp only
      rw [e]
      refine key _ _ rfl rfl rfl rfl hlt ?_ ?_
      · split
        · exact Fedn.receive_rti _ _ _
        · rfl
      · split
        · unfold Fedn.receive; split <;> rfl
        · rfl

/-! ## Waits -/

/-- Nothing happens but that time passes, or a federate that waits for a grant is woken although there is none. -/
def Waits (P : Program V) (M : Timing) (x y : St V) : Prop :=
  (∃ i t, y = { x with s := Fedn.post (conf P M) x.s (.tick i t) }) ∨
    ∃ i < P.T.n, y = { x with s := Fedn.post (conf P M) x.s (.wake i) } ∧ y.s.fed i = x.s.fed i

theorem Waits.refl (x : St V) : Waits P M x x := by
  refine .inl ⟨0, (x.s.fed 0).now, ?_⟩
  have : Fedn.post (conf P M) x.s (.tick 0 (x.s.fed 0).now) = x.s := by
    show ({ x.s with fed := put x.s.fed 0 (x.s.fed 0) } : State) = x.s
    have : put x.s.fed 0 (x.s.fed 0) = x.s.fed := by
      funext j
      by_cases c : j = 0
      · subst c; exact put_same _ _ _
      · exact put_other _ _ _ c
    rw [this]
  rw [this]

theorem Waits.not_less {x y : St V} (h : Waits P M x y) : ¬ Less P x y := by
  have key : mFar P y = mFar P x → mTodo P y = mTodo P x → mPhase P y = mPhase P x → mUp P x ≤ mUp P y → mDown P y = mDown P x → ¬ Less P x y := by
    intro h1 h2 h3 h4 h5 h
    unfold Less at h
    omega
  rcases h with ⟨i, t, rfl⟩ | ⟨i, _, rfl, hf⟩
  · have gen : ∀ (F : Nat → Fed → Nat), F i { x.s.fed i with now := t } = F i (x.s.fed i) →
        ∀ j, F j (put x.s.fed i { x.s.fed i with now := t } j) = F j (x.s.fed j) := by
      intro F e j
      by_cases c : j = i
      · subst c; rw [put_same]; exact e
      · rw [put_other _ _ _ c]
    refine key (total_eq fun j _ => gen (fun _ f => far P f) rfl j) (total_eq fun j _ => gen (fun j f => todo f (x.outs j) (x.scheds j)) rfl j)
      (total_eq fun j _ => gen (fun j f => phase P j f (x.s.sys.rti.node j).connected (x.s.sys.up j)) rfl j) (Nat.le_refl _)
      (total_eq fun j _ => gen (fun j f => (x.s.sys.rti.out j).length - f.taken) rfl j)
  · have e : ∀ j, (Fedn.post (conf P M) x.s (.wake i)).fed j = x.s.fed j := by
      intro j
      by_cases c : j = i
      · subst c; exact hf
      · exact put_other _ _ _ c
    have er : (Fedn.post (conf P M) x.s (.wake i)).sys.rti = x.s.sys.rti := sendNet_rti _ _ _
    have eu : ∀ j, (Fedn.post (conf P M) x.s (.wake i)).sys.up j = x.s.sys.up j ∨
        ((x.s.fed j).pc ≠ .gone ∧ ∃ l, (Fedn.post (conf P M) x.s (.wake i)).sys.up j = x.s.sys.up j ++ l) := by
      intro j
      show (Fedn.sendNet i _ x.s.sys).up j = _ ∨ _ ∧ ∃ l, (Fedn.sendNet i _ x.s.sys).up j = _
      rw [sendNet_up]
      by_cases c : j = i
      · subst c
        rw [put_same]
        by_cases hg : (x.s.fed j).pc = .gone
        · left
          have : Fedn.wake (x.s.fed j) = (x.s.fed j, none) := by unfold Fedn.wake; rw [hg]
          rw [this]; simp [netOf]
        · exact .inr ⟨hg, _, rfl⟩
      · rw [put_other _ _ _ c]; exact .inl rfl
    refine key (total_eq fun j _ => ?_) (total_eq fun j _ => ?_) (total_eq fun j _ => ?_) (total_le fun j _ => ?_) (total_eq fun j _ => ?_)
    · dsimp only; rw [e]
    · dsimp only; rw [e]
    · dsimp only
      rw [e, er]
      rcases eu j with k | ⟨k, _⟩
      · rw [k]
      · unfold phase
        split
        all_goals try rfl
        exact absurd (by assumption) k
    · dsimp only
      rcases eu j with k | ⟨_, l, k⟩
      · rw [k]
      · rw [k, Rti.work_append]; omega
    · dsimp only; rw [e, er]

/-- Every step makes the measure smaller, unless it is a wait. -/
theorem Inv.less {x y : St V} (h : Inv P M x) (hP : P.Ok rank) (hM : M.Ok) (hfit : Fit P.T P.stop) {R : Nat → Bool} (hS : Seen P M x.s R)
    (st : Step P M x y) : Less P x y ∨ Waits P M x y := by
  have same : ∀ {s : State}, s = x.s → Waits P M x { x with s := s } := by
    rintro s rfl; exact Waits.refl x
  have noop : ∀ {i : Nat}, put x.s.fed i (x.s.fed i) = x.s.fed := by
    intro i
    funext j
    by_cases c : j = i
    · subst c; exact put_same _ _ _
    · exact put_other _ _ _ c
  have rti : ∀ {i : Nat} (u : Nat → List (Nat × Event V)) (d : Nat → List (Event V)), Fedn.pre (conf P M) x.s (.handle i) →
      Less P x { x with s := Fedn.post (conf P M) x.s (.handle i), up := u, down := d } := by
    intro i u d hp
    obtain ⟨σ', hσ⟩ := Option.isSome_iff_exists.1 hp
    rw [show Fedn.post (conf P M) x.s (.handle i) = ⟨σ', x.s.fed⟩ from by unfold Fedn.post; dsimp only; rw [hσ]]
    exact h.less_handle hP hM hσ u d
  cases st with
  | idle a ha hp =>
    cases a with
    | tick i t => exact .inr (.inl ⟨i, t, rfl⟩)
    | begin i => exact .inl (less_begin hp)
    | resume i =>
      right
      refine same ?_
      have e : Fedn.resume (x.s.fed i) = x.s.fed i := by
        unfold Fedn.resume
        cases hpc : (x.s.fed i).pc with
        | pausing o => exact absurd hpc ((hS.front i hp).pause o)
        | _ => rfl
      show ({ x.s with fed := put x.s.fed i (Fedn.resume (x.s.fed i)) } : State) = x.s
      rw [e, noop]
    | exit i => exact .inl (less_exit hp)
    | _ => exact absurd ha id
  | moves i a ha hp hne =>
    by_cases hm : Moving P M x i a
    · rcases h.moving hP hM hfit hm with ⟨k, _⟩ | ⟨_, k⟩
      · exact absurd k hne
      · exact .inl k
    · right
      cases a with
      | ask j =>
        have ha : j = i := ha
        subst ha
        have e : Fedn.ask (conf P M) j (x.s.fed j) = (x.s.fed j, none) := ask_same fun o t k => hm ⟨hp, rfl, .inl ⟨o, t, rfl, k⟩⟩
        refine same ?_
        show ({ sys := Fedn.sendNet j (Fedn.ask (conf P M) j (x.s.fed j)).2 x.s.sys, fed := put x.s.fed j (Fedn.ask (conf P M) j (x.s.fed j)).1 } : State) = x.s
        rw [e, noop]
        rfl
      | wake j =>
        have ha : j = i := ha
        subst ha
        refine .inr ⟨j, hp.1, rfl, ?_⟩
        show put x.s.fed j _ j = _
        rw [put_same]
        exact wake_same fun ⟨o, t, k1, k2⟩ => hm ⟨hp, rfl, .inr (.inl ⟨o, t, rfl, k1, k2⟩)⟩
      | advance j =>
        have ha : j = i := ha
        subst ha
        exact absurd ⟨hp, rfl, .inr (.inr ⟨rfl, hp.2.1⟩)⟩ hm
      | _ => exact absurd ha id
  | enters i a ha hp hpc he =>
    left
    have hm : Moving P M x i a := by
      refine ⟨hp, ha, ?_⟩
      by_contra hm
      cases a with
      | ask j =>
        have ha : j = i := ha
        subst ha
        have e : Fedn.ask (conf P M) j (x.s.fed j) = (x.s.fed j, none) := ask_same fun o t k => hm (.inl ⟨o, t, rfl, k⟩)
        replace he : (put x.s.fed j (Fedn.ask (conf P M) j (x.s.fed j)).1 j).pc = .executing := he
        rw [put_same, e] at he
        exact hpc he
      | wake j =>
        have ha : j = i := ha
        subst ha
        have e : (Fedn.wake (x.s.fed j)).1 = x.s.fed j := wake_same fun ⟨o, t, k1, k2⟩ => hm (.inr (.inl ⟨o, t, rfl, k1, k2⟩))
        replace he : (put x.s.fed j (Fedn.wake (x.s.fed j)).1 j).pc = .executing := he
        rw [put_same, e] at he
        exact hpc he
      | advance j =>
        have ha : j = i := ha
        subst ha
        exact hm (.inr (.inr ⟨rfl, hp.2.1⟩))
      | _ => exact absurd ha id
    rcases h.moving hP hM hfit hm with ⟨_, k⟩ | ⟨k, _⟩
    · exact k
    · exact absurd he k
  | sends i o r ho hp => exact .inl (less_sends ho _ hp)
  | drops i o r ho hpc hd =>
    have hi : i < P.T.n := by
      by_contra c
      rw [(h.outside i (Nat.le_of_not_lt c)).2] at ho; cases ho
    exact .inl (less_drops hi ho)
  | schedules i e r he hp _ => exact .inl (less_schedules he _ hp)
  | completes i need _ _ hp _ => exact .inl (less_completes hp)
  | handles i _ hp => exact .inl (rti x.up x.down hp)
  | forwards i d e r _ _ hp => exact .inl (rti _ _ hp)
  | takes i direct need _ hp => exact .inl (h.less_take hP hM hp x.pend x.down)
  | receives i direct need m e r _ _ hp _ => exact .inl (h.less_take hP hM hp _ _)
  | resigns i hg hc hn hp => exact .inl (less_resigns hp hg hc hn)

end ReactorC.FedDet
