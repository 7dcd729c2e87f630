import Verif.FedDet.Inv
import Mathlib.Tactic.Tauto

/-! Every step of the execution of a federated program keeps the invariant. -/

set_option linter.unusedVariables false

namespace ReactorC.FedDet
open ReactorC
open ReactorC.Rti (Topology Down Up Sys Sane put put_same put_other)
open ReactorC.Fedn (Config Fed State Ev Act Pc FInv)

variable {V : Type}

section
variable {P : Program V} {M : Timing} {rank : Nat → Nat}

theorem move_sched (A B C D E F G : Prop) : (A ∨ B ∨ C ∨ D ∨ (E ∨ F) ∨ G) ↔ ((E ∨ A) ∨ B ∨ C ∨ D ∨ F ∨ G) := by tauto

theorem move_recv (A B E F G : Prop) : (A ∨ B ∨ (E ∨ F) ∨ G) ↔ ((E ∨ A) ∨ B ∨ F ∨ G) := by tauto

theorem Inv.init (hP : P.Ok rank) (hM : M.Ok) (hs : ∀ i, Single (P.init i)) : Inv P M (St.init P M) := by
  have h0 := hP.start0
  have hr : Fedn.Reach (conf P M) (Fedn.init (conf P M)) := .init
  have hI := hr.inv (hP.conf hM) (conf_calm P M)
  refine ⟨hr, ⟨fun _ => rfl, fun _ => .inl rfl, fun _ h => by cases h⟩, fun i hi => ?_, fun i hi => ?_, fun _ => rfl, fun _ _ => rfl,
    fun _ _ => ⟨rfl, rfl⟩, fun i e => ?_⟩
  · have later : ∀ e ∈ (Fedn.initFed (conf P M) i).q, P.first ≤ e.tag := by
      intro e he
      obtain ⟨a, ha, rfl⟩ := List.mem_map.1 he
      exact hP.after i a ha
    exact
      { over := fun k => by rcases k with k | k <;> cases k
        netQ := fun _ => later
        netCur := fun k => by cases k
        tags := by
          show ((P.init i).map fun e => (⟨e.1, some 0⟩ : Ev)).map (·.tag) = _
          rw [List.map_map]; rfl
        later := fun e he => ⟨later e he, fun k => by cases k⟩
        single := hs i
        logNil := fun _ => rfl
        logCur := fun k => by cases k
        logFirst := fun k => absurd rfl k
        sorted := .nil
        within := fun e he => by cases he
        cause := fun t y hy => by cases hy
        idle := fun _ => ⟨rfl, rfl⟩
        todoOuts := fun o ho => by cases ho
        todoScheds := fun o ho => by cases ho }
  · exact Past.of h0.1 ((hI.good i hi).inv (by intro k; cases k)) (hP.noPtag hI.sys i)
  · obtain ⟨t, k, v⟩ := e
    constructor
    · intro h
      cases h with
      | init h => exact .inl h
      | sched hx _ => cases hx
      | mail hx _ _ => cases hx
    · rintro (h | ⟨y, h, _⟩ | h | ⟨j, h⟩ | h | ⟨j, o, h, _⟩)
      · exact .init h
      all_goals cases h

theorem Inv.moves {x : St V} (h : Inv P M x) (hP : P.Ok rank) (hM : M.Ok) {i : Nat} {a : Act} (ha : Mover i a)
    (hp : Fedn.pre (conf P M) x.s a) (hx' : ((Fedn.post (conf P M) x.s a).fed i).pc ≠ .executing) :
    Inv P M { x with s := Fedn.post (conf P M) x.s a } := by
  have hx : (x.s.fed i).pc ≠ .executing := by
    intro k
    cases a with
    | ask j =>
      cases ha
      refine hx' ?_
      show (put x.s.fed i (Fedn.ask (conf P M) i (x.s.fed i)).1 i).pc = _
      rw [put_same]; unfold Fedn.ask; rw [k]; exact k
    | wake j =>
      cases ha
      refine hx' ?_
      show (put x.s.fed i (Fedn.wake (x.s.fed i)).1 i).pc = _
      rw [put_same]; unfold Fedn.wake; rw [k]; exact k
    | advance j =>
      cases ha
      have := hp.2.1
      rw [k] at this; cases this
    | _ => exact absurd ha id
  obtain ⟨hi, h1, h3, h4, h5, h6⟩ := h.mover hP hM ha hp
  obtain ⟨k1, k2, _⟩ := h6 hx
  exact h.quiet hP hM h1 hp h3 h4 h5 (by rw [k1]) (k2 hx').1 fun _ => (k2 hx').2

/-- What beginning a tag does to the events. -/
theorem made_enter {x : St V} {i : Nat} {s : State} (ho : x.outs i = []) (hs : x.scheds i = []) (hS : Single (x.pend i))
    (hc : ∀ j, j ≠ i → (s.fed j).cur = (x.s.fed j).cur) (j : Nat) (e : Event V) :
    Made P (x.enter P i s) j e ↔ Made P x j e ∨
      (j = i ∧ e ∈ P.scheds i (((s.fed i).cur, present (s.fed i).cur (x.pend i)) :: x.log i)) ∨
      ∃ o ∈ P.outs i (((s.fed i).cur, present (s.fed i).cur (x.pend i)) :: x.log i), o.dest = j ∧
        e = (lf_delay_tag (s.fed i).cur o.delay, o.port, o.val) ∧ e.1 ≤ P.stop := by
  unfold Made St.enter
  dsimp only
  generalize hh : ((s.fed i).cur, present (s.fed i).cur (x.pend i)) :: x.log i = h
  constructor
  · rintro (k | ⟨y, k, k'⟩ | k | k | k | ⟨j', o, k, rfl, k', k''⟩)
    · by_cases c : j = i
      · subst c; rw [put_same, List.mem_filter] at k; exact .inl (.inl k.1)
      · rw [put_other _ _ _ c] at k; exact .inl (.inl k)
    · by_cases c : j = i
      · subst c; rw [put_same, ← hh] at k
        rcases List.mem_cons.1 k with k | k
        · obtain ⟨e1, e2⟩ := Prod.mk.inj k
          rw [e2] at k'
          have := present_some k'
          rw [← e1] at this
          exact .inl (.inl this)
        · exact .inl (.inr (.inl ⟨y, k, k'⟩))
      · rw [put_other _ _ _ c] at k; exact .inl (.inr (.inl ⟨y, k, k'⟩))
    · exact .inl (.inr (.inr (.inl k)))
    · exact .inl (.inr (.inr (.inr (.inl k))))
    · by_cases c : j = i
      · subst c; rw [put_same] at k; exact .inr (.inl ⟨rfl, k⟩)
      · rw [put_other _ _ _ c] at k; exact .inl (.inr (.inr (.inr (.inr (.inl k)))))
    · by_cases c : j' = i
      · subst c; rw [put_same] at k; exact .inr (.inr ⟨o, k, rfl, k', k''⟩)
      · rw [put_other _ _ _ c] at k; rw [hc j' c] at k'
        exact .inl (.inr (.inr (.inr (.inr (.inr ⟨j', o, k, rfl, k', k''⟩)))))
  · rintro ((k | ⟨y, k, k'⟩ | k | k | k | ⟨j', o, k, rfl, k', k''⟩) | ⟨rfl, k⟩ | ⟨o, k, rfl, k', k''⟩)
    · by_cases c : j = i
      · subst c
        by_cases c' : e.1 = (s.fed j).cur
        · refine .inr (.inl ⟨present (s.fed j).cur (x.pend j), ?_, ?_⟩)
          · rw [put_same, ← hh, c']; exact List.mem_cons_self
          · rw [← c']; exact present_of hS k
        · exact .inl (by rw [put_same, List.mem_filter, decide_eq_true_eq]; exact ⟨k, c'⟩)
      · exact .inl (by rw [put_other _ _ _ c]; exact k)
    · refine .inr (.inl ⟨y, ?_, k'⟩)
      by_cases c : j = i
      · subst c; rw [put_same, ← hh]; exact List.mem_cons_of_mem _ k
      · rw [put_other _ _ _ c]; exact k
    · exact .inr (.inr (.inl k))
    · exact .inr (.inr (.inr (.inl k)))
    · by_cases c : j = i
      · subst c; rw [hs] at k; cases k
      · exact .inr (.inr (.inr (.inr (.inl (by rw [put_other _ _ _ c]; exact k)))))
    · by_cases c : j' = i
      · subst c; rw [ho] at k; cases k
      · exact .inr (.inr (.inr (.inr (.inr ⟨j', o, by rw [put_other _ _ _ c]; exact k, rfl, by rw [hc j' c]; exact k', k''⟩))))
    · exact .inr (.inr (.inr (.inr (.inl (by rw [put_same]; exact k)))))
    · exact .inr (.inr (.inr (.inr (.inr ⟨i, o, by rw [put_same]; exact k, rfl, k', k''⟩))))

theorem Inv.enters {x : St V} (h : Inv P M x) (hP : P.Ok rank) (hM : M.Ok) {i : Nat} {a : Act} (ha : Mover i a)
    (hp : Fedn.pre (conf P M) x.s a) (hx : (x.s.fed i).pc ≠ .executing)
    (hx' : ((Fedn.post (conf P M) x.s a).fed i).pc = .executing) : Inv P M (x.enter P i (Fedn.post (conf P M) x.s a)) := by
  obtain ⟨hi, h1, h3, h4, h5, h6⟩ := h.mover hP hM ha hp
  obtain ⟨k1, _, k2⟩ := h6 hx
  have hl := k2 hx'
  have hr := post_rti (C := conf P M) (s := x.s) h1.allowed h1.rti
  have hidle := (h.loc i hi).idle hx
  have hcur : ∀ j, j ≠ i → (Fedn.post (conf P M) x.s a).fed j = x.s.fed j := fun j hj => by rw [h3, put_other _ _ _ hj]
  refine ⟨.step a h.reach hp, h.live.keep hr (fun j hg => stays_gone h1 hp hg) (fun j => (h5 j).2),
    h.loc_other i (fun j hj => ⟨hcur j hj, h4 j hj, ?_, ?_, ?_, ?_⟩) (fun _ => ?_), h.pastPost hP hM h1.allowed hp,
    fun j => ?_, fun j hj => ?_, fun j hj => ?_, fun j e => ?_⟩
  · exact put_other _ _ _ hj
  · exact put_other _ _ _ hj
  · exact put_other _ _ _ hj
  · exact put_other _ _ _ hj
  · unfold St.enter
    dsimp only
    rw [put_same, put_same, put_same, put_same]; exact hl
  · show (x.up j).map _ = sent ((Fedn.post (conf P M) x.s a).sys.up j)
    rw [h.upQ, (h5 j).1]
  · show (x.down j).map _ = msgs (((Fedn.post (conf P M) x.s a).sys.rti.out j).drop ((Fedn.post (conf P M) x.s a).fed j).taken)
    rw [h.downQ j hj, hr]
    by_cases e : j = i
    · subst e; rw [k1]
    · rw [hcur j e]
  · show put x.log i _ j = _ ∧ put x.outs i _ j = _
    rw [put_other _ _ _ (by omega), put_other _ _ _ (by omega)]; exact h.outside j hj
  · refine Iff.trans ?_ (made_enter hidle.1 hidle.2 (h.loc i hi).single (fun j hj => by rw [hcur j hj]) j e).symm
    rw [← h.gen j e]
    have hs := hl.sorted
    exact gen_enter (fun y hy => (List.pairwise_cons.1 hs).1 y hy) j e.1 e.2.1 e.2.2

theorem Inv.sends {x : St V} (h : Inv P M x) (hP : P.Ok rank) (hM : M.Ok) {i : Nat} {o : Out V} {r : List (Out V)} (ho : x.outs i = o :: r)
    (hp : Fedn.pre (conf P M) x.s (.send i o.dest o.delay)) :
    Inv P M { x with
        s := Fedn.post (conf P M) x.s (.send i o.dest o.delay)
        outs := put x.outs i r
        up := put x.up i (x.up i ++ [(o.dest, lf_delay_tag (x.s.fed i).cur o.delay, o.port, o.val)]) } := by
  obtain ⟨hi, hd, hw, hx, _, hstop, _⟩ := id hp
  have hle : lf_delay_tag (x.s.fed i).cur o.delay ≤ P.stop := by
    rw [cmp_le_zero] at hstop
    rw [← (h.past i hi).stop]; exact hstop
  have hloc := h.loc i hi
  refine ⟨.step _ h.reach hp, h.live.keep rfl (fun j hg => stays_gone (a := .send i o.dest o.delay) trivial hp hg) (fun j k => ?_),
    h.loc_other i (fun j hj => ⟨rfl, rfl, rfl, rfl, put_other _ _ _ hj, rfl⟩) (fun _ => ?_), h.pastPost hP hM (a := .send i o.dest o.delay) trivial hp,
    fun j => ?_, h.downQ, fun j hj => ⟨(h.outside j hj).1, ?_⟩, fun j e => (h.gen j e).trans ?_⟩
  · replace k : Up.resign ∈ put x.s.sys.up i _ j := k
    by_cases c : j = i
    · subst c; rw [put_same] at k; simpa using k
    · rw [put_other _ _ _ c] at k; exact k
  · dsimp only
    rw [put_same]
    exact { hloc with
      idle := fun k => absurd hx k
      todoOuts := fun o' ho' => hloc.todoOuts o' (by rw [ho]; exact List.mem_cons_of_mem _ ho') }
  · show (put x.up i _ j).map _ = sent (put x.s.sys.up i _ j)
    by_cases c : j = i
    · subst c; rw [put_same, put_same, List.map_append, sent_append, h.upQ]; rfl
    · rw [put_other _ _ _ c, put_other _ _ _ c]; exact h.upQ j
  · show put x.outs i r j = _
    rw [put_other _ _ _ (by have : i < P.T.n := hi; omega)]; exact (h.outside j hj).2
  · unfold Made
    dsimp only
    refine or_congr .rfl (or_congr .rfl (or_congr .rfl ?_))
    show _ ∨ _ ∨ (∃ j' o', o' ∈ x.outs j' ∧ o'.dest = j ∧ e = (lf_delay_tag (x.s.fed j').cur o'.delay, o'.port, o'.val) ∧ e.1 ≤ P.stop) ↔
      _ ∨ _ ∨ (∃ j' o', o' ∈ put x.outs i r j' ∧ o'.dest = j ∧ e = (lf_delay_tag (x.s.fed j').cur o'.delay, o'.port, o'.val) ∧ e.1 ≤ P.stop)
    constructor
    · rintro (⟨j', k⟩ | k | ⟨j', o', k, k1, k2, k3⟩)
      · refine .inl ⟨j', ?_⟩
        by_cases c : j' = i
        · subst c; rw [put_same]; exact List.mem_append_left _ k
        · rw [put_other _ _ _ c]; exact k
      · exact .inr (.inl k)
      · by_cases c : j' = i
        · subst c
          rw [ho] at k
          rcases List.mem_cons.1 k with rfl | k
          · refine .inl ⟨j', ?_⟩
            rw [put_same, ← k1, k2]
            exact List.mem_append_right _ List.mem_cons_self
          · exact .inr (.inr ⟨j', o', by rw [put_same]; exact k, k1, k2, k3⟩)
        · exact .inr (.inr ⟨j', o', by rw [put_other _ _ _ c]; exact k, k1, k2, k3⟩)
    · rintro (⟨j', k⟩ | k | ⟨j', o', k, k1, k2, k3⟩)
      · by_cases c : j' = i
        · subst c
          rw [put_same] at k
          rcases List.mem_append.1 k with k | k
          · exact .inl ⟨j', k⟩
          · obtain ⟨e1, e2⟩ := Prod.mk.inj (List.mem_singleton.1 k)
            exact .inr (.inr ⟨j', o, by rw [ho]; exact List.mem_cons_self, e1.symm, e2, by rw [e2]; exact hle⟩)
        · rw [put_other _ _ _ c] at k; exact .inl ⟨j', k⟩
      · exact .inr (.inl k)
      · by_cases c : j' = i
        · subst c
          rw [put_same] at k
          exact .inr (.inr ⟨j', o', by rw [ho]; exact List.mem_cons_of_mem _ k, k1, k2, k3⟩)
        · rw [put_other _ _ _ c] at k; exact .inr (.inr ⟨j', o', k, k1, k2, k3⟩)

theorem Inv.drops {x : St V} (h : Inv P M x) (hP : P.Ok rank) (hM : M.Ok) {i : Nat} {o : Out V} {r : List (Out V)} (ho : x.outs i = o :: r)
    (hx : (x.s.fed i).pc = .executing) (hlt : (x.s.fed i).stop < lf_delay_tag (x.s.fed i).cur o.delay) :
    Inv P M { x with outs := put x.outs i r } := by
  have hi : i < P.T.n := by
    rw [← Nat.not_le]
    intro k
    rw [(h.outside i k).2] at ho; cases ho
  have hstop := (h.past i hi).stop
  refine ⟨h.reach, h.live, h.loc_other i (fun j hj => ⟨rfl, rfl, rfl, rfl, put_other _ _ _ hj, rfl⟩) (fun hi => ?_), h.past, h.upQ, h.downQ,
    fun j hj => ⟨(h.outside j hj).1, ?_⟩, fun j e => (h.gen j e).trans ?_⟩
  · have hloc := h.loc i hi
    dsimp only
    rw [put_same]
    exact { hloc with
      idle := fun k => absurd hx k
      todoOuts := fun o' ho' => hloc.todoOuts o' (by rw [ho]; exact List.mem_cons_of_mem _ ho') }
  · show put x.outs i r j = _
    rw [put_other _ _ _ (by omega)]; exact (h.outside j hj).2
  · unfold Made
    dsimp only
    refine or_congr .rfl (or_congr .rfl (or_congr .rfl (or_congr .rfl (or_congr .rfl ?_))))
    constructor
    · rintro ⟨j', o', k, k1, k2, k3⟩
      by_cases c : j' = i
      · subst c
        rw [ho] at k
        rcases List.mem_cons.1 k with rfl | k
        · exfalso
          rw [k2] at k3
          rw [hstop] at hlt
          exact absurd k3 (Tag.not_le.2 hlt)
        · exact ⟨j', o', by rw [put_same]; exact k, k1, k2, k3⟩
      · exact ⟨j', o', by rw [put_other _ _ _ c]; exact k, k1, k2, k3⟩
    · rintro ⟨j', o', k, k1, k2, k3⟩
      by_cases c : j' = i
      · subst c
        rw [put_same] at k
        exact ⟨j', o', by rw [ho]; exact List.mem_cons_of_mem _ k, k1, k2, k3⟩
      · rw [put_other _ _ _ c] at k; exact ⟨j', o', k, k1, k2, k3⟩

theorem Inv.schedules {x : St V} (h : Inv P M x) (hP : P.Ok rank) (hM : M.Ok) {i : Nat} {δ : Int} {ev : Ev} {e : Event V}
    {r : List (Event V)} (hs : x.scheds i = e :: r) (he : ev.tag = e.1) (hp : Fedn.pre (conf P M) x.s (.schedule i δ ev))
    (hf : Fresh (x.pend i) e) :
    Inv P M { x with
        s := Fedn.post (conf P M) x.s (.schedule i δ ev)
        scheds := put x.scheds i r
        pend := put x.pend i (e :: x.pend i) } := by
  obtain ⟨hi, hx, hlt, _⟩ := id hp
  have hloc := h.loc i hi
  rw [he] at hlt
  have hcur : ∀ j, ((Fedn.post (conf P M) x.s (.schedule i δ ev)).fed j).cur = (x.s.fed j).cur ∧
      ((Fedn.post (conf P M) x.s (.schedule i δ ev)).fed j).taken = (x.s.fed j).taken := by
    intro j
    show (put x.s.fed i _ j).cur = _ ∧ (put x.s.fed i _ j).taken = _
    by_cases c : j = i
    · subst c; rw [put_same]; exact ⟨rfl, rfl⟩
    · rw [put_other _ _ _ c]; exact ⟨rfl, rfl⟩
  refine ⟨.step _ h.reach hp, h.live.keep rfl (fun j hg => stays_gone (a := .schedule i δ ev) trivial hp hg) (fun _ => id),
    h.loc_other i (fun j hj => ⟨put_other _ _ _ hj, rfl, rfl, put_other _ _ _ hj, rfl, put_other _ _ _ hj⟩) (fun _ => ?_),
    h.pastPost hP hM (a := .schedule i δ ev) trivial hp, h.upQ, fun j hj => ?_, h.outside, fun j a => (h.gen j a).trans ?_⟩
  · show Local P i (put x.s.fed i _ i) (x.s.sys.net i) (x.log i) (put x.pend i _ i) (x.outs i) (put x.scheds i r i)
    rw [put_same, put_same, put_same]
    exact hloc.insert rfl rfl rfl rfl rfl (Tag.le_refl _) (Tag.le_trans (hloc.netCur hx) (Tag.le_of_lt hlt)) he
      ⟨Tag.le_of_lt hlt, fun _ => hlt⟩ hf (fun a ha => by rw [hs]; exact List.mem_cons_of_mem _ ha)
  · show (x.down j).map _ = msgs ((x.s.sys.rti.out j).drop _)
    rw [(hcur j).2]; exact h.downQ j hj
  · unfold Made
    dsimp only
    simp only [(hcur _).1]
    by_cases c : j = i
    · subst c
      rw [put_same, put_same, hs, List.mem_cons, List.mem_cons]
      exact move_sched _ _ _ _ _ _ _
    · rw [put_other _ _ _ c, put_other _ _ _ c]

theorem Inv.completes {x : St V} (h : Inv P M x) (hP : P.Ok rank) (hM : M.Ok) {i : Nat} {need : Bool} (ho : x.outs i = [])
    (hs : x.scheds i = []) (hp : Fedn.pre (conf P M) x.s (.complete i need)) :
    Inv P M { x with s := Fedn.post (conf P M) x.s (.complete i need) } := by
  have hx : (x.s.fed i).pc = .executing := hp.2
  have hk : (Fedn.complete need (x.s.fed i)).1.cur = (x.s.fed i).cur ∧ (Fedn.complete need (x.s.fed i)).1.taken = (x.s.fed i).taken ∧
      (Fedn.complete need (x.s.fed i)).1.started = (x.s.fed i).started ∧ (Fedn.complete need (x.s.fed i)).1.q = (x.s.fed i).q ∧
      (Fedn.complete need (x.s.fed i)).1.stop = (x.s.fed i).stop := by
    unfold Fedn.complete Fedn.confirm
    split
    · exact ⟨rfl, rfl, rfl, rfl, rfl⟩
    split <;> exact ⟨rfl, rfl, rfl, rfl, rfl⟩
  refine h.quiet hP hM trivial hp (i := i) rfl (fun j _ => congrFun (Fedn.sendLtc_net _ _ _) j)
    (fun j => sent_sendLtc _ _ _ j) (by rw [hk.2.1]) hk.1 fun hi => ?_
  have k := h.loc i hi
  have hn : (Fedn.post (conf P M) x.s (.complete i need)).sys.net i = x.s.sys.net i := congrFun (Fedn.sendLtc_net _ _ _) i
  rw [hn]
  exact k.move hk.1 hk.2.2.1 hk.2.2.2.1 hk.2.2.2.2 (fun _ => k.netQ (by rw [hx]; simp)) (.inl ⟨by unfold Fedn.complete; simp, ho, hs⟩)
    (fun c => by unfold Fedn.complete at c; rcases c with c | c <;> cases c)

theorem post_handle {i : Nat} {s : State} (hp : Fedn.pre (conf P M) s (.handle i)) :
    ∃ σ, Fedn.handle (conf P M) i s.sys = some σ ∧ Fedn.post (conf P M) s (.handle i) = ⟨σ, s.fed⟩ := by
  obtain ⟨σ, hσ⟩ := Option.isSome_iff_exists.1 hp
  refine ⟨σ, hσ, ?_⟩
  unfold Fedn.post
  dsimp only
  rw [hσ]

/-- What is to be read when something has been written. -/
theorem msgs_drop {a l : List Down} {k : Nat} (h : k ≤ a.length) : msgs ((a ++ l).drop k) = msgs (a.drop k) ++ msgs l := by
  rw [List.drop_append_of_le_length h, msgs_append]

theorem Inv.handles {x : St V} (h : Inv P M x) (hP : P.Ok rank) (hM : M.Ok) {i : Nat} (hn : ¬ NextUp x.s i)
    (hp : Fedn.pre (conf P M) x.s (.handle i)) : Inv P M { x with s := Fedn.post (conf P M) x.s (.handle i) } := by
  obtain ⟨σ, hσ, e⟩ := post_handle hp
  have hpast := h.pastPost hP hM (a := .handle i) trivial hp
  have hr : Fedn.Reach (conf P M) (Fedn.post (conf P M) x.s (.handle i)) := .step _ h.reach hp
  rw [e] at hpast hr ⊢
  obtain ⟨h1, h2, h3, h4, h5⟩ := h.effect hP hM hσ
  rcases h5 with ⟨d, s, w, m, q, hq, _⟩ | ⟨_, h6, h7⟩
  · exact absurd ⟨d, s, w, m, q, hq⟩ hn
  · refine ⟨hr, h3, h.loc_other i (fun j hj => ⟨rfl, congrFun h1 j, rfl, rfl, rfl, rfl⟩) (fun hi => ?_), hpast, fun j => ?_, fun j hj => ?_,
      h.outside, h.gen⟩
    · show Local P i (x.s.fed i) (σ.net i) _ _ _ _
      rw [h1]; exact h.loc i hi
    · show _ = sent (σ.up j)
      rw [h6]; exact h.upQ j
    · show _ = msgs ((σ.rti.out j).drop (x.s.fed j).taken)
      obtain ⟨l, el, hl⟩ := h7 j
      have ht := ((h.reach.inv (hP.conf hM) (conf_calm P M)).good j hj).taken
      rw [el, msgs_drop ht, msgs_none hl, List.append_nil]
      exact h.downQ j hj

theorem Inv.forwards {x : St V} (h : Inv P M x) (hP : P.Ok rank) (hM : M.Ok) {i d : Nat} {e : Event V} {r : List (Nat × Event V)}
    (hn : NextUp x.s i) (hu : x.up i = (d, e) :: r) (hp : Fedn.pre (conf P M) x.s (.handle i)) :
    Inv P M { x with
        s := Fedn.post (conf P M) x.s (.handle i)
        up := put x.up i r
        down := put x.down d (x.down d ++ [e]) } := by
  obtain ⟨σ, hσ, eq⟩ := post_handle hp
  have hpast := h.pastPost hP hM (a := .handle i) trivial hp
  have hr : Fedn.Reach (conf P M) (Fedn.post (conf P M) x.s (.handle i)) := .step _ h.reach hp
  rw [eq] at hpast hr ⊢
  obtain ⟨h1, h2, h3, h4, h5⟩ := h.effect hP hM hσ
  rcases h5 with ⟨d', s, w, m, q, hq, hup, hd, ⟨l, el, hl⟩, hoth⟩ | ⟨hno, _, _⟩
  · have hue := h.upQ i
    rw [hu, hq] at hue
    obtain ⟨e1, e2⟩ := List.cons.inj (show (d, e.1) :: r.map (fun a => (a.1, a.2.1)) = (d', m) :: sent q from hue)
    obtain ⟨rfl, rfl⟩ := Prod.mk.inj e1
    have ht := fun j hj => ((h.reach.inv (hP.conf hM) (conf_calm P M)).good j hj).taken
    refine ⟨hr, h3, h.loc_other i (fun j hj => ⟨rfl, congrFun h1 j, rfl, rfl, rfl, rfl⟩) (fun hi => ?_), hpast, fun j => ?_, fun j hj => ?_,
      h.outside, fun j a => (h.gen j a).trans ?_⟩
    · show Local P i (x.s.fed i) (σ.net i) _ _ _ _
      rw [h1]; exact h.loc i hi
    · show (put x.up i r j).map _ = sent (σ.up j)
      rw [hup]
      by_cases c : j = i
      · subst c; rw [put_same, put_same]; exact e2
      · rw [put_other _ _ _ c, put_other _ _ _ c]; exact h.upQ j
    · show (put x.down d _ j).map _ = msgs ((σ.rti.out j).drop (x.s.fed j).taken)
      by_cases c : j = d
      · subst c
        rw [put_same, el, msgs_drop (ht j hj), List.map_append, h.downQ j hj]
        congr 1
        show [e.1] = e.1 :: msgs l
        rw [msgs_none hl]
      · rw [put_other _ _ _ c]
        obtain ⟨l', el', hl'⟩ := hoth j c
        rw [el', msgs_drop (ht j hj), msgs_none hl', List.append_nil]
        exact h.downQ j hj
    · unfold Made
      dsimp only
      refine or_congr .rfl (or_congr .rfl ?_)
      have key : (a ∈ x.down j ∨ ∃ j', (j, a) ∈ x.up j') ↔ (a ∈ put x.down d (x.down d ++ [e]) j ∨ ∃ j', (j, a) ∈ put x.up i r j') := by
        constructor
        · rintro (k | ⟨j', k⟩)
          · left
            by_cases c : j = d
            · subst c; rw [put_same]; exact List.mem_append_left _ k
            · rw [put_other _ _ _ c]; exact k
          · by_cases c : j' = i
            · subst c
              rw [hu] at k
              rcases List.mem_cons.1 k with k | k
              · obtain ⟨rfl, rfl⟩ := Prod.mk.inj k
                left; rw [put_same]; exact List.mem_append_right _ List.mem_cons_self
              · exact .inr ⟨j', by rw [put_same]; exact k⟩
            · exact .inr ⟨j', by rw [put_other _ _ _ c]; exact k⟩
        · rintro (k | ⟨j', k⟩)
          · by_cases c : j = d
            · subst c
              rw [put_same] at k
              rcases List.mem_append.1 k with k | k
              · exact .inl k
              · rw [List.mem_singleton.1 k]
                exact .inr ⟨i, by rw [hu]; exact List.mem_cons_self⟩
            · rw [put_other _ _ _ c] at k; exact .inl k
          · right
            by_cases c : j' = i
            · subst c; rw [put_same] at k; exact ⟨j', by rw [hu]; exact List.mem_cons_of_mem _ k⟩
            · rw [put_other _ _ _ c] at k; exact ⟨j', k⟩
      rw [← or_assoc, key, or_assoc]
  · exact absurd hn hno

theorem Inv.takes {x : St V} (h : Inv P M x) (hP : P.Ok rank) (hM : M.Ok) {i : Nat} {direct need : Bool} (hn : ∀ m, ¬ NextDown x.s i m)
    (hp : Fedn.pre (conf P M) x.s (.take i direct need)) : Inv P M { x with s := Fedn.post (conf P M) x.s (.take i direct need) } := by
  obtain ⟨hi, hfree, hnext⟩ := id hp
  cases hd : (x.s.sys.rti.out i)[(x.s.fed i).taken]? with
  | none => rw [hd] at hnext; exact absurd hnext id
  | some y =>
    have hdrop : (x.s.sys.rti.out i).drop (x.s.fed i).taken = y :: (x.s.sys.rti.out i).drop ((x.s.fed i).taken + 1) := by
      obtain ⟨hlt, hy⟩ := List.getElem?_eq_some_iff.1 hd
      rw [List.drop_eq_getElem_cons hlt, hy]
    cases y with
    | msg m => exact absurd hd (hn m)
    | ptag g => exact absurd (List.mem_of_getElem? hd) (hP.noPtag (h.sys hP hM) i g)
    | tag g =>
      have hs : Fedn.post (conf P M) x.s (.take i direct need) = { x.s with fed := put x.s.fed i (Fedn.takeTag g (x.s.fed i).read) } := by
        show Fedn.take i direct need x.s = _
        unfold Fedn.take
        rw [hd]
      have hk : (Fedn.takeTag g (x.s.fed i).read).cur = (x.s.fed i).cur ∧ (Fedn.takeTag g (x.s.fed i).read).taken = (x.s.fed i).taken + 1 ∧
          (Fedn.takeTag g (x.s.fed i).read).started = (x.s.fed i).started ∧ (Fedn.takeTag g (x.s.fed i).read).q = (x.s.fed i).q ∧
          (Fedn.takeTag g (x.s.fed i).read).stop = (x.s.fed i).stop ∧ (Fedn.takeTag g (x.s.fed i).read).pc = (x.s.fed i).pc := by
        unfold Fedn.takeTag; split <;> exact ⟨rfl, rfl, rfl, rfl, rfl, rfl⟩
      refine h.quiet hP hM trivial hp (i := i) (f := Fedn.takeTag g (x.s.fed i).read) (by rw [hs]) (fun j _ => by rw [hs])
        (fun j => by rw [hs]; exact ⟨rfl, id⟩) ?_ hk.1 fun hi => ?_
      · rw [hk.2.1, hdrop]; rfl
      · rw [hs]
        have k := h.loc i hi
        refine k.move hk.1 hk.2.2.1 hk.2.2.2.1 hk.2.2.2.2.1 ?_ (.inr ⟨hk.2.2.2.2.2, Tag.le_refl _⟩) ?_
        · rw [hk.2.2.2.2.2]; exact k.netQ
        · rw [hk.2.2.2.2.2]; exact k.over

theorem Inv.receives {x : St V} (h : Inv P M x) (hP : P.Ok rank) (hM : M.Ok) {i : Nat} {direct need : Bool} {m : Tag} {e : Event V}
    {r : List (Event V)} (hn : NextDown x.s i m) (hr : x.down i = e :: r) (hp : Fedn.pre (conf P M) x.s (.take i direct need))
    (hf : Fresh (x.pend i) e) :
    Inv P M { x with
        s := Fedn.post (conf P M) x.s (.take i direct need)
        down := put x.down i r
        pend := put x.pend i (e :: x.pend i) } := by
  obtain ⟨hi, hfree, _⟩ := id hp
  have hi : i < P.T.n := hi
  have hO := hP.conf hM
  have hC := conf_calm P M
  have hng : (x.s.fed i).pc ≠ .gone := by
    intro k; unfold Fed.free at hfree; rw [k] at hfree; cases hfree
  have hF := h.finv hP hM hi hng
  have hmem : Down.msg m ∈ x.s.sys.rti.out i := List.mem_of_getElem? hn
  have hms := Rti.reach_msgs hP.topology hP.down hP.start0.1 hP.start0.2 (h.sys hP hM) hmem
  have hlt : (x.s.fed i).started = true → (x.s.fed i).cur < m := fun k =>
    Fedn.C60_messages_in_time_without_cycles_partial hO hC hP.noCycle h.reach hi k hng hn
  have hle : (x.s.fed i).cur ≤ m := by
    cases hst : (x.s.fed i).started with
    | true => exact Tag.le_of_lt (hlt hst)
    | false => rw [hF.first hst]; exact hms.2.1
  have hstop : m ≤ P.stop := (Fedn.within hO hC (τ := P.stop) (fun _ _ => Tag.le_refl _) h.reach).out i m hmem
  have hst : (x.s.fed i).stop = P.stop := (h.past i hi).stop
  have hdrop : (x.s.sys.rti.out i).drop (x.s.fed i).taken = .msg m :: (x.s.sys.rti.out i).drop ((x.s.fed i).taken + 1) := by
    obtain ⟨hl, hy⟩ := List.getElem?_eq_some_iff.1 hn
    rw [List.drop_eq_getElem_cons hl, hy]
  have hde := h.downQ i hi
  rw [hr, hdrop] at hde
  obtain ⟨e1, e2⟩ := List.cons.inj (show e.1 :: r.map (·.1) = m :: msgs ((x.s.sys.rti.out i).drop ((x.s.fed i).taken + 1)) from hde)
  have htake : Fedn.takeMsg direct m (x.s.fed i).read = ({ (x.s.fed i).read with q := ⟨m, some 0⟩ :: (x.s.fed i).q }, true) := by
    unfold Fedn.takeMsg
    rw [if_neg, if_neg, if_neg]
    · rfl
    · rintro ⟨k1, k2⟩
      rw [cmp_le_zero] at k1
      exact absurd (hlt k2) (Tag.not_lt.2 k1)
    · rintro ⟨k1, k2⟩
      rw [ge_iff_le, cmp_ge_zero] at k1
      have k1 : (x.s.fed i).stop ≤ (x.s.fed i).cur := k1
      rw [hst] at k1
      exact absurd (Tag.lt_of_lt_of_le (hlt k2) hstop) (Tag.not_lt.2 k1)
    · rintro ⟨_, k2, _, k3⟩
      rw [cmp_eq_zero] at k3
      have := hlt k2
      rw [k3] at this
      exact absurd this (Tag.lt_irrefl _)
  have hs : Fedn.post (conf P M) x.s (.take i direct need) =
      ⟨Fedn.receive i m x.s.sys, put x.s.fed i { (x.s.fed i).read with q := ⟨m, some 0⟩ :: (x.s.fed i).q }⟩ := by
    show Fedn.take i direct need x.s = _
    unfold Fedn.take
    rw [hn]
    dsimp only
    rw [htake]; rfl
  have hpast := h.pastPost hP hM (a := .take i direct need) trivial hp
  have hre : Fedn.Reach (conf P M) (Fedn.post (conf P M) x.s (.take i direct need)) := .step _ h.reach hp
  rw [hs] at hpast hre ⊢
  have hcur : ∀ j, (put x.s.fed i { (x.s.fed i).read with q := ⟨m, some 0⟩ :: (x.s.fed i).q } j).cur = (x.s.fed j).cur := by
    intro j
    by_cases c : j = i
    · subst c; rw [put_same]; rfl
    · rw [put_other _ _ _ c]
  have hup : (Fedn.receive i m x.s.sys).up = x.s.sys.up := by unfold Fedn.receive; split <;> rfl
  have hloc := h.loc i hi
  refine ⟨hre, h.live.keep (Fedn.receive_rti _ _ _) (fun j hg => ?_) (fun j => ?_),
    h.loc_other i (fun j hj => ⟨put_other _ _ _ hj, Fedn.receive_other _ _ hj, rfl, put_other _ _ _ hj, rfl, rfl⟩) (fun _ => ?_),
    hpast, fun j => ?_, fun j hj => ?_, h.outside, fun j a => (h.gen j a).trans ?_⟩
  · have := stays_gone (a := .take i direct need) trivial hp hg
    rw [hs] at this; exact this
  · show Up.resign ∈ (Fedn.receive i m x.s.sys).up j → _
    rw [hup]; exact id
  · show Local P i (put x.s.fed i _ i) ((Fedn.receive i m x.s.sys).net i) (x.log i) (put x.pend i _ i) (x.outs i) (x.scheds i)
    rw [put_same, put_same, Fedn.receive_net]
    refine hloc.insert (ev := ⟨m, some 0⟩) rfl rfl rfl rfl rfl ?_ ?_ e1.symm ?_ hf (fun a ha => ha)
    · split
      · rename_i k; exact Tag.le_of_lt k
      · exact Tag.le_refl _
    · rw [e1]
      split
      · exact Tag.le_refl _
      · rename_i k; exact Tag.not_lt.1 k
    · rw [e1]; exact ⟨hle, hlt⟩
  · show _ = sent ((Fedn.receive i m x.s.sys).up j)
    rw [hup]; exact h.upQ j
  · show (put x.down i r j).map _ = msgs (((Fedn.receive i m x.s.sys).rti.out j).drop (put x.s.fed i _ j).taken)
    rw [Fedn.receive_rti]
    by_cases c : j = i
    · subst c; rw [put_same, put_same]; exact e2
    · rw [put_other _ _ _ c, put_other _ _ _ c]; exact h.downQ j hj
  · unfold Made
    dsimp only
    simp only [hcur]
    by_cases c : j = i
    · subst c
      rw [put_same, put_same, hr, List.mem_cons, List.mem_cons]
      exact move_recv _ _ _ _ _
    · rw [put_other _ _ _ c, put_other _ _ _ c]

theorem Inv.resigns {x : St V} (h : Inv P M x) (hP : P.Ok rank) (hM : M.Ok) {i : Nat} (hg : (x.s.fed i).pc = .gone)
    (hc : (x.s.sys.rti.node i).connected = true) (hn : Up.resign ∉ x.s.sys.up i) (hp : Fedn.pre (conf P M) x.s (.leave i)) :
    Inv P M { x with s := Fedn.post (conf P M) x.s (.leave i) } := by
  have hf : put x.s.fed i { x.s.fed i with pc := .gone } = x.s.fed := by
    funext j
    by_cases e : j = i
    · subst e; rw [put_same, ← hg]
    · rw [put_other _ _ _ e]
  have hpast := h.pastPost hP hM (a := .leave i) trivial hp
  have hr : Fedn.Reach (conf P M) (Fedn.post (conf P M) x.s (.leave i)) := .step _ h.reach hp
  have e : Fedn.post (conf P M) x.s (.leave i) = ⟨x.s.sys.send i .resign, x.s.fed⟩ := by
    show (⟨x.s.sys.send i .resign, put x.s.fed i { x.s.fed i with pc := .gone }⟩ : State) = _
    rw [hf]
  rw [e] at hpast hr ⊢
  refine ⟨hr, ⟨h.live.whole, fun j => ?_, fun j hj => ?_⟩, h.loc, hpast, fun j => ?_, h.downQ, h.outside, h.gen⟩
  · by_cases c : j = i
    · subst c; exact .inl hc
    · show _ ∨ j < P.T.n ∧ (x.s.fed j).pc = .gone ∧ put x.s.sys.up i _ j = []
      rw [put_other _ _ _ c]; exact h.live.connected j
  · replace hj : Up.resign ∈ put x.s.sys.up i (x.s.sys.up i ++ [.resign]) j := hj
    show (x.s.fed j).pc = .gone ∧ ∃ q, put x.s.sys.up i (x.s.sys.up i ++ [.resign]) j = q ++ [.resign] ∧ Up.resign ∉ q
    by_cases c : j = i
    · subst c; rw [put_same]; exact ⟨hg, _, rfl, hn⟩
    · rw [put_other _ _ _ c] at hj ⊢; exact h.live.last j hj
  · show _ = sent (put x.s.sys.up i (x.s.sys.up i ++ [.resign]) j)
    by_cases c : j = i
    · subst c; rw [put_same, sent_append, h.upQ]; simp [sent]
    · rw [put_other _ _ _ c]; exact h.upQ j

theorem Reach.inv {x : St V} (hP : P.Ok rank) (hM : M.Ok) (h : Reach P M x) : Inv P M x := by
  induction h with
  | init hs => exact .init hP hM hs
  | step _ hs ih =>
    cases hs with
    | idle a ha hp => exact ih.idle hP hM ha hp
    | moves i a ha hp hx => exact ih.moves hP hM ha hp hx
    | enters i a ha hp hx hx' => exact ih.enters hP hM ha hp hx hx'
    | sends i o r ho hp => exact ih.sends hP hM ho hp
    | drops i o r ho hx hlt => exact ih.drops hP hM ho hx hlt
    | schedules i e r hs hp hf => exact ih.schedules hP hM hs rfl hp hf
    | resigns i hg hc hn hp => exact ih.resigns hP hM hg hc hn hp
    | completes i need ho hs hp _ => exact ih.completes hP hM ho hs hp
    | handles i hn hp => exact ih.handles hP hM hn hp
    | forwards i d e r hn hu hp => exact ih.forwards hP hM hn hu hp
    | takes i direct need hn hp => exact ih.takes hP hM hn hp
    | receives i direct need m e r hn hr hp hf => exact ih.receives hP hM hn hr hp hf

end

end ReactorC.FedDet
